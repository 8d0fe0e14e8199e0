import Verif.Sched.Add
/-
The flags set by `samu_buildadd` say which edges are out of date.
-/
namespace Muon.Sched
open Muon Spec

theorem newest_inv (g : Graph) (l : List Nat) : match newestOf g l with
    | none => ∀ i ∈ l, g.mtime i = none
    | some m => m ∈ l ∧ ∃ t, g.mtime m = some t ∧ ∀ i ∈ l, ∀ ti, g.mtime i = some ti → ti ≤ t := by
  unfold newestOf
  suffices H : ∀ (l pre : List Nat) (acc : Option Nat),
      (match acc with
        | none => ∀ i ∈ pre, g.mtime i = none
        | some m => m ∈ pre ∧ ∃ t, g.mtime m = some t ∧ ∀ i ∈ pre, ∀ ti, g.mtime i = some ti → ti ≤ t) →
      match l.foldl (newer g) acc with
        | none => ∀ i ∈ pre ++ l, g.mtime i = none
        | some m => m ∈ pre ++ l ∧ ∃ t, g.mtime m = some t ∧ ∀ i ∈ pre ++ l, ∀ ti, g.mtime i = some ti → ti ≤ t by
    exact H l [] none (fun i h => by cases h)
  intro l
  induction l with
  | nil => intro pre acc h; rw [List.append_nil]; exact h
  | cons n l ih =>
    intro pre acc h
    have e1 : pre ++ n :: l = (pre ++ [n]) ++ l := by simp
    rw [e1, List.foldl_cons]
    apply ih
    unfold newer
    cases hn : g.mtime n with
    | none =>
      dsimp only
      cases acc with
      | none =>
        intro i hi
        rcases List.mem_append.1 hi with h1 | h1
        · exact h i h1
        · have : i = n := by simpa using h1
          rw [this]; exact hn
      | some m =>
        obtain ⟨h1, t, h2, h3⟩ := h
        refine ⟨List.mem_append_left _ h1, t, h2, fun i hi ti hti => ?_⟩
        rcases List.mem_append.1 hi with h4 | h4
        · exact h3 i h4 ti hti
        · have : i = n := by simpa using h4
          rw [this, hn] at hti; cases hti
    | some t =>
      dsimp only
      cases acc with
      | none =>
        show n ∈ pre ++ [n] ∧ _
        refine ⟨by simp, t, hn, fun i hi ti hti => ?_⟩
        rcases List.mem_append.1 hi with h1 | h1
        · rw [h i h1] at hti; cases hti
        · have : i = n := by simpa using h1
          rw [this, hn] at hti; cases hti; exact Int.le_refl _
      | some m =>
        obtain ⟨h1, tm, h2, h3⟩ := h
        have hi : isnewer g (some m) t = decide (tm > t) := by unfold isnewer; dsimp only; rw [h2]
        rw [hi]
        by_cases hlt : tm > t
        · rw [if_pos (by simpa using hlt)]
          refine ⟨List.mem_append_left _ h1, tm, h2, fun i hi ti hti => ?_⟩
          rcases List.mem_append.1 hi with h4 | h4
          · exact h3 i h4 ti hti
          · have : i = n := by simpa using h4
            rw [this, hn] at hti; cases hti; omega
        · rw [if_neg (by simpa using hlt)]
          show n ∈ pre ++ [n] ∧ _
          refine ⟨by simp, t, hn, fun i hi ti hti => ?_⟩
          rcases List.mem_append.1 hi with h4 | h4
          · have := h3 i h4 ti hti; omega
          · have : i = n := by simpa using h4
            rw [this, hn] at hti; cases hti; exact Int.le_refl _

theorem isnewer_iff (g : Graph) (l : List Nat) (t : Int) : isnewer g (newestOf g l) t = true ↔ ∃ i ∈ l, NewerThan g i t := by
  have h := newest_inv g l
  generalize newestOf g l = acc at h
  cases acc with
  | none =>
    constructor
    · intro k; cases k
    · rintro ⟨i, hi, ti, h1, _⟩; rw [h i hi] at h1; cases h1
  | some m =>
    obtain ⟨h1, tm, h2, h3⟩ := h
    unfold isnewer
    dsimp only
    rw [h2]
    dsimp only
    rw [decide_eq_true_iff]
    constructor
    · intro k; exact ⟨m, h1, tm, h2, k⟩
    · rintro ⟨i, hi, ti, h4, h5⟩
      have := h3 i hi ti h4
      omega

theorem isdirty_iff (g : Graph) (e n : Nat) : isdirty g e n (newestOf g (inputs g e)) = true ↔ Stale g e n := by
  unfold isdirty
  by_cases hp : g.phony e = true
  · rw [if_pos hp]
    constructor
    · intro h
      by_cases hc : (g.ins e).length > 0 ∨ g.mtime n ≠ none
      · rw [if_pos hc] at h; cases h
      · refine .phony hp ?_ ?_
        · cases hi : g.ins e with
          | nil => rfl
          | cons a l => exact absurd (.inl (by rw [hi]; simp)) hc
        · cases hm : g.mtime n with
          | none => rfl
          | some t => exact absurd (.inr (by rw [hm]; simp)) hc
    · intro h
      cases h with
      | phony _ hi hm => rw [if_neg (by rw [hi, hm]; simp)]
      | missing h => rw [hp] at h; cases h
      | older h => rw [hp] at h; cases h
      | unrecorded h => rw [hp] at h; cases h
      | recorded h => rw [hp] at h; cases h
      | command h => rw [hp] at h; cases h
  · rw [if_neg hp]
    have hp : g.phony e = false := Bool.eq_false_iff.2 hp
    cases hm : g.mtime n with
    | none => exact ⟨fun _ => .missing hp hm, fun _ => rfl⟩
    | some t =>
      dsimp only
      by_cases h1 : (isnewer g (newestOf g (inputs g e)) t && (!g.restat e || g.logmtime n == none)) = true
      · rw [if_pos h1]
        rw [Bool.and_eq_true, isnewer_iff, Bool.or_eq_true] at h1
        obtain ⟨⟨i, hi, hn⟩, h2⟩ := h1
        exact ⟨fun _ => .older hp t hm i hi hn (by
          rcases h2 with h2 | h2
          · exact .inl (by simpa using h2)
          · exact .inr (by simpa using h2)), fun _ => rfl⟩
      · rw [if_neg h1]
        have nolder : ∀ t', g.mtime n = some t' → ∀ i ∈ inputs g e, NewerThan g i t' → ¬ (g.restat e = false ∨ g.logmtime n = none) := by
          intro t' ht' i hi hn hr
          rw [hm] at ht'; cases ht'
          apply h1
          rw [Bool.and_eq_true, isnewer_iff, Bool.or_eq_true]
          exact ⟨⟨i, hi, hn⟩, by rcases hr with hr | hr <;> simp [hr]⟩
        cases hl : g.logmtime n with
        | none =>
          dsimp only
          by_cases hg : g.generator e = true
          · rw [hg, if_neg (by simp), if_pos rfl]
            constructor
            · intro h; cases h
            · intro h
              cases h with
              | phony h => rw [hp] at h; cases h
              | missing _ h => rw [hm] at h; cases h
              | older _ t' ht' i hi hn hr => exact absurd hr (nolder t' ht' i hi hn)
              | unrecorded _ _ h => rw [hg] at h; cases h
              | recorded _ l h => rw [hl] at h; cases h
              | command _ h => rw [hg] at h; cases h
          · have hg : g.generator e = false := Bool.eq_false_iff.2 hg
            rw [hg, if_pos (by simp)]
            exact ⟨fun _ => .unrecorded hp hl hg, fun _ => rfl⟩
        | some l =>
          dsimp only
          by_cases h2 : isnewer g (newestOf g (inputs g e)) l = true
          · rw [if_pos h2]
            obtain ⟨i, hi, hn⟩ := (isnewer_iff g _ l).1 h2
            exact ⟨fun _ => .recorded hp l hl i hi hn, fun _ => rfl⟩
          · rw [if_neg h2]
            by_cases hg : g.generator e = true
            · rw [if_pos hg]
              constructor
              · intro h; cases h
              · intro h
                cases h with
                | phony h => rw [hp] at h; cases h
                | missing _ h => rw [hm] at h; cases h
                | older _ t' ht' i hi hn hr => exact absurd hr (nolder t' ht' i hi hn)
                | unrecorded _ h => rw [hl] at h; cases h
                | recorded _ l' h i hi hn =>
                  rw [hl] at h; cases h
                  exact absurd ((isnewer_iff g _ l).2 ⟨i, hi, hn⟩) h2
                | command _ h => rw [hg] at h; cases h
            · rw [if_neg hg]
              have hg : g.generator e = false := Bool.eq_false_iff.2 hg
              by_cases hc : g.hash e = g.loghash n
              · rw [if_pos hc]
                constructor
                · intro h; cases h
                · intro h
                  cases h with
                  | phony h => rw [hp] at h; cases h
                  | missing _ h => rw [hm] at h; cases h
                  | older _ t' ht' i hi hn hr => exact absurd hr (nolder t' ht' i hi hn)
                  | unrecorded _ h => rw [hl] at h; cases h
                  | recorded _ l' h i hi hn =>
                    rw [hl] at h; cases h
                    exact absurd ((isnewer_iff g _ l).2 ⟨i, hi, hn⟩) h2
                  | command _ _ h => exact absurd hc h
              · rw [if_neg hc]
                exact ⟨fun _ => .command hp hg hc, fun _ => rfl⟩

/-- The state in which a build starts. -/
structure Sched (g : Graph) (targets : List Nat) (st : St) : Prop where
  inv : AInv g st
  nocyc : ∀ e, st.cycle e = false
  work : ∀ e, st.work e = true ↔ Required g targets e
  present : ∀ n ∈ targets, g.gen n = none → g.mtime n ≠ none

theorem Sched.ok {g : Graph} {targets : List Nat} {st : St} (s : Sched g targets st) {e : Nat} (h : st.work e = true) : FinOk g st e :=
  s.inv.fin e ⟨h, s.nocyc e⟩

theorem sched_of {g : Graph} (wf : WF g) {targets : List Nat} {st : St} (h : addAll g targets {} = .ok st) : Sched g targets st := by
  have S := addAll_spec wf targets targets {} (init_inv g) (fun _ => rfl) (fun _ h => h)
  rw [h] at S
  obtain ⟨i1, i2, _, i4, i5, i6⟩ := S
  refine ⟨i1, i2, fun e => ⟨fun hw => ?_, ?_⟩, i5⟩
  · rcases i6 e hw with h | h
    · cases h
    · exact h
  · rintro ⟨n, hn, e0, hg, hd⟩
    have h0 := i4 n hn e0 hg
    rcases hd with hd | hd
    · subst hd; exact h0
    · have step : ∀ a b, st.work a = true → Needs g a b → st.work b = true := by
        intro a b ha ⟨m, hm, hb⟩
        exact ((i1.fin a ⟨ha, i2 a⟩).closed m hm b hb).1
      induction hd with
      | single h => exact step _ _ h0 h
      | tail _ h ih => exact step _ _ ih h

theorem grounded_acyclic {g : Graph} {e : Nat} (h : Grounded g e) : ∀ e', (e = e' ∨ DependsOn g e e') → ¬ DependsOn g e' e' := by
  induction h with
  | @mk e _ ih =>
    have key : ¬ DependsOn g e e := by
      intro hd
      -- the first step of the cycle
      have first : ∀ b, DependsOn g e b → ∃ m, Needs g e m ∧ (m = b ∨ DependsOn g m b) := by
        intro b hb
        induction hb with
        | single h => exact ⟨_, h, .inl rfl⟩
        | tail _ h k =>
          obtain ⟨m, h1, h2⟩ := k
          refine ⟨m, h1, .inr ?_⟩
          rcases h2 with h2 | h2
          · subst h2; exact .single h
          · exact .tail h2 h
      obtain ⟨m, h1, h2⟩ := first e hd
      refine ih m h1 m (.inl rfl) ?_
      rcases h2 with h2 | h2
      · subst h2; exact .single h1
      · exact .tail h2 h1
    intro e' he'
    rcases he' with h | h
    · subst h; exact key
    · have first : ∀ b, DependsOn g e b → ∃ m, Needs g e m ∧ (m = b ∨ DependsOn g m b) := by
        intro b hb
        induction hb with
        | single h => exact ⟨_, h, .inl rfl⟩
        | tail _ h k =>
          obtain ⟨m, h1, h2⟩ := k
          refine ⟨m, h1, .inr ?_⟩
          rcases h2 with h2 | h2
          · subst h2; exact .single h
          · exact .tail h2 h
      obtain ⟨m, h1, h2⟩ := first e' h
      exact ih m h1 e' h2

theorem dirty_iff {g : Graph} (wf : WF g) {targets : List Nat} {st : St} (s : Sched g targets st) {e : Nat} (h : st.work e = true) :
    st.isDirty e = true ↔ Outdated g e := by
  have G := (s.ok h).grounded
  induction G with
  | @mk e _ ih =>
    have F := s.ok h
    have hin : ∀ n ∈ g.ins e, (st.dirty n = true ↔ ∃ e', g.gen n = some e' ∧ Outdated g e') := by
      intro n hn
      cases hg : g.gen n with
      | none => rw [s.inv.src n hg]; simp
      | some e' =>
        have hw := (F.closed n hn e' hg).1
        have q : st.isDirty e' = true ↔ Outdated g e' := ih e' ⟨n, hn, hg⟩ hw
        rw [(s.ok hw).outs n ((wf.gen n e').1 hg).2, q]
        constructor
        · intro h; exact ⟨e', rfl, h⟩
        · rintro ⟨x, hx, h⟩; cases hx; exact h
    unfold St.isDirty
    rw [F.dirtyIn, F.dirtyOut, Bool.or_eq_true, List.any_eq_true, List.any_eq_true]
    constructor
    · rintro (⟨n, h1, h2⟩ | ⟨n, h1, h2⟩)
      · obtain ⟨e', h3, h4⟩ := (hin n (List.mem_of_mem_take h1)).1 h2
        exact .input h1 h3 h4
      · exact .out h1 ((isdirty_iff g e n).1 h2)
    · intro ho
      cases ho with
      | out h1 h2 => exact .inr ⟨_, h1, (isdirty_iff g e _).2 h2⟩
      | input h1 h2 h3 => exact .inl ⟨_, h1, (hin _ (List.mem_of_mem_take h1)).2 ⟨_, h2, h3⟩⟩

end Muon.Sched
