import Verif.Prog.Spec
import Verif.Version.Props
import Verif.Exec.Props
/-
Property theorems for C106: finding and running programs.
-/
namespace Muon.Prog
open Muon
open Muon.Prog.Spec

/-! ### Versions -/

theorem verChar_iff (c : UInt8) : verChar c = true ↔ Ver c := by
  unfold Ver
  revert c
  exact forall_byte (by decide +kernel)

theorem dots_count (w : Bytes) : dots w = w.count 46 := by
  induction w with
  | nil => rfl
  | cons c cs ih =>
    rw [dots, List.count_cons, ih]
    by_cases h : c = 46
    · simp [h]; omega
    · simp [h]

theorem run_other (c : UInt8) (s : Bytes) (h : ¬ Ver c) : run (c :: s) = [] := by
  have : ¬ verChar c = true := fun hc => h ((verChar_iff c).1 hc)
  simp [run, this]

theorem run_append (w s : Bytes) (hw : ∀ c ∈ w, Ver c) (hs : ∀ c t, s = c :: t → ¬ Ver c) : run (w ++ s) = w := by
  induction w with
  | nil =>
    cases s with
    | nil => rfl
    | cons c t => exact run_other c t (hs c t rfl)
  | cons c w ih =>
    have hc : verChar c = true := (verChar_iff c).2 (hw c (by simp))
    simp only [List.cons_append, run, hc, if_true]
    rw [ih (fun x hx => hw x (by simp [hx]))]

/-- One stretch is considered. -/
def upd (best : Option Bytes × Nat) (w : Bytes) : Option Bytes × Nat :=
  if best.2 < w.count 46 then (some w, w.count 46) else best

theorem upd_nil (best : Option Bytes × Nat) : upd best [] = best := by simp [upd]

theorem guessLoop_cut {s : Bytes} {ws : List Bytes} (h : Cut s ws) : ∀ (k : Nat) (best : Option Bytes × Nat),
    s.length ≤ k → 0 ∉ s → guessLoop k s best = ws.foldl upd best := by
  induction h with
  | nil =>
    intro k best _ _
    cases k <;> rfl
  | other c s ws hc _ ih =>
    intro k best hk h0
    cases k with
    | zero => simp at hk
    | succ k =>
      have hc0 : c ≠ 0 := fun e => h0 (by simp [e])
      rw [guessLoop, if_neg hc0]
      simp only [run_other c s hc, dots, List.length_nil, if_true]
      rw [if_neg (by omega)]
      simpa using ih k best (by simpa using hk) (fun hx => h0 (by simp [hx]))
  | run w s ws hne hw hs _ ih =>
    intro k best hk h0
    cases w with
    | nil => exact absurd rfl hne
    | cons c w =>
      cases k with
      | zero => simp at hk
      | succ k =>
        have hc0 : c ≠ 0 := fun e => h0 (by simp [e])
        have hr : run (c :: (w ++ s)) = c :: w := run_append (c :: w) s hw hs
        rw [List.cons_append, guessLoop, if_neg hc0]
        simp only [hr, dots_count]
        rw [if_neg (by simp)]
        have hd : (c :: (w ++ s)).drop (c :: w).length = s := by simp
        rw [hd, ih k _ (by simp at hk; omega) (fun hx => h0 (by simp [hx]))]
        simp only [List.foldl_cons, upd]

theorem foldl_upd (ws : List Bytes) : ∀ best : Option Bytes × Nat,
    (ws.foldl upd best = best ∧ ∀ x ∈ ws, x.count 46 ≤ best.2) ∨
    ∃ a v b, ws = a ++ v :: b ∧ best.2 < v.count 46 ∧ (∀ x ∈ a, x.count 46 < v.count 46) ∧
      (∀ x ∈ b, x.count 46 ≤ v.count 46) ∧ ws.foldl upd best = (some v, v.count 46) := by
  induction ws with
  | nil => intro best; left; simp
  | cons w ws ih =>
    intro best
    rw [List.foldl_cons]
    by_cases hb : best.2 < w.count 46
    · have hu : upd best w = (some w, w.count 46) := by rw [upd, if_pos hb]
      rw [hu]
      rcases ih (some w, w.count 46) with ⟨h1, h2⟩ | ⟨a, v, b, h1, h2, h3, h4, h5⟩
      · exact .inr ⟨[], w, ws, rfl, hb, by simp, h2, h1⟩
      · simp only at h2
        exact .inr ⟨w :: a, v, b, by rw [h1]; rfl, by omega, by
          intro x hx
          rcases List.mem_cons.1 hx with rfl | hx
          · exact h2
          · exact h3 x hx, h4, h5⟩
    · have hu : upd best w = best := by rw [upd, if_neg hb]
      rw [hu]
      rcases ih best with ⟨h1, h2⟩ | ⟨a, v, b, h1, h2, h3, h4, h5⟩
      · exact .inl ⟨h1, by
          intro x hx
          rcases List.mem_cons.1 hx with rfl | hx
          · omega
          · exact h2 x hx⟩
      · exact .inr ⟨w :: a, v, b, by rw [h1]; rfl, h2, by
          intro x hx
          rcases List.mem_cons.1 hx with rfl | hx
          · omega
          · exact h3 x hx, h4, h5⟩

/-- Every text has its stretches. -/
theorem cut_exists (s : Bytes) : ∃ ws, Cut s ws := by
  have hx : ∀ n s, s.length ≤ n → ∃ ws, Cut s ws := by
    intro n
    induction n with
    | zero =>
      intro s hs
      cases s with
      | nil => exact ⟨[], .nil⟩
      | cons => simp at hs
    | succ n ih =>
      intro s hs
      cases s with
      | nil => exact ⟨[], .nil⟩
      | cons c s =>
        by_cases hc : Ver c
        · have key : ∀ t : Bytes, ∃ w r, t = w ++ r ∧ (∀ x ∈ w, Ver x) ∧ (∀ y z, r = y :: z → ¬ Ver y) := by
            intro t
            induction t with
            | nil => exact ⟨[], [], rfl, by simp, by simp⟩
            | cons y t iht =>
              by_cases hy : Ver y
              · obtain ⟨w, r, h1, h2, h3⟩ := iht
                exact ⟨y :: w, r, by rw [h1]; rfl, by
                  intro x hx
                  rcases List.mem_cons.1 hx with rfl | hx
                  · exact hy
                  · exact h2 x hx, h3⟩
              · exact ⟨[], y :: t, rfl, by simp, by
                  intro a b hab
                  cases hab
                  exact hy⟩
          obtain ⟨w, r, h1, h2, h3⟩ := key s
          have hl : r.length ≤ n := by
            have := congrArg List.length h1
            simp at this hs
            omega
          obtain ⟨ws, hws⟩ := ih r hl
          refine ⟨(c :: w) :: ws, ?_⟩
          have hcs : c :: s = (c :: w) ++ r := by rw [h1]; rfl
          rw [hcs]
          exact .run (c :: w) r ws (by simp) (by
            intro x hx
            rcases List.mem_cons.1 hx with rfl | hx
            · exact hc
            · exact h2 x hx) h3 hws
        · obtain ⟨ws, hws⟩ := ih s (by simpa using hs)
          exact ⟨ws, .other c s ws hc hws⟩
  exact hx s.length s (Nat.le_refl _)

theorem cut_count {s : Bytes} {ws : List Bytes} (h : Cut s ws) : s.count 46 = (ws.map (List.count 46)).sum := by
  induction h with
  | nil => rfl
  | other c s ws hc _ ih =>
    rw [List.count_cons, ih]
    have : c ≠ 46 := by
      intro e
      exact hc (by rw [e]; unfold Ver; decide +kernel)
    simp [this]
  | run w s ws _ _ _ _ ih => simp [List.count_append, ih]

/-- The version in a text is the first of the longest stretches of digits and dots among those with the most dots. -/
theorem guess_first (s : Bytes) (ws : List Bytes) (h : Cut s ws) (h0 : 0 ∉ s) (v : Bytes) :
    guessVersion s = some v ↔ Best ws v := by
  rw [guessVersion, guessLoop_cut h _ _ (Nat.le_refl _) h0]
  constructor
  · intro hv
    rcases foldl_upd ws (none, 0) with ⟨h1, _⟩ | ⟨a, w, b, h1, h2, h3, h4, h5⟩
    · rw [h1] at hv; cases hv
    · rw [h5] at hv
      cases hv
      exact ⟨a, b, h1, h2, h3, h4⟩
  · rintro ⟨a, b, h1, h2, h3, h4⟩
    rcases foldl_upd ws (none, 0) with ⟨_, hx⟩ | ⟨a', w, b', g1, g2, g3, g4, g5⟩
    · have := hx v (by simp [h1])
      simp only at this
      omega
    · rw [g5]
      rw [h1] at g1
      have hvw : v = w := by
        rcases List.append_eq_append_iff.1 g1 with ⟨z, e1, e2⟩ | ⟨z, e1, e2⟩
        · cases z with
          | nil => simp at e2; exact e2.1
          | cons y z =>
            simp at e2
            obtain ⟨e3, e2⟩ := e2
            have i1 := g3 v (by simp [e1, e3])
            have i2 := h4 w (by simp [e2])
            omega
        · cases z with
          | nil => simp at e2; exact e2.1.symm
          | cons y z =>
            simp at e2
            obtain ⟨e3, e2⟩ := e2
            have i1 := h3 w (by simp [e1, e3])
            have i2 := g4 v (by simp [e2])
            omega
      rw [hvw]

example : Cut (ascii "v1.2") [ascii "1.2"] ∧ Best [ascii "1.2"] (ascii "1.2") :=
  ⟨.other _ _ _ (by unfold Ver; decide +kernel) (.run (ascii "1.2") [] [] (by decide) (by
    show ∀ c ∈ ascii "1.2", c ∈ ascii "0123456789."
    decide +kernel) (by simp) .nil), [], [], rfl, by decide +kernel, by simp, by simp⟩

/-- A version is found exactly in texts with a dot. -/
theorem guess_none (s : Bytes) (h0 : 0 ∉ s) : guessVersion s = none ↔ 46 ∉ s := by
  obtain ⟨ws, h⟩ := cut_exists s
  have hc := cut_count h
  rw [guessVersion, guessLoop_cut h _ _ (Nat.le_refl _) h0]
  rcases foldl_upd ws (none, 0) with ⟨h1, h2⟩ | ⟨a, w, b, h1, h2, h3, h4, h5⟩
  · rw [h1]
    simp only [true_iff]
    rw [← List.count_eq_zero, hc]
    have hz : ∀ l : List Bytes, (∀ x ∈ l, x.count 46 ≤ 0) → (l.map (List.count 46)).sum = 0 := by
      intro l
      induction l with
      | nil => intro _; rfl
      | cons x l ih =>
        intro hl
        have i1 := hl x (by simp)
        have i2 := ih (fun y hy => hl y (by simp [hy]))
        simp only [List.map_cons, List.sum_cons]
        omega
    exact hz ws h2
  · rw [h5]
    simp only [reduceCtorEq, false_iff, Classical.not_not]
    rw [← List.count_pos_iff, hc, h1]
    simp only at h2
    simp only [List.map_append, List.map_cons, List.sum_append, List.sum_cons]
    omega

/-! ### Overrides -/

theorem sat_iff (v : Bytes) (l : List Bytes) : Version.versionCompare v l = true ↔ Sat v l :=
  Version.version_compare_all v l

theorem overAccepts_iff (vs : Option (List Bytes)) (ver : Option Bytes) :
    overAccepts vs ver = true ↔ ∀ l v, vs = some l → ver = some v → Sat v l := by
  cases vs with
  | none => simp [overAccepts]
  | some l =>
    cases ver with
    | none => simp [overAccepts]
    | some v => simp [overAccepts, sat_iff]

theorem guess_says (E : Env) (cmd : List Bytes) (v : Bytes) : guess E cmd = some v ↔ Says E cmd v := by
  unfold guess Says
  cases E.prints cmd with
  | none => simp
  | some out => simp

/-- An override is used exactly if it is one that is wanted. -/
theorem override_iff (E : Env) (vs : Option (List Bytes)) (st : St) (n : Bytes) (o : Obj) :
    checkOver E vs st n = .ok (some o) ↔ Overridden E vs st n o := by
  unfold checkOver Overridden
  cases hw : st.over n with
  | none => simp
  | some w =>
    simp only [Option.some.injEq, exists_eq_left']
    cases w with
    | pair q ver =>
      simp only [Res.ok.injEq]
      constructor
      · intro h
        split at h
        · next ha =>
          cases h
          cases q with
          | file p => exact .file p ver ((overAccepts_iff vs ver).1 ha)
          | target i => exact .other _ ver (by simp) ((overAccepts_iff vs ver).1 ha)
          | ext e => exact .other _ ver (by simp) ((overAccepts_iff vs ver).1 ha)
          | python e => exact .other _ ver (by simp) ((overAccepts_iff vs ver).1 ha)
          | str s => exact .other _ ver (by simp) ((overAccepts_iff vs ver).1 ha)
          | compiler c => exact .other _ ver (by simp) ((overAccepts_iff vs ver).1 ha)
        · cases h
      · intro h
        cases h with
        | file p _ ha => rw [if_pos ((overAccepts_iff vs ver).2 ha)]; rfl
        | other _ _ hne ha =>
          rw [if_pos ((overAccepts_iff vs ver).2 ha)]
          cases o with
          | file p => exact absurd rfl (hne p)
          | _ => rfl
    | prog q =>
      cases q with
      | ext e =>
        simp only
        constructor
        · intro h
          split at h
          · next hf =>
            cases vs with
            | none =>
              cases h
              exact .prog e hf (by simp)
            | some l =>
              simp only at h
              cases hc : e.cmd with
              | none => rw [hc] at h; cases h
              | some cmd =>
                rw [hc] at h
                simp only [Res.ok.injEq] at h
                split at h
                · next ha =>
                  cases h
                  refine .prog e hf (fun l' hl => ⟨cmd, hc, fun v hv => ?_⟩)
                  cases hl
                  exact (overAccepts_iff (some l) _).1 ha l v rfl ((guess_says E cmd v).2 hv)
                · cases h
          · cases h
        · intro h
          cases h with
          | prog _ hf ha =>
            rw [if_pos hf]
            cases vs with
            | none => rfl
            | some l =>
              obtain ⟨cmd, hc, hs⟩ := ha l rfl
              simp only [hc]
              rw [if_pos]
              rw [overAccepts_iff]
              intro l' v hl hv
              cases hl
              exact hs v ((guess_says E cmd v).1 hv)
      | _ =>
        simp only [reduceCtorEq, false_iff]
        intro h
        cases h

theorem checkOver_clean (E : Env) (vs : Option (List Bytes)) (st : St) (n : Bytes) (hc : Clean st) :
    ∃ o, checkOver E vs st n = .ok o := by
  unfold checkOver
  cases hw : st.over n with
  | none => exact ⟨_, rfl⟩
  | some w =>
    cases w with
    | pair q ver => exact ⟨_, rfl⟩
    | prog q =>
      obtain ⟨e, rfl, he⟩ := hc n _ hw q rfl
      simp only
      split
      · next hf =>
        cases vs with
        | none => exact ⟨_, rfl⟩
        | some l =>
          simp only
          cases hcm : e.cmd with
          | none => exact absurd hcm (he hf)
          | some cmd => exact ⟨_, rfl⟩
      · exact ⟨_, rfl⟩

theorem not_overridden (E : Env) (vs : Option (List Bytes)) (st : St) (n : Bytes) (hc : Clean st)
    (h : ∀ o, ¬ Overridden E vs st n o) : checkOver E vs st n = .ok none := by
  obtain ⟨o, ho⟩ := checkOver_clean E vs st n hc
  cases o with
  | none => exact ho
  | some o => exact absurd ((override_iff E vs st n o).1 ho) (h o)

/-- A program that is overridden is what it is overridden with, whatever files there are; no subproject is evaluated. -/
theorem override_wins (E : Env) (dirs vs : Option (List Bytes)) (req : Lookup.Req) (st : St) (n : Bytes) (o : Obj)
    (h : Overridden E vs st n o) : findOne E dirs vs req st (.str n) = .ok (st, some o) := by
  simp only [findOne, (override_iff E vs st n o).2 h, Res.ok_bind]

/-! ### Files -/

theorem dirLoop_some (E : Env) (s p : Bytes) (l : List Bytes) : dirLoop E s l = some p ↔
    ∃ a d b, l = a ++ d :: b ∧ (∀ x ∈ a, E.isFile (Path.join x s) = false) ∧ E.isFile (Path.join d s) = true ∧
      p = Path.join d s := by
  induction l with
  | nil => simp [dirLoop]
  | cons d l ih =>
    rw [dirLoop]
    split
    · next h =>
      constructor
      · intro hp
        cases hp
        exact ⟨[], d, l, rfl, by simp, h, rfl⟩
      · rintro ⟨a, d', b, h1, h2, h3, rfl⟩
        cases a with
        | nil => cases h1; rfl
        | cons x a =>
          cases h1
          rw [h2 d (by simp)] at h
          cases h
    · next h =>
      rw [ih]
      constructor
      · rintro ⟨a, d', b, h1, h2, h3, h4⟩
        exact ⟨d :: a, d', b, by rw [h1]; rfl, by
          intro x hx
          rcases List.mem_cons.1 hx with rfl | hx
          · simpa using h
          · exact h2 x hx, h3, h4⟩
      · rintro ⟨a, d', b, h1, h2, h3, h4⟩
        cases a with
        | nil =>
          cases h1
          exact absurd h3 h
        | cons x a =>
          cases h1
          exact ⟨a, d', b, rfl, fun y hy => h2 y (by simp [hy]), h3, h4⟩

theorem dirLoop_none (E : Env) (s : Bytes) (l : List Bytes) : dirLoop E s l = none ↔
    ∀ x ∈ l, E.isFile (Path.join x s) = false := by
  induction l with
  | nil => simp [dirLoop]
  | cons d l ih =>
    rw [dirLoop]
    split
    · next h => simp [h]
    · next h => rw [ih]; simp [h]

/-- The file that is taken is the one the name stands for. -/
theorem place_at (E : Env) (dirs : Option (List Bytes)) (s p : Bytes) : place E dirs s = .ok (some p) ↔ At E dirs s p := by
  unfold place
  cases hd : dirLoop E s (dirs.getD []) with
  | some q =>
    obtain ⟨a, d, b, h1, h2, h3, rfl⟩ := (dirLoop_some E s q _).1 hd
    have hdirs : ∃ l, dirs = some l ∧ l = a ++ d :: b := by
      cases dirs with
      | none => simp at h1
      | some l => exact ⟨l, rfl, h1⟩
    obtain ⟨l, hl, hl2⟩ := hdirs
    simp only [Res.ok.injEq, Option.some.injEq]
    constructor
    · rintro rfl
      exact .dir l a b d hl hl2 h2 h3
    · intro h
      cases h with
      | dir l' a' b' d' g1 g2 g3 g4 =>
        have : dirLoop E s (dirs.getD []) = some (Path.join d' s) :=
          (dirLoop_some E s _ _).2 ⟨a', d', b', by rw [g1]; exact g2, g3, g4, rfl⟩
        rw [hd] at this
        simpa using this
      | tree hn _ =>
        have := hn l hl d (by simp [hl2])
        rw [h3] at this
        cases this
      | search _ hn _ _ =>
        have := hn l hl d (by simp [hl2])
        rw [h3] at this
        cases this
  | none =>
    have hn := (dirLoop_none E s _).1 hd
    have hn' : ∀ l, dirs = some l → ∀ x ∈ l, E.isFile (Path.join x s) = false := by
      intro l hl x hx
      exact hn x (by rw [hl]; exact hx)
    simp only
    constructor
    · intro h
      split at h
      · next ht => cases h; exact .tree hn' ht
      · next ht =>
        split at h
        · next q hq => cases h; exact .search p hn' (by simpa using ht) hq
        · cases h
        · cases h
    · intro h
      cases h with
      | dir l a b d g1 g2 g3 g4 =>
        have := hn' l g1 d (by simp [g2])
        rw [g4] at this
        cases this
      | tree _ ht => rw [if_pos ht]
      | search _ _ ht hq => simp only [ht, hq]; simp

theorem place_nowhere (E : Env) (dirs : Option (List Bytes)) (s : Bytes) (h : Nowhere E dirs s) :
    place E dirs s = .ok none := by
  have hx : ∀ p, place E dirs s ≠ .ok (some p) := fun p hp => h.2 p ((place_at E dirs s p).1 hp)
  unfold place at hx ⊢
  cases hd : dirLoop E s (dirs.getD []) with
  | some q => rw [hd] at hx; exact absurd rfl (hx q)
  | none =>
    rw [hd] at hx
    simp only at hx ⊢
    split
    · next ht => rw [if_pos ht] at hx; exact absurd rfl (hx _)
    · next ht =>
      rw [if_neg ht] at hx
      cases hf : Exec.findCmd E.files s with
      | ok p => rw [hf] at hx; exact absurd rfl (hx p)
      | error => rfl
      | bad =>
        exfalso
        unfold Exec.findCmd at hf
        rw [if_neg h.1] at hf
        split at hf
        · split at hf
          · cases hf
          · rw [Exec.findLoop_eq] at hf
            split at hf <;> cases hf
        · dsimp only at hf
          split at hf <;> cases hf

theorem place_none (E : Env) (dirs : Option (List Bytes)) (s : Bytes) (h : place E dirs s = .ok none) :
    Nowhere E dirs s := by
  refine ⟨?_, fun p hp => ?_⟩
  · rintro rfl
    unfold place at h
    split at h
    · cases h
    · split at h
      · cases h
      · simp [Exec.findCmd] at h
  · rw [(place_at E dirs s p).2 hp] at h
    cases h

theorem place_ok (E : Env) (dirs : Option (List Bytes)) (s : Bytes) (hs : s ≠ []) : ∃ p, place E dirs s = .ok p := by
  by_cases h : ∃ p, At E dirs s p
  · obtain ⟨p, hp⟩ := h
    exact ⟨_, (place_at E dirs s p).2 hp⟩
  · exact ⟨_, place_nowhere E dirs s ⟨hs, fun p hp => h ⟨p, hp⟩⟩⟩

theorem ofFile_some (E : Env) (vs : Option (List Bytes)) (p : Bytes) (o : Obj) (h : ofFile E vs p = some o) :
    Meets E vs [p] ∧ ∃ e, o = .ext e ∧ e.found = true ∧ e.cmd = some [p] ∧
      ∀ v, e.ver = some v → Says E [p] v := by
  unfold ofFile at h
  cases vs with
  | none =>
    cases h
    exact ⟨fun l hl => by simp at hl, _, rfl, rfl, rfl, by simp⟩
  | some cs =>
    simp only at h
    split at h
    · cases h
    · next v hv =>
      split at h
      · next hc =>
        cases h
        refine ⟨fun l hl => ?_, _, rfl, rfl, rfl, ?_⟩
        · cases hl
          exact ⟨v, (guess_says E [p] v).1 hv, (sat_iff v _).1 hc⟩
        · intro w hw
          cases hw
          exact (guess_says E [p] _).1 hv
      · cases h

theorem ofFile_meets (E : Env) (vs : Option (List Bytes)) (p : Bytes) (h : Meets E vs [p]) :
    ∃ o, ofFile E vs p = some o := by
  unfold ofFile
  cases vs with
  | none => exact ⟨_, rfl⟩
  | some cs =>
    obtain ⟨v, h1, h2⟩ := h cs rfl
    rw [(guess_says E [p] v).2 h1]
    simp only
    rw [if_pos ((sat_iff v cs).2 h2)]
    exact ⟨_, rfl⟩

/-- A file that is found is the program, if its version is wanted. -/
theorem file_found (E : Env) (dirs vs : Option (List Bytes)) (req : Lookup.Req) (st : St) (s p : Bytes) (hc : Clean st)
    (ho : ∀ o, ¬ Overridden E vs st s o) (hw : E.wrap ≠ .forcefallback) (hp : At E dirs s p) (hv : Meets E vs [p]) :
    ∃ e, findOne E dirs vs req st (.str s) = .ok (st, some (.ext e)) ∧ e.found = true ∧ e.cmd = some [p] ∧
      ∀ v, e.ver = some v → Says E [p] v := by
  obtain ⟨o, h1⟩ := ofFile_meets E vs p hv
  obtain ⟨_, e, rfl, h3, h4, h5⟩ := ofFile_some E vs p o h1
  refine ⟨e, ?_, h3, h4, h5⟩
  simp only [findOne, not_overridden E vs st s hc ho, Res.ok_bind, findForced, if_neg hw, findFile,
    (place_at E dirs s p).2 hp, h1]

/-- A file of another version ends the search. -/
theorem file_rejected (E : Env) (dirs vs : Option (List Bytes)) (req : Lookup.Req) (st : St) (s p : Bytes) (hc : Clean st)
    (ho : ∀ o, ¬ Overridden E vs st s o) (hw : E.wrap ≠ .forcefallback) (hp : At E dirs s p) (hv : ¬ Meets E vs [p]) :
    findOne E dirs vs req st (.str s) = .ok (st, none) := by
  have h1 : ofFile E vs p = none := by
    cases h : ofFile E vs p with
    | none => rfl
    | some o => exact absurd (ofFile_some E vs p o h).1 hv
  simp only [findOne, not_overridden E vs st s hc ho, Res.ok_bind, findForced, if_neg hw, findFile,
    (place_at E dirs s p).2 hp, h1]

/-- The files of `files()` are looked for only as files: overrides and subprojects do not matter. -/
theorem file_argument (E : Env) (dirs vs : Option (List Bytes)) (req : Lookup.Req) (st : St) (p : Bytes) :
    (∀ q, At E dirs p q → Meets E vs [q] → ∃ e, findOne E dirs vs req st (.file p) = .ok (st, some (.ext e)) ∧
      e.found = true ∧ e.cmd = some [q]) ∧
    (∀ q, At E dirs p q → ¬ Meets E vs [q] → findOne E dirs vs req st (.file p) = .ok (st, none)) ∧
    (Nowhere E dirs p → findOne E dirs vs req st (.file p) = .ok (st, none)) := by
  refine ⟨fun q hq hm => ?_, fun q hq hm => ?_, fun hn => ?_⟩
  · obtain ⟨o, h1⟩ := ofFile_meets E vs q hm
    obtain ⟨_, e, rfl, h3, h4, _⟩ := ofFile_some E vs q o h1
    exact ⟨e, by simp only [findOne, findFile, (place_at E dirs p q).2 hq, Res.ok_bind, h1], h3, h4⟩
  · have h1 : ofFile E vs q = none := by
      cases h : ofFile E vs q with
      | none => rfl
      | some o => exact absurd (ofFile_some E vs q o h).1 hm
    simp only [findOne, findFile, (place_at E dirs p q).2 hq, Res.ok_bind, h1]
  · simp only [findOne, findFile, place_nowhere E dirs p hn, Res.ok_bind]
    simp

/-! ### Fallbacks -/

theorem checkFallback_none (E : Env) (vs : Option (List Bytes)) (st : St) (n : Bytes) (h : E.provides n = none) :
    checkFallback E vs st n = .ok (st, none) := by simp [checkFallback, h]

theorem checkFallback_some (E : Env) (vs : Option (List Bytes)) (st : St) (n s : Bytes) (hs : SubSound E)
    (h : E.provides n = some s) :
    checkFallback E vs st n = (checkOver E vs (E.sub st s).1 n >>= fun o => .ok ((E.sub st s).1, o)) := by
  have hb : (!(E.sub st s).2.1 && (E.sub st s).2.2) = false := by
    cases h1 : (E.sub st s).2.1 with
    | true => rfl
    | false => rw [hs st s h1]; rfl
  simp [checkFallback, h, hb]

/-- If subprojects come first, and one provides the program, it is taken from there. -/
theorem forced_fallback (E : Env) (dirs vs : Option (List Bytes)) (req : Lookup.Req) (st : St) (n s : Bytes) (o : Obj)
    (hc : Clean st) (hss : SubSound E) (ho : ∀ o, ¬ Overridden E vs st n o) (hw : E.wrap = .forcefallback)
    (hp : E.provides n = some s) (hg : Overridden E vs (E.sub st s).1 n o) :
    findOne E dirs vs req st (.str n) = .ok ((E.sub st s).1, some o) := by
  simp only [findOne, not_overridden E vs st n hc ho, Res.ok_bind, findForced, if_pos hw,
    checkFallback_some E vs st n s hss hp, (override_iff E vs _ n o).2 hg]

/-- A required program that is nowhere comes from the subproject that provides it. -/
theorem last_fallback (E : Env) (dirs vs : Option (List Bytes)) (st : St) (n s : Bytes) (o : Obj)
    (hc : Clean st) (hss : SubSound E) (ho : ∀ o, ¬ Overridden E vs st n o)
    (hw : E.wrap ≠ .forcefallback) (hw' : E.wrap ≠ .nofallback) (hn : Nowhere E dirs n)
    (hp : E.provides n = some s) (hg : Overridden E vs (E.sub st s).1 n o) :
    findOne E dirs vs .required st (.str n) = .ok ((E.sub st s).1, some o) := by
  simp only [findOne, not_overridden E vs st n hc ho, Res.ok_bind, findForced, if_neg hw, findFile,
    place_nowhere E dirs n hn, if_true, findLast, checkFallback_some E vs st n s hss hp,
    (override_iff E vs _ n o).2 hg]
  exact if_pos ⟨hw', trivial⟩

/-- No subproject is evaluated for a program without a wrap file that provides it, or without fallbacks, or for one that
is not required unless subprojects come first. -/
theorem no_subproject (E : Env) (dirs vs : Option (List Bytes)) (req : Lookup.Req) (st st' : St) (a : Obj) (r : Option Obj)
    (hw : E.wrap ≠ .forcefallback ∧ (E.wrap = .nofallback ∨ req ≠ .required) ∨ ∀ n, a = .str n → E.provides n = none)
    (h : findOne E dirs vs req st a = .ok (st', r)) : st' = st := by
  have hlast : ∀ n, (a = .str n) → ∀ st' r, findLast E vs req st n = .ok (st', r) → st' = st := by
    intro n hn st' r hl
    unfold findLast at hl
    split at hl
    · next hif =>
      rcases hw with ⟨_, hx⟩ | hx
      · rcases hx with hx | hx
        · exact absurd hx hif.1
        · exact absurd hif.2 hx
      · simp only [checkFallback_none E vs st n (hx n hn), Res.ok_bind] at hl
        cases hl; rfl
    · cases hl; rfl
  have hfile : ∀ b n, (b = true → a = .str n) → ∀ st' r, findFile E dirs vs req b st n = .ok (st', r) → st' = st := by
    intro b n hn st' r hl
    obtain ⟨p, hp, hl⟩ := Res.bind_eq_ok.1 hl
    cases p with
    | some p => cases hl; rfl
    | none =>
      simp only at hl
      split at hl
      · next hb => exact hlast n (hn hb) st' r hl
      · cases hl; rfl
  cases a with
  | ext e => cases h; rfl
  | python e => cases h; rfl
  | file p => exact hfile false p (by simp) st' r h
  | target i => cases h
  | compiler c => cases h
  | str n =>
    simp only [findOne] at h
    obtain ⟨o, ho, h⟩ := Res.bind_eq_ok.1 h
    cases o with
    | some o => cases h; rfl
    | none =>
      simp only [findForced] at h
      split at h
      · next hf =>
        rcases hw with ⟨hx, _⟩ | hx
        · exact absurd hf hx
        · simp only [checkFallback_none E vs st n (hx n rfl), Res.ok_bind] at h
          exact hfile true n (fun _ => rfl) st' r h
      · exact hfile true n (fun _ => rfl) st' r h

/-! ### Where programs come from -/

theorem checkFallback_from (E : Env) (vs : Option (List Bytes)) (st st' : St) (n : Bytes) (o : Obj)
    (h : checkFallback E vs st n = .ok (st', some o)) : Overridden E vs st' n o := by
  unfold checkFallback at h
  split at h
  · cases h
  · simp only at h
    split at h
    · cases h
    · obtain ⟨o', h1, h2⟩ := Res.bind_eq_ok.1 h
      cases h2
      exact (override_iff E vs _ n o).1 h1

theorem special_from (E : Env) (s : Bytes) (o : Obj) (h : special E s = some o) :
    E.samurai = true ∧ (s = ascii "ninja" ∨ s = ascii "samu") ∧
      ∃ e, o = .ext e ∧ e.found = true ∧ e.cmd = some [E.argv0, ascii "samu"] := by
  unfold special at h
  split at h
  · next hs =>
    cases h
    rw [Bool.and_eq_true, Bool.or_eq_true, beq_iff_eq, beq_iff_eq] at hs
    exact ⟨hs.1, hs.2, _, rfl, rfl, rfl⟩
  · cases h

theorem findLast_from (E : Env) (dirs vs : Option (List Bytes)) (req : Lookup.Req) (st st' : St) (s : Bytes) (o : Obj)
    (hn : Nowhere E dirs s) (h : findLast E vs req st s = .ok (st', some o)) : From E dirs vs st' (.str s) o := by
  have hsp : ∀ o, special E s = some o → From E dirs vs st' (.str s) o := by
    intro o ho
    obtain ⟨h1, h2, e, rfl, h3, h4⟩ := special_from E s o ho
    exact .samurai s e h1 h2 hn h3 h4
  unfold findLast at h
  split at h
  · obtain ⟨⟨a, b⟩, h1, h2⟩ := Res.bind_eq_ok.1 h
    cases b with
    | some b =>
      cases h2
      exact .override s o (checkFallback_from E vs st _ s o h1)
    | none =>
      simp only [Res.ok.injEq, Prod.mk.injEq] at h2
      exact hsp o h2.2
  · simp only [Res.ok.injEq, Prod.mk.injEq] at h
    exact hsp o h.2

theorem findFile_from (E : Env) (dirs vs : Option (List Bytes)) (req : Lookup.Req) (b : Bool) (st st' : St) (s : Bytes)
    (o : Obj) (h : findFile E dirs vs req b st s = .ok (st', some o)) :
    From E dirs vs st' (if b then .str s else .file s) o := by
  obtain ⟨p, hp, h⟩ := Res.bind_eq_ok.1 h
  cases p with
  | some p =>
    simp only [Res.ok.injEq, Prod.mk.injEq] at h
    obtain ⟨h1, e, rfl, h3, h4, _⟩ := ofFile_some E vs p o h.2
    have hat := (place_at E dirs s p).1 hp
    cases b with
    | true => exact .str s p e hat h1 h3 h4
    | false => exact .file s p e hat h1 h3 h4
  | none =>
    have hn := place_none E dirs s hp
    cases b with
    | true => exact findLast_from E dirs vs req st st' s o hn h
    | false => simp at h

/-- A program that is found for an argument comes from an override, from the file the argument stands for, which has a
version that is wanted, or is the built-in samurai. -/
theorem found_from (E : Env) (dirs vs : Option (List Bytes)) (req : Lookup.Req) (st st' : St) (a o : Obj)
    (h : findOne E dirs vs req st a = .ok (st', some o)) : From E dirs vs st' a o := by
  cases a with
  | ext e =>
    simp only [findOne, Res.ok.injEq, Prod.mk.injEq] at h
    obtain ⟨rfl, h⟩ := h
    split at h
    · next hf => cases h; exact .ext e hf
    · cases h
  | python e =>
    simp only [findOne, Res.ok.injEq, Prod.mk.injEq] at h
    obtain ⟨rfl, h⟩ := h
    split at h
    · next hf => cases h; exact .python e hf
    · cases h
  | file p => simpa using findFile_from E dirs vs req false st st' p o h
  | target i => cases h
  | compiler c => cases h
  | str s =>
    simp only [findOne] at h
    obtain ⟨x, hx, h⟩ := Res.bind_eq_ok.1 h
    cases x with
    | some x =>
      cases h
      exact .override s o ((override_iff E vs st s o).1 hx)
    | none =>
      simp only [findForced] at h
      split at h
      · obtain ⟨⟨a, b⟩, h1, h2⟩ := Res.bind_eq_ok.1 h
        cases b with
        | some b =>
          cases h2
          exact .override s o (checkFallback_from E vs st _ s o h1)
        | none =>
          simpa using findFile_from E dirs vs req true a st' s o h2
      · simpa using findFile_from E dirs vs req true st st' s o h

/-- Overrides are programs that can be used. -/
theorem from_usable (E : Env) (dirs vs : Option (List Bytes)) (st : St) (a o : Obj)
    (hst : ∀ n o v, st.over n = some (.pair o v) → Usable o) (h : From E dirs vs st a o) : Usable o := by
  intro e he
  cases h with
  | override s _ ho =>
    obtain ⟨w, hw, hg⟩ := ho
    cases hg with
    | file => cases he; rfl
    | other _ ver _ _ => exact hst s o ver hw e he
    | prog e' hf _ => cases he; exact hf
  | str _ _ _ _ _ hf _ => cases he; exact hf
  | file _ _ _ _ _ hf _ => cases he; exact hf
  | samurai _ _ _ _ _ hf _ => cases he; exact hf
  | ext _ hf => cases he; exact hf
  | python _ hf => cases he; exact hf

theorem findAll_from (E : Env) (dirs vs : Option (List Bytes)) (req : Lookup.Req) (o : Obj) (st' : St) :
    ∀ (ns : List Obj) (st : St), findAll E dirs vs req st ns = .ok (st', some o) →
      ∃ a b n, ns = a ++ n :: b ∧ From E dirs vs st' n o := by
  intro ns
  induction ns with
  | nil => intro st h; cases h
  | cons n ns ih =>
    intro st h
    rw [findAll] at h
    cases hf : findOne E dirs vs req st n with
    | bad => rw [hf] at h; cases h
    | error => rw [hf] at h; cases h
    | ok r =>
      obtain ⟨st1, x⟩ := r
      rw [hf] at h
      cases x with
      | some x =>
        cases h
        exact ⟨[], ns, n, rfl, found_from E dirs vs req st _ n o hf⟩
      | none =>
        obtain ⟨a, b, m, h1, h2⟩ := ih st1 h
        exact ⟨n :: a, b, m, by rw [h1]; rfl, h2⟩

/-- The result of `find_program()`: a program from one of the arguments; a program that is not found, or a disabler, only
for a call that does not require it. -/
theorem result_from (E : Env) (c : Call) (st st' : St) (v : Val) (h : findProgram E c st = .ok (st', v)) :
    (c.req ≠ .skip ∧ ∃ n ∈ c.names, ∃ o, v = .obj o ∧ From E c.dirs c.versions st' n o) ∨
    (c.req ≠ .required ∧ (c.disabler = true → v = .disabler) ∧
      (c.disabler = false → ∃ e, v = .obj (.ext e) ∧ e.found = false)) := by
  unfold findProgram at h
  have hm : ∀ d, (d = true → missing d = .disabler) ∧
      (d = false → ∃ e, missing d = .obj (.ext e) ∧ e.found = false) := by
    intro d
    cases d
    · exact ⟨by simp, fun _ => ⟨_, rfl, rfl⟩⟩
    · exact ⟨fun _ => rfl, by simp⟩
  split at h
  · next hs =>
    cases h
    exact .inr ⟨by simp [hs], hm c.disabler⟩
  · next hs =>
    obtain ⟨⟨s1, r⟩, h1, h2⟩ := Res.bind_eq_ok.1 h
    cases r with
    | some o =>
      cases h2
      obtain ⟨a, b, n, hn, hf⟩ := findAll_from E c.dirs c.versions c.req o _ c.names st h1
      exact .inl ⟨hs, n, by simp [hn], o, rfl, hf⟩
    | none =>
      simp only at h2
      split at h2
      · cases h2
      · next hr =>
        cases h2
        exact .inr ⟨hr, hm c.disabler⟩

/-- A required program is found, or the call fails. -/
theorem required_found (E : Env) (c : Call) (st st' : St) (v : Val) (hr : c.req = .required)
    (h : findProgram E c st = .ok (st', v)) : ∃ n ∈ c.names, ∃ o, v = .obj o ∧ From E c.dirs c.versions st' n o := by
  rcases result_from E c st st' v h with ⟨_, h⟩ | ⟨h, _⟩
  · exact h
  · exact absurd hr h

/-- Nothing is looked for if the requirement is a disabled feature. -/
theorem skip_nothing (E : Env) (c : Call) (st : St) (hr : c.req = .skip) :
    ∃ v, findProgram E c st = .ok (st, v) ∧ (c.disabler = true → v = .disabler) ∧
      (c.disabler = false → ∃ e, v = .obj (.ext e) ∧ e.found = false) := by
  refine ⟨missing c.disabler, by rw [findProgram, if_pos hr], fun h => by rw [h]; rfl, fun h => ?_⟩
  rw [h]
  exact ⟨_, rfl, rfl⟩

theorem findAll_skip (E : Env) (dirs vs : Option (List Bytes)) (req : Lookup.Req) (st : St) (a b : List Obj)
    (h : ∀ x ∈ a, findOne E dirs vs req st x = .ok (st, none)) :
    findAll E dirs vs req st (a ++ b) = findAll E dirs vs req st b := by
  induction a with
  | nil => rfl
  | cons x a ih =>
    rw [List.cons_append, findAll, h x (by simp)]
    exact ih (fun y hy => h y (by simp [hy]))

/-- The arguments are tried in order: the first that is found is the result. -/
theorem names_in_order (E : Env) (c : Call) (st st' : St) (a b : List Obj) (n o : Obj) (hr : c.req ≠ .skip)
    (hn : c.names = a ++ n :: b) (ha : ∀ x ∈ a, findOne E c.dirs c.versions c.req st x = .ok (st, none))
    (ho : findOne E c.dirs c.versions c.req st n = .ok (st', some o)) : findProgram E c st = .ok (st', .obj o) := by
  rw [findProgram, if_neg hr, hn, findAll_skip E _ _ _ st a _ ha, findAll, ho]
  rfl

/-- If none is found the call fails, or gives a program that is not found, or a disabler. -/
theorem none_found (E : Env) (c : Call) (st : St) (hr : c.req ≠ .skip)
    (ha : ∀ x ∈ c.names, findOne E c.dirs c.versions c.req st x = .ok (st, none)) :
    (c.req = .required → findProgram E c st = .error) ∧
    (c.req ≠ .required → ∃ v, findProgram E c st = .ok (st, v) ∧ (c.disabler = true → v = .disabler) ∧
      (c.disabler = false → ∃ e, v = .obj (.ext e) ∧ e.found = false)) := by
  have h1 : findAll E c.dirs c.versions c.req st c.names = .ok (st, none) := by
    have := findAll_skip E c.dirs c.versions c.req st c.names [] ha
    simpa [findAll] using this
  constructor
  · intro h
    simp only [findProgram, if_neg hr, h1, Res.ok_bind, if_pos h]
  · intro h
    refine ⟨missing c.disabler, by simp only [findProgram, if_neg hr, h1, Res.ok_bind, if_neg h], fun h => by rw [h]; rfl,
      fun h => ?_⟩
    rw [h]
    exact ⟨_, rfl, rfl⟩

/-! ### Versions that are wanted -/

/-- A program that is found, and says which version it is, has a version that is wanted: except for a target or a file
that a project with another version overrides it with, whose version is that of the project; and for the built-in samurai. -/
theorem version_wanted_partial (E : Env) (dirs : Option (List Bytes)) (vs : List Bytes) (req : Lookup.Req) (st st' : St) (s : Bytes)
    (e : Ext) (cmd : List Bytes) (v : Bytes)
    (hst : ∀ o ver, st'.over s = some (.pair o ver) → ∃ w, ver = some w ∧ ∀ cmd v, Says E cmd v → v = w)
    (hsam : E.samurai = false) (hcmd : e.cmd = some cmd) (hv : Says E cmd v)
    (h : findOne E dirs (some vs) req st (.str s) = .ok (st', some (.ext e))) : Sat v vs := by
  have key : ∀ a o, a = Obj.str s → o = Obj.ext e → From E dirs (some vs) st' a o → Sat v vs := by
    intro a o ha heo hf
    cases hf with
    | override s' _ ho =>
      cases ha
      obtain ⟨w, hw, hg⟩ := ho
      cases hg with
      | file p ver hs =>
        obtain ⟨u, hu, hall⟩ := hst _ _ hw
        rw [hall cmd v hv]
        exact hs vs u rfl hu
      | other _ ver _ hs =>
        obtain ⟨u, hu, hall⟩ := hst _ _ hw
        rw [hall cmd v hv]
        exact hs vs u rfl hu
      | prog e' hf hs =>
        cases heo
        obtain ⟨c', hc', hx⟩ := hs vs rfl
        rw [hcmd] at hc'
        cases hc'
        exact hx v hv
    | str _ p e' _ hm _ hc =>
      cases heo
      rw [hcmd] at hc
      cases hc
      obtain ⟨u, hu, hsat⟩ := hm vs rfl
      obtain ⟨o1, h1, h2⟩ := hu
      obtain ⟨o2, h3, h4⟩ := hv
      rw [h1] at h3
      cases h3
      rw [h2] at h4
      cases h4
      exact hsat
    | file => cases ha
    | samurai _ _ hs => rw [hsam] at hs; cases hs
    | ext => cases ha
    | python => cases ha
  exact key _ _ rfl rfl (found_from E dirs (some vs) req st st' (.str s) (.ext e) h)

/-! ### Histories -/

theorem findOne_keeps (E : Env) (dirs vs : Option (List Bytes)) (req : Lookup.Req) (st st' : St) (a : Obj) (r : Option Obj)
    (n : Bytes) (hk : SubKeeps E n) (h : findOne E dirs vs req st a = .ok (st', r)) : st'.over n = st.over n := by
  have hfb : ∀ st st' s r, checkFallback E vs st s = .ok (st', r) → st'.over n = st.over n := by
    intro st st' s r h
    unfold checkFallback at h
    split at h
    · cases h; rfl
    · simp only at h
      split at h
      · cases h; exact hk st _
      · obtain ⟨o, h1, h2⟩ := Res.bind_eq_ok.1 h
        cases h2
        exact hk st _
  have hlast : ∀ st st' s r, findLast E vs req st s = .ok (st', r) → st'.over n = st.over n := by
    intro st st' s r h
    unfold findLast at h
    split at h
    · obtain ⟨⟨x, y⟩, h1, h2⟩ := Res.bind_eq_ok.1 h
      cases y with
      | some y => cases h2; exact hfb st _ s _ h1
      | none =>
        simp only [Res.ok.injEq, Prod.mk.injEq] at h2
        rw [← h2.1]
        exact hfb st _ s _ h1
    · cases h; rfl
  have hfile : ∀ b st st' s r, findFile E dirs vs req b st s = .ok (st', r) → st'.over n = st.over n := by
    intro b st st' s r h
    obtain ⟨p, _, h⟩ := Res.bind_eq_ok.1 h
    cases p with
    | some p => cases h; rfl
    | none =>
      simp only at h
      split at h
      · exact hlast st st' s r h
      · cases h; rfl
  cases a with
  | ext e => cases h; rfl
  | python e => cases h; rfl
  | file p => exact hfile false st st' p r h
  | target i => cases h
  | compiler c => cases h
  | str s =>
    simp only [findOne] at h
    obtain ⟨o, _, h⟩ := Res.bind_eq_ok.1 h
    cases o with
    | some o => cases h; rfl
    | none =>
      simp only [findForced] at h
      split at h
      · obtain ⟨⟨x, y⟩, h1, h2⟩ := Res.bind_eq_ok.1 h
        cases y with
        | some y => cases h2; exact hfb st _ s _ h1
        | none => rw [hfile true x st' s r h2]; exact hfb st _ s _ h1
      · exact hfile true st st' s r h

theorem findAll_keeps (E : Env) (dirs vs : Option (List Bytes)) (req : Lookup.Req) (n : Bytes) (hk : SubKeeps E n) :
    ∀ (ns : List Obj) (st st' : St) (r : Option Obj), findAll E dirs vs req st ns = .ok (st', r) →
      st'.over n = st.over n := by
  intro ns
  induction ns with
  | nil => intro st st' r h; cases h; rfl
  | cons a ns ih =>
    intro st st' r h
    rw [findAll] at h
    cases hf : findOne E dirs vs req st a with
    | bad => rw [hf] at h; cases h
    | error => rw [hf] at h; cases h; rfl
    | ok x =>
      obtain ⟨s1, o⟩ := x
      rw [hf] at h
      have h1 := findOne_keeps E dirs vs req st s1 a o n hk hf
      cases o with
      | some o => cases h; exact h1
      | none => rw [ih s1 st' r h, h1]

theorem step_spares (n : Bytes) (x : Step) (st st' : St) (hx : x.Spares n) (h : x.go st = .ok st') :
    st'.over n = st.over n := by
  cases x with
  | override p m o =>
    have hmn : m ≠ n := hx
    simp only [Step.go, overrideFindProgram] at h
    have hset : ∀ v : Over, (if n = m then some v else st.over n) = st.over n := by
      intro v
      rw [if_neg (fun e => hmn e.symm)]
    cases o <;> cases h <;> exact hset _
  | find E c =>
    obtain ⟨r, h1, h2⟩ := Res.bind_eq_ok.1 h
    cases h2
    unfold findProgram at h1
    split at h1
    · cases h1; rfl
    · obtain ⟨⟨s1, o⟩, h3, h4⟩ := Res.bind_eq_ok.1 h1
      have hk := findAll_keeps E c.dirs c.versions c.req n hx c.names st s1 o h3
      cases o with
      | some o => cases h4; exact hk
      | none =>
        simp only at h4
        split at h4
        · cases h4
        · cases h4; exact hk
  | run E ex ch ca args =>
    obtain ⟨r, h1, h2⟩ := Res.bind_eq_ok.1 h
    cases h2
    obtain ⟨l, h3, h4⟩ := Res.bind_eq_ok.1 h1
    have hl : l.1.over n = st.over n := by
      have hgo : ∀ (a : Obj) (os : List Obj) (l : St × List Bytes), (findOne E none none .auto st a >>= fun r =>
          match r.2 with
          | none => Res.error
          | some o => allWords (o :: os) >>= fun ws => .ok (r.1, ws)) = .ok l → l.1.over n = st.over n := by
        intro a os l hh
        obtain ⟨⟨s1, o⟩, h5, h6⟩ := Res.bind_eq_ok.1 hh
        cases o with
        | none => cases h6
        | some o =>
          obtain ⟨ws, _, h7⟩ := Res.bind_eq_ok.1 h6
          cases h7
          exact findOne_keeps E none none .auto st s1 a (some o) n hx h5
      cases args with
      | nil => cases h3
      | cons a os =>
        cases a with
        | compiler cmd =>
          simp only [commandLine] at h3
          obtain ⟨ws, _, h7⟩ := Res.bind_eq_ok.1 h3
          cases h7; rfl
        | ext e => exact hgo _ os l h3
        | python e => exact hgo _ os l h3
        | file p => exact hgo _ os l h3
        | target i => exact hgo _ os l h3
        | str s => exact hgo _ os l h3
    split at h4
    · cases h4
    · split at h4
      · cases h4
      · split at h4 <;> cases h4 <;> exact hl

/-- A program stays overridden, in all projects, until it is overridden again: whatever happens in between,
`find_program()` gives the program of the last override. -/
theorem override_lasts (pver : Option Bytes) (n : Bytes) (o : Obj) (xs : List Step) (st st1 st2 : St) (E : Env)
    (dirs : Option (List Bytes)) (req : Lookup.Req) (hu : ∀ e, o = .ext e → e.found = true) (hpy : ∀ e, o ≠ .python e)
    (h1 : overrideFindProgram pver n o st = .ok st1) (hx : ∀ x ∈ xs, x.Spares n) (h2 : steps xs st1 = .ok st2) :
    ∃ r, findOne E dirs none req st2 (.str n) = .ok (st2, some r) ∧
      (r = o ∨ ∃ p, o = .file p ∧ r = .ext ⟨true, false, some [p], none⟩) := by
  have hk : st2.over n = st1.over n := by
    clear h1
    induction xs generalizing st1 with
    | nil => cases h2; rfl
    | cons x xs ih =>
      obtain ⟨s, h3, h4⟩ := Res.bind_eq_ok.1 h2
      rw [ih s (fun y hy => hx y (by simp [hy])) h4]
      exact step_spares n x st1 s (hx x (by simp)) h3
  cases o with
  | file p =>
    cases h1
    have hov : Overridden E none st2 n (.ext ⟨true, false, some [p], none⟩) :=
      ⟨_, by rw [hk]; simp, .file p pver (by simp)⟩
    exact ⟨_, override_wins E dirs none req st2 n _ hov, .inr ⟨p, rfl, rfl⟩⟩
  | target i =>
    cases h1
    have hov : Overridden E none st2 n (.target i) := ⟨_, by rw [hk]; simp, .other (.target i) pver (by simp) (by simp)⟩
    exact ⟨_, override_wins E dirs none req st2 n _ hov, .inl rfl⟩
  | ext e =>
    cases h1
    have hov : Overridden E none st2 n (.ext e) := ⟨_, by rw [hk]; simp, .prog e (hu e rfl) (by simp)⟩
    exact ⟨_, override_wins E dirs none req st2 n _ hov, .inl rfl⟩
  | python e => exact absurd rfl (hpy e)
  | str s => cases h1
  | compiler c => cases h1

end Muon.Prog
