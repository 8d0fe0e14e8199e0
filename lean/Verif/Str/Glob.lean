import Verif.Str.Lemmas
namespace Muon.Str
open Muon

/-! Helper lemmas about wildcard matching (C59). -/

theorem globImpl_ne (p s : Bytes) (top : Bool) (h : ¬ (p = [] ∧ top = false)) (hs : s ≠ []) :
    globImpl p s top = globLoop p s 0 0 := by
  rw [globImpl, if_neg h, if_neg hs]

theorem globLoop_nil (s : Bytes) (i m : Nat) : globLoop [] s i m = some m := by rw [globLoop]

theorem globLoop_char (c : UInt8) (p s : Bytes) (i m : Nat) (h : c ≠ 42) :
    globLoop (c :: p) s i m = if c = at' s i then globLoop p s (i + 1) (m + 1) else none := by
  rw [globLoop]; simp only [h, if_false]

/-- A literal pattern prefix. -/
theorem globLoop_lit (p q s : Bytes) (hstar : 42 ∉ p) (h0 : 0 ∉ p) : ∀ (i m : Nat), i ≤ s.length →
    (p <+: s.drop i → globLoop (p ++ q) s i m = globLoop q s (i + p.length) (m + p.length)) ∧
    (¬ p <+: s.drop i → globLoop (p ++ q) s i m = none) := by
  induction p with
  | nil => intro i m _; simp
  | cons c p ih =>
    intro i m hi
    simp only [List.mem_cons, not_or] at hstar h0
    have hc : c ≠ 42 := fun e => hstar.1 e.symm
    have hc0 : c ≠ 0 := fun e => h0.1 e.symm
    rw [List.cons_append, globLoop_char c _ s i m hc]
    by_cases hlt : i < s.length
    · rw [List.drop_eq_getElem_cons hlt, at'_eq s i hlt, List.cons_prefix_cons]
      obtain ⟨h1, h2⟩ := ih hstar.2 h0.2 (i + 1) (m + 1) (by omega)
      constructor
      · rintro ⟨e, hp⟩
        rw [if_pos e, h1 hp]
        simp [Nat.add_assoc, Nat.add_comm 1]
      · intro hn
        by_cases e : c = s[i]
        · rw [if_pos e]; exact h2 (fun hp => hn ⟨e, hp⟩)
        · rw [if_neg e]
    · have hd : s.drop i = [] := List.drop_of_length_le (by omega)
      have ha : at' s i = 0 := by
        unfold at'; rw [List.getD_eq_getElem?_getD, List.getElem?_eq_none (by omega)]; rfl
      rw [hd, ha, if_neg hc0]
      constructor
      · intro hp; simp at hp
      · intro _; rfl

theorem globImpl_lit (q s : Bytes) (hq : q ≠ []) (hstar : 42 ∉ q) (h0 : 0 ∉ q) (top : Bool) :
    globImpl q s top = if s = [] then some 0 else if q <+: s then some q.length else none := by
  by_cases hs : s = []
  · subst hs; rw [globImpl, if_neg (fun h => hq h.1)]; simp
  · rw [globImpl_ne q s top (fun h => hq h.1) hs, if_neg hs]
    have := globLoop_lit q [] s hstar h0 0 0 (Nat.zero_le _)
    simp only [List.append_nil, List.drop_zero, Nat.zero_add] at this
    split
    · next h => rw [this.1 h, globLoop_nil]
    · next h => rw [this.2 h]

/-- The search for the rest `q` of the pattern after a star. -/
theorem starSearch_lit (q : Bytes) (hq : q ≠ []) (hstar : 42 ∉ q) (h0 : 0 ∉ q) (s : Bytes) :
    (∃ mid rest, s = mid ++ q ++ rest ∧ (∀ a b, s = a ++ q ++ b → mid.length ≤ a.length) ∧
      starSearch (fun s' => globImpl q s' false) s = (q.length, mid.length)) ∨
    (¬ q <:+: s ∧ starSearch (fun s' => globImpl q s' false) s = (0, s.length)) := by
  have hpos : 0 < q.length := List.length_pos_iff.2 hq
  induction s with
  | nil =>
    right
    refine ⟨?_, ?_⟩
    · intro h; simp at h; exact hq h
    · simp [starSearch, globImpl_lit q [] hq hstar h0 false]
  | cons c s ih =>
    by_cases hp : q <+: c :: s
    · left
      obtain ⟨rest, hr⟩ := hp
      refine ⟨[], rest, by simpa using hr.symm, by simp, ?_⟩
      have : globImpl q (c :: s) false = some q.length := by
        rw [globImpl_lit q _ hq hstar h0, if_neg (by simp), if_pos ⟨rest, hr⟩]
      simp [starSearch, this]
    · have hn : globImpl q (c :: s) false = none := by
        rw [globImpl_lit q _ hq hstar h0, if_neg (by simp), if_neg hp]
      rcases ih with ⟨mid, rest, e, hmin, hss⟩ | ⟨hno, hss⟩
      · left
        refine ⟨c :: mid, rest, by rw [e]; simp, ?_, by simp [starSearch, hn, hss]⟩
        intro a b hab
        cases a with
        | nil => exact absurd ⟨b, by simpa using hab.symm⟩ hp
        | cons x a =>
          simp only [List.cons_append, List.cons.injEq] at hab
          have := hmin a b hab.2
          simp; omega
      · right
        refine ⟨?_, by simp [starSearch, hn, hss]⟩
        rintro ⟨a, b, hab⟩
        cases a with
        | nil => exact hp ⟨b, by simpa using hab⟩
        | cons x a =>
          simp only [List.cons_append, List.cons.injEq] at hab
          exact hno ⟨a, b, hab.2⟩

theorem starSearch_nil (s : Bytes) : starSearch (fun s' => globImpl [] s' false) s = (s.length, 0) := by
  have : ∀ s, globImpl [] s false = some s.length := by intro s; rw [globImpl]; simp
  cases s with
  | nil => simp [starSearch, this]
  | cons c s => simp [starSearch, this]

theorem globLoop_star (rest s : Bytes) (i m : Nat) : globLoop (42 :: rest) s i m =
    (let sk := starSearch (fun s' => globImpl rest s' false) (s.drop i)
     let sm := if sk.1 ≠ 0 then sk.1 + sk.2 else sk.1
     globLoop (rest.drop sm) s (i + sk.2) (m + sm)) := by
  rw [globLoop]; simp

theorem matches_lit (p s : Bytes) (h : 42 ∉ p) : Spec.Matches p s ↔ p = s := by
  induction p generalizing s with
  | nil => constructor
           · intro h; cases h; rfl
           · rintro rfl; exact .nil
  | cons c p ih =>
    simp only [List.mem_cons, not_or] at h
    constructor
    · intro hm
      cases hm with
      | char _ _ s' hc hm' => rw [(ih _ h.2).1 hm']
      | star _ _ _ _ => exact absurd rfl h.1
    · rintro rfl
      exact .char c p p (fun e => h.1 e.symm) ((ih _ h.2).2 rfl)

theorem matches_pre (p q s : Bytes) (h : 42 ∉ p) (hm : Spec.Matches q s) : Spec.Matches (p ++ q) (p ++ s) := by
  induction p with
  | nil => exact hm
  | cons c p ih =>
    simp only [List.mem_cons, not_or] at h
    exact .char c _ _ (fun e => h.1 e.symm) (ih h.2)

theorem eqlGlob_lit (p s : Bytes) (hs : s ≠ []) (h1 : 42 ∉ p) (h2 : 0 ∉ p) : eqlGlob p s = true ↔ p = s := by
  have hl := globLoop_lit p [] s h1 h2 0 0 (Nat.zero_le _)
  simp only [List.append_nil, List.drop_zero, Nat.zero_add, globLoop_nil] at hl
  unfold eqlGlob
  rw [globImpl_ne p s true (by simp) hs]
  by_cases hp : p <+: s
  · rw [hl.1 hp]
    simp only [beq_iff_eq, Option.some.injEq]
    exact ⟨fun h => List.IsPrefix.eq_of_length hp h, fun h => by rw [h]⟩
  · rw [hl.2 hp]
    constructor
    · intro h; simp at h
    · rintro rfl; exact absurd (List.prefix_refl p) hp

/-- Exact behaviour on a pattern with one star. -/
theorem eqlGlob_star (p q s : Bytes) (hs : s ≠ []) (hp : 42 ∉ p ∧ 0 ∉ p) (hq : 42 ∉ q ∧ 0 ∉ q) :
    eqlGlob (p ++ 42 :: q) s = true ↔ ∃ mid, s = p ++ mid ++ q ∧
      (q ≠ [] → ∀ a b, mid ++ q = a ++ q ++ b → mid.length ≤ a.length) := by
  have hl := globLoop_lit p (42 :: q) s hp.1 hp.2 0 0 (Nat.zero_le _)
  simp only [List.drop_zero, Nat.zero_add] at hl
  unfold eqlGlob
  rw [globImpl_ne _ s true (by simp) hs]
  by_cases hpre : p <+: s
  · rw [hl.1 hpre, globLoop_star]
    obtain ⟨t, rfl⟩ := hpre
    simp only [List.drop_left]
    by_cases hqn : q = []
    · subst hqn
      rw [starSearch_nil]
      simp only [List.drop_nil, globLoop_nil, Nat.add_zero]
      simp
    · simp only [hqn, not_false_eq_true, forall_const, ne_eq]
      have hqpos : 0 < q.length := List.length_pos_iff.2 hqn
      rcases starSearch_lit q hqn hq.1 hq.2 t with ⟨mid, rest, e, hmin, hss⟩ | ⟨hno, hss⟩
      · rw [hss]
        simp only []
        rw [if_pos (by omega), List.drop_of_length_le (by omega), globLoop_nil]
        simp only [beq_iff_eq, Option.some.injEq, List.length_append]
        have hlen : t.length = mid.length + q.length + rest.length := by rw [e]; simp; omega
        constructor
        · intro h
          have hr : rest = [] := by apply List.eq_nil_of_length_eq_zero; omega
          subst hr
          refine ⟨mid, by rw [e]; simp, ?_⟩
          intro a b hab
          apply hmin a b
          rw [e, List.append_nil, hab]
        · rintro ⟨mid', h', hmin'⟩
          rw [List.append_assoc] at h'
          have ht : t = mid' ++ q := List.append_cancel_left h'
          have h1 := hmin mid' [] (by rw [ht]; simp)
          have h2 := hmin' mid rest (by rw [← ht, e])
          have : t.length = mid'.length + q.length := by rw [ht]; simp
          omega
      · rw [hss]
        simp only []
        rw [if_neg (by simp)]
        simp only [List.drop_zero, Nat.add_zero]
        have hl2 := globLoop_lit q [] (p ++ t) hq.1 hq.2 (p.length + t.length) p.length (by simp)
        simp only [List.append_nil] at hl2
        rw [hl2.2 ?_]
        · constructor
          · intro h; simp at h
          · rintro ⟨mid, h', _⟩
            rw [List.append_assoc] at h'
            exact absurd ⟨mid, [], by rw [List.append_cancel_left h']; simp⟩ hno
        · rw [List.drop_of_length_le (by simp)]
          intro h; exact hqn (by simpa using h)
  · rw [hl.2 hpre]
    constructor
    · intro h; simp at h
    · rintro ⟨mid, h', _⟩
      exact absurd ⟨mid ++ q, by rw [h']; simp⟩ hpre

end Muon.Str
