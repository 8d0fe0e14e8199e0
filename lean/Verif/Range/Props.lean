import Verif.Range.Model
/-
C31: the numbers `range()` gives.
-/
namespace Muon.Range
open Muon Val Interp

/-- `a`, `a + s`, `a + 2 s`, ... below `b`, in this order. -/
def Spec.IsRange (a b s : Nat) (l : List Nat) : Prop := l.Pairwise (· < ·) ∧ ∀ x, x ∈ l ↔ ∃ k, x = a + k * s ∧ x < b

/-- The arguments that are accepted, and what they mean. -/
theorem params_accepted (a : Int) (b s : Option Int) :
    (params a b s).isSome ↔ (0 ≤ a ∧ a < 2 ^ 32) ∧ (∀ x, b = some x → a ≤ x ∧ x < 2 ^ 32) ∧ (∀ x, s = some x → 1 ≤ x ∧ x < 2 ^ 32) := by
  have rc : ∀ l h n : Int, (!rangecheck l h n) = true ↔ ¬ (l ≤ n ∧ n ≤ h) := by
    intro l h n
    unfold rangecheck
    simp only [Bool.not_not, Bool.or_eq_true, decide_eq_true_eq]
    omega
  unfold params
  simp only [rc]
  by_cases ha : 0 ≤ a ∧ a ≤ 4294967295
  · rw [if_neg (not_not_intro ha)]
    have ha' : 0 ≤ a ∧ a < 2 ^ 32 := by omega
    have tail : ∀ start stop : Nat, (withStep s start stop).isSome = true ↔ (∀ x, s = some x → 1 ≤ x ∧ x < 2 ^ 32) := by
      intro start stop
      unfold withStep
      simp only [rc]
      cases s with
      | none => simp
      | some s =>
        by_cases hs : 1 ≤ s ∧ s ≤ 4294967295
        · simp [hs]; omega
        · simp [hs]; omega
    cases b with
    | none => dsimp only; rw [tail]; simp only [ha', true_and, and_true, reduceCtorEq, false_implies, implies_true]
    | some b =>
      by_cases hb : a ≤ b ∧ b ≤ 4294967295
      · simp only [if_neg (not_not_intro hb)]
        rw [tail]
        simp only [Option.some.injEq, forall_eq', ha', true_and]
        have : a ≤ b ∧ b < 2 ^ 32 := by omega
        simp only [this, true_and]
      · simp only [if_pos hb]
        constructor
        · intro h; cases h
        · rintro ⟨_, h, _⟩
          have := h b rfl
          exact absurd (by omega) hb
  · rw [if_pos ha]
    constructor
    · intro h; cases h
    · rintro ⟨h, _⟩
      exact absurd (by omega) ha

/-- What accepted arguments mean: `range(n)` starts at 0, the step is 1 unless given. -/
theorem params_meaning (a : Int) (b s : Option Int) (p : Params) (h : params a b s = some p) :
    (p.start : Int) = (if b.isSome then a else 0) ∧ (p.stop : Int) = b.getD a ∧ (p.step : Int) = s.getD 1 ∧ p.start ≤ p.stop ∧ p.stop < 2 ^ 32 ∧ 1 ≤ p.step ∧ p.step < 2 ^ 32 := by
  have hs : (params a b s).isSome := by rw [h]; rfl
  obtain ⟨h1, h2, h3⟩ := (params_accepted a b s).1 hs
  have rc : ∀ l h n : Int, l ≤ n → n ≤ h → (!rangecheck l h n) = false := by
    intro l h n _ _
    unfold rangecheck
    simp only [Bool.not_not, Bool.or_eq_false_iff, decide_eq_false_iff_not]
    omega
  unfold params withStep at h
  rw [rc _ _ _ h1.1 (by omega)] at h
  cases b with
  | none =>
    cases s with
    | none => simp at h; subst h; simp; omega
    | some s =>
      have := h3 s rfl
      simp [rc 1 4294967295 s this.1 (by omega)] at h
      subst h; simp; omega
  | some b =>
    have hb := h2 b rfl
    cases s with
    | none => simp [rc a 4294967295 b hb.1 (by omega)] at h; subst h; simp; omega
    | some s =>
      have := h3 s rfl
      simp [rc a 4294967295 b hb.1 (by omega), rc 1 4294967295 s this.1 (by omega)] at h
      subst h; simp; omega

/-- The counter does not wrap around before the end. -/
def NoWrap (i stop step : Nat) : Prop := ∀ k, i + k * step < stop → i + (k + 1) * step < 2 ^ 32

theorem NoWrap.next {i stop step : Nat} (h : NoWrap i stop step) (hi : i < stop) : i + step < 2 ^ 32 ∧ NoWrap (i + step) stop step := by
  refine ⟨by simpa using h 0 (by simpa using hi), fun k hk => ?_⟩
  have := h (k + 1) (by rw [Nat.add_mul]; omega)
  rw [Nat.add_mul (k + 1)] at this
  omega

theorem loop_exact {stop step : Nat} (hs : 1 ≤ step) : ∀ (f i : Nat), 0 < f → stop < f + i → NoWrap i stop step → ∃ l, loop stop step f i = some l ∧ Spec.IsRange i stop step l := by
  intro f
  induction f with
  | zero => intro i h; omega
  | succ f ih =>
    intro i _ hf hw
    rw [loop]
    by_cases hi : i < stop
    · rw [if_pos hi]
      obtain ⟨h1, h2⟩ := hw.next hi
      rw [Nat.mod_eq_of_lt h1]
      obtain ⟨l, hl, hp, hm⟩ := ih (i + step) (by omega) (by omega) h2
      refine ⟨i :: l, by rw [hl]; rfl, List.pairwise_cons.2 ⟨fun x hx => ?_, hp⟩, fun x => ?_⟩
      · obtain ⟨k, rfl, _⟩ := (hm x).1 hx
        omega
      · rw [List.mem_cons, hm]
        constructor
        · rintro (rfl | ⟨k, rfl, hk⟩)
          · exact ⟨0, by simp, hi⟩
          · exact ⟨k + 1, by rw [Nat.add_mul]; omega, hk⟩
        · rintro ⟨k, rfl, hk⟩
          cases k with
          | zero => exact Or.inl (by simp)
          | succ k => exact Or.inr ⟨k, by rw [Nat.add_mul]; omega, hk⟩
    · rw [if_neg hi]
      refine ⟨[], rfl, List.Pairwise.nil, fun x => ⟨fun h => (by cases h), ?_⟩⟩
      rintro ⟨k, rfl, hk⟩
      omega

theorem loop_wrap {stop step : Nat} (hs : step < 2 ^ 32) (hstop : stop < 2 ^ 32) : ∀ (f i : Nat) l, loop stop step f i = some l → l.Pairwise (· < ·) → NoWrap i stop step := by
  intro f
  induction f with
  | zero => intro i l h; cases h
  | succ f ih =>
    intro i l h hp
    rw [loop] at h
    by_cases hi : i < stop
    · rw [if_pos hi] at h
      cases hl : loop stop step f ((i + step) % 2 ^ 32) with
      | none => rw [hl] at h; cases h
      | some l' =>
        rw [hl] at h
        cases h
        obtain ⟨h1, h2⟩ := List.pairwise_cons.1 hp
        have hlt : i + step < 2 ^ 32 := by
          refine Nat.lt_of_not_le fun hge => ?_
          have he : (i + step) % 2 ^ 32 = i + step - 2 ^ 32 := by
            rw [Nat.mod_eq_sub_mod hge, Nat.mod_eq_of_lt (by omega)]
          rw [he] at hl
          cases f with
          | zero => cases hl
          | succ f =>
            rw [loop, if_pos (by omega)] at hl
            cases hl' : loop stop step f ((i + step - 2 ^ 32 + step) % 2 ^ 32) with
            | none => rw [hl'] at hl; cases hl
            | some l'' =>
              rw [hl'] at hl
              cases hl
              have := h1 _ (List.mem_cons_self ..)
              omega
        rw [Nat.mod_eq_of_lt hlt] at hl
        have := ih (i + step) l' hl h2
        intro k hk
        cases k with
        | zero => simpa using hlt
        | succ k =>
          have := this k (by rw [Nat.add_mul] at hk; omega)
          rw [Nat.add_mul (k + 1)]
          omega
    · intro k hk
      omega

/-- C31, exactly: the result of `range` with accepted arguments is the documented sequence if and only if the counter does not wrap around after the last number. -/
theorem range_exact_partial (a : Int) (b s : Option Int) (p : Params) (h : params a b s = some p) :
    (∃ f l, loop p.stop p.step f p.start = some l ∧ Spec.IsRange p.start p.stop p.step l) ↔ NoWrap p.start p.stop p.step := by
  obtain ⟨_, _, _, _, h5, h6, h7⟩ := params_meaning a b s p h
  constructor
  · rintro ⟨f, l, hl, hp, _⟩
    exact loop_wrap h7 h5 f _ l hl hp
  · intro hw
    obtain ⟨l, hl⟩ := loop_exact h6 (p.stop + 1) p.start (by omega) (by omega) hw
    exact ⟨_, l, hl⟩

/-- In particular if the last number plus the step is below 2^32, as for all numbers below 2^31. -/
theorem range_small (start stop step : Nat) (hs : 1 ≤ step) (h : stop + step ≤ 2 ^ 32) : ∃ l, loop stop step (stop + 1) start = some l ∧ Spec.IsRange start stop step l := by
  refine loop_exact hs _ _ (by omega) (by omega) fun k hk => ?_
  rw [Nat.add_mul]
  omega

example : params 3 (some 10) (some 3) = some ⟨3, 10, 3⟩ := by decide
example : loop 10 3 11 3 = some [3, 6, 9] := by decide

/-- C31 is false in general: `range(0, 4294967295, 2)` does not end. -/
theorem range_endless_counterexample : params 0 (some 4294967295) (some 2) = some ⟨0, 4294967295, 2⟩ ∧ ∀ f, loop 4294967295 2 f 0 = none := by
  refine ⟨by decide, ?_⟩
  have : ∀ f i, i % 2 = 0 → i < 2 ^ 32 → loop 4294967295 2 f i = none := by
    intro f
    induction f with
    | zero => intros; rfl
    | succ f ih =>
      intro i h2 hi
      rw [loop, if_pos (by omega), ih _ (by omega) (by omega)]
      rfl
  exact fun f => this f 0 rfl (by decide)

/-- And `range(5, 10, 4294967295)` is 5, 4, 3, 2, 1, 0. -/
theorem range_wrap_counterexample : params 5 (some 10) (some 4294967295) = some ⟨5, 10, 4294967295⟩ ∧ loop 10 4294967295 20 5 = some [5, 4, 3, 2, 1, 0] := by decide

/-- The body for one number after another. -/
def visit (body : St → Out St) (x : Bytes) : List Nat → St → Out St
  | [], st => .ok st
  | n :: l, st => do
    let st ← body { st with s := { st.s with heap := Heap.alloc st.s.heap (.num n) }, env := bindVar st.env x st.s.heap.next }
    match st.ctl with
    | .breaking => .ok { st with ctl := .norm }
    | _ => visit body x l { st with ctl := .norm }

/-- A loop over `range()` runs its body for the numbers of the range, in order, up to the first `break`. -/
theorem foreach_range_visits (body : St → Out St) (x : Bytes) (stop step : Nat) : ∀ (f i : Nat) (l : List Nat) (st : St), loop stop step f i = some l →
    loopRange body false x stop step f i st = visit body x l st := by
  intro f
  induction f with
  | zero => intro i l st h; cases h
  | succ f ih =>
    intro i l st h
    rw [loop] at h
    rw [loopRange]
    by_cases hi : i < stop
    · rw [if_pos hi] at h ⊢
      cases hl : loop stop step f ((i + step) % 2 ^ 32) with
      | none => rw [hl] at h; cases h
      | some l' =>
        rw [hl] at h
        cases h
        rw [visit]
        simp only [Bool.false_eq_true, if_false]
        cases hb : body { st with s := { st.s with heap := Heap.alloc st.s.heap (.num i) }, env := bindVar st.env x st.s.heap.next } with
        | ok st2 =>
          simp only [Out.ok_bind, afterBody]
          obtain ⟨s, env, ctl⟩ := st2
          cases ctl
          · exact ih _ l' _ hl
          · rfl
          · exact ih _ l' _ hl
        | error => rfl
        | bad => rfl
        | fuel => rfl
    · rw [if_neg hi] at h ⊢
      cases h
      rfl

end Muon.Range
