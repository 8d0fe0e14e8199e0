import Verif.Parse.Model
/-
Helper lemmas: the parser terminates, and the bound on the nesting of calls does not matter.
-/
namespace Muon.Parse
open Muon Lex

@[simp] theorem PR.ok_bind {α β : Type} (a : α) (f : α → PR β) : (PR.ok a >>= f) = f a := rfl
@[simp] theorem PR.fail_bind {α β : Type} (f : α → PR β) : (PR.fail >>= f) = .fail := rfl
@[simp] theorem PR.abort_bind {α β : Type} (f : α → PR β) : (PR.abort >>= f) = .abort := rfl
@[simp] theorem PR.fuel_bind {α β : Type} (f : α → PR β) : (PR.fuel >>= f) = .fuel := rfl

theorem PR.bind_ok {α β : Type} {x : PR α} {f : α → PR β} {b : β} (h : (x >>= f) = .ok b) : ∃ a, x = .ok a ∧ f a = .ok b := by
  cases x with
  | ok a => exact ⟨a, rfl, h⟩
  | fail => cases h
  | abort => cases h
  | fuel => cases h

theorem accept_eq {t : Tok} {ts r : List Tok} (h : accept t ts = some r) : ts = t :: r := by
  cases ts with
  | nil => cases h
  | cons x ts =>
    simp only [accept] at h
    by_cases hx : x = t
    · rw [if_pos hx] at h; rw [hx, Option.some.inj h]
    · rw [if_neg hx] at h; cases h

theorem accept_cons (t : Tok) (r : List Tok) : accept t (t :: r) = some r := by simp [accept]
theorem accept_ne {t x : Tok} (h : x ≠ t) (r : List Tok) : accept t (x :: r) = none := by simp [accept, h]
theorem expect_cons (t : Tok) (r : List Tok) : expect t (t :: r) = .ok r := by simp [expect, accept]

/-! ### Termination -/

/-- The outcome is not `fuel`, and a result satisfies `P`. -/
def Ends {α : Type} (x : PR α) (P : α → Prop) : Prop :=
  match x with
  | .ok a => P a
  | .fuel => False
  | _ => True

theorem Ends.bind {α β : Type} {x : PR α} {f : α → PR β} {Q : α → Prop} {P : β → Prop}
    (hx : Ends x Q) (hf : ∀ a, Q a → Ends (f a) P) : Ends (x >>= f) P := by
  cases x with
  | ok a => exact hf a hx
  | fail => exact trivial
  | abort => exact trivial
  | fuel => exact hx

theorem Ends.mono {α : Type} {x : PR α} {Q P : α → Prop} (hx : Ends x Q) (h : ∀ a, Q a → P a) : Ends x P := by
  cases x with
  | ok a => exact h a hx
  | fail => exact trivial
  | abort => exact trivial
  | fuel => exact hx

theorem Ends.ite {α : Type} {p : Prop} [Decidable p] {x y : PR α} {P : α → Prop}
    (h1 : p → Ends x P) (h2 : ¬ p → Ends y P) : Ends (if p then x else y) P := by
  split
  · next h => exact h1 h
  · next h => exact h2 h

/-- What is left is not longer than the given length. -/
abbrev Le (n : Nat) (p : Node × List Tok) : Prop := p.2.length ≤ n

theorem expect_ends (t : Tok) (ts : List Tok) : Ends (expect t ts) (fun r => r.length + 1 ≤ ts.length) := by
  unfold expect
  split
  · next r h => rw [accept_eq h]; exact Nat.le_refl _
  · exact trivial

theorem name_ends (ts : List Tok) : Ends (name ts) (fun r => r.2.length + 1 ≤ ts.length) := by
  unfold name; split
  · exact Nat.le_refl _
  · exact trivial

theorem binary_ends (f : Node → Node → Node) (l r : Node) (ts : List Tok) (n : Nat) (h : ts.length ≤ n) :
    Ends (binary f l r ts) (Le n) := by
  unfold binary; exact Ends.ite (fun _ => trivial) (fun _ => h)

theorem compOp_length (ts : List Tok) : (compOp ts).2.length ≤ ts.length := by
  unfold compOp
  split
  · simp
  · split
    · simp
    · split
      · split
        · next h => simp only [accept_eq h, List.length_cons]; omega
        · simp
      · simp

theorem unary_length (ts : List Tok) : (unary ts).2.length ≤ ts.length := by
  unfold unary; split <;> simp

theorem e9_length (ts : List Tok) : (e9 ts).2.length ≤ ts.length := by
  unfold e9; split <;> simp

theorem upper_rank (op : Arith) : rank (upper op) < rank (.arith op) := by cases op <;> decide
theorem upper_rank_le (op : Arith) : rank (upper op) ≤ 11 := by cases op <;> decide
theorem arith_rank (op : Arith) : 8 ≤ rank (.arith op) := by cases op <;> decide

theorem body_ends (rec : Call → Nat → List Tok → PR (Node × List Tok)) (n : Nat)
    (ih : ∀ c d ts, 20 * ts.length + rank c < n → Ends (rec c d ts) (Le ts.length)) (c : Call) (d : Nat) (ts : List Tok)
    (h : 20 * ts.length + rank c < n + 1) : Ends (body rec c d ts) (Le ts.length) := by
  have ih' : ∀ c d ts k, 20 * ts.length + rank c < n → ts.length ≤ k → Ends (rec c d ts) (Le k) :=
    fun c d ts k h1 h2 => Ends.mono (ih c d ts h1) (fun a ha => Nat.le_trans ha h2)
  cases c with
  | expr =>
    simp only [rank] at h
    refine Ends.ite (fun _ => trivial) (fun _ => ?_)
    refine Ends.bind (ih .e2 _ ts (by simp only [rank]; omega)) (fun p hp => ?_)
    dsimp only
    split
    · next r hr =>
      have := accept_eq hr
      have hp' : r.length + 1 ≤ ts.length := by have : p.2.length ≤ ts.length := hp; rw [accept_eq hr] at this; simpa using this
      refine Ends.bind (ih .expr _ r (by simp only [rank]; omega)) (fun q hq => ?_)
      have hq : q.2.length ≤ r.length := hq
      refine Ends.bind (expect_ends _ q.2) (fun s hs => ?_)
      refine Ends.bind (ih .expr _ s (by simp only [rank]; omega)) (fun u hu => ?_)
      have hu : u.2.length ≤ s.length := hu
      exact Ends.ite (fun _ => trivial) (fun _ => by show u.2.length ≤ _; omega)
    · exact hp
  | e2 =>
    simp only [rank] at h
    refine Ends.bind (ih .e3 _ ts (by simp only [rank]; omega)) (fun p hp => ?_)
    dsimp only
    split
    · next r hr =>
      have hp' : r.length + 1 ≤ ts.length := by have : p.2.length ≤ ts.length := hp; rw [accept_eq hr] at this; simpa using this
      refine Ends.bind (ih .e2 _ r (by simp only [rank]; omega)) (fun q hq => ?_)
      have hq : q.2.length ≤ r.length := hq
      exact binary_ends _ _ _ _ _ (by omega)
    · exact hp
  | e3 =>
    simp only [rank] at h
    refine Ends.bind (ih .e4 _ ts (by simp only [rank]; omega)) (fun p hp => ?_)
    dsimp only
    split
    · next r hr =>
      have hp' : r.length + 1 ≤ ts.length := by have : p.2.length ≤ ts.length := hp; rw [accept_eq hr] at this; simpa using this
      refine Ends.bind (ih .e3 _ r (by simp only [rank]; omega)) (fun q hq => ?_)
      have hq : q.2.length ≤ r.length := hq
      exact binary_ends _ _ _ _ _ (by omega)
    · exact hp
  | e4 =>
    simp only [rank] at h
    refine Ends.bind (ih (.arith .add) _ ts (by simp only [rank]; omega)) (fun p hp => ?_)
    have hp : p.2.length ≤ ts.length := hp
    have hc := compOp_length p.2
    dsimp only
    split
    · next op r hr =>
      rw [hr] at hc
      have hc : r.length ≤ p.2.length := hc
      refine Ends.bind (ih (.arith .add) _ r (by simp only [rank]; omega)) (fun q hq => ?_)
      have hq : q.2.length ≤ r.length := hq
      exact binary_ends _ _ _ _ _ (by omega)
    · next r hr =>
      rw [hr] at hc
      show r.length ≤ _
      have hc : r.length ≤ p.2.length := hc
      omega
  | arith op =>
    have h1 := upper_rank op
    have h2 := arith_rank op
    refine Ends.bind (ih (upper op) _ ts (by omega)) (fun p hp => ?_)
    have hp : p.2.length ≤ ts.length := hp
    exact ih' _ _ _ _ (by simp only [rank]; omega) hp
  | arithLoop op l =>
    simp only [rank] at h
    have h1 := upper_rank_le op
    show Ends (match accept (arithTok op) ts with | some ts => _ | none => _) _
    split
    · next r hr =>
      rw [accept_eq hr, List.length_cons] at h ⊢
      refine Ends.bind (ih (upper op) _ r (by omega)) (fun q hq => ?_)
      have hq : q.2.length ≤ r.length := hq
      refine Ends.bind (binary_ends _ _ _ q.2 q.2.length (Nat.le_refl _)) (fun u hu => ?_)
      have hu : u.2.length ≤ q.2.length := hu
      exact ih' _ _ _ _ (by simp only [rank]; omega) (by omega)
    · exact Nat.le_refl _
  | e6 =>
    simp only [rank] at h
    have hc := unary_length ts
    show Ends (match unary ts with | (some f, ts) => _ | (none, ts) => _) _
    split
    · next f r hr =>
      rw [hr] at hc
      have hc : r.length ≤ ts.length := hc
      refine Ends.bind (ih .e7 _ r (by simp only [rank]; omega)) (fun q hq => ?_)
      have hq : q.2.length ≤ r.length := hq
      exact Ends.ite (fun _ => trivial) (fun _ => by show q.2.length ≤ _; omega)
    · next r hr =>
      rw [hr] at hc
      have hc : r.length ≤ ts.length := hc
      exact ih' _ _ _ _ (by simp only [rank]; omega) hc
  | e7 =>
    simp only [rank] at h
    refine Ends.bind (ih .e8 _ ts (by simp only [rank]; omega)) (fun p hp => ?_)
    have hp : p.2.length ≤ ts.length := hp
    exact ih' _ _ _ _ (by simp only [rank]; omega) hp
  | chained l =>
    simp only [rank] at h
    show Ends (match accept .dot ts with | some ts => _ | none => _) _
    split
    · next r hr =>
      rw [accept_eq hr, List.length_cons] at h ⊢
      refine Ends.ite (fun _ => trivial) (fun _ => ?_)
      refine Ends.bind (name_ends r) (fun nm hn => ?_)
      refine Ends.bind (expect_ends _ nm.2) (fun s hs => ?_)
      refine Ends.bind (ih (.list .arguments) _ s (by simp only [rank]; omega)) (fun q hq => ?_)
      have hq : q.2.length ≤ s.length := hq
      refine Ends.bind (expect_ends _ q.2) (fun u hu => ?_)
      exact ih' _ _ _ _ (by simp only [rank]; omega) (by omega)
    · split
      · next r hr =>
        rw [accept_eq hr, List.length_cons] at h ⊢
        refine Ends.ite (fun _ => trivial) (fun _ => ?_)
        refine Ends.bind (ih .expr _ r (by simp only [rank]; omega)) (fun q hq => ?_)
        have hq : q.2.length ≤ r.length := hq
        refine Ends.ite (fun _ => trivial) (fun _ => ?_)
        refine Ends.bind (expect_ends _ q.2) (fun u hu => ?_)
        exact ih' _ _ _ _ (by simp only [rank]; omega) (by omega)
      · split
        · next r hr =>
          rw [accept_eq hr, List.length_cons] at h ⊢
          refine Ends.ite (fun _ => trivial) (fun _ => ?_)
          refine Ends.bind (ih (.list .arguments) _ r (by simp only [rank]; omega)) (fun q hq => ?_)
          have hq : q.2.length ≤ r.length := hq
          refine Ends.bind (expect_ends _ q.2) (fun u hu => ?_)
          exact ih' _ _ _ _ (by simp only [rank]; omega) (by omega)
        · exact Nat.le_refl _
  | e8 =>
    simp only [rank] at h
    show Ends (match accept .lparen ts with | some ts => _ | none => _) _
    split
    · next r hr =>
      rw [accept_eq hr, List.length_cons] at h ⊢
      refine Ends.bind (ih .expr _ r (by simp only [rank]; omega)) (fun q hq => ?_)
      have hq : q.2.length ≤ r.length := hq
      refine Ends.bind (expect_ends _ q.2) (fun u hu => ?_)
      exact Ends.ite (fun _ => trivial) (fun _ => by show u.length ≤ _; omega)
    · split
      · next r hr =>
        rw [accept_eq hr, List.length_cons] at h ⊢
        refine Ends.bind (ih (.list .array) _ r (by simp only [rank]; omega)) (fun q hq => ?_)
        have hq : q.2.length ≤ r.length := hq
        refine Ends.bind (expect_ends _ q.2) (fun u hu => ?_)
        show u.length ≤ _; omega
      · split
        · next r hr =>
          rw [accept_eq hr, List.length_cons] at h ⊢
          refine Ends.bind (ih (.list .dictionary) _ r (by simp only [rank]; omega)) (fun q hq => ?_)
          have hq : q.2.length ≤ r.length := hq
          refine Ends.bind (expect_ends _ q.2) (fun u hu => ?_)
          show u.length ≤ _; omega
        · exact e9_length ts
  | list mode =>
    simp only [rank] at h
    have hmore : ∀ us : List Tok, us.length ≤ ts.length → Ends (more rec mode d us) (Le ts.length) := by
      intro us hu
      unfold more
      split
      · next r hr =>
        rw [accept_eq hr, List.length_cons] at hu
        exact ih' _ _ _ _ (by simp only [rank]; omega) (by omega)
      · exact hu
    refine Ends.bind (ih .expr _ ts (by simp only [rank]; omega)) (fun p hp => ?_)
    have hp : p.2.length ≤ ts.length := hp
    refine Ends.ite (fun _ => hp) (fun _ => ?_)
    have hcol : Ends (colon mode p.2) (fun o => ∀ r, o = some r → r.length + 1 ≤ p.2.length) := by
      unfold colon
      split
      · intro r hr; cases hr
      · intro r hr; rw [accept_eq hr]; exact Nat.le_refl _
      · refine Ends.bind (expect_ends _ _) (fun u hu => ?_)
        intro r hr; cases hr; exact hu
    refine Ends.bind hcol (fun o ho => ?_)
    split
    · next r =>
      have hr := ho r rfl
      have hval : Ends (value rec mode p.1 d r) (Le ts.length) := by
        unfold value
        have : Ends (do let (v, ts) ← rec .expr d r; if v = .empty then .fail else .ok (v, ts)) (Le ts.length) := by
          refine Ends.bind (ih .expr _ r (by simp only [rank]; omega)) (fun q hq => ?_)
          have hq : q.2.length ≤ r.length := hq
          exact Ends.ite (fun _ => trivial) (fun _ => by show q.2.length ≤ _; omega)
        split
        · exact this
        · exact this
        · exact this
        · exact trivial
      refine Ends.bind hval (fun v hv => ?_)
      refine Ends.bind (hmore v.2 hv) (fun q hq => hq)
    · refine Ends.bind (hmore p.2 hp) (fun q hq => hq)

theorem run_ends : ∀ (n : Nat) (c : Call) (d : Nat) (ts : List Tok), 20 * ts.length + rank c < n →
    Ends (run n c d ts) (Le ts.length) := by
  intro n
  induction n with
  | zero => intro c d ts h; omega
  | succ n ih => intro c d ts h; exact body_ends (run n) n ih c d ts h

/-! ### The bound does not matter -/

/-- `y` is the outcome `x`, unless `x` is `fuel`. -/
def Up {α : Type} (x y : PR α) : Prop := x = .fuel ∨ x = y

theorem Up.rfl' {α : Type} {x : PR α} : Up x x := Or.inr rfl

theorem Up.bind {α β : Type} {x y : PR α} {f g : α → PR β} (h : Up x y) (hf : ∀ a, Up (f a) (g a)) :
    Up (x >>= f) (y >>= g) := by
  rcases h with rfl | rfl
  · exact Or.inl rfl
  · cases x with
    | ok a => exact hf a
    | fail => exact Or.inr rfl
    | abort => exact Or.inr rfl
    | fuel => exact Or.inr rfl

theorem Up.ite {α : Type} {p : Prop} [Decidable p] {x y x' y' : PR α} (h1 : Up x x') (h2 : Up y y') :
    Up (if p then x else y) (if p then x' else y') := by
  split
  · exact h1
  · exact h2

theorem body_up (r1 r2 : Call → Nat → List Tok → PR (Node × List Tok)) (ih : ∀ c d ts, Up (r1 c d ts) (r2 c d ts))
    (c : Call) (d : Nat) (ts : List Tok) : Up (body r1 c d ts) (body r2 c d ts) := by
  cases c with
  | expr =>
    refine Up.ite Up.rfl' (Up.bind (ih _ _ _) (fun p => ?_))
    dsimp only
    split
    · exact Up.bind (ih _ _ _) (fun q => Up.bind Up.rfl' (fun s => Up.bind (ih _ _ _) (fun u => Up.rfl')))
    · exact Up.rfl'
  | e2 | e3 =>
    refine Up.bind (ih _ _ _) (fun p => ?_)
    dsimp only
    split
    · exact Up.bind (ih _ _ _) (fun q => Up.rfl')
    · exact Up.rfl'
  | e4 =>
    refine Up.bind (ih _ _ _) (fun p => ?_)
    dsimp only
    split
    · exact Up.bind (ih _ _ _) (fun q => Up.rfl')
    · exact Up.rfl'
  | arith op => exact Up.bind (ih _ _ _) (fun p => ih _ _ _)
  | arithLoop op l =>
    show Up (match accept (arithTok op) ts with | some ts => _ | none => _) (match accept (arithTok op) ts with | some ts => _ | none => _)
    split
    · exact Up.bind (ih _ _ _) (fun q => Up.bind Up.rfl' (fun s => ih _ _ _))
    · exact Up.rfl'
  | e6 =>
    show Up (match unary ts with | (some f, ts) => _ | (none, ts) => _) (match unary ts with | (some f, ts) => _ | (none, ts) => _)
    split
    · exact Up.bind (ih _ _ _) (fun q => Up.rfl')
    · exact ih _ _ _
  | e7 => exact Up.bind (ih _ _ _) (fun p => ih _ _ _)
  | chained l =>
    show Up (match accept .dot ts with | some ts => _ | none => _) (match accept .dot ts with | some ts => _ | none => _)
    split
    · exact Up.ite Up.rfl' (Up.bind Up.rfl' (fun _ => Up.bind Up.rfl' (fun _ => Up.bind (ih _ _ _) (fun _ => Up.bind Up.rfl' (fun _ => ih _ _ _)))))
    · split
      · exact Up.ite Up.rfl' (Up.bind (ih _ _ _) (fun _ => Up.ite Up.rfl' (Up.bind Up.rfl' (fun _ => ih _ _ _))))
      · split
        · exact Up.ite Up.rfl' (Up.bind (ih _ _ _) (fun _ => Up.bind Up.rfl' (fun _ => ih _ _ _)))
        · exact Up.rfl'
  | e8 =>
    show Up (match accept .lparen ts with | some ts => _ | none => _) (match accept .lparen ts with | some ts => _ | none => _)
    split
    · exact Up.bind (ih _ _ _) (fun _ => Up.rfl')
    · split
      · exact Up.bind (ih _ _ _) (fun _ => Up.rfl')
      · split
        · exact Up.bind (ih _ _ _) (fun _ => Up.rfl')
        · exact Up.rfl'
  | list mode =>
    have hmore : ∀ us : List Tok, Up (more r1 mode d us) (more r2 mode d us) := by
      intro us; unfold more; split
      · exact ih _ _ _
      · exact Up.rfl'
    refine Up.bind (ih _ _ _) (fun p => Up.ite Up.rfl' (Up.bind Up.rfl' (fun o => ?_)))
    split
    · next r =>
      have hval : Up (value r1 mode p.1 d r) (value r2 mode p.1 d r) := by
        unfold value
        split
        · exact Up.bind (ih _ _ _) (fun _ => Up.rfl')
        · exact Up.bind (ih _ _ _) (fun _ => Up.rfl')
        · exact Up.bind (ih _ _ _) (fun _ => Up.rfl')
        · exact Up.rfl'
      exact Up.bind hval (fun v => Up.bind (hmore _) (fun _ => Up.rfl'))
    · exact Up.bind (hmore _) (fun _ => Up.rfl')

theorem run_up (n : Nat) : ∀ (c : Call) (d : Nat) (ts : List Tok), Up (run n c d ts) (run (n + 1) c d ts) := by
  induction n with
  | zero => intro c d ts; exact Or.inl rfl
  | succ n ih => intro c d ts; exact body_up _ _ ih c d ts

theorem run_mono {n m : Nat} (h : n ≤ m) (c : Call) (d : Nat) (ts : List Tok) (hf : run n c d ts ≠ .fuel) :
    run m c d ts = run n c d ts := by
  induction h with
  | refl => rfl
  | @step m _ ih =>
    rcases run_up m c d ts with h | h
    · rw [ih] at h; exact absurd h hf
    · rw [← h, ih]

/-- The parser with a sufficient bound. -/
def pc (c : Call) (d : Nat) (ts : List Tok) : PR (Node × List Tok) := run (bound c ts) c d ts

theorem pc_ends (c : Call) (d : Nat) (ts : List Tok) : Ends (pc c d ts) (Le ts.length) :=
  run_ends (bound c ts) c d ts (by unfold bound; omega)

theorem pc_ne_fuel (c : Call) (d : Nat) (ts : List Tok) : pc c d ts ≠ .fuel := by
  intro h
  have := pc_ends c d ts
  rw [h] at this; exact this

theorem run_up_pc (n : Nat) (c : Call) (d : Nat) (ts : List Tok) : Up (run n c d ts) (pc c d ts) := by
  by_cases h : run n c d ts = .fuel
  · exact Or.inl h
  · right
    rcases Nat.le_total n (bound c ts) with hle | hle
    · exact (run_mono hle c d ts h).symm
    · exact run_mono hle c d ts (pc_ne_fuel c d ts)

/-- The functions of the parser without a bound. -/
theorem pc_eq (c : Call) (d : Nat) (ts : List Tok) : pc c d ts = body pc c d ts := by
  have h1 : pc c d ts = run (bound c ts + 1) c d ts := (run_mono (Nat.le_succ _) c d ts (pc_ne_fuel c d ts)).symm
  have h2 := body_up (run (bound c ts)) pc (run_up_pc _) c d ts
  rcases h2 with h2 | h2
  · exact absurd (h1.trans h2) (pc_ne_fuel c d ts)
  · rw [h1]; exact h2

theorem parseExpr_eq (d : Nat) (ts : List Tok) : parseExpr d ts = pc .expr d ts := rfl

end Muon.Parse
