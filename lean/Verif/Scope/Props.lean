import Verif.Scope.Lexical
/-
Theorems about variables, scopes and user-defined functions.
-/
namespace Muon.Scope
open Muon Muon.Scope.Spec
open Muon.Interp (Out Ctl)

/-! ### What a name stands for -/

theorem lookup_iff (x v) : ∀ l : List Scope, lookup x l = some v ↔ Sees l x v
  | [] => ⟨fun h => absurd h (by simp [lookup]), fun ⟨a, s, b, h, _, _⟩ => by cases a <;> cases h⟩
  | s :: l => by
    rw [lookup]
    cases hs : s x with
    | some w =>
      refine ⟨fun h => ⟨[], s, l, rfl, by simp, by rw [hs]; exact h⟩, ?_⟩
      rintro ⟨a, t, b, h, ha, ht⟩
      cases a with
      | nil =>
        simp only [List.nil_append, List.cons.injEq] at h
        rw [← h.1, hs] at ht
        exact ht
      | cons c a =>
        simp only [List.cons_append, List.cons.injEq] at h
        have := ha c (by simp)
        rw [← h.1, hs] at this
        cases this
    | none =>
      dsimp only
      rw [lookup_iff x v l]
      constructor
      · rintro ⟨a, t, b, h, ha, ht⟩
        refine ⟨s :: a, t, b, by rw [h]; rfl, ?_, ht⟩
        intro c hc
        rcases List.mem_cons.1 hc with rfl | hc
        · exact hs
        · exact ha c hc
      · rintro ⟨a, t, b, h, ha, ht⟩
        cases a with
        | nil =>
          simp only [List.nil_append, List.cons.injEq] at h
          rw [← h.1, hs] at ht
          cases ht
        | cons c a =>
          simp only [List.cons_append, List.cons.injEq] at h
          exact ⟨a, t, b, h.2, fun d hd => ha d (by simp [hd]), ht⟩

theorem lookup_none (x) (l : List Scope) : lookup x l = none ↔ ∀ v, ¬ Sees l x v := by
  constructor
  · intro h v hv
    rw [(lookup_iff x v l).2 hv] at h
    cases h
  · intro h
    cases e : lookup x l with
    | none => rfl
    | some v => exact absurd ((lookup_iff x v l).1 e) (h v)

/-- A name in an expression has the value of the innermost scope that has it, and is an error if there is none. -/
theorem variable_iff (n x) (st : St) (h : st.skipping = false) (v : Val) (st' : St) :
    eval (n + 1) (.var x) st = .ok (v, st') ↔ Sees st.here x v ∧ st' = st := by
  rw [eval.eq_def]
  dsimp only
  rw [h]
  simp only [Bool.false_eq_true, if_false, getVar, Bool.false_and]
  cases e : lookup x st.here with
  | none =>
    refine ⟨fun h => absurd h (by simp), fun h => absurd h.1 ((lookup_none x _).1 e v)⟩
  | some w =>
    dsimp only
    rw [Out.ok.injEq, Prod.mk.injEq, ← lookup_iff, e, Option.some.injEq]
    constructor
    · rintro ⟨a, b⟩; exact ⟨a, b.symm⟩
    · rintro ⟨a, b⟩; exact ⟨a, b.symm⟩

theorem variable_undefined (n x) (st : St) (h : st.skipping = false) :
    eval (n + 1) (.var x) st = .error ↔ ∀ v, ¬ Sees st.here x v := by
  rw [← lookup_none, eval.eq_def]
  dsimp only
  rw [h]
  simp only [Bool.false_eq_true, if_false, getVar, Bool.false_and]
  cases e : lookup x st.here with
  | none => simp
  | some w => simp

/-- `is_variable()` says whether the name can be used. -/
theorem is_variable_iff (n x) (st : St) (h : st.skipping = false) :
    (eval (n + 1) (.isVar x) st = .ok (.num 1, st) ↔ ∃ v, Sees st.here x v)
    ∧ (eval (n + 1) (.isVar x) st = .ok (.num 0, st) ↔ ∀ v, ¬ Sees st.here x v) := by
  rw [eval.eq_def]
  dsimp only
  rw [h, ← lookup_none]
  simp only [Bool.false_eq_true, if_false]
  have e1 : (∃ v, Sees st.here x v) ↔ (lookup x st.here).isSome := by
    rw [Option.isSome_iff_exists]
    exact ⟨fun ⟨v, hv⟩ => ⟨v, (lookup_iff x v _).2 hv⟩, fun ⟨v, hv⟩ => ⟨v, (lookup_iff x v _).1 hv⟩⟩
  rw [e1]
  cases lookup x st.here <;> simp

/-- After an assignment the name has the new value, every other name means the same; only the innermost scope has changed. -/
theorem assign_sees (st st' : St) (x : Bytes) (v : Val) (s : Scope) (l : List Scope) (hh : st.here = s :: l) (h : assignTo x v st = .ok st') :
    Sees st'.here x v ∧ (∀ y w, y ≠ x → (Sees st'.here y w ↔ Sees st.here y w)) ∧ st'.here.tail = l ∧ v ≠ .void := by
  unfold assignTo at h
  split at h
  · cases h
  · rename_i hv
    have hl : st.cur < st.stacks.length := by
      apply Decidable.byContradiction
      intro hc
      rw [St.here, List.getD_eq_getElem?_getD, List.getElem?_eq_none (Nat.le_of_not_lt hc)] at hh
      cases hh
    have e : st'.here = put s x v :: l := by
      rw [← Out.ok.inj h]
      show (st.on st.cur (putLocal x v)).stacks.getD st.cur [] = _
      have := on_eq st st.cur (putLocal x v)
      rw [List.getD_eq_getElem?_getD, this]
      rw [St.here, List.getD_eq_getElem?_getD] at hh
      rw [List.getElem?_eq_getElem hl] at hh ⊢
      simp only [Option.getD_some] at hh
      simp [hh, putLocal]
    rw [e, hh]
    refine ⟨⟨[], _, l, rfl, by simp, by simp [put]⟩, fun y w hy => ?_, rfl, hv⟩
    rw [← lookup_iff, ← lookup_iff, lookup, lookup]
    simp [put, hy]

/-- `x += e` and `unset_variable('x')` act on the innermost scope that has the name. -/
theorem putFound_sees (x v) (a : List Scope) (s : Scope) (b : List Scope) (ha : ∀ t ∈ a, t x = none) (hs : (s x).isSome = true) :
    putFound x v (a ++ s :: b) = a ++ put s x v :: b := by
  induction a with
  | nil => simp [putFound, hs]
  | cons t a ih =>
    simp only [List.cons_append, putFound, ha t (by simp), Option.isSome_none, Bool.false_eq_true, if_false]
    rw [ih fun u hu => ha u (by simp [hu])]

theorem delFound_sees (x) (a : List Scope) (s : Scope) (b : List Scope) (ha : ∀ t ∈ a, t x = none) (hs : (s x).isSome = true) :
    delFound x (a ++ s :: b) = a ++ del s x :: b := by
  induction a with
  | nil => simp [delFound, hs]
  | cons t a ih =>
    simp only [List.cons_append, delFound, ha t (by simp), Option.isSome_none, Bool.false_eq_true, if_false]
    rw [ih fun u hu => ha u (by simp [hu])]

theorem here_on (st : St) (g : List Scope → List Scope) (hn : st.here ≠ []) : (st.on st.cur g).here = g st.here := by
  have hl : st.cur < st.stacks.length := by
    apply Decidable.byContradiction
    intro hc
    rw [St.here, List.getD_eq_getElem?_getD, List.getElem?_eq_none (Nat.le_of_not_lt hc)] at hn
    exact hn rfl
  show (st.on st.cur g).stacks.getD st.cur [] = _
  rw [List.getD_eq_getElem?_getD, on_eq, St.here, List.getD_eq_getElem?_getD, List.getElem?_eq_getElem hl]
  rfl

/-- `unset_variable()` of a name that is not defined is an error; otherwise the innermost scope with the name loses it, so
that the name is not defined any more unless an outer scope has it; other names mean the same. -/
theorem unset_sees (st : St) (x : Bytes) :
    ((∀ v, ¬ Sees st.here x v) → unset x st = .error) ∧
    ∀ inner s outer, st.here = inner ++ s :: outer → (∀ t ∈ inner, t x = none) → (s x).isSome = true →
      ∃ st', unset x st = .ok st' ∧ (∀ w, Sees st'.here x w ↔ Sees outer x w) ∧ ∀ y w, y ≠ x → (Sees st'.here y w ↔ Sees st.here y w) := by
  constructor
  · intro h
    unfold unset
    rw [(lookup_none x _).2 h]
    rfl
  · intro a s b hh ha hs
    obtain ⟨v, hv⟩ := Option.isSome_iff_exists.1 hs
    have hl : lookup x st.here = some v := (lookup_iff x v _).2 ⟨a, s, b, hh, ha, hv⟩
    refine ⟨_, by unfold unset; rw [hl]; rfl, ?_⟩
    rw [here_on _ _ (by rw [hh]; simp), hh, delFound_sees x a s b ha hs]
    have key : ∀ y (c : List Scope) (t u : Scope), (t y = u y) → lookup y (c ++ t :: b) = lookup y (c ++ u :: b) := by
      intro y c t u e
      induction c with
      | nil => simp only [List.nil_append, lookup, e]
      | cons d c ih => simp only [List.cons_append, lookup, ih]
    constructor
    · intro w
      rw [← lookup_iff, ← lookup_iff]
      have : ∀ c : List Scope, (∀ t ∈ c, t x = none) → lookup x (c ++ del s x :: b) = lookup x b := by
        intro c hc
        induction c with
        | nil => simp [lookup, del]
        | cons d c ih => simp only [List.cons_append, lookup, hc d (by simp)]; exact ih fun t ht => hc t (by simp [ht])
      rw [this a ha]
    · intro y w hy
      rw [← lookup_iff, ← lookup_iff, key y a (del s x) s (by simp [del, hy])]

/-! ### Calls -/

/-- Evaluating an expression, whatever it calls, leaves the scopes in use as many as before, and every scope stack that
existed with as many scopes. -/
theorem scopes_balanced (n e) (st : St) (r) (h : eval n e st = .ok r) :
    r.2.cur = st.cur ∧ st.stacks.length ≤ r.2.stacks.length ∧
    ∀ i, i < st.stacks.length → (r.2.stacks[i]?).map List.length = (st.stacks[i]?).map List.length :=
  let b := ((all closedTrue balRel n).eval e st r trivial h).2
  ⟨b.1, b.2.2.1, b.2.2.2⟩

/-- The same for statements. -/
theorem statements_balanced (n p) (st st' : St) (h : exec n p st = .ok st') :
    st'.cur = st.cur ∧ st.stacks.length ≤ st'.stacks.length ∧
    ∀ i, i < st.stacks.length → (st'.stacks[i]?).map List.length = (st.stacks[i]?).map List.length :=
  let b := ((all closedTrue balRel n).exec p st st' trivial trivial h).2
  ⟨b.1, b.2.2.1, b.2.2.2⟩

/-- Variables of the file itself: after any program `p`, an expression, whatever functions it calls, changes none of them. -/
theorem file_variables_safe (n p) (st : St) (hp : exec n p St.init = .ok st) (m e) (r) (h : eval m e st = .ok r) :
    r.2.here = st.here ∧ Own 0 st ∧ st.cur = 0 := by
  have hi : Own 0 St.init := ⟨Nat.zero_lt_one, fun f hf => by cases hf⟩
  have a := (all closedTrue (keepsRel 0) n).exec p _ _ trivial hi hp
  have b := (all closedTrue (keepsRel 0) m).eval e _ _ a.1 h
  have c : st.cur = 0 := a.2.1.1
  refine ⟨?_, a.1, c⟩
  rw [St.here, St.here, b.2.1.1, c, List.getD_eq_getElem?_getD, List.getD_eq_getElem?_getD, b.2.2]

/-- In general: an expression changes only scopes of functions that existed. -/
theorem others_safe (j n e) (st : St) (hj : Own j st) (r) (h : eval n e st = .ok r) : r.2.stacks[j]? = st.stacks[j]? :=
  ((all closedTrue (keepsRel j) n).eval e st r hj h).2.2

/-- What a call does, and its result, does not depend on the variables of the file it is called from: if they are replaced by
any others, the outcome is the same. -/
theorem call_lexical (j : Nat) (l : List Scope) (n : Nat) (f : Fn) (vals kvals : List Val) (st : St) (hj : Own j st) (hf : f ∈ st.fns) :
    run n f vals kvals (other j l st) = others j l (run n f vals kvals st) :=
  (sameAll n).run f vals kvals st hj hf

/-- In particular a later assignment does not change what a function does. -/
theorem later_assignment (n : Nat) (f : Fn) (vals kvals : List Val) (st st' : St) (x : Bytes) (v : Val) (hj : Own st.cur st) (hf : f ∈ st.fns)
    (h : assignTo x v st = .ok st') (r) (hr : run n f vals kvals st = .ok r) : ∃ r', run n f vals kvals st' = .ok r' ∧ r'.1 = r.1 := by
  unfold assignTo at h
  split at h
  · cases h
  · have e : st' = other st.cur (putLocal x v st.here) st := by rw [← Out.ok.inj h]; rfl
    rw [e, call_lexical _ _ _ _ _ _ _ hj hf, hr]
    exact ⟨_, rfl, rfl⟩

/-- If no function and no statement uses `+=` or `unset_variable()`, an expression changes no variable of any scope that exists. -/
theorem quiet_calls (n e) (st : St) (hq : ∀ f ∈ st.fns, Quiet f.body) (r) (h : eval n e st = .ok r) (i : Nat) (hi : i < st.stacks.length) :
    r.2.stacks[i]? = st.stacks[i]? :=
  ((all closedQuiet quietRel n).eval e st r hq h).2.2 i hi

/-- The same for statements: only the innermost scope in use changes. -/
theorem quiet_statements (n p) (st : St) (hp : Quiet p) (hq : ∀ f ∈ st.fns, Quiet f.body) (st' : St) (h : exec n p st = .ok st')
    (i : Nat) (hi : i < st.stacks.length) :
    (i ≠ st.cur → st'.stacks[i]? = st.stacks[i]?) ∧ (st'.stacks[i]?).map List.tail = (st.stacks[i]?).map List.tail :=
  ((all closedQuiet quietRel n).exec p st st' hp hq h).2.2 i hi

/-- A function with a return type returns something, one without returns nothing; and the caller goes on. -/
theorem result_type (n f vals kvals) (st : St) (r) (h : run n f vals kvals st = .ok r) :
    (f.any = true ↔ r.1 ≠ .void) ∧ r.2.returning = false := by
  cases n with
  | zero => cases h
  | succ n =>
    rw [run] at h
    obtain ⟨s, _, h⟩ := bindOk h
    unfold leave at h
    split at h
    · cases h
    · rename_i hne
      rw [← Out.ok.inj h]
      refine ⟨⟨fun ha hv => hne (propext ⟨fun _ => ha, fun _ => hv⟩), fun hv => ?_⟩, rfl⟩
      cases ha : f.any with
      | true => rfl
      | false => exact absurd (propext ⟨fun h' => absurd h' hv, fun h' => by rw [ha] at h'; cases h'⟩) hne

/-- Nothing after `return` is run. -/
theorem return_ends (n e b) (st r : St) (h : exec n (.seq (.ret e) b) st = .ok r) (hs : st.skipping = false) :
    ∃ m, exec m (.ret e) st = .ok r ∧ r.returning = true := by
  cases n with
  | zero => cases h
  | succ n =>
    rw [exec.eq_def] at h
    simp only [hs, Bool.false_eq_true, if_false] at h
    obtain ⟨s, h1, h2⟩ := bindOk h
    cases n with
    | zero => cases h1
    | succ n =>
      have hr : s.returning = true := by
        rw [exec.eq_def] at h1
        simp only [hs, Bool.false_eq_true, if_false] at h1
        obtain ⟨q, _, h1⟩ := bindOk h1
        rw [← Out.ok.inj h1]
      have e2 : exec (n + 1) b s = .ok s := by
        rw [exec.eq_def]
        simp [St.skipping, hr]
      rw [e2] at h2
      rw [← Out.ok.inj h2]
      exact ⟨n + 1, h1, hr⟩

/-- The result of a function that starts with `return e` is the value of `e` among its parameters and the variables it was
defined with. -/
theorem return_value (n e b) (f : Fn) (hb : f.body = .seq (.ret (some e)) b) (vals kvals) (st : St) (hc : st.ctl = .norm) (r)
    (h : run n f vals kvals st = .ok r) : ∃ m q, eval m e (st.enter f vals kvals) = .ok q ∧ r.1 = q.1 := by
  cases n with
  | zero => cases h
  | succ n =>
    rw [run] at h
    obtain ⟨s, h1, h⟩ := bindOk h
    rw [hb] at h1
    have hsk : (st.enter f vals kvals).skipping = false := by simp [St.skipping, St.enter, St.on, hc]
    obtain ⟨m, h2, _⟩ := return_ends _ _ _ _ _ h1 hsk
    cases m with
    | zero => cases h2
    | succ m =>
      rw [exec.eq_def] at h2
      simp only [hsk, Bool.false_eq_true, if_false] at h2
      obtain ⟨q, h3, h4⟩ := bindOk h2
      cases m with
      | zero => cases h3
      | succ m =>
        refine ⟨m, q, h3, ?_⟩
        rw [(leave_st h).2.2.2, ← Out.ok.inj h4]

end Muon.Scope
