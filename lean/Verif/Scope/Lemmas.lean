import Verif.Scope.Model
namespace Muon.Scope
open Muon
open Muon.Interp (Out Ctl)

theorem bindOk {α β : Type} {x : Out α} {g : α → Out β} {b : β} (h : (x >>= g) = .ok b) : ∃ a, x = .ok a ∧ g a = .ok b := by
  cases x with
  | ok a => exact ⟨a, rfl, h⟩
  | error => cases h
  | bad => cases h
  | fuel => cases h

/-- Statements closed under parts. -/
structure Closed (Q : Stmt → Prop) : Prop where
  seq : ∀ a b, Q (.seq a b) → Q a ∧ Q b
  ite : ∀ c a b, Q (.ite c a b) → Q a ∧ Q b
  rep : ∀ x n p, Q (.rep x n p) → Q p
  fdef : ∀ name pos kws any body, Q (.fdef name pos kws any body) → Q body

/-- What has to be shown of an invariant `I`, a relation `E` between the states before and after an expression, and a
relation `X` between the states before and after a statement. -/
structure Rel (Q : Stmt → Prop) (I : St → Prop) (E X : St → St → Prop) : Prop where
  refl : ∀ st, E st st
  trans : ∀ a b c, E a b → E b c → E a c
  weak : ∀ a b, E a b → X a b
  xtrans : ∀ a b c, X a b → X b c → X a c
  same : ∀ st st' : St, st'.stacks = st.stacks → st'.cur = st.cur → st'.fns = st.fns → I st → I st' ∧ E st st'
  locals : ∀ st x v, I st → I (st.on st.cur (putLocal x v)) ∧ X st (st.on st.cur (putLocal x v))
  found : ∀ st x v e, Q (.plus x e) → I st → I (st.on st.cur (putFound x v)) ∧ X st (st.on st.cur (putFound x v))
  unset : ∀ st x, Q (.unset x) → I st → I (st.on st.cur (delFound x)) ∧ X st (st.on st.cur (delFound x))
  dup : ∀ st : St, I st → I { st with stacks := st.stacks ++ [st.here] } ∧ E st { st with stacks := st.stacks ++ [st.here] }
  define : ∀ st st' name pos ds any body, Q body → I st → I st' → E { st with stacks := st.stacks ++ [st.here] } st' →
    I (St.define st' name ⟨pos, ds, any, body, st.stacks.length⟩) ∧ X st' (St.define st' name ⟨pos, ds, any, body, st.stacks.length⟩)
  body : ∀ (st : St) f, I st → f ∈ st.fns → Q f.body
  mem : ∀ (st st' : St) f, E st st' → f ∈ st.fns → f ∈ st'.fns
  enter : ∀ (st : St) f v k, I st → f ∈ st.fns → I (st.enter f v k)
  leave : ∀ (st st' : St) f v k r, I st → f ∈ st.fns → I st' → X (st.enter f v k) st' → leave f st.cur st' = .ok r → I r.2 ∧ E st r.2

/-- The statements about all functions of the interpreter for one amount of fuel. -/
structure All (Q : Stmt → Prop) (I : St → Prop) (E X : St → St → Prop) (n : Nat) : Prop where
  eval : ∀ e st r, I st → eval n e st = .ok r → I r.2 ∧ E st r.2
  evalOpt : ∀ e st r, I st → evalOpt n e st = .ok r → I r.2 ∧ E st r.2
  posArgs : ∀ i args st r, I st → posArgs n i args st = .ok r → I r.2 ∧ E st r.2
  kwArgs : ∀ args st st', I st → kwArgs n args st = .ok st' → I st' ∧ E st st'
  callFn : ∀ i args st r, I st → callFn n i args st = .ok r → I r.2 ∧ E st r.2
  run : ∀ f v k st r, I st → f ∈ st.fns → run n f v k st = .ok r → I r.2 ∧ E st r.2
  defaults : ∀ l st r, I st → defaults n l st = .ok r → I r.2 ∧ E st r.2
  loop : ∀ x p a k st st', Q p → I st → loop n x p a k st = .ok st' → I st' ∧ X st st'
  exec : ∀ p st st', Q p → I st → exec n p st = .ok st' → I st' ∧ X st st'

theorem getVar_st {x d w st r} (h : getVar x d w st = .ok r) : r.2 = st := by
  unfold getVar at h
  split at h
  · cases h
  · split at h
    · rw [← Out.ok.inj h]
    · split at h
      · rw [← Out.ok.inj h]
      · cases h

theorem store_st {i v st st'} (h : store i v st = .ok st') : st'.stacks = st.stacks ∧ st'.cur = st.cur ∧ st'.fns = st.fns := by
  unfold store at h
  split at h
  · cases h
  · split at h
    · cases h
    · split at h
      · cases h
      · rw [← Out.ok.inj h]; exact ⟨rfl, rfl, rfl⟩

theorem after_st (st : St) : (after st).2.stacks = st.stacks ∧ (after st).2.cur = st.cur ∧ (after st).2.fns = st.fns := by
  unfold after
  cases st.ctl <;> exact ⟨rfl, rfl, rfl⟩

theorem all {Q I E X} (c : Closed Q) (R : Rel Q I E X) : ∀ n, All Q I E X n
  | 0 => by
    constructor <;> intros <;> rename_i h <;> cases h
  | n + 1 => by
    have ih := all c R n
    constructor
    · intro e st r hi h
      rw [eval.eq_def] at h
      dsimp only at h
      split at h
      · rw [← Out.ok.inj h]; exact ⟨hi, R.refl _⟩
      · cases e with
        | num a => rw [← Out.ok.inj h]; exact ⟨hi, R.refl _⟩
        | var x => rw [getVar_st h]; exact ⟨hi, R.refl _⟩
        | add a b =>
          obtain ⟨r1, h1, h⟩ := bindOk h
          obtain ⟨r2, h2, h⟩ := bindOk h
          obtain ⟨u, _, h⟩ := bindOk h
          have a1 := ih.eval _ _ _ hi h1
          have a2 := ih.eval _ _ _ a1.1 h2
          rw [← Out.ok.inj h]; exact ⟨a2.1, R.trans _ _ _ a1.2 a2.2⟩
        | call f args =>
          obtain ⟨r1, h1, h⟩ := bindOk h
          have a1 := ih.eval _ _ _ hi h1
          split at h
          · have a2 := ih.callFn _ _ _ _ a1.1 h
            exact ⟨a2.1, R.trans _ _ _ a1.2 a2.2⟩
          · cases h
        | getVar x d =>
          obtain ⟨r1, h1, h⟩ := bindOk h
          rw [getVar_st h]
          exact ih.evalOpt _ _ _ hi h1
        | isVar x => rw [← Out.ok.inj h]; exact ⟨hi, R.refl _⟩
    · intro e st r hi h
      cases e with
      | none => rw [← Out.ok.inj h]; exact ⟨hi, R.refl _⟩
      | some e => exact ih.eval _ _ _ hi h
    · intro i args st r hi h
      rw [posArgs.eq_def] at h
      dsimp only at h
      split at h
      · cases h
      · split at h
        · rw [← Out.ok.inj h]; exact ⟨hi, R.refl _⟩
        · split at h
          · cases h
          · cases h
          · obtain ⟨r1, h1, h⟩ := bindOk h
            obtain ⟨s2, h2, h⟩ := bindOk h
            have a1 := ih.eval _ _ _ hi h1
            obtain ⟨e1, e2, e3⟩ := store_st h2
            have a2 := R.same _ _ e1 e2 e3 a1.1
            have a3 := ih.posArgs _ _ _ _ a2.1 h
            exact ⟨a3.1, R.trans _ _ _ a1.2 (R.trans _ _ _ a2.2 a3.2)⟩
    · intro args st st' hi h
      match args with
      | [] => rw [← Out.ok.inj h]; exact ⟨hi, R.refl _⟩
      | (none, _) :: _ => cases h
      | (some k, e) :: rest =>
        rw [kwArgs] at h
        obtain ⟨r1, h1, h⟩ := bindOk h
        have a1 := ih.eval _ _ _ hi h1
        split at h
        · cases h
        · obtain ⟨l, _, h⟩ := bindOk h
          have a2 := R.same r1.2 { r1.2 with akw := l } rfl rfl rfl a1.1
          have a3 := ih.kwArgs _ _ _ a2.1 h
          exact ⟨a3.1, R.trans _ _ _ a1.2 (R.trans _ _ _ a2.2 a3.2)⟩
    · intro i args st r hi h
      rw [callFn] at h
      split at h
      · cases h
      · rename_i f hf
        split at h
        · cases h
        · obtain ⟨r1, h1, h⟩ := bindOk h
          obtain ⟨s2, h2, h⟩ := bindOk h
          have a0 := R.same st (st.prepare f) rfl rfl rfl hi
          have a1 := ih.posArgs _ _ _ _ a0.1 h1
          have a2 := ih.kwArgs _ _ _ a1.1 h2
          have e02 := R.trans _ _ _ a0.2 (R.trans _ _ _ a1.2 a2.2)
          have a3 := ih.run _ _ _ _ _ a2.1 (R.mem _ _ _ e02 (List.mem_of_getElem? hf)) h
          exact ⟨a3.1, R.trans _ _ _ e02 a3.2⟩
    · intro f v k st r hi hf h
      rw [run] at h
      obtain ⟨s1, h1, h⟩ := bindOk h
      have a1 := ih.exec _ _ _ (R.body _ _ hi hf) (R.enter st f v k hi hf) h1
      exact R.leave _ _ _ _ _ _ hi hf a1.1 a1.2 h
    · intro l st r hi h
      match l with
      | [] => rw [← Out.ok.inj h]; exact ⟨hi, R.refl _⟩
      | (k, d) :: l =>
        rw [defaults] at h
        obtain ⟨r1, h1, h⟩ := bindOk h
        obtain ⟨r2, h2, h⟩ := bindOk h
        have a1 := ih.evalOpt _ _ _ hi h1
        have a2 := ih.defaults _ _ _ a1.1 h2
        rw [← Out.ok.inj h]; exact ⟨a2.1, R.trans _ _ _ a1.2 a2.2⟩
    · intro x p a k st st' hq hi h
      match k with
      | 0 => rw [← Out.ok.inj h]; exact ⟨hi, R.weak _ _ (R.refl _)⟩
      | k + 1 =>
        rw [loop] at h
        have a0 := R.locals st x (.num a) hi
        split at h
        · rw [← Out.ok.inj h]; exact a0
        · obtain ⟨s1, h1, h⟩ := bindOk h
          have a1 := ih.exec _ _ _ hq a0.1 h1
          obtain ⟨e1, e2, e3⟩ := after_st s1
          have a2 := R.same s1 (after s1).2 e1 e2 e3 a1.1
          have x2 := R.xtrans _ _ _ a0.2 (R.xtrans _ _ _ a1.2 (R.weak _ _ a2.2))
          split at h
          · have a3 := ih.loop _ _ _ _ _ _ hq a2.1 h
            exact ⟨a3.1, R.xtrans _ _ _ x2 a3.2⟩
          · rw [← Out.ok.inj h]; exact ⟨a2.1, x2⟩
    · intro p st st' hq hi h
      rw [exec.eq_def] at h
      dsimp only at h
      have asg : ∀ e x, (Scope.eval n e st >>= fun r => assignTo x r.1 r.2) = .ok st' → I st' ∧ X st st' := by
        intro e x h
        obtain ⟨r1, h1, h⟩ := bindOk h
        have a1 := ih.eval _ _ _ hi h1
        unfold assignTo at h
        split at h
        · cases h
        · have a2 := R.locals r1.2 x r1.1 a1.1
          rw [← Out.ok.inj h]; exact ⟨a2.1, R.xtrans _ _ _ (R.weak _ _ a1.2) a2.2⟩
      split at h
      · rw [← Out.ok.inj h]; exact ⟨hi, R.weak _ _ (R.refl _)⟩
      · cases p with
        | skip => rw [← Out.ok.inj h]; exact ⟨hi, R.weak _ _ (R.refl _)⟩
        | expr e =>
          obtain ⟨r1, h1, h⟩ := bindOk h
          have a1 := ih.eval _ _ _ hi h1
          rw [← Out.ok.inj h]; exact ⟨a1.1, R.weak _ _ a1.2⟩
        | assign x e => exact asg e x h
        | plus x e =>
          obtain ⟨r1, h1, h⟩ := bindOk h
          obtain ⟨r2, h2, h⟩ := bindOk h
          obtain ⟨u, _, h⟩ := bindOk h
          have a1 := ih.eval _ _ _ hi h1
          have a2 := ih.eval _ _ _ a1.1 h2
          unfold reassign at h
          split at h
          · cases h
          · have a3 := R.found r2.2 x u e hq a2.1
            rw [← Out.ok.inj h]
            exact ⟨a3.1, R.xtrans _ _ _ (R.weak _ _ (R.trans _ _ _ a1.2 a2.2)) a3.2⟩
        | setVar x e => exact asg e x h
        | unset x =>
          simp only [Scope.unset] at h
          split at h
          · cases h
          · rw [← Out.ok.inj h]; exact R.unset st x hq hi
        | seq a b =>
          obtain ⟨s1, h1, h⟩ := bindOk h
          have a1 := ih.exec _ _ _ (c.seq _ _ hq).1 hi h1
          have a2 := ih.exec _ _ _ (c.seq _ _ hq).2 a1.1 h
          exact ⟨a2.1, R.xtrans _ _ _ a1.2 a2.2⟩
        | ite c' a b =>
          obtain ⟨r1, h1, h⟩ := bindOk h
          obtain ⟨t, _, h⟩ := bindOk h
          have a1 := ih.eval _ _ _ hi h1
          have a2 := ih.exec _ _ _ (by cases t; exact (c.ite _ _ _ hq).2; exact (c.ite _ _ _ hq).1) a1.1 h
          exact ⟨a2.1, R.xtrans _ _ _ (R.weak _ _ a1.2) a2.2⟩
        | rep x k p =>
          have a0 := R.same st { st with ctl := .norm } rfl rfl rfl hi
          have a1 := ih.loop _ _ _ _ _ _ (c.rep _ _ _ hq) a0.1 h
          exact ⟨a1.1, R.xtrans _ _ _ (R.weak _ _ a0.2) a1.2⟩
        | brk =>
          have a0 := R.same st { st with ctl := .breaking } rfl rfl rfl hi
          rw [← Out.ok.inj h]; exact ⟨a0.1, R.weak _ _ a0.2⟩
        | cont =>
          have a0 := R.same st { st with ctl := .continuing } rfl rfl rfl hi
          rw [← Out.ok.inj h]; exact ⟨a0.1, R.weak _ _ a0.2⟩
        | ret e =>
          obtain ⟨r1, h1, h⟩ := bindOk h
          have a1 := ih.evalOpt _ _ _ hi h1
          have a2 := R.same r1.2 { r1.2 with returned := r1.1, returning := true } rfl rfl rfl a1.1
          rw [← Out.ok.inj h]; exact ⟨a2.1, R.weak _ _ (R.trans _ _ _ a1.2 a2.2)⟩
        | fdef name pos kws any body =>
          obtain ⟨r1, h1, h⟩ := bindOk h
          have a0 := R.dup st hi
          have a1 := ih.defaults _ _ _ a0.1 h1
          have a2 := R.define st r1.2 name pos r1.1 any body (c.fdef _ _ _ _ _ hq) hi a1.1 a1.2
          rw [← Out.ok.inj h]
          exact ⟨a2.1, R.xtrans _ _ _ (R.weak _ _ (R.trans _ _ _ a0.2 a1.2)) a2.2⟩

/-! ### Stacks -/

theorem on_length (st : St) (i g) : (st.on i g).stacks.length = st.stacks.length := by simp [St.on]

theorem on_ne (st : St) {i j : Nat} (g) (h : i ≠ j) : (st.on i g).stacks[j]? = st.stacks[j]? := by
  simp [St.on, h]

theorem on_eq (st : St) (i : Nat) (g) : (st.on i g).stacks[i]? = (st.stacks[i]?).map g := by
  simp only [St.on, List.getElem?_set, List.getD_eq_getElem?_getD]
  by_cases h : i < st.stacks.length
  · simp [h]
  · simp [h]

theorem putLocal_length (x v) (l : List Scope) : (putLocal x v l).length = l.length := by cases l <;> rfl
theorem putFound_length (x v) : ∀ l : List Scope, (putFound x v l).length = l.length
  | [] => rfl
  | s :: l => by rw [putFound]; split <;> simp [putFound_length x v l]
theorem delFound_length (x) : ∀ l : List Scope, (delFound x l).length = l.length
  | [] => rfl
  | s :: l => by rw [delFound]; split <;> simp [delFound_length x l]

end Muon.Scope
