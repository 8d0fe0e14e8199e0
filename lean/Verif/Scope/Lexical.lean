import Verif.Scope.Frames
namespace Muon.Scope
open Muon Muon.Scope.Spec
open Muon.Interp (Out Ctl)

def otherS (j : Nat) (l : List Scope) : Out St → Out St
  | .ok st => .ok (other j l st)
  | .error => .error
  | .bad => .bad
  | .fuel => .fuel

section
variable {j : Nat} {l : List Scope}

theorem lift2 {α β : Type} {x x' : Out (α × St)} {g : α × St → Out (β × St)} (h : x' = others j l x)
    (hg : ∀ r, x = .ok r → g (r.1, other j l r.2) = others j l (g r)) : (x' >>= g) = others j l (x >>= g) := by
  subst h
  cases x with
  | ok r => exact hg r rfl
  | error => rfl
  | bad => rfl
  | fuel => rfl

theorem lift1 {α : Type} {x x' : Out (α × St)} {g : α × St → Out St} (h : x' = others j l x)
    (hg : ∀ r, x = .ok r → g (r.1, other j l r.2) = otherS j l (g r)) : (x' >>= g) = otherS j l (x >>= g) := by
  subst h
  cases x with
  | ok r => exact hg r rfl
  | error => rfl
  | bad => rfl
  | fuel => rfl

theorem liftS1 {x x' : Out St} {g : St → Out St} (h : x' = otherS j l x)
    (hg : ∀ r, x = .ok r → g (other j l r) = otherS j l (g r)) : (x' >>= g) = otherS j l (x >>= g) := by
  subst h
  cases x with
  | ok r => exact hg r rfl
  | error => rfl
  | bad => rfl
  | fuel => rfl

theorem liftS2 {β : Type} {x x' : Out St} {g : St → Out (β × St)} (h : x' = otherS j l x)
    (hg : ∀ r, x = .ok r → g (other j l r) = others j l (g r)) : (x' >>= g) = others j l (x >>= g) := by
  subst h
  cases x with
  | ok r => exact hg r rfl
  | error => rfl
  | bad => rfl
  | fuel => rfl

theorem liftV {α β : Type} {x : Out α} {g g' : α → Out (β × St)} (hg : ∀ a, g' a = others j l (g a)) : (x >>= g') = others j l (x >>= g) := by
  cases x with
  | ok r => exact hg r
  | error => rfl
  | bad => rfl
  | fuel => rfl

theorem liftVS {α : Type} {x : Out α} {g g' : α → Out St} (hg : ∀ a, g' a = otherS j l (g a)) : (x >>= g') = otherS j l (x >>= g) := by
  cases x with
  | ok r => exact hg r
  | error => rfl
  | bad => rfl
  | fuel => rfl

theorem other_here {st : St} (h : st.cur ≠ j) : (other j l st).here = st.here := by
  simp [other, St.here, List.getD_eq_getElem?_getD, Ne.symm h]

theorem other_on (st : St) {i : Nat} (h : i ≠ j) (g : List Scope → List Scope) : (other j l st).on i g = other j l (st.on i g) := by
  simp only [other, St.on, List.getD_eq_getElem?_getD, List.getElem?_set_ne (Ne.symm h)]
  rw [List.set_comm _ _ (Ne.symm h)]

theorem other_getVar (x d w) {st : St} (h : st.cur ≠ j) : getVar x d w (other j l st) = others j l (getVar x d w st) := by
  unfold getVar
  rw [other_here h]
  split
  · rfl
  · split
    · rfl
    · split <;> rfl

theorem other_store (i v) (st : St) : store i v (other j l st) = otherS j l (store i v st) := by
  unfold store
  simp only [other]
  split
  · rfl
  · split
    · rfl
    · split <;> rfl

theorem other_assign (x v) {st : St} (h : st.cur ≠ j) : assignTo x v (other j l st) = otherS j l (assignTo x v st) := by
  unfold assignTo
  split
  · rfl
  · have := other_on (l := l) st h (putLocal x v)
    exact congrArg Out.ok this

theorem other_reassign (x v) {st : St} (h : st.cur ≠ j) : reassign x v (other j l st) = otherS j l (reassign x v st) := by
  unfold reassign
  rw [other_here h]
  split
  · rfl
  · exact congrArg Out.ok (other_on (l := l) st h (putFound x v))

theorem other_unset (x) {st : St} (h : st.cur ≠ j) : unset x (other j l st) = otherS j l (unset x st) := by
  unfold unset
  rw [other_here h]
  split
  · rfl
  · exact congrArg Out.ok (other_on (l := l) st h (delFound x))

theorem other_after (st : St) : after (other j l st) = ((after st).1, other j l (after st).2) := by
  obtain ⟨a, b, c, d, e, ctl, f, g⟩ := st
  cases ctl <;> rfl

theorem other_define {st : St} (h : st.cur ≠ j) (name f) : St.define (other j l st) name f = other j l (St.define st name f) :=
  other_on (l := l) { st with fns := st.fns ++ [f] } h _

theorem other_enter {st : St} {f : Fn} (h : f.stack ≠ j) (v k) : (other j l st).enter f v k = other j l (st.enter f v k) := by
  unfold St.enter
  rw [other_on st h]
  rfl

theorem other_leave {st : St} {f : Fn} (old) (h : st.cur ≠ j) : leave f old (other j l st) = others j l (leave f old st) := by
  unfold leave
  have e : (other j l st).returned = st.returned := rfl
  rw [e]
  split
  · rfl
  · have := other_on (l := l) st h List.tail
    have e2 : (other j l st).cur = st.cur := rfl
    rw [e2, this]
    rfl

/-- Conditions under which stack `j` is not looked at. -/
def Away (j : Nat) (st : St) : Prop := Own j st ∧ st.cur ≠ j

/-- All functions of the interpreter for one amount of fuel. -/
structure Same (j : Nat) (l : List Scope) (n : Nat) : Prop where
  eval : ∀ e st, Away j st → eval n e (other j l st) = others j l (eval n e st)
  evalOpt : ∀ e st, Away j st → evalOpt n e (other j l st) = others j l (evalOpt n e st)
  posArgs : ∀ i args st, Away j st → posArgs n i args (other j l st) = others j l (posArgs n i args st)
  kwArgs : ∀ args st, Away j st → kwArgs n args (other j l st) = otherS j l (kwArgs n args st)
  callFn : ∀ i args st, Away j st → callFn n i args (other j l st) = others j l (callFn n i args st)
  run : ∀ f v k st, Own j st → f ∈ st.fns → run n f v k (other j l st) = others j l (run n f v k st)
  defaults : ∀ ds st, Away j st → defaults n ds (other j l st) = others j l (defaults n ds st)
  loop : ∀ x p a k st, Away j st → loop n x p a k (other j l st) = otherS j l (loop n x p a k st)
  exec : ∀ p st, Away j st → exec n p (other j l st) = otherS j l (exec n p st)

theorem away_of {st st' : St} (h : Away j st) (g : Own j st' ∧ KeepsE j st st') : Away j st' :=
  ⟨g.1, by rw [g.2.1.1]; exact h.2⟩

theorem away_ofX {st st' : St} (h : Away j st) (g : Own j st' ∧ KeepsX j st st') : Away j st' :=
  ⟨g.1, by rw [g.2.1.1]; exact h.2⟩

theorem sameAll : ∀ n, Same j l n
  | 0 => by constructor <;> intros <;> rfl
  | n + 1 => by
    have ih := sameAll n
    have A := all closedTrue (keepsRel j) n
    constructor
    · intro e st ha
      rw [eval.eq_def, eval.eq_def]
      dsimp only
      have es : (other j l st).skipping = st.skipping := rfl
      rw [es]
      split
      · rfl
      · cases e with
        | num a => rfl
        | var x => exact other_getVar _ _ _ ha.2
        | add a b =>
          refine lift2 (ih.eval a st ha) fun r hr => ?_
          refine lift2 (ih.eval b r.2 (away_of ha (A.eval _ _ _ ha.1 hr))) fun q _ => ?_
          exact liftV fun u => rfl
        | call f args =>
          refine lift2 (ih.eval f st ha) fun r hr => ?_
          dsimp only
          split
          · exact ih.callFn _ _ _ (away_of ha (A.eval _ _ _ ha.1 hr))
          · rfl
        | getVar x d =>
          refine lift2 (ih.evalOpt d st ha) fun r hr => ?_
          exact other_getVar _ _ _ (away_of ha (A.evalOpt _ _ _ ha.1 hr)).2
        | isVar x =>
          show Out.ok _ = Out.ok _
          rw [other_here ha.2]
    · intro e st ha
      cases e with
      | none => rfl
      | some e => exact ih.eval e st ha
    · intro i args st ha
      rw [posArgs.eq_def, posArgs.eq_def]
      dsimp only
      have es : (other j l st).an = st.an := rfl
      rw [es]
      split
      · rfl
      · split
        · rfl
        · split
          · rfl
          · rfl
          · refine lift2 (ih.eval _ st ha) fun r hr => ?_
            have a1 := away_of ha (A.eval _ _ _ ha.1 hr)
            refine liftS2 (other_store _ _ _) fun q hq => ?_
            obtain ⟨e1, e2, e3⟩ := store_st hq
            exact ih.posArgs _ _ _ (away_of a1 ((keepsRel j).same _ _ e1 e2 e3 a1.1))
    · intro args st ha
      match args with
      | [] => rfl
      | (none, _) :: _ => rfl
      | (some k, e) :: rest =>
        rw [kwArgs, kwArgs]
        refine lift1 (ih.eval _ st ha) fun r hr => ?_
        have a1 := away_of ha (A.eval _ _ _ ha.1 hr)
        split
        · rfl
        · refine liftVS fun q => ?_
          exact ih.kwArgs rest { r.2 with akw := q } a1
    · intro i args st ha
      rw [callFn, callFn]
      have es : (other j l st).fns = st.fns := rfl
      rw [es]
      split
      · rfl
      · rename_i f hf
        split
        · rfl
        · have a0 : Away j (st.prepare f) := ha
          refine lift2 (ih.posArgs 0 args (st.prepare f) a0) fun r hr => ?_
          have k1 := A.posArgs _ _ _ _ a0.1 hr
          have a1 := away_of a0 k1
          refine liftS2 (ih.kwArgs r.1 r.2 a1) fun q hq => ?_
          have k2 := A.kwArgs _ _ _ a1.1 hq
          have hm : f ∈ q.fns := k2.2.1.2.1 f (k1.2.1.2.1 f (List.mem_of_getElem? hf))
          exact ih.run f (q.vals f) (q.kvals f) q k2.1 hm
    · intro f v k st ho hf
      rw [run, run]
      have hne : f.stack ≠ j := ho.2 f hf
      rw [other_enter hne]
      have a0 : Away j (st.enter f v k) := ⟨own_on ho _ _, hne⟩
      refine liftS2 (ih.exec _ _ a0) fun q hq => ?_
      exact other_leave _ (away_ofX a0 (A.exec _ _ _ trivial a0.1 hq)).2
    · intro ds st ha
      match ds with
      | [] => rfl
      | (k, d) :: ds =>
        rw [defaults, defaults]
        refine lift2 (ih.evalOpt d st ha) fun r hr => ?_
        refine lift2 (ih.defaults ds r.2 (away_of ha (A.evalOpt _ _ _ ha.1 hr))) fun q _ => ?_
        rfl
    · intro x p a k st ha
      match k with
      | 0 => rfl
      | k + 1 =>
        rw [loop, loop]
        have ec : (other j l st).cur = st.cur := rfl
        rw [ec, other_on st ha.2]
        split
        · rfl
        · have a0 : Away j (st.on st.cur (putLocal x (.num a))) := ⟨own_on ha.1 _ _, ha.2⟩
          refine liftS1 (ih.exec _ _ a0) fun q hq => ?_
          have a1 := away_ofX a0 (A.exec _ _ _ trivial a0.1 hq)
          rw [other_after]
          obtain ⟨e1, e2, e3⟩ := after_st q
          split
          · exact ih.loop _ _ _ _ _ (away_of a1 ((keepsRel j).same _ _ e1 e2 e3 a1.1))
          · rfl
    · intro p st ha
      rw [exec.eq_def, exec.eq_def]
      dsimp only
      have es : (other j l st).skipping = st.skipping := rfl
      rw [es]
      split
      · rfl
      · cases p with
        | skip => rfl
        | expr e => exact lift1 (ih.eval e st ha) fun r hr => rfl
        | assign x e =>
          exact lift1 (ih.eval e st ha) fun r hr => other_assign _ _ (away_of ha (A.eval _ _ _ ha.1 hr)).2
        | plus x e =>
          refine lift1 (ih.eval _ st ha) fun r hr => ?_
          have a1 := away_of ha (A.eval _ _ _ ha.1 hr)
          refine lift1 (ih.eval _ r.2 a1) fun q hq => ?_
          exact liftVS fun u => other_reassign _ _ (away_of a1 (A.eval _ _ _ a1.1 hq)).2
        | setVar x e =>
          exact lift1 (ih.eval e st ha) fun r hr => other_assign _ _ (away_of ha (A.eval _ _ _ ha.1 hr)).2
        | unset x => exact other_unset x ha.2
        | seq a b => exact liftS1 (ih.exec a st ha) fun q hq => ih.exec b q (away_ofX ha (A.exec _ _ _ trivial ha.1 hq))
        | ite c a b =>
          refine lift1 (ih.eval _ st ha) fun r hr => ?_
          exact liftVS fun t => ih.exec _ r.2 (away_of ha (A.eval _ _ _ ha.1 hr))
        | rep x k p => exact ih.loop x p 0 k { st with ctl := .norm } ha
        | brk => rfl
        | cont => rfl
        | ret e => exact lift1 (ih.evalOpt e st ha) fun r hr => rfl
        | fdef name pos kws any body =>
          have e1 : ({ other j l st with stacks := (other j l st).stacks ++ [(other j l st).here] } : St)
              = other j l { st with stacks := st.stacks ++ [st.here] } := by
            rw [other_here ha.2]
            simp only [other]
            rw [List.set_append_left _ _ ha.1.1]
          have e2 : (other j l st).stacks.length = st.stacks.length := by simp [other]
          rw [e1, e2]
          have a0 : Away j { st with stacks := st.stacks ++ [st.here] } := ⟨((keepsRel j).dup st ha.1).1, ha.2⟩
          refine lift1 (ih.defaults _ _ a0) fun r hr => ?_
          exact congrArg Out.ok (other_define (away_of a0 (A.defaults _ _ _ a0.1 hr)).2 _ _)
end

end Muon.Scope
