import Verif.Scope.Model
/-
What the theorems about scopes say. `Sees` is what a name means: the innermost scope that has the name decides.
-/
namespace Muon.Scope.Spec
open Muon Muon.Scope

/-- In scopes `l` (innermost first) the name `x` stands for `v`. -/
def Sees (l : List Scope) (x : Bytes) (v : Val) : Prop :=
  ∃ inner s outer, l = inner ++ s :: outer ∧ (∀ t ∈ inner, t x = none) ∧ s x = some v

/-- No function has the scope stack `j`: it belongs to the file itself. -/
def Own (j : Nat) (st : St) : Prop := j < st.stacks.length ∧ ∀ f ∈ st.fns, f.stack ≠ j

/-- Neither `+=` nor `unset_variable()` in a statement. -/
def Quiet : Stmt → Prop
  | .plus _ _ => False
  | .unset _ => False
  | .seq a b => Quiet a ∧ Quiet b
  | .ite _ a b => Quiet a ∧ Quiet b
  | .rep _ _ p => Quiet p
  | .fdef _ _ _ _ p => Quiet p
  | _ => True

/-- The same state with other scopes in stack `j`. -/
def other (j : Nat) (l : List Scope) (st : St) : St := { st with stacks := st.stacks.set j l }

/-- The same outcome with other scopes in stack `j`. -/
def others {α : Type} (j : Nat) (l : List Scope) : Interp.Out (α × St) → Interp.Out (α × St)
  | .ok r => .ok (r.1, other j l r.2)
  | .error => .error
  | .bad => .bad
  | .fuel => .fuel

/-- An expression without a call of a function. -/
def Plain : Expr → Prop
  | .num _ => True
  | .var _ => True
  | .add a b => Plain a ∧ Plain b
  | .call _ _ => False
  | .getVar _ none => True
  | .getVar _ (some d) => Plain d
  | .isVar _ => True

/-- The value of an expression without calls. -/
inductive Value (l : List Scope) : Expr → Val → Prop
  | num (a : Int) : Value l (.num a) (.num a)
  | var {x v} : Sees l x v → Value l (.var x) v
  | add {a b} {i j : Int} : Value l a (.num i) → Value l b (.num j) → Value l (.add a b) (.num (i + j))
  | get {x v} : Sees l x v → Value l (.getVar x none) v
  | getSeen {x v d w} : Sees l x v → Value l d w → w ≠ .void → Value l (.getVar x (some d)) v
  | getDefault {x d w} : (∀ v, ¬ Sees l x v) → Value l d w → w ≠ .void → Value l (.getVar x (some d)) w
  | isVar {x v} : Sees l x v → Value l (.isVar x) (.num 1)
  | isNotVar {x} : (∀ v, ¬ Sees l x v) → Value l (.isVar x) (.num 0)

end Muon.Scope.Spec
