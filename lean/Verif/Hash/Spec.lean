import Verif.Hash.Model
/-
Specification for C03: a finite map as a function from keys to optional values.
-/
namespace Muon.Hash.Spec
variable {K V : Type} [DecidableEq K]

/-- Effect of one operation on the map. -/
def apply (m : K → Option V) : Op K V → (K → Option V)
  | .set k v => fun x => if x = k then some v else m x
  | .unset k => fun x => if x = k then none else m x
  | .clear => fun _ => none

/-- The map after a history of operations, starting from the empty map. -/
def after (ops : List (Op K V)) : K → Option V := ops.foldl apply (fun _ => none)

end Muon.Hash.Spec
