import Verif.Tree.Model
/-
What a table of variables should do.
-/
namespace Muon.Tree
open Muon
variable {V : Type}

/-- The number of nodes on the longest way from the root: a lookup compares at most this many keys. -/
def depth : Tree V → Nat
  | .nil => 0
  | .node _ _ l r _ => max (depth l) (depth r) + 1

/-- The last value a sequence of assignments gives to a key. -/
def lastValue (l : List (Bytes × V)) (k : Bytes) : Option V := (l.filter (fun p => p.1 == k)).getLast?.map (·.2)

end Muon.Tree
