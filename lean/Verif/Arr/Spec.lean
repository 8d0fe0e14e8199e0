import Verif.Arr.Model
/-
Specification of arrays: variables that hold sequences.
-/
namespace Muon.Arr.Spec
open Muon.Arr

/-- The effect of an operation on variables holding sequences. -/
def step (ls : List (List Nat)) : Op → Option (List (List Nat))
  | .new => some (ls ++ [[]])
  | .push x v => do let l ← ls[x]?; return ls.set x (l ++ [v])
  | .prepend x v => do let l ← ls[x]?; return ls.set x (v :: l)
  | .extend x y => do let l ← ls[x]?; let m ← ls[y]?; return ls.set x (l ++ m)
  | .dup x => do let l ← ls[x]?; return ls ++ [l]
  | .set x i v => do let l ← ls[x]?; if i < l.length then return ls.set x (l.set i v) else none
  | .del x i => do let l ← ls[x]?; if i < l.length then return ls.set x (l.eraseIdx i) else none
  | .pop x => do let l ← ls[x]?; if l ≠ [] then return ls.set x l.dropLast else none
  | .slice x i j => do let l ← ls[x]?; if i < l.length ∧ j < l.length then return ls ++ [(l.take (j + 1)).drop i] else none

/-- The effect of several operations. -/
def run (ls : List (List Nat)) : List Op → Option (List (List Nat))
  | [] => some ls
  | op :: ops => do let ls ← step ls op; run ls ops

/-- Deleting the first of two elements, the case in which the code goes wrong. -/
def deletesFirstOfTwo (ls : List (List Nat)) : Op → Bool
  | .del x 0 => (ls[x]?).any fun l => l.length == 2
  | _ => false

/-- No operation deletes the first of two elements. -/
def Avoids (ls : List (List Nat)) : List Op → Prop
  | [] => True
  | op :: ops => deletesFirstOfTwo ls op = false ∧ ∀ ls', step ls op = some ls' → Avoids ls' ops

end Muon.Arr.Spec
