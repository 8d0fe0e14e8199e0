import Verif.Dict.Model
/-
Specification of dictionaries: variables that hold finite maps with an order of insertion.
-/
namespace Muon.Dict.Spec
open Muon Muon.Dict

/-- A finite map: keys and values in the order in which the keys were first set. -/
abbrev Map := List (Bytes × Nat)

/-- The value of a key. -/
def get (m : Map) (k : Bytes) : Option Nat := (m.find? (·.1 == k)).map (·.2)

/-- Setting a key: a key that is present keeps its place. -/
def set (m : Map) (k : Bytes) (v : Nat) : Map :=
  if (get m k).isSome then m.map fun e => if e.1 = k then (k, v) else e else m ++ [(k, v)]

/-- Deleting a key. -/
def del (m : Map) (k : Bytes) : Map := m.filter fun e => e.1 != k

/-- Adding all keys of another map. -/
def update (m n : Map) : Map := n.foldl (fun m e => set m e.1 e.2) m

/-- The effect of an operation on variables holding maps. Updating a map with itself is left out. -/
def step (str : Nat → Bytes) (ms : List Map) : Op → Option (List Map)
  | .new => some (ms ++ [[]])
  | .set x key v => do let m ← ms[x]?; return ms.set x (set m (str key) v)
  | .del x k => do let m ← ms[x]?; return ms.set x (del m k)
  | .dup x => do let m ← ms[x]?; return ms ++ [m]
  | .merge x y => do let m ← ms[x]?; let n ← ms[y]?; return ms ++ [update m n]
  | .update x y => do let m ← ms[x]?; let n ← ms[y]?; if x = y then none else return ms.set x (update m n)

/-- The effect of several operations. -/
def run (str : Nat → Bytes) (ms : List Map) : List Op → Option (List Map)
  | [] => some ms
  | op :: ops => do let ms ← step str ms op; run str ms ops

/-- Which variables hold a map that has had fifteen keys or more. -/
def large (old : List Bool) (ms : List Map) : List Bool :=
  ms.mapIdx fun i m => old.getD i false || decide (15 ≤ m.length)

/-- No key is deleted that is in a map that has, or has had, fifteen keys. -/
def Avoids (str : Nat → Bytes) : List Map → List Bool → List Op → Prop
  | _, _, [] => True
  | ms, fl, op :: ops =>
    (∀ (x : Nat) (k : Bytes) (m : Map), op = .del x k → ms[x]? = some m → fl[x]? = some false ∨ get m k = none) ∧
      ∀ ms', step str ms op = some ms' → Avoids str ms' (large fl ms') ops

end Muon.Dict.Spec
