import Verif.Val.Model
/-
Values, independent of the objects that hold them, and their equality.
-/
namespace Muon.Val

inductive Val
  | bool (b : Bool)
  | num (n : Int)
  | str (s : Bytes)
  | file (s : Bytes)
  | feature (n : Nat)
  | inc (path : Bytes) (sys : Bool)
  | arr (l : List Val)
  | dict (l : List (Bytes × Val))
  /-- an object that has identity, such as a build target -/
  | other (t : Nat) (i : Nat)

namespace Spec

/-- The value an object holds: `none` if it contains itself or a dictionary with a repeated key. -/
def valOf (h : Heap) : Nat → Nat → Option Val
  | 0, _ => none
  | f + 1, i =>
    match h.obj i with
    | .bool b => some (.bool b)
    | .num n => some (.num n)
    | .str s => some (.str s)
    | .file s => some (.file s)
    | .feature n => some (.feature n)
    | .inc p s => some (.inc p s)
    | .arr l => (l.mapM (valOf h f)).map .arr
    | .dict l => if (l.map Prod.fst).Nodup then (l.mapM fun x => (valOf h f x.2).map (x.1, ·)).map .dict else none
    | .other t => some (.other t i)

/-- Object `i` holds value `v`. -/
def Holds (h : Heap) (i : Nat) (v : Val) : Prop := ∃ f, valOf h f i = some v

/-- Equality of values: arrays element by element, dictionaries key by key regardless of order. -/
inductive Same : Val → Val → Prop
  | bool (b : Bool) : Same (.bool b) (.bool b)
  | num (n : Int) : Same (.num n) (.num n)
  | str (s : Bytes) : Same (.str s) (.str s)
  | file (s : Bytes) : Same (.file s) (.file s)
  | feature (n : Nat) : Same (.feature n) (.feature n)
  | inc (p : Bytes) (s : Bool) : Same (.inc p s) (.inc p s)
  | arr {l r : List Val} (hl : l.length = r.length) (h : ∀ (i : Nat) a b, l[i]? = some a → r[i]? = some b → Same a b) : Same (.arr l) (.arr r)
  | dict {l r : List (Bytes × Val)} (hk : ∀ k, l.lookup k = none ↔ r.lookup k = none)
    (h : ∀ k a b, l.lookup k = some a → r.lookup k = some b → Same a b) : Same (.dict l) (.dict r)
  | other (t i : Nat) : Same (.other t i) (.other t i)

/-- The elements of a list that are not equal to an earlier element. -/
noncomputable def firsts (vals : List Val) : List Nat :=
  open Classical in (List.range vals.length).filter fun i => decide (∀ j < i, ∀ a b, vals[j]? = some a → vals[i]? = some b → ¬ Same a b)

end Spec
end Muon.Val
