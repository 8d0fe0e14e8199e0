import Verif.Hash.Model
/-
Objects of the interpreter, their values, and comparison: src/lang/object.c.

Simplifications: an array is the list of its elements and a dictionary the list of its entries in insertion order (that
the linked representations behave like this is the subject of Verif.Arr and Verif.Dict); keys of dictionaries, the name
of a file and the path of an include directory are the bytes of the string object they refer to. Recursion is bounded
by fuel, `none` if it runs out.
-/
namespace Muon.Val
open Muon

/-- `obj_null`, src/lang/workspace.c:132: object 0. -/
def nullId : Nat := 0
/-- `disabler_id`, include/lang/workspace.h:56. -/
def disablerId : Nat := 1

/-- `struct obj_internal`, by type (`enum obj_type`, include/lang/object.h). Objects of the other types are only
compared by identity; `t` is the type. -/
inductive Obj
  | bool (b : Bool)
  | num (n : Int)
  | str (s : Bytes)
  | file (s : Bytes)
  | feature (n : Nat)
  | inc (path : Bytes) (sys : Bool)
  | arr (l : List Nat)
  | dict (l : List (Bytes × Nat))
  | other (t : Nat)
deriving DecidableEq, Repr

/-- `wk->objs`: object `i` for `i < next`. -/
structure Heap where
  obj : Nat → Obj
  next : Nat

/-- `obj_equal_array_iter`, object.c:400-414, over the elements of the left array from number `i` on; `r` are the elements of
the right array. -/
def equalArr (eq : Nat → Nat → Option Bool) (r : List Nat) : List Nat → Nat → Option Bool
  | [], _ => some true
  | v :: vs, i =>
    match r[i]? with
    | none => none
    | some x =>
      match eq v x with
      | some true => equalArr eq r vs (i + 1)
      | res => res

/-- `obj_equal_dict_iter`, object.c:416-429. -/
def equalDict (eq : Nat → Nat → Option Bool) (r : List (Bytes × Nat)) : List (Bytes × Nat) → Option Bool
  | [] => some true
  | (k, v) :: l =>
    match r.lookup k with
    | none => some false
    | some x =>
      match eq v x with
      | some true => equalDict eq r l
      | res => res

/-- `obj_equal`, object.c:431-491. -/
def equal (h : Heap) : Nat → Nat → Nat → Option Bool
  | 0, _, _ => none
  | f + 1, a, b =>
    if a = b then some true
    else match h.obj a, h.obj b with
    | .str s, .str t => some (s == t)
    | .file s, .file t => some (s == t)
    | .num m, .num n => some (m == n)
    | .bool x, .bool y => some (x == y)
    | .arr l, .arr r => if l.length = r.length then equalArr (equal h f) r l 0 else some false
    | .feature m, .feature n => some (m == n)
    | .inc p x, .inc q y => some (x == y && p == q)
    | .dict l, .dict r => if l.length = r.length then equalDict (equal h f) r l else some false
    | _, _ => some false

/-- `obj_array_index_of`, object.c:610-632: the number of the first element that is equal, from number `i` on. -/
def indexOf (h : Heap) (f : Nat) (v : Nat) : List Nat → Nat → Option (Option Nat)
  | [], _ => some none
  | x :: l, i =>
    match equal h f v x with
    | none => none
    | some true => some (some i)
    | some false => indexOf h f v l (i + 1)

/-- `obj_array_in`, object.c:634-639. -/
def arrayIn (h : Heap) (f : Nat) (l : List Nat) (v : Nat) : Option Bool := (indexOf h f v l 0).map (·.isSome)

/-- The iterations of `obj_array_dedup_iter`, object.c:882-896, with `wk->obj_hash` and the result so far. -/
def dedupLoop (hash : Nat → UInt64) (h : Heap) (f : Nat) : List Nat → Hash.Table Nat Nat → List Nat → Option (List Nat)
  | [], _, res => some res
  | v :: l, t, res =>
    match Hash.get hash t v with
    | none => none
    | some (some _) => dedupLoop hash h f l t res
    | some none =>
      match Hash.set hash t v 1 with
      | none => none
      | some t =>
        match arrayIn h f res v with
        | none => none
        | some true => dedupLoop hash h f l t res
        | some false => dedupLoop hash h f l t (res ++ [v])

/-- `obj_array_dedup`, object.c:898-905, with the table `wk->obj_hash` as it was left by previous uses. -/
def dedup (hash : Nat → UInt64) (h : Heap) (f : Nat) (t : Hash.Table Nat Nat) (l : List Nat) : Option (List Nat) :=
  dedupLoop hash h f l (Hash.clear t) []

end Muon.Val
