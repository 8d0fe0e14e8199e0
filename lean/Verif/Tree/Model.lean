import Verif.Base
/-
Binary search trees for variables, rules and pools: src/external/samurai/tree.c.

Simplifications: heights are natural numbers (`int` in the code; they stay below 96, see `Muon.Tree.no_overflow`); keys
are C strings without the terminator; allocation does not fail.
-/
namespace Muon.Tree
open Muon

/-- `struct samu_treenode`, include/external/samurai/tree.h; `nil` is NULL. -/
inductive Tree (V : Type)
  | nil
  | node (key : Bytes) (val : V) (l r : Tree V) (h : Nat)
deriving DecidableEq

variable {V : Type}

/-- The sign of `strcmp`. -/
def strcmp : Bytes → Bytes → Ordering
  | [], [] => .eq
  | [], _ :: _ => .lt
  | _ :: _, [] => .gt
  | c :: a, d :: b => if c < d then .lt else if d < c then .gt else strcmp a b

/-- `samu_height`, tree.c:23-27. -/
def height : Tree V → Nat
  | .nil => 0
  | .node _ _ _ _ h => h

/-- A node with children `a` on the side `!dir` and `b` on the side `dir`. -/
def join (dir : Bool) (k : Bytes) (v : V) (a b : Tree V) (h : Nat) : Tree V :=
  if dir then .node k v a b h else .node k v b a h

/-- `child[dir]`. -/
def child (dir : Bool) (l r : Tree V) : Tree V := if dir then r else l

/-- `samu_rot`, tree.c:29-70, for the node `x` with entry `kx`, `vx`, children `l`, `r` and height `hx`: the tree in `*p`
afterwards, and whether the result (the change of the height) is not 0. `none`: NULL is dereferenced. -/
def rot (kx : Bytes) (vx : V) (l r : Tree V) (hx : Nat) (dir : Bool) : Option (Tree V × Bool) :=
  let a := child (!dir) l r
  match child dir l r with
  | .nil => none
  | .node ky vy yl yr _ =>
    let z := child (!dir) yl yr
    let d := child dir yl yr
    let hz := height z
    if hz > height d then
      match z with
      | .nil => none
      | .node kz vz zl zr _ =>
        let x := join dir kx vx a (child (!dir) zl zr) hz
        let y := join dir ky vy (child dir zl zr) d hz
        some (join dir kz vz x y (hz + 1), hz + 1 != hx)
    else
      let x := join dir kx vx a z (hz + 1)
      some (join dir ky vy x d (hz + 2), hz + 2 != hx)

/-- `samu_balance`, tree.c:72-85. -/
def balance (k : Bytes) (v : V) (l r : Tree V) (old : Nat) : Option (Tree V × Bool) :=
  let h0 := height l
  let h1 := height r
  if h0 ≤ h1 + 1 ∧ h1 ≤ h0 + 1 then
    let h := if h0 < h1 then h1 + 1 else h0 + 1
    some (.node k v l r h, h != old)
  else rot k v l r old (decide (h0 < h1))

/-- `samu_treefind`, tree.c:87-99. -/
def find (k : Bytes) : Tree V → Option V
  | .nil => none
  | .node k' v l r _ =>
    match strcmp k k' with
    | .eq => some v
    | .lt => find k l
    | .gt => find k r

/-- `MAXH`, tree.c:21, with 8 byte pointers. -/
def maxH : Nat := 8 * 8 * 3 / 2

/-- A node on the way down whose child on the side `dir` is to be replaced. -/
structure Frame (V : Type) where
  key : Bytes
  val : V
  dir : Bool
  l : Tree V
  r : Tree V
  h : Nat

/-- The children after the replacement. -/
def Frame.left (fr : Frame V) (t : Tree V) : Tree V := if fr.dir then fr.l else t
def Frame.right (fr : Frame V) (t : Tree V) : Tree V := if fr.dir then t else fr.r

/-- The descent of `samu_treeinsert`, tree.c:108-119: the nodes passed (innermost first; the array `a` has one entry
more than there are nodes), and the subtree reached: the node with the key, or NULL. `bad`: `a` overflows. -/
def descend (k : Bytes) : Tree V → List (Frame V) → Res (List (Frame V) × Tree V)
  | .nil, fs => .ok (fs, .nil)
  | .node k' v l r h, fs =>
    match strcmp k k' with
    | .eq => .ok (fs, .node k' v l r h)
    | .lt => if fs.length + 1 < maxH then descend k l (⟨k', v, false, l, r, h⟩ :: fs) else .bad
    | .gt => if fs.length + 1 < maxH then descend k r (⟨k', v, true, l, r, h⟩ :: fs) else .bad

/-- The way up, tree.c:126-127: `go` as long as the nodes are balanced. -/
def climb : Tree V → Bool → List (Frame V) → Option (Tree V)
  | t, _, [] => some t
  | t, true, fr :: fs => do
    let (t, go) ← balance fr.key fr.val (fr.left t) (fr.right t) fr.h
    climb t go fs
  | t, false, fr :: fs => climb (.node fr.key fr.val (fr.left t) (fr.right t) fr.h) false fs

/-- `samu_treeinsert`, tree.c:101-129: the tree afterwards and the value returned. -/
def insert (t : Tree V) (k : Bytes) (v : V) : Res (Tree V × Option V) :=
  match descend k t [] with
  | .ok (fs, .node k' old l r h) =>
    match climb (.node k' v l r h) false fs with
    | some t => .ok (t, some old)
    | none => .bad
  | .ok (fs, .nil) =>
    match climb (.node k v .nil .nil 1) true fs with
    | some t => .ok (t, none)
    | none => .bad
  | .error => .error
  | .bad => .bad

/-- Inserting entries one after another. -/
def insertAll : Tree V → List (Bytes × V) → Res (Tree V)
  | t, [] => .ok t
  | t, (k, v) :: l => do
    let (t, _) ← insert t k v
    insertAll t l

end Muon.Tree
