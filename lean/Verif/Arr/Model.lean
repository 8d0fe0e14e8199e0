import Verif.Base
/-
Arrays, src/lang/object.c:493-1041: linked lists of objects of type `obj_array`.

Objects are numbers; the elements of arrays are object numbers, whatever they refer to. Simplifications: only objects
of type array are in the heap (`get_obj_array` of another object does not occur here); the length, a `uint32_t`, is a
natural number. The outcome `none` is a failed assertion or a loop that does not end.
-/
namespace Muon.Arr
open Muon

/-- `struct obj_array`, include/lang/object.h:165-171. -/
structure Cell where
  val : Nat := 0
  next : Nat := 0
  tail : Nat := 0
  len : Nat := 0
  haveNext : Bool := false
deriving DecidableEq

/-- The objects: `n` of them have been made. -/
structure Heap where
  n : Nat := 0
  cell : Nat → Cell := fun _ => {}

/-- Changing an object. -/
def Heap.set (h : Heap) (a : Nat) (c : Cell) : Heap := { h with cell := fun x => if x = a then c else h.cell x }

/-- `make_obj(wk, &a, obj_array)`, src/lang/object.c:200-270: a new object, filled with zeros. -/
def make (h : Heap) : Nat × Heap := (h.n, { n := h.n + 1, cell := fun x => if x = h.n then {} else h.cell x })

/-- The loop of `obj_array_foreach`, src/lang/object.c:506-521. The callback returns whether to stop. -/
def loop {σ : Type} (cb : Nat → σ → Heap → Bool × σ × Heap) : Nat → Nat → σ → Heap → Option (σ × Heap)
  | 0, _, _, _ => none
  | f + 1, a, s, h =>
    let r := cb (h.cell a).val s h
    if r.1 then some r.2
    else if (r.2.2.cell a).haveNext then loop cb f (r.2.2.cell a).next r.2.1 r.2.2
    else some r.2

/-- `obj_array_foreach`, src/lang/object.c:497-524. A list of more elements than there are objects has a cycle. -/
def foreach {σ : Type} (cb : Nat → σ → Heap → Bool × σ × Heap) (a : Nat) (s : σ) (h : Heap) : Option (σ × Heap) :=
  if (h.cell a).len = 0 then some (s, h) else loop cb h.n a s h

/-- `obj_array_push`, src/lang/object.c:565-592. -/
def push (h : Heap) (a v : Nat) : Option Heap :=
  if (h.cell a).len = 0 then
    some (h.set a { h.cell a with tail := a, len := 1, val := v, haveNext := false })
  else
    let (c, h) := make h
    let h := h.set c { h.cell c with val := v }
    let t := (h.cell a).tail
    if (h.cell t).haveNext then none
    else
      let h := h.set t { h.cell t with haveNext := true, next := c }
      some (h.set a { h.cell a with tail := c, len := (h.cell a).len + 1 })

/-- The callback of `obj_array_dup`, src/lang/object.c:674-680, with the outcome of the assertion. -/
def pushTo (res : Nat) (v : Nat) (ok : Bool) (h : Heap) : Bool × Bool × Heap :=
  match push h res v with
  | some h => (false, ok, h)
  | none => (true, false, h)

/-- Iterating with `pushTo`. -/
def copyTo (h : Heap) (a res : Nat) : Option Heap :=
  match foreach (pushTo res) a true h with
  | some (true, h) => some h
  | _ => none

/-- `obj_array_dup`, src/lang/object.c:682-688. -/
def dup (h : Heap) (a : Nat) : Option (Nat × Heap) :=
  let (r, h) := make h
  (copyTo h a r).map fun h => (r, h)

/-- `obj_array_extend_nodup`, src/lang/object.c:690-712. -/
def extendNodup (h : Heap) (a b : Nat) : Option Heap :=
  if (h.cell b).len = 0 then some h
  else if (h.cell a).len = 0 then copyTo h b a
  else
    let t := (h.cell a).tail
    if (h.cell t).haveNext then none
    else
      let h := h.set t { h.cell t with haveNext := true, next := b }
      some (h.set a { h.cell a with tail := (h.cell b).tail, len := (h.cell a).len + (h.cell b).len })

/-- `obj_array_extend`, src/lang/object.c:714-720. -/
def extend (h : Heap) (a b : Nat) : Option Heap := do
  let (d, h) ← dup h b
  extendNodup h a d

/-- `obj_array_prepend`, src/lang/object.c:594-602: the array that replaces `a`. -/
def prepend (h : Heap) (a v : Nat) : Option (Nat × Heap) := do
  let (p, h) := make h
  let h ← push h p v
  let h ← extendNodup h p a
  return (p, h)

/-- `obj_array_index`, src/lang/object.c:641-664. -/
def index (h : Heap) (a i : Nat) : Option Nat :=
  if i < (h.cell a).len then
    (foreach (fun v (s : Nat × Nat) h => if s.1 = i then (true, (s.1, v), h) else (false, (s.1 + 1, s.2), h)) a (0, 0) h).map (·.1.2)
  else none

/-- The loop of `obj_array_set` and of `obj_array_del`, src/lang/object.c:812-821, 848-857: the `i`-th object after `a`,
and the one before it. -/
def nth (h : Heap) : Nat → Nat → Nat → Option (Nat × Nat)
  | p, a, 0 => some (p, a)
  | _, a, i + 1 => if (h.cell a).haveNext then nth h a (h.cell a).next i else none

/-- `obj_array_set`, src/lang/object.c:805-824. -/
def set (h : Heap) (a i v : Nat) : Option Heap :=
  if i < (h.cell a).len then (nth h a a i).map fun x => h.set x.2 { h.cell x.2 with val := v } else none

/-- `obj_array_del`, src/lang/object.c:826-872. -/
def del (h : Heap) (a i : Nat) : Option Heap :=
  if i < (h.cell a).len then
    if i = 0 then
      if (h.cell a).haveNext then
        let x := (h.cell a).next
        let h := h.set x { h.cell x with len := (h.cell a).len - 1, tail := (h.cell a).tail }
        some (h.set a (h.cell x))
      else some (h.set a {})
    else
      (nth h a a i).map fun (p, d) =>
        let h :=
          if (h.cell d).haveNext then h.set p { h.cell p with next := (h.cell d).next }
          else
            let h := h.set a { h.cell a with tail := p }
            h.set p { h.cell p with haveNext := false }
        h.set a { h.cell a with len := (h.cell a).len - 1 }
  else none

/-- `obj_array_get_tail`, src/lang/object.c:666-670. -/
def getTail (h : Heap) (a : Nat) : Nat := (h.cell (h.cell a).tail).val

/-- `obj_array_pop`, src/lang/object.c:874-880. -/
def pop (h : Heap) (a : Nat) : Option (Nat × Heap) :=
  if (h.cell a).len = 0 then none else (del h a ((h.cell a).len - 1)).map fun h' => (getTail h a, h')

/-- `obj_array_tail`, src/lang/object.c:789-803. -/
def tail (h : Heap) (a : Nat) : Nat × Heap :=
  if (h.cell a).haveNext then
    let x := (h.cell a).next
    (x, h.set x { h.cell x with tail := (h.cell a).tail, len := (h.cell a).len })
  else make h

/-- The callback of `obj_array_slice`, src/lang/object.c:1005-1021. -/
def sliceTo (res i0 i1 : Nat) (v : Nat) (s : Nat × Bool) (h : Heap) : Bool × (Nat × Bool) × Heap :=
  if s.1 ≥ i0 then
    match push h res v with
    | some h => (s.1 + 1 > i1, (s.1 + 1, s.2), h)
    | none => (true, (s.1, false), h)
  else (s.1 + 1 > i1, (s.1 + 1, s.2), h)

/-- `obj_array_slice`, src/lang/object.c:1023-1041, for indices that are not negative (see `Interp` for
`bounds_adjust`). -/
def slice (h : Heap) (a i0 i1 : Nat) : Option (Nat × Heap) :=
  if i0 < (h.cell a).len ∧ i1 < (h.cell a).len then
    let (r, h) := make h
    match foreach (sliceTo r i0 i1) a (0, true) h with
    | some ((_, true), h) => some (r, h)
    | _ => none
  else none

/-- What iterating over an array shows: `obj_array_foreach` with a callback that records the elements. -/
def contents (h : Heap) (a : Nat) : Option (List Nat) :=
  (foreach (fun v (s : List Nat) h => (false, s ++ [v], h)) a [] h).map (·.1)

/-- Operations of a client that refers to arrays by variables. -/
inductive Op
  | new
  | push (x v : Nat)
  | prepend (x v : Nat)
  | extend (x y : Nat)
  | dup (x : Nat)
  | set (x i v : Nat)
  | del (x i : Nat)
  | pop (x : Nat)
  | slice (x i j : Nat)

/-- The objects, and the arrays the variables refer to. -/
structure State where
  heap : Heap := {}
  vars : List Nat := []

/-- The effect of an operation. `new`, `dup` and `slice` make a new variable. -/
def step (st : State) : Op → Option State
  | .new => let (a, h) := make st.heap; some ⟨h, st.vars ++ [a]⟩
  | .push x v => do let a ← st.vars[x]?; let h ← push st.heap a v; return ⟨h, st.vars⟩
  | .prepend x v => do let a ← st.vars[x]?; let (p, h) ← prepend st.heap a v; return ⟨h, st.vars.set x p⟩
  | .extend x y => do let a ← st.vars[x]?; let b ← st.vars[y]?; let h ← extend st.heap a b; return ⟨h, st.vars⟩
  | .dup x => do let a ← st.vars[x]?; let (r, h) ← dup st.heap a; return ⟨h, st.vars ++ [r]⟩
  | .set x i v => do let a ← st.vars[x]?; let h ← set st.heap a i v; return ⟨h, st.vars⟩
  | .del x i => do let a ← st.vars[x]?; let h ← del st.heap a i; return ⟨h, st.vars⟩
  | .pop x => do let a ← st.vars[x]?; let (_, h) ← pop st.heap a; return ⟨h, st.vars⟩
  | .slice x i j => do let a ← st.vars[x]?; let (r, h) ← slice st.heap a i j; return ⟨h, st.vars ++ [r]⟩

/-- The effect of several operations. -/
def run (st : State) : List Op → Option State
  | [] => some st
  | op :: ops => do let st ← step st op; run st ops

end Muon.Arr
