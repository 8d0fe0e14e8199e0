import Verif.Base
/-
The table of nodes: src/external/samurai/htab.c, and `samu_mknode`, `samu_nodeget` of src/external/samurai/graph.c.

Simplifications: `hash` is a parameter (`samu_murmurhash64a`, htab.c:111-151, in the code); a key is its bytes; the slots
are a function from indices; sizes do not overflow. A value is a node number, `none` is NULL.
-/
namespace Muon.Htab
open Muon

/-- `struct samu_hashtable`, htab.c:17-21. `slot i` is `none` if `keys[i].str` is NULL. -/
structure Table where
  len : Nat
  cap : Nat
  slot : Nat → Option (Bytes × Option Nat)

/-- `samu_mkhtab`, htab.c:31-47. -/
def mk (cap : Nat) : Table := ⟨0, cap, fun _ => none⟩

/-- `samu_keyequal`, htab.c:49-55. -/
def keyEqual (hash : Bytes → UInt64) (a b : Bytes) : Bool :=
  if hash a ≠ hash b ∨ a.length ≠ b.length then false else a == b

/-- The loop of `samu_keyindex`, htab.c:62-64, from index `i` on. -/
def keyindexLoop (hash : Bytes → UInt64) (h : Table) (k : Bytes) : Nat → Nat → Option Nat
  | 0, _ => none
  | f + 1, i =>
    match h.slot i with
    | none => some i
    | some (k', _) => if keyEqual hash k' k then some i else keyindexLoop hash h k f ((i + 1) &&& (h.cap - 1))

/-- `samu_keyindex`, htab.c:57-66. The loop visits the slots cyclically: if it has not stopped after `cap` steps it never
stops; `none` stands for that. -/
def keyindex (hash : Bytes → UInt64) (h : Table) (k : Bytes) : Option Nat :=
  keyindexLoop hash h k h.cap ((hash k).toNat &&& (h.cap - 1))

/-- Writing a slot. -/
def setSlot (h : Table) (i : Nat) (x : Bytes × Option Nat) : Table := { h with slot := fun j => if j = i then some x else h.slot j }

/-- The loop that moves the entries to the larger table, htab.c:84-90, for the old slots below `n`. -/
def move (hash : Bytes → UInt64) (old new : Table) : Nat → Option Table
  | 0 => some new
  | n + 1 => do
    let h ← move hash old new n
    match old.slot n with
    | none => pure h
    | some (k, v) => do
      let j ← keyindex hash h k
      pure (setSlot h j (k, v))

/-- Growing, htab.c:75-91. -/
def grow (hash : Bytes → UInt64) (h : Table) : Option Table :=
  if h.cap / 2 < h.len then move hash h ⟨h.len, h.cap * 2, fun _ => none⟩ h.cap else some h

/-- `samu_htabput`, htab.c:68-100: the table afterwards and the index of the slot. -/
def put (hash : Bytes → UInt64) (h : Table) (k : Bytes) : Option (Table × Nat) := do
  let h ← grow hash h
  let i ← keyindex hash h k
  match h.slot i with
  | none => pure ({ setSlot h i (k, none) with len := h.len + 1 }, i)
  | some _ => pure (h, i)

/-- `samu_htabget`, htab.c:102-109: the value, `none` for NULL; outer `none`: the loop does not stop. -/
def get (hash : Bytes → UInt64) (h : Table) (k : Bytes) : Option (Option Nat) := do
  let i ← keyindex hash h k
  match h.slot i with
  | some (_, v) => pure v
  | none => pure none

/-- `samu_mknode`, graph.c:34-59: the table and the number of nodes afterwards, and the node. Nodes are numbered in the order
of their creation. -/
def mknode (hash : Bytes → UInt64) (h : Table) (n : Nat) (path : Bytes) : Option (Table × Nat × Nat) := do
  let (h, i) ← put hash h path
  match h.slot i with
  | some (_, some v) => pure (h, n, v)
  | some (k, none) => pure (setSlot h i (k, some n), n + 1, n)
  | none => none

/-- `samu_nodeget`, graph.c:61-70. -/
def nodeget (hash : Bytes → UInt64) (h : Table) (path : Bytes) : Option (Option Nat) := get hash h path

/-- Creating nodes for paths, one after another, from the table of `samu_graphinit`, graph.c:20-32. -/
def mknodes (hash : Bytes → UInt64) : List Bytes → Table → Nat → Option (Table × Nat × List Nat)
  | [], h, n => some (h, n, [])
  | p :: ps, h, n => do
    let (h, n, v) ← mknode hash h n p
    let (h, n, vs) ← mknodes hash ps h n
    pure (h, n, v :: vs)

/-- The initial table, graph.c:31. -/
def init : Table := mk 1024

end Muon.Htab
