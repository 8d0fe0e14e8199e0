import Verif.Base
/-
Model of src/datastructures/hash.c (open addressing hash table with tombstones).

Simplifications: allocation never fails; `size_t`/`uint64_t` counters (`cap`, `len`, `load`) are unbounded naturals
(they are bounded by memory); the slot arrays `meta` and `e` are total functions from indices, of which only indices
below `cap` are ever used (the index is always masked with `capm`). Values are of an arbitrary type `V`
(`uint64_t` in C), keys of an arbitrary type `K`; the hash function `hash` is a parameter. `keycmp` is equality of
keys: exact for `hash_init` (memcmp over the whole key, lines 85-89); for `hash_init_str` see `StrKey` below.
-/
namespace Muon.Hash
open Muon

/-- `k_empty`, line 17. -/
def kEmpty : UInt8 := 0x80
/-- `k_deleted`, line 18. -/
def kDeleted : UInt8 := 0xfe
/-- `k_full(v)`, line 19: the high bit is clear. -/
def kFull (v : UInt8) : Bool := v &&& 0x80 == 0

/-- `struct hash_elem`, lines 60-62. -/
structure Elem (V : Type) where
  val : V
  keyi : Nat

/-- `struct hash` (include/datastructures/hash.h). `keys` is the append-only key array (`arr keys`). -/
structure Table (K V : Type) where
  cap : Nat
  capm : Nat
  maxLoad : Nat
  len : Nat
  load : Nat
  /-- `h->meta` -/
  ctrl : Nat → UInt8
  elem : Nat → Elem V
  keys : Array K

variable {K V : Type} [DecidableEq K] [Inhabited V]

/-- `hash_init`, lines 91-108, for a capacity accepted by `ASSERT_VALID_CAP`. `(size_t)((float)cap * 0.5f)` is
`cap / 2` because `cap` is a power of two. -/
def init (cap : Nat) : Table K V :=
  { cap := cap, capm := cap - 1, maxLoad := cap / 2, len := 0, load := 0,
    ctrl := fun _ => kEmpty, elem := fun _ => ⟨default, 0⟩, keys := #[] }

/-- `h1`, line 191. -/
def h1 (hv : UInt64) : Nat := (hv >>> 7).toNat
/-- `h2`, line 191. -/
def h2 (hv : UInt64) : UInt8 := (hv &&& 0x7f).toUInt8

/-- The `match` macro of `probe`, lines 186-187. -/
def slotMatches (h : Table K V) (i : Nat) (hv : UInt64) (key : K) : Bool :=
  (h.ctrl i &&& 0x7f == h2 hv) && (h.keys[(h.elem i).keyi]? == some key)

/-- The loop condition of `probe`, line 198. -/
def keepProbing (h : Table K V) (i : Nat) (hv : UInt64) (key : K) : Bool :=
  h.ctrl i == kDeleted || (kFull (h.ctrl i) && !slotMatches h i hv key)

/-- The loop of `probe`, lines 198-202. `none` means the loop did not stop within `fuel` steps. -/
def probeLoop (h : Table K V) (hv : UInt64) (key : K) : Nat → Nat → Option Nat
  | 0, _ => none
  | fuel + 1, i =>
    if keepProbing h i hv key then probeLoop h hv key fuel ((i + 1) &&& h.capm) else some i

/-- `probe`, lines 183-208: index of the slot at which probing stops. The loop visits slots cyclically, so if it has
not stopped after `cap` steps it never stops; `none` models that non-termination. -/
def probe (hash : K → UInt64) (h : Table K V) (key : K) : Option Nat :=
  probeLoop h (hash key) key h.cap (h1 (hash key) &&& h.capm)

/-- Writing slot `i`. -/
def setSlot (h : Table K V) (i : Nat) (m : UInt8) (e : Elem V) : Table K V :=
  { h with ctrl := fun j => if j = i then m else h.ctrl j, elem := fun j => if j = i then e else h.elem j }

/-- Body of the rehashing loop of `resize`, lines 236-250, for one old slot `i`. `none` is non-termination of
`probe` or failure of the assertion on line 246. -/
def resizeStep (hash : K → UInt64) (old : Table K V) (acc : Option (Table K V)) (i : Nat) : Option (Table K V) :=
  acc.bind fun newh =>
    if kFull (old.ctrl i) then
      match old.keys[(old.elem i).keyi]? with
      | none => none
      | some key =>
        match probe hash newh key with
        | none => none
        | some j =>
          if kFull (newh.ctrl j) then none
          else some (setSlot newh j (h2 (hash key)) (old.elem i))
    else some newh

/-- `resize`, lines 210-255; `none` also models failure of the assertions on lines 213-214. -/
def resize (hash : K → UInt64) (h : Table K V) (newcap : Nat) : Option (Table K V) :=
  if h.len ≤ newcap then
    (List.range h.cap).foldl (resizeStep hash h)
      (some { cap := newcap, capm := newcap - 1, maxLoad := newcap / 2, len := h.len, load := h.load,
              ctrl := fun _ => kEmpty, elem := fun _ => ⟨default, 0⟩, keys := h.keys })
  else none

/-- `hash_get`, lines 257-267. Outer `none`: non-termination. -/
def get (hash : K → UInt64) (h : Table K V) (key : K) : Option (Option V) :=
  (probe hash h key).map fun i => if kFull (h.ctrl i) then some (h.elem i).val else none

/-- `hash_set`, lines 300-322. -/
def set (hash : K → UInt64) (h : Table K V) (key : K) (val : V) : Option (Table K V) :=
  (if h.load > h.maxLoad then resize hash h (h.cap <<< 1) else some h).bind fun h =>
    (probe hash h key).map fun i =>
      if kFull (h.ctrl i) then setSlot h i (h.ctrl i) { (h.elem i) with val := val }
      else
        let h' := setSlot h i (h2 (hash key)) ⟨val, h.keys.size⟩
        { h' with keys := h.keys.push key, len := h.len + 1, load := h.load + 1 }

/-- `hash_unset`, lines 276-291; `none` also models failure of the assertion on line 290. -/
def unset (hash : K → UInt64) (h : Table K V) (key : K) : Option (Table K V) :=
  (probe hash h key).bind fun i =>
    let h' := if kFull (h.ctrl i) then
        { setSlot h i kDeleted (h.elem i) with len := h.len - 1 }
      else h
    match get hash h' key with
    | some none => some h'
    | _ => none

/-- `hash_clear`, lines 176-181. The key array is not truncated. -/
def clear (h : Table K V) : Table K V :=
  { h with len := 0, load := 0, ctrl := fun i => if i < h.cap then kEmpty else h.ctrl i }

/-- One iteration of `hash_for_each_with_keys`, lines 151-173: what the callback is given for slot `i`, if anything.
The callback is assumed to return `ir_cont`. -/
def visit (h : Table K V) (i : Nat) : Option (K × V) :=
  if kFull (h.ctrl i) then (h.keys[(h.elem i).keyi]?).map fun k => (k, (h.elem i).val) else none

/-- `hash_for_each_with_keys`, lines 151-173: the sequence of callback arguments. -/
def forEach (h : Table K V) : List (K × V) := (List.range h.cap).filterMap (visit h)

/-- The operations of the table. -/
inductive Op (K V : Type)
  | set (k : K) (v : V)
  | unset (k : K)
  | clear

/-- One operation; `none` is non-termination or assertion failure. -/
def step (hash : K → UInt64) (h : Table K V) : Op K V → Option (Table K V)
  | .set k v => set hash h k v
  | .unset k => unset hash h k
  | .clear => some (clear h)

/-- A sequence of operations from a table. -/
def run (hash : K → UInt64) : Table K V → List (Op K V) → Option (Table K V)
  | h, [] => some h
  | h, op :: ops => (step hash h op).bind fun h' => run hash h' ops

/-- `hash_keycmp_strcmp`, lines 110-115: equal lengths and `strncmp(a, b, len) == 0`; `strncmp` stops at a NUL. -/
def strKeyEq (a b : Bytes) : Bool :=
  a.length == b.length && strncmpEq a b
where
  strncmpEq : Bytes → Bytes → Bool
    | x :: xs, y :: ys => x == y && (x == 0 || strncmpEq xs ys)
    | _, _ => true

/-- The loop of `fnv_1a_64_str`, lines 37-40: the counter is a `uint16_t`, the bound a 64-bit length. The state is the
counter; `none` means that the loop has not finished within `fuel` iterations. -/
def fnvLoop (len : Nat) (str : Nat → UInt8) : Nat → UInt16 → UInt64 → Option UInt64
  | 0, _, _ => none
  | fuel + 1, i, h =>
    if i.toNat < len then
      -- `h ^= key->str[i]` sign-extends the char, line 38
      fnvLoop len str fuel (i + 1) ((h ^^^ (str i.toNat).toInt8.toInt64.toUInt64) * 1099511628211)
    else some h

end Muon.Hash
