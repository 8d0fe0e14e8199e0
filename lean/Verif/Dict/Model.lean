import Verif.Hash.Model
/-
Dictionaries, src/lang/object.c:1043-1414: a linked list, or from the sixteenth key on a hash table.

Objects are numbers. Strings never change, so `get_str` is a function `str` from objects to byte strings. Simplifications:
keys are strings (`obj_dict_flag_int_key` and `obj_dict_flag_dont_expand`, used for internal tables, are not modelled);
keys of a hash table are compared as byte strings (the code stops at a NUL, and hangs for keys of 64 KiB; see `Hash`);
the packed `uint64_t` of a hash table is a pair. `none` is a failed assertion, a null pointer or a loop that does not
end.
-/
namespace Muon.Dict
open Muon

/-- `struct obj_dict_elem`, include/lang/object.h:179-182. -/
structure Elem where
  next : Nat := 0
  key : Nat := 0
  val : Nat := 0
deriving DecidableEq

/-- `struct obj_dict`, include/lang/object.h:184-188; of the flags, `obj_dict_flag_big`. -/
structure Obj where
  data : Nat := 0
  len : Nat := 0
  tail : Nat := 0
  big : Bool := false
deriving DecidableEq

/-- A hash table from strings to keys and values (`hash_init_str`). -/
abbrev Table := Hash.Table Bytes (Nat × Nat)

/-- The dictionaries of a workspace: `wk->dict_elems` (element 0 is reserved, src/lang/workspace.c:135),
`wk->dict_hashes` and the objects of type `obj_dict`. -/
structure Heap where
  nElems : Nat := 1
  elem : Nat → Elem := fun _ => {}
  nHashes : Nat := 0
  hash : Nat → Table := fun _ => Hash.init 16
  nObjs : Nat := 0
  obj : Nat → Obj := fun _ => {}

/-- The hash function and the strings. -/
structure Env where
  fnv : Bytes → UInt64
  str : Nat → Bytes

def Heap.setElem (h : Heap) (a : Nat) (e : Elem) : Heap := { h with elem := fun x => if x = a then e else h.elem x }
def Heap.setObj (h : Heap) (a : Nat) (d : Obj) : Heap := { h with obj := fun x => if x = a then d else h.obj x }
def Heap.setHash (h : Heap) (a : Nat) (t : Table) : Heap := { h with hash := fun x => if x = a then t else h.hash x }

/-- `bucket_arr_push(&wk->dict_elems, ...)`. -/
def Heap.pushElem (h : Heap) (e : Elem) : Heap := { h.setElem h.nElems e with nElems := h.nElems + 1 }

/-- `make_obj(wk, res, obj_dict)`. -/
def make (h : Heap) : Nat × Heap := (h.nObjs, { h.setObj h.nObjs {} with nObjs := h.nObjs + 1 })

/-- The loop of `_obj_dict_index` over a list, src/lang/object.c:1186-1198: the element with the key. -/
def find (env : Env) (h : Heap) (k : Bytes) : Nat → Nat → Option (Option Nat)
  | 0, _ => none
  | f + 1, e =>
    if env.str (h.elem e).key = k then some (some e)
    else if (h.elem e).next = 0 then some none
    else find env h k f (h.elem e).next

/-- `obj_dict_index_strn` with `_obj_dict_index`, src/lang/object.c:1158-1223. -/
def index (env : Env) (h : Heap) (d : Nat) (k : Bytes) : Option (Option Nat) :=
  if (h.obj d).len = 0 then some none
  else if (h.obj d).big then (Hash.get env.fnv (h.hash (h.obj d).data) k).map (·.map (·.2))
  else (find env h k h.nElems (h.obj d).data).map (·.map fun e => (h.elem e).val)

/-- The loop that makes a hash table from a list, src/lang/object.c:1279-1295. -/
def toTable (env : Env) (h : Heap) : Nat → Nat → Table → Option Table
  | 0, _, _ => none
  | f + 1, e, t =>
    (Hash.set env.fnv t (env.str (h.elem e).key) ((h.elem e).key, (h.elem e).val)).bind fun t =>
      if (h.elem e).next = 0 then some t else toTable env h f (h.elem e).next t

/-- The switch to a hash table, src/lang/object.c:1267-1297. -/
def expand (env : Env) (h : Heap) (d : Nat) : Option Heap :=
  if !(h.obj d).big && (h.obj d).len ≥ 15 then
    (toTable env h h.nElems (h.obj d).data (Hash.init 16)).map fun t =>
      let i := h.nHashes
      let h := { h.setHash i t with nHashes := i + 1 }
      h.setObj d { h.obj d with data := i, tail := 0, big := true }
  else some h

/-- Storing through the pointer into a hash table, `*ur = ...`, src/lang/object.c:1305. -/
def poke (fnv : Bytes → UInt64) (t : Table) (k : Bytes) (v : Nat × Nat) : Option Table :=
  (Hash.probe fnv t k).map fun i => Hash.setSlot t i (t.ctrl i) { t.elem i with val := v }

/-- `_obj_dict_set` for a dictionary that is a hash table, src/lang/object.c:1299-1318. -/
def setBig (env : Env) (h : Heap) (d key val : Nat) : Option Heap :=
  let i := (h.obj d).data
  (Hash.get env.fnv (h.hash i) (env.str key)).bind fun
    | some _ => (poke env.fnv (h.hash i) (env.str key) (key, val)).map fun t => h.setHash i t
    | none => (Hash.set env.fnv (h.hash i) (env.str key) (key, val)).map fun t =>
      let h := h.setHash i t
      h.setObj d { h.obj d with len := t.len }

/-- `_obj_dict_set` for a dictionary that is a list, src/lang/object.c:1299-1307, 1318-1326. -/
def setSmall (env : Env) (h : Heap) (d key val : Nat) : Option Heap :=
  (find env h (env.str key) h.nElems (h.obj d).data).map fun
    | some e => h.setElem e { h.elem e with val := val }
    | none =>
      let e := h.nElems
      let h := h.pushElem { key, val }
      let t := (h.obj d).tail
      let h := h.setElem t { h.elem t with next := e }
      h.setObj d { h.obj d with tail := e, len := (h.obj d).len + 1 }

/-- `obj_dict_set`, src/lang/object.c:1245-1336. -/
def set (env : Env) (h : Heap) (d key val : Nat) : Option Heap :=
  if (h.obj d).len = 0 then
    let e := h.nElems
    let h := h.pushElem { key, val }
    some (h.setObj d { h.obj d with data := e, tail := e, len := 1 })
  else
    (expand env h d).bind fun h =>
      if (h.obj d).big then setBig env h d key val else setSmall env h d key val

/-- The loop of `_obj_dict_del`, src/lang/object.c:1362-1374: the element with the key and the one before it. -/
def findPrev (env : Env) (h : Heap) (k : Bytes) : Nat → Nat → Nat → Option (Option (Nat × Nat))
  | 0, _, _ => none
  | f + 1, p, e =>
    if env.str (h.elem e).key = k then some (some (p, e))
    else if (h.elem e).next = 0 then some none
    else findPrev env h k f e (h.elem e).next

/-- `obj_dict_del_strn` with `_obj_dict_del`, src/lang/object.c:1338-1401. -/
def del (env : Env) (h : Heap) (d : Nat) (k : Bytes) : Option Heap :=
  if (h.obj d).len = 0 then some h
  else if (h.obj d).big then (Hash.unset env.fnv (h.hash (h.obj d).data) k).map fun t => h.setHash (h.obj d).data t
  else
    (findPrev env h k h.nElems 0 (h.obj d).data).map fun
      | none => h
      | some (p, e) =>
        let h := h.setObj d { h.obj d with len := (h.obj d).len - 1 }
        if e = (h.obj d).data then h.setObj d { h.obj d with data := (h.elem e).next }
        else if (h.elem e).next = 0 then
          let h := h.setObj d { h.obj d with tail := p }
          h.setElem p { h.elem p with next := 0 }
        else h.setElem p { h.elem p with next := (h.elem e).next }

/-- The loop of `obj_dict_foreach` over a list, src/lang/object.c:1075-1091. The callback can fail. -/
def loopSmall {σ : Type} (cb : Nat → Nat → σ → Heap → Option (σ × Heap)) : Nat → Nat → σ → Heap → Option (σ × Heap)
  | 0, _, _, _ => none
  | f + 1, e, s, h =>
    (cb (h.elem e).key (h.elem e).val s h).bind fun (s, h) =>
      if (h.elem e).next = 0 then some (s, h) else loopSmall cb f (h.elem e).next s h

/-- The loop of `obj_dict_foreach` over the keys of a hash table, src/lang/object.c:1057-1072. `n` more keys from
number `i` on; a key that is not in the table (it was deleted) is a null pointer. -/
def loopBig {σ : Type} (env : Env) (cb : Nat → Nat → σ → Heap → Option (σ × Heap)) (t : Nat) : Nat → Nat → σ → Heap → Option (σ × Heap)
  | 0, i, s, h => if i < (h.hash t).keys.size then none else some (s, h)
  | n + 1, i, s, h =>
    match (h.hash t).keys[i]? with
    | none => some (s, h)
    | some k =>
      match Hash.get env.fnv (h.hash t) k with
      | some (some (key, val)) => (cb key val s h).bind fun (s, h) => loopBig env cb t n (i + 1) s h
      | _ => none

/-- `obj_dict_foreach`, src/lang/object.c:1047-1094, with a callback that does not stop the iteration. -/
def foreach {σ : Type} (env : Env) (cb : Nat → Nat → σ → Heap → Option (σ × Heap)) (d : Nat) (s : σ) (h : Heap) : Option (σ × Heap) :=
  if (h.obj d).len = 0 then some (s, h)
  else if (h.obj d).big then loopBig env cb (h.obj d).data (h.hash (h.obj d).data).keys.size 0 s h
  else loopSmall cb h.nElems (h.obj d).data s h

/-- `obj_dict_merge_nodup`, src/lang/object.c:1114-1128. -/
def mergeInto (env : Env) (h : Heap) (d d2 : Nat) : Option Heap :=
  (foreach env (fun k v (_ : Unit) h => (set env h d k v).map fun h => ((), h)) d2 () h).map (·.2)

/-- `obj_dict_dup`, src/lang/object.c:1096-1112. -/
def dup (env : Env) (h : Heap) (d : Nat) : Option (Nat × Heap) :=
  let (r, h) := make h
  (mergeInto env h r d).map fun h => (r, h)

/-- `obj_dict_merge`, src/lang/object.c:1130-1135. -/
def merge (env : Env) (h : Heap) (d d2 : Nat) : Option (Nat × Heap) :=
  (dup env h d).bind fun (r, h) => (mergeInto env h r d2).map fun h => (r, h)

/-- What iterating over a dictionary shows: the keys and values. -/
def contents (env : Env) (h : Heap) (d : Nat) : Option (List (Bytes × Nat)) :=
  (foreach env (fun k v (s : List (Bytes × Nat)) h => some (s ++ [(env.str k, v)], h)) d [] h).map (·.1)

/-- Operations of a client that refers to dictionaries by variables. -/
inductive Op
  | new
  | set (x key val : Nat)
  | del (x : Nat) (k : Bytes)
  | dup (x : Nat)
  | merge (x y : Nat)
  | update (x y : Nat)

/-- The dictionaries, and those the variables refer to. -/
structure State where
  heap : Heap := {}
  vars : List Nat := []

/-- The effect of an operation; `update` is `obj_dict_merge_nodup`. `new`, `dup` and `merge` make a new variable. -/
def step (env : Env) (st : State) : Op → Option State
  | .new => let (a, h) := make st.heap; some ⟨h, st.vars ++ [a]⟩
  | .set x key val => do let d ← st.vars[x]?; let h ← set env st.heap d key val; return ⟨h, st.vars⟩
  | .del x k => do let d ← st.vars[x]?; let h ← del env st.heap d k; return ⟨h, st.vars⟩
  | .dup x => do let d ← st.vars[x]?; let (r, h) ← dup env st.heap d; return ⟨h, st.vars ++ [r]⟩
  | .merge x y => do let d ← st.vars[x]?; let d2 ← st.vars[y]?; let (r, h) ← merge env st.heap d d2; return ⟨h, st.vars ++ [r]⟩
  | .update x y => do let d ← st.vars[x]?; let d2 ← st.vars[y]?; let h ← mergeInto env st.heap d d2; return ⟨h, st.vars⟩

/-- The effect of several operations. -/
def run (env : Env) (st : State) : List Op → Option State
  | [] => some st
  | op :: ops => do let st ← step env st op; run env st ops

end Muon.Dict
