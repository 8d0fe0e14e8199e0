import Verif.Base
/-
Growable storage: src/datastructures/arr.c, src/datastructures/bucket_arr.c, and string buffers, src/lang/string.c. Memory
is a list of cells; a write or read outside of the list is `bad`, and so is a failed assertion. Running out of memory ends
the program and is not modelled.
-/
namespace Muon.Buf
open Muon

/-- `memcpy`/`memmove` into memory: bytes `data` at offset `off`. -/
def write {α : Type} (mem : List α) (off : Nat) (data : List α) : Res (List α) :=
  if off + data.length ≤ mem.length then .ok (mem.take off ++ data ++ mem.drop (off + data.length)) else .bad

/-! ### Arrays -/

/-- `struct arr`, include/datastructures/arr.h:13-18. A cell of `mem` is an item; `none` is memory that was never written. -/
structure A (α : Type) where
  len : Nat
  cap : Nat
  isz : Nat
  mem : List (Option α)
  deriving DecidableEq, Repr

/-- The whole items in memory for `n` items of `isz` bytes: the product is a 64-bit number. -/
def cells (n isz : Nat) : Nat := (n * isz % 2 ^ 64) / isz

/-- `arr_init`, arr.c:18-27; `z_malloc` (src/platform/mem.c:45-58) asserts that the size is not 0. -/
def arrInit {α : Type} (initial isz : Nat) : Res (A α) :=
  if isz = 0 ∨ initial * isz % 2 ^ 64 = 0 then .bad
  else .ok ⟨0, initial, isz, List.replicate (cells initial isz) none⟩

/-- `z_realloc`, src/platform/mem.c:61-75. -/
def realloc {α : Type} (mem : List (Option α)) (n : Nat) : List (Option α) := mem.take n ++ List.replicate (n - mem.length) none

/-- `arr_get_mem`, arr.c:50-75, after `len` was increased to `len`. -/
def arrGrow {α : Type} (a : A α) (len : Nat) : Res (A α) :=
  if len > a.cap then
    if a.cap = 0 then .bad
    else
      let newcap := if a.cap * 2 < len then len * 2 else a.cap * 2
      .ok { a with len := len, cap := newcap, mem := realloc a.mem (cells newcap a.isz) }
  else .ok { a with len := len }

/-- `arr_push`, arr.c:84-90. -/
def arrPush {α : Type} (a : A α) (x : α) : Res (A α) :=
  arrGrow a (a.len + 1) >>= fun a => write a.mem (a.len - 1) [some x] >>= fun mem => .ok { a with mem := mem }

/-- `arr_grow_by`, arr.c:77-82, and filling the new items, as src/lang/analyze.c:65-75 does. -/
def arrExtend {α : Type} (a : A α) (xs : List α) : Res (A α) :=
  arrGrow a (a.len + xs.length) >>= fun a' => write a'.mem a.len (xs.map some) >>= fun mem => .ok { a' with mem := mem }

/-- `arr_get`, arr.c:92-101, and reading the item. -/
def arrGet {α : Type} (a : A α) (i : Nat) : Res α :=
  if i < a.len then
    match a.mem[i]? with
    | some (some x) => .ok x
    | _ => .bad
  else .bad

/-- `arr_del`, arr.c:103-113. -/
def arrDel {α : Type} (a : A α) (i : Nat) : Res (A α) :=
  if i < a.len then
    let n := a.len - 1
    if n > 0 ∧ n ≠ i then
      match a.mem[n]? with
      | some x => write a.mem i [x] >>= fun mem => .ok { a with len := n, mem := mem }
      | none => .bad
    else .ok { a with len := n }
  else .bad

/-- `arr_clear`, arr.c:38-42. -/
def arrClear {α : Type} (a : A α) : A α := { a with len := 0 }

/-! ### Bucket arrays -/

/-- `struct bucket`, include/datastructures/bucket_arr.h:22-25. -/
structure Bk (α : Type) where
  mem : List α
  len : Nat
  deriving DecidableEq, Repr

/-- `struct bucket_arr`, bucket_arr.h:15-20. The array of the buckets themselves is a list. -/
structure B (α : Type) where
  size : Nat
  buckets : List (Bk α)
  len : Nat
  tail : Nat
  deriving DecidableEq, Repr

/-- A new bucket, `init_bucket`, bucket_arr.c:16-20: cleared memory. -/
def newBk {α : Type} (zero : α) (size : Nat) : Bk α := ⟨List.replicate size zero, 0⟩

/-- `bucket_arr_init`, bucket_arr.c:28-43. -/
def bInit {α : Type} (zero : α) (size : Nat) : B α := ⟨size, [newBk zero size], 0, 0⟩

/-- The bucket in which `reserve` items are put, bucket_arr.c:102-116. -/
def bRoom {α : Type} (zero : α) (b : B α) (reserve : Nat) : Res (B α) :=
  match b.buckets[b.tail]? with
  | none => .bad
  | some k =>
    if k.len + reserve > b.size then
      if b.tail ≥ b.buckets.length - 1 then .ok { b with buckets := b.buckets ++ [newBk zero b.size], tail := b.tail + 1 }
      else
        match b.buckets[b.tail + 1]? with
        | some k' => if k'.len = 0 then .ok { b with tail := b.tail + 1 } else .bad
        | none => .bad
    else .ok b

/-- `bucket_arr_pushn`, bucket_arr.c:93-126; the result is the bucket and the position in it of the new items. `data` is
empty for `NULL`. -/
def pushn {α : Type} (zero : α) (b : B α) (data : List α) (reserve : Nat) : Res (B α × (Nat × Nat)) :=
  if data.length ≤ reserve ∧ reserve < b.size then
    bRoom zero b reserve >>= fun b =>
    match b.buckets[b.tail]? with
    | none => .bad
    | some k =>
      write k.mem k.len data >>= fun mem =>
      .ok ({ b with buckets := b.buckets.set b.tail ⟨mem, k.len + reserve⟩, len := b.len + reserve }, (b.tail, k.len))
  else .bad

/-- `bucket_arr_get`, bucket_arr.c:134-144, and reading the item. -/
def bGet {α : Type} (b : B α) (i : Nat) : Res α :=
  match b.buckets[i / b.size]? with
  | none => .bad
  | some k =>
    if i % b.size < k.len then
      match k.mem[i % b.size]? with
      | some x => .ok x
      | none => .bad
    else .bad

/-- `bucket_arr_save`, bucket_arr.c:60-68. -/
def save {α : Type} (b : B α) : Res (Nat × Nat) :=
  match b.buckets[b.tail]? with
  | none => .bad
  | some k => .ok (b.tail, k.len)

/-- The buckets after the one that was saved are cleared, bucket_arr.c:82-88. -/
def emptied {α : Type} (zero : α) (k : Bk α) : Bk α := ⟨List.replicate (min k.len k.mem.length) zero ++ k.mem.drop k.len, 0⟩

/-- `bucket_arr_restore`, bucket_arr.c:70-91. -/
def restore {α : Type} (zero : α) (b : B α) (s : Nat × Nat) : Res (B α) :=
  match b.buckets[s.1]? with
  | none => .bad
  | some k =>
    if s.2 ≤ k.len then
      let k' : Bk α := ⟨k.mem.take s.2 ++ List.replicate (b.size - s.2) zero, s.2⟩
      .ok { b with
        buckets := b.buckets.take s.1 ++ k' :: (b.buckets.drop (s.1 + 1)).map (emptied zero)
        len := b.len - (k.len - s.2) - ((b.buckets.drop (s.1 + 1)).map Bk.len).sum
        tail := s.1 }
    else .bad

/-- `bucket_arr_clear`, bucket_arr.c:45-58. -/
def bClear {α : Type} (b : B α) : B α :=
  { b with buckets := (b.buckets.map (fun k => { k with len := 0 })).take 1, len := 0 }

/-! ### String buffers -/

/-- Where the bytes are: the buffer it began with (and what happens when that is full), memory from the heap, or the
memory of a string object; `sbuf_flag_overflown` and the other flags, include/lang/string.h:20-27. -/
inductive Mode
  | initial (overflow : Option Bool)
  | heap
  | str
  deriving DecidableEq, Repr

/-- `struct sbuf`, include/lang/string.h:36-41. -/
structure Sb where
  mem : Bytes
  cap : Nat
  len : Nat
  mode : Mode
  deriving DecidableEq, Repr

/-- `sbuf_init`, string.c:547-560: on a buffer of which the bytes are arbitrary. `overflow` is `some true` for
`sbuf_flag_overflow_alloc`, `some false` for a string object, `none` for `sbuf_flag_overflow_error`. -/
def sbInit (buf : Bytes) (overflow : Option Bool) : Sb := ⟨buf.set 0 0, buf.length, 0, .initial overflow⟩

/-- Doubling until it is enough, string.c:591-599, on 32-bit numbers; `none` if it goes on for ever. -/
def double : Nat → Nat → Nat → Option Nat
  | 0, _, _ => none
  | n + 1, cap, need => let c := cap * 2 % 2 ^ 32; if c < need then double n c need else some c

def growCap (cap need : Nat) : Option Nat := double 33 (if cap = 0 then 1024 else cap) need

/-- `sbuf_grow`, string.c:582-640. `junk` are the bytes of memory that was just allocated. A string object has one byte more
at first (`reserve_str`, string.c:72-98: with 4095 bytes the assertion of `bucket_arr_pushn` fails), then exactly the new
capacity (`grow_str`, string.c:101-136). -/
def sbGrow (junk : Nat → UInt8) (sb : Sb) (inc : Nat) : Res Sb :=
  let newlen := (sb.len + inc) % 2 ^ 32
  if newlen < sb.cap then .ok sb
  else
    match growCap sb.cap newlen with
    | none => .bad
    | some newcap =>
      match sb.mode with
      | .heap =>
        write (sb.mem.take newcap ++ (List.range (newcap - sb.mem.length)).map junk) sb.len (List.replicate (newcap - sb.cap) 0) >>= fun mem =>
        .ok { sb with mem := mem, cap := newcap }
      | .str =>
        if sb.cap ≤ sb.mem.length then .ok { sb with mem := sb.mem.take sb.cap ++ List.replicate (newcap - sb.cap) 0, cap := newcap }
        else .bad
      | .initial none => .error
      | .initial (some true) =>
        write (List.replicate newcap 0) 0 (sb.mem.take sb.len) >>= fun mem =>
        .ok { mem := mem, cap := newcap, len := sb.len, mode := .heap }
      | .initial (some false) =>
        if newcap = 4095 then .bad
        else
          write (List.replicate (newcap + 1) 0) 0 (sb.mem.take sb.len) >>= fun mem =>
          .ok { mem := mem, cap := newcap, len := sb.len, mode := .str }

/-- Writing `data` at the end and counting `n` of it. -/
def sbPut (sb : Sb) (data : Bytes) (n : Nat) : Res Sb :=
  write sb.mem sb.len data >>= fun mem => .ok { sb with mem := mem, len := sb.len + n }

/-- `sbuf_push`, string.c:642-660. -/
def sbPush (junk : Nat → UInt8) (sb : Sb) (c : UInt8) : Res Sb :=
  sbGrow junk sb 2 >>= fun sb => sbPut sb [c, 0] 1

/-- `sbuf_pushn`, string.c:662-684. -/
def sbPushn (junk : Nat → UInt8) (sb : Sb) (s : Bytes) : Res Sb :=
  if s = [] then .ok sb else sbGrow junk sb (s.length + 1) >>= fun sb => sbPut sb (s ++ [0]) s.length

/-- `sbuf_pushs`, string.c:686-709: `s` is a C string. -/
def sbPushs (junk : Nat → UInt8) (sb : Sb) (s : Bytes) : Res Sb :=
  if s.length + 1 < 2 then .ok sb else sbGrow junk sb (s.length + 1) >>= fun sb => sbPut sb (s ++ [0]) s.length

/-- `sbuf_pushf`, string.c:711-741: `s` is what `vsnprintf` gives. -/
def sbPushf (junk : Nat → UInt8) (sb : Sb) (s : Bytes) : Res Sb :=
  sbGrow junk sb s.length >>= fun sb => sbPut sb (s ++ [0]) s.length

/-- `sbuf_clear`, string.c:571-580. -/
def sbClear (sb : Sb) : Res Sb :=
  write sb.mem 0 (List.replicate sb.len 0) >>= fun mem => .ok { sb with mem := mem, len := 0 }

/-- Making a string of `len` bytes, `reserve_str`, string.c:72-98, in a workspace (`bucket_size` of the characters is 4096,
src/lang/workspace.c:88): the assertion of `bucket_arr_pushn` fails for 4095 bytes. -/
def makeStr (s : Bytes) : Res Bytes := if s.length + 1 = 4096 then .bad else .ok s

/-- `sbuf_into_str`, string.c:743-759: the bytes of the string. -/
def intoStr (sb : Sb) : Res Bytes :=
  match sb.mode with
  | .str => if (sb.mem.takeWhile (· ≠ 0)).length = sb.len then .ok (sb.mem.take sb.len) else .bad
  | _ => if sb.len = 0 then .ok [] else makeStr (sb.mem.take sb.len)

end Muon.Buf
