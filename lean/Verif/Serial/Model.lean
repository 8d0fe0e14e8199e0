import Verif.Dlog.Model
/-
The file format of a dumped workspace: src/lang/serial.c.

Integers are written in little-endian byte order, structures as they are in memory. A reader returns the value and the
rest of the file; `error` is the result `false`, `bad` an assertion or an access outside of an object.
-/
namespace Muon.Serial
open Muon
open _root_.Muon.Dlog (le32 get32)

def le64 (n : Nat) : Bytes := le32 (n % 2 ^ 32) ++ le32 (n / 2 ^ 32)

/-- `enum obj_type`, include/lang/object.h:31-72: `_obj_aos_start`, `obj_string`, `obj_type_count`. -/
def aosStart : Nat := 7
def tagString : Nat := 8
def tagCount : Nat := 34

/-- Sizes: `sizeof` of the structure of each type, lang/workspace.c:93-124. -/
abbrev Sizes := Nat → Nat

/-- An object and what it refers to. Of a string: the flags, and the place of its text in `chrs` and its length, or
its text if it is big. -/
inductive Cell
  | simple (tag : Nat) (val : Nat)
  | aos (tag : Nat) (payload : Bytes)
  | small (flags : Nat) (pos : Nat) (len : Nat)
  | big (flags : Nat) (text : Bytes)
deriving DecidableEq, Repr

/-- The part of a workspace that is dumped: the characters, all objects but the first, and the elements of dicts; bucket
arrays as the bytes in each bucket. -/
structure Img where
  chrs : List Bytes
  objs : List Cell
  elems : List Bytes
deriving DecidableEq, Repr

/-! ### Writing -/

/-- `dump_bucket_arr`, serial.c:55-77. -/
def dumpBuckets (isz : Nat) (bs : List Bytes) : Bytes :=
  le32 bs.length ++ bs.flatMap fun b => le32 (b.length / isz) ++ b

/-- `dump_serial_header`, serial.c:123-128. -/
def header : Bytes := ascii "muondump" ++ le32 7

/-- The text of a big string, with the NUL. -/
def Cell.bigText : Cell → Bytes
  | .big _ s => s ++ [0]
  | _ => []

/-- The texts `dump_big_strings` writes, serial.c:157-199. -/
def bigData (objs : List Cell) : Bytes := objs.flatMap Cell.bigText

/-- One object of `dump_objs`, serial.c:280-319; `off` is the offset of its text if it is a big string. The padding of
`struct serial_str` (serial.c:234-237) is `pad`. -/
def dumpCell (pad off : Nat) : Cell → Bytes
  | .simple t v => UInt8.ofNat t :: le32 v
  | .aos t b => UInt8.ofNat t :: b
  | .small f p l => UInt8.ofNat tagString :: (le64 p ++ (le64 l ++ (le32 f ++ le32 pad)))
  | .big f s => UInt8.ofNat tagString :: (le64 off ++ (le64 s.length ++ (le32 f ++ le32 pad)))

/-- The objects one after another, serial.c:280-320. -/
def dumpCells (pad off : Nat) : List Cell → Bytes
  | [] => []
  | c :: cs => dumpCell pad off c ++ dumpCells pad (off + c.bigText.length) cs

/-- `dump_objs`, serial.c:260-323. -/
def dumpObjs (pad : Nat) (objs : List Cell) : Bytes := le32 objs.length ++ dumpCells pad 0 objs

/-- The file up to the length of the big strings. -/
def dumpStart (root : Nat) (m : Img) : Bytes := header ++ (le32 root ++ dumpBuckets 1 m.chrs)

/-- The file that `serial_dump` (serial.c:402-433) has written when it is done. -/
def dump (pad root : Nat) (m : Img) : Bytes :=
  dumpStart root m ++ (le64 (bigData m.objs).length ++ (bigData m.objs ++ (dumpObjs pad m.objs ++ dumpBuckets 12 m.elems)))

/-- The files that a crash can leave behind: a prefix of the file; but until the big strings are written their length is
zero (serial.c:163-168, 187-196). -/
def crashed (pad root : Nat) (m : Img) (k : Nat) : List Bytes :=
  [(dump pad root m).take k, (dumpStart root m ++ (le64 0 ++ bigData m.objs)).take k]

/-! ### Reading -/

/-- `fs_fread`, platform/filesystem.c:300-324. -/
def take (n : Nat) (s : Bytes) : Res (Bytes × Bytes) := if s.length < n then .error else .ok (s.take n, s.drop n)

def load32 (s : Bytes) : Res (Nat × Bytes) := take 4 s >>= fun r => .ok (get32 r.1, r.2)
def load64 (s : Bytes) : Res (Nat × Bytes) := take 8 s >>= fun r => .ok (get32 r.1 + 2 ^ 32 * get32 (r.1.drop 4), r.2)

/-- The loop of `load_bucket_arr`, serial.c:95-118, `n` times. -/
def loadBucketsN (isz bsz : Nat) : Nat → Bytes → Res (List Bytes × Bytes)
  | 0, s => .ok ([], s)
  | n + 1, s => load32 s >>= fun l =>
    if l.1 > bsz then .error
    else take (isz * l.1) l.2 >>= fun b => loadBucketsN isz bsz n b.2 >>= fun r => .ok (b.1 :: r.1, r.2)

/-- `load_bucket_arr`, serial.c:79-121. -/
def loadBuckets (isz bsz : Nat) (s : Bytes) : Res (List Bytes × Bytes) := load32 s >>= fun n => loadBucketsN isz bsz n.1 n.2

/-- `load_serial_header`, serial.c:130-155. -/
def loadHeader (s : Bytes) : Res (Unit × Bytes) :=
  take 8 s >>= fun m =>
  if m.1 ≠ ascii "muondump" then .error
  else load32 m.2 >>= fun v => if v.1 ≠ 7 then .error else .ok ((), v.2)

/-- `load_big_strings`, serial.c:206-232. -/
def loadBig (s : Bytes) : Res (Bytes × Bytes) :=
  load64 s >>= fun n => if n.1 > 2 ^ 32 - 1 then .error else take n.1 n.2

/-- `get_big_string`, serial.c:239-258. -/
def bigString (bst : Bytes) (off len : Nat) : Res Bytes :=
  if off ≥ bst.length then .error
  else if bst.length < off + len then .bad
  else .ok ((bst.drop off).take len)

/-- A small string, serial.c:379-391. -/
def smallString (chrs : List Bytes) (flags pos len : Nat) : Res Cell :=
  if pos / 4096 % 2 ^ 32 > chrs.length then .error
  else match chrs[pos / 4096 % 2 ^ 32]? with
  | none => .bad
  | some b =>
    if pos % 4096 > b.length then .error
    else match chrs[pos % 2 ^ 32 / 4096]? with
    | none => .bad
    | some b => if pos % 4096 < b.length then .ok (.small flags (pos % 2 ^ 32) (len % 2 ^ 32)) else .bad

/-- One object of `load_objs`, serial.c:342-396. -/
def loadCell (sz : Sizes) (chrs : List Bytes) (bst : Bytes) (s : Bytes) : Res (Cell × Bytes) :=
  take 1 s >>= fun t =>
  let tag := (t.1.headD 0).toNat
  if tag < aosStart then load32 t.2 >>= fun v => .ok (.simple tag v.1, v.2)
  else if tag ≥ tagCount then .error
  else if tag = tagString then
    load64 t.2 >>= fun p => load64 p.2 >>= fun l => load32 l.2 >>= fun f => load32 f.2 >>= fun e =>
    if f.1 % 2 = 1 then bigString bst p.1 l.1 >>= fun b => .ok (.big f.1 b, e.2)
    else smallString chrs f.1 p.1 l.1 >>= fun c => .ok (c, e.2)
  else take (sz tag) t.2 >>= fun b => .ok (.aos tag b.1, b.2)

/-- The loop of `load_objs`, serial.c:341-397, `n` times. -/
def loadCells (sz : Sizes) (chrs : List Bytes) (bst : Bytes) : Nat → Bytes → Res (List Cell × Bytes)
  | 0, s => .ok ([], s)
  | n + 1, s => loadCell sz chrs bst s >>= fun c => loadCells sz chrs bst n c.2 >>= fun r => .ok (c.1 :: r.1, r.2)

/-- `load_objs`, serial.c:325-400. -/
def loadObjs (sz : Sizes) (chrs : List Bytes) (bst : Bytes) (s : Bytes) : Res (List Cell × Bytes) :=
  load32 s >>= fun n => loadCells sz chrs bst n.1 n.2

/-- `serial_load`, serial.c:435-469: the number of the object and what it refers to, before it is copied. What follows in
the file is ignored. -/
def load (sz : Sizes) (s : Bytes) : Res (Nat × Img) :=
  loadHeader s >>= fun h => load32 h.2 >>= fun root => loadBuckets 1 4096 root.2 >>= fun chrs => loadBig chrs.2 >>= fun bst =>
  loadObjs sz chrs.1 bst.1 bst.2 >>= fun objs => loadBuckets 12 1024 objs.2 >>= fun elems =>
  .ok (root.1, ⟨chrs.1, objs.1, elems.1⟩)

end Muon.Serial
