import Verif.Base
/-
The dependency log: src/external/samurai/deps.c.

A node is its path. `hasDeps p`: some build statement generates `p`, and it has `deps` set (deps.c:243-244). Integers are
written in little-endian byte order. Sizes do not overflow 32 bits: a list of dependencies has fewer than 2^30 elements.
The file holds bytes; a crash leaves a prefix of what was written. Warnings are not modelled.
-/
namespace Muon.Dlog
open Muon

/-- Four bytes of an unsigned integer. -/
def le32 (n : Nat) : Bytes := [UInt8.ofNat n, UInt8.ofNat (n / 256), UInt8.ofNat (n / 65536), UInt8.ofNat (n / 16777216)]

/-- The integer in the first four bytes. -/
def get32 : Bytes → Nat
  | a :: b :: c :: d :: _ => a.toNat + 256 * b.toNat + 65536 * c.toNat + 16777216 * d.toNat
  | _ => 0

/-- `buf[i]` of `uint32_t *buf`. -/
def word (buf : Bytes) (i : Nat) : Nat := get32 (buf.drop (4 * i))

/-- `(int64_t)hi << 32 | lo`, deps.c:242. -/
def join64 (lo hi : Nat) : Int :=
  let v : Int := (hi * 2 ^ 32 + lo : Nat)
  if 2 ^ 63 ≤ v then v - 2 ^ 64 else v

/-- `mtime & 0xffffffff`, deps.c:105. -/
def lo32 (v : Int) : Nat := (v % 2 ^ 32).toNat
/-- `(mtime >> 32) & 0xffffffff`, deps.c:107. -/
def hi32 (v : Int) : Nat := (v / 2 ^ 32 % 2 ^ 32).toNat

/-- `SAMU_MAX_RECORD_SIZE`, deps.c:53. -/
def maxRecord : Nat := 2 ^ 19

/-- The header and the version, deps.c:56-57. -/
def header : Bytes := ascii "# ninjadeps\n"
def version : Nat := 4

/-- `struct samu_entry`, include/external/samurai/ctx.h:132-136. -/
structure Entry where
  node : Bytes
  deps : List Bytes
  mtime : Int
deriving DecidableEq, Repr

/-! ### Writing -/

/-- The file, `entrieslen`, and the `id` of each node (`none` for -1). -/
structure W where
  ids : Bytes → Option Nat
  next : Nat
  file : Bytes

/-- A new log: the header and the version, deps.c:299-305; no node has a number. -/
def W.init : W := ⟨fun _ => none, 0, header ++ le32 version⟩

/-- `samu_recordid`, deps.c:67-90: whether the node was new. `error`: `samu_fatal`. -/
def recordid (w : W) (p : Bytes) : Res (W × Bool) :=
  match w.ids p with
  | some _ => .ok (w, false)
  | none =>
    if w.next = 2 ^ 31 - 1 then .error
    else
      let sz := (p.length + 7) / 4 * 4
      if sz + 4 ≥ maxRecord then .error
      else .ok (⟨fun q => if q = p then some w.next else w.ids q, w.next + 1,
        w.file ++ (le32 sz ++ (p ++ (List.replicate (sz - p.length - 4) 0 ++ le32 (2 ^ 32 - 1 - w.next))))⟩, true)

/-- `samu_recordid` for nodes one after another, deps.c:319-321 and 560-565: whether one was new. -/
def recordids (w : W) : List Bytes → Res (W × Bool)
  | [] => .ok (w, false)
  | p :: ps => recordid w p >>= fun r => recordids r.1 ps >>= fun r' => .ok (r'.1, r.2 || r'.2)

/-- The `id` of a node as written. -/
def idOf (w : W) (p : Bytes) : Nat := (w.ids p).getD (2 ^ 32 - 1)

/-- `samu_recorddeps`, deps.c:92-112. -/
def recorddeps (w : W) (out : Bytes) (deps : List Bytes) (mtime : Int) : Res W :=
  let sz := 12 + deps.length * 4
  if sz + 4 ≥ maxRecord then .error
  else .ok { w with file := w.file ++ (le32 (2 ^ 31 + sz) ++ (le32 (idOf w out) ++ (le32 (lo32 mtime) ++ (le32 (hi32 mtime) ++
    deps.flatMap fun d => le32 (idOf w d))))) }

/-- Numbering the nodes and writing the record, deps.c:317-322. -/
def record (w : W) (out : Bytes) (deps : List Bytes) (mtime : Int) : Res W :=
  recordid w out >>= fun r => recordids r.1 deps >>= fun r' => recorddeps r'.1 out deps mtime

/-! ### Reading -/

/-- The nodes with the given numbers, deps.c:250-257. `none`: a number is invalid. -/
def depNodes (E : List Entry) : List Nat → Option (List Bytes)
  | [] => some []
  | i :: is =>
    match E[i]? with
    | none => none
    | some e => match depNodes E is with
      | none => none
      | some ds => some (e.node :: ds)

/-- A dependency record, deps.c:231-257. `none`: reading stops. `bad`: reading stops, too, but the list of dependencies is not
filled, and is used afterwards. -/
def depRecord (hasDeps : Bytes → Bool) (E : List Entry) (buf : Bytes) : Res (Option (List Entry)) :=
  if buf.length < 12 then .ok none
  else match E[word buf 0]? with
  | none => .ok none
  | some e =>
    let mtime := join64 (word buf 1) (word buf 2)
    if hasDeps e.node then
      match depNodes E ((List.range ((buf.length - 12) / 4)).map fun i => word buf (3 + i)) with
      | none => .bad
      | some ds => .ok (some (E.set (word buf 0) ⟨e.node, ds, mtime⟩))
    else .ok (some (E.set (word buf 0) ⟨e.node, e.deps, mtime⟩))

/-- The text without the NULs at its end, deps.c:271-274. -/
def strip0 (s : Bytes) : Bytes := (s.reverse.dropWhile (· = 0)).reverse

/-- A node record, deps.c:259-286. `bad`: the loop that skips NULs leaves the buffer. -/
def idRecord (E : List Entry) (buf : Bytes) : Res (Option (List Entry)) :=
  if buf.length ≤ 4 then .ok none
  else if E.length ≠ 2 ^ 32 - 1 - word buf (buf.length / 4 - 1) then .ok none
  else if E.length = 2 ^ 31 - 1 then .ok none
  else
    let path := strip0 (buf.take (buf.length - 4))
    if path = [] then .bad else .ok (some (E ++ [⟨path, [], 0⟩]))

/-- A record, deps.c:207-287: the entries and the rest of the file. -/
def readRecord (hasDeps : Bytes → Bool) (E : List Entry) (s : Bytes) : Res (Option (List Entry × Bytes)) :=
  if s.length < 4 then .ok none
  else
    let isdep := decide (2 ^ 31 ≤ get32 s)
    let sz := get32 s % 2 ^ 31
    let s := s.drop 4
    if sz > maxRecord then .ok none
    else if sz = 0 ∨ s.length < sz then .ok none
    else if sz % 4 ≠ 0 then .ok none
    else (if isdep then depRecord hasDeps E (s.take sz) else idRecord E (s.take sz)) >>= fun r =>
      .ok (r.map fun E => (E, s.drop sz))

/-- The loop, deps.c:206-288. Every record takes at least four bytes: `fuel` is the size of the file. -/
def readLoop (hasDeps : Bytes → Bool) : Nat → List Entry → Bytes → Res (List Entry)
  | 0, E, _ => .ok E
  | f + 1, E, s => readRecord hasDeps E s >>= fun
    | none => .ok E
    | some (E, s) => readLoop hasDeps f E s

/-- Reading the file, deps.c:186-288: the entries when it jumps to `rewrite`. -/
def readDeps (hasDeps : Bytes → Bool) (file : Bytes) : Res (List Entry) :=
  if file.take header.length ≠ header then .ok []
  else
    let s := file.drop header.length
    if s.length < 4 then .ok []
    else if get32 s ≠ version then .ok []
    else readLoop hasDeps file.length [] (s.drop 4)

/-! ### Starting -/

/-- What is in memory: the log, and the array `entries` with its size; `none` is an element never written. -/
structure Session where
  w : W
  ents : Nat → Option Entry
  cap : Nat

/-- `entriescap` after reading `n` nodes, deps.c:280-284, `f` doublings at most. -/
def capFor (n : Nat) : Nat → Nat → Nat
  | 0, c => c
  | f + 1, c => if n ≤ c then c else capFor n f (if c = 0 then 1024 else c * 2)

/-- The loop that writes the entries again, deps.c:312-323. -/
def rewriteLoop (s : Session) : List Entry → Res Session
  | [] => .ok s
  | e :: es =>
    if e.deps = [] then rewriteLoop s es
    else recordid s.w e.node >>= fun r =>
      (let ents := fun i => if i = idOf r.1 e.node then some e else s.ents i
       recordids r.1 e.deps >>= fun r' => recorddeps r'.1 e.node e.deps e.mtime >>= fun w =>
       rewriteLoop ⟨w, ents, s.cap⟩ es)

/-- `samu_depsinit`, deps.c:155-332, for the first time in a process, with the contents of the file (`none`: no file). The
file is truncated before it is written. -/
def depsinit (hasDeps : Bytes → Bool) (file : Option Bytes) : Res Session :=
  (match file with
    | none => .ok []
    | some file => readDeps hasDeps file) >>= fun E =>
  rewriteLoop ⟨W.init, fun i => E[i]?, capFor E.length 32 0⟩ E

/-- The entry `samu_depsload` looks at, deps.c:491-492: `entries[n->id]`, for a node with a number. -/
def entryOf (s : Session) (p : Bytes) : Res (Option Entry) :=
  match s.w.ids p with
  | none => .ok none
  | some i => if i < s.cap then
      match s.ents i with
      | none => .bad
      | some e => .ok (some e)
    else .bad

/-- The end of `samu_depsrecord`, deps.c:545-571, for the dependencies read from the depfile. -/
def depsrecord (s : Session) (out : Bytes) (deps : List Bytes) (mtime : Int) : Res Session :=
  recordid s.w out >>= fun r =>
  (if r.2 then .ok true
   else entryOf s out >>= fun
     | none => .bad
     | some e => .ok (decide (e.mtime ≠ mtime ∨ e.deps ≠ deps))) >>= fun update =>
  recordids r.1 deps >>= fun r' =>
  if update || r'.2 then recorddeps r'.1 out deps mtime >>= fun w => .ok { s with w := w }
  else .ok { s with w := r'.1 }

end Muon.Dlog
