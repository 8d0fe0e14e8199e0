import Verif.Base
/-
Model of path manipulation (src/platform/path.c, src/platform/posix/path.c).
-/
namespace Muon.Path
open Muon

/-- Reading a byte of a C string (or of a buffer) given by its bytes; the terminator reads as 0. -/
def byteAt (s : Bytes) (i : Nat) : UInt8 := s.getD i 0

/-- `path_is_absolute`, src/platform/posix/path.c:13-17. -/
def isAbsolute (p : Bytes) : Bool := byteAt p 0 == 47

/-- `path_is_basename`, src/platform/posix/path.c:19-23. -/
def isBasename (p : Bytes) : Bool := !p.contains 47

/-! ### _path_normalize -/

/-- Local variables of `_path_normalize`, src/platform/path.c:69-72. `mem` is the whole memory of the buffer, including
the bytes after the terminator; pointers are offsets into it. -/
structure NormSt where
  mem : Bytes
  part : Nat
  slen : Nat
  blen : Nat
  parents : Nat

/-- The backward search, src/platform/path.c:104-112: the offset where the previous component starts. -/
def backSearch (mem : Bytes) : Nat → Nat
  | 0 => if byteAt mem 0 = 47 then 1 else 0
  | i + 1 => if byteAt mem (i + 1) = 47 then i + 2 else backSearch mem i

/-- `memmove(&mem[dst], &mem[src], n)`. -/
def memmove (mem : Bytes) (dst src n : Nat) : Bytes := mem.take dst ++ (mem.drop src).take n ++ mem.drop (dst + n)

/-- The loop of `_path_normalize`, src/platform/path.c:86-134. `bad`: `memmove` reads past the end of the buffer, or the
first argument, which bounds the number of iterations, is exhausted (it never is: `normalize_spec`). -/
def normLoop (optimize : Bool) : Nat → NormSt → Res NormSt
  | 0, _ => .bad
  | fuel + 1, st =>
    if byteAt st.mem st.part = 0 then .ok st
    else
      -- strchr(part, '/') or the end of the string
      let partLen := ((st.mem.drop st.part).takeWhile fun c => c ≠ 47 && c ≠ 0).length
      let sep := st.part + partLen
      let sepLen := if byteAt st.mem sep = 0 then 0 else 1
      let continue' (st : NormSt) : Res NormSt := if sepLen = 0 then .ok st else normLoop optimize fuel st
      let skip (part blen parents : Nat) : Res NormSt :=
        if sep + sepLen + st.slen ≤ st.mem.length then
          continue' { mem := memmove st.mem part (sep + sepLen) st.slen, part := part,
                      slen := st.slen - (partLen + sepLen), blen := blen, parents := parents }
        else .bad
      let keep (parents : Nat) : Res NormSt :=
        continue' { mem := st.mem, part := sep + sepLen, slen := st.slen - (partLen + sepLen),
                    blen := st.blen + (partLen + sepLen), parents := parents }
      if partLen = 0 ∨ (partLen = 1 ∧ byteAt st.mem st.part = 46) then skip st.part st.blen st.parents
      else if optimize ∧ partLen = 2 ∧ byteAt st.mem st.part = 46 ∧ byteAt st.mem (st.part + 1) = 46 then
        if st.parents ≠ 0 then
          let i := backSearch st.mem (st.part - 2)
          skip i (st.blen - ((sep - i) - partLen)) (st.parents - 1)
        else keep st.parents
      else keep (st.parents + 1)

/-- `_path_normalize`, src/platform/path.c:66-145, on a buffer with memory `mem` and length `len`: the new memory and
length. `path_to_posix` does nothing (src/platform/posix/path.c:25-29). -/
def normalizeMem (mem : Bytes) (len : Nat) (optimize : Bool) : Res (Bytes × Nat) :=
  if len = 0 then .ok (mem, len)
  else
    let abs := byteAt mem 0 = 47
    let st : NormSt := { mem := mem, part := if abs then 1 else 0, slen := if abs then len - 1 else len,
                         blen := if abs then 1 else 0, parents := 0 }
    match normLoop optimize (len + 1) st with
    | .ok st =>
      if st.blen = 0 then .ok (st.mem.set 0 46, 1)
      else if st.blen > 1 ∧ byteAt st.mem (st.blen - 1) = 47 then .ok (st.mem.set (st.blen - 1) 0, st.blen - 1)
      else .ok (st.mem, st.blen)
    | .error => .error
    | .bad => .bad

/-- `_path_normalize` as used by the functions below: on a C string in a buffer whose memory after the terminator is
zero (see `normalize_stale_counterexample` for what can happen otherwise). -/
def normalize (optimize : Bool) (s : Bytes) : Bytes :=
  match normalizeMem (s ++ [0, 0, 0]) s.length optimize with
  | .ok (mem, len) => mem.take len
  | _ => []

/-! ### Functions on normalised paths -/

/-- `path_copy`, src/platform/path.c:147-153. -/
def copy (p : Bytes) : Bytes := normalize false p

/-- `path_push`, src/platform/path.c:182-198; `sb` is the buffer, the result its new content. -/
def push (sb b : Bytes) : Bytes :=
  if isAbsolute b ∨ sb = [] then copy b
  else if b = [] then normalize false sb ++ [47]
  else normalize false (sb ++ [47] ++ b)

/-- `path_join`, src/platform/path.c:200-206. -/
def join (a b : Bytes) : Bytes := push (push [] a) b

/-- `path_join_absolute`, src/platform/path.c:173-180. -/
def joinAbsolute (a b : Bytes) : Bytes := normalize false (copy a ++ [47] ++ b)

/-- `path_make_absolute`, src/platform/path.c:208-216, with the current directory as a parameter. -/
def makeAbsolute (cwd p : Bytes) : Bytes := if isAbsolute p then copy p else join cwd p

/-- The comparison loop of `path_relative_to`, src/platform/path.c:258-264: `i` and `common_end`. -/
def commonLoop (base path : Bytes) (i ce : Nat) : Nat × Nat :=
  if _h : i < base.length ∧ byteAt base i ≠ 0 ∧ byteAt path i ≠ 0 ∧ byteAt base i = byteAt path i then
    commonLoop base path (i + 1) (if byteAt base i = 47 then i else ce)
  else (i, ce)
termination_by base.length - i
decreasing_by omega

/-- The `do ... while` loop of `path_relative_to`, src/platform/path.c:282-295: what it appends to the result. -/
def upsLoop (base : Bytes) (i : Nat) (havePart : Bool) : Bytes :=
  let out : Bytes := if havePart then [46, 46, 47] else []
  let have' := if byteAt base i = 47 then true else false
  if _h : i + 1 < base.length ∧ byteAt base (i + 1) ≠ 0 then out ++ upsLoop base (i + 1) have'
  else out
termination_by base.length - i
decreasing_by omega

/-- `path_relative_to`, src/platform/path.c:218-305. `bad`: one of its assertions fails. -/
def relativeTo (baseRaw pathRaw : Bytes) : Res Bytes :=
  let base := normalize true baseRaw
  let path := normalize true pathRaw
  if !isAbsolute base then .bad
  else if !isAbsolute path then .bad
  else if base = path then .ok [46]
  else
    let (i, ce) := commonLoop base path 0 0
    let ce := if byteAt base i = 0 ∧ byteAt path i = 47 then i
      else if byteAt path i = 0 ∧ byteAt base i = 47 then i else ce
    if i = 0 then .bad
    else if i = 1 then .ok (copy path)
    else
      let ups := if byteAt base ce ≠ 0 ∧ byteAt base (ce + 1) ≠ 0 then upsLoop base (ce + 1) true else []
      let tail := if byteAt path ce ≠ 0 then path.drop (ce + 1) else []
      .ok (normalize false (ups ++ tail))

/-- The loops searching backwards for a separator in `path_basename` and `path_dirname`, src/platform/path.c:355-360 and
382-397: position of the last `/` before position `n`. -/
def lastSep (p : Bytes) : Nat → Option Nat
  | 0 => none
  | n + 1 => if byteAt p n = 47 then some n else lastSep p n

/-- `path_basename`, src/platform/path.c:341-369. -/
def basename (p : Bytes) : Bytes :=
  if p = [] then []
  else
    let q := copy p
    match lastSep q q.length with
    | some i => normalize false (q.drop (i + 1))
    | none => normalize false q

/-- `path_dirname`, src/platform/path.c:371-403. -/
def dirname (p : Bytes) : Bytes :=
  if p = [] then [46]
  else
    let q := copy p
    match lastSep q q.length with
    | some i => normalize false (if i = 0 then q.take 1 else q.take i)
    | none => [46]

/-- The backward search of `path_without_ext`, src/platform/path.c:323-330: position of the last `.` that no `/`
follows. -/
def extPos (p : Bytes) : Nat → Option Nat
  | 0 => none
  | n + 1 => if byteAt p n = 46 then some n else if byteAt p n = 47 then none else extPos p n

/-- `path_without_ext`, src/platform/path.c:307-339. -/
def withoutExt (p : Bytes) : Bytes :=
  if p = [] then []
  else
    let q := copy p
    match extPos q q.length with
    | some i => normalize false (q.take i)
    | none => normalize false (copy q)

/-- The loop of `path_is_subpath`, src/platform/path.c:418-443. `bad`: an assertion fails. -/
def subLoop (base sub : Bytes) (i : Nat) : Res Bool :=
  if byteAt base i = 0 ∧ i = 0 then .bad
  else if byteAt base i = 0 ∧ (byteAt sub i = 47 ∨ byteAt sub (i - 1) = 47) then .ok true
  else if byteAt base i = byteAt sub i then
    if byteAt base i = 0 then .ok true
    else if _h : i < base.length then subLoop base sub (i + 1) else .bad
  else .ok false
termination_by base.length - i
decreasing_by omega

/-- `path_is_subpath`, src/platform/path.c:405-444. -/
def isSubpath (base sub : Bytes) : Res Bool :=
  if base = [] then .ok false else subLoop (copy base) (copy sub) 0

/-- `path_executable`, src/platform/path.c:446-457. -/
def executable (p : Bytes) : Bytes := if isBasename p then [46, 47] ++ p else copy p

end Muon.Path
