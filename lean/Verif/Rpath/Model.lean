import Verif.Path.Model
/-
Removing the build directory from the run paths of an installed program: src/platform/posix/rpath_fixer.c.

A file is the list of its bytes. Seeking never fails, reading fails past the end, writing does not fail. The host is taken to be
little-endian; the code does not look at the byte order of the file after having read it. Offsets are natural numbers; the code has them in
64 and 32 bits, so that the model is right for files up to 4 GiB.
-/
namespace Muon.Rpath
open Muon

/-- `fs_fseek` and `fs_fread`, src/platform/filesystem.c:105-113, 299-324. -/
def readAt (f : Bytes) (off n : Nat) : Option Bytes :=
  if n = 0 then some [] else if off + n ≤ f.length then some ((f.drop off).take n) else none

/-- `fs_fseek` and `fs_fwrite`, src/platform/filesystem.c:105-113, 274-297; a gap after the end of the file is filled with NUL. -/
def writeAt (f : Bytes) (off : Nat) (b : Bytes) : Bytes :=
  if b = [] then f else (f ++ List.replicate (off - f.length) 0).take off ++ b ++ f.drop (off + b.length)

/-! ### The list of paths -/

/-- The variables of `remove_paths`, src/platform/posix/rpath_fixer.c:210-215. -/
structure RP where
  file : Bytes
  cur : Nat
  rpath : Bytes
  copyTo : Nat
  modified : Bool
  sep : Bool
  cleared : Bool

/-- The end of an entry, src/platform/posix/rpath_fixer.c:227-249. The array `rpath` has 4096 bytes, and the NUL is written into it without
a check that there is space. -/
def entry (build : Bytes) (c : UInt8) (s : RP) : Res RP :=
  if s.rpath.length > 4095 then .bad
  else do
    let inside ← Path.isSubpath build s.rpath
    if inside || s.rpath = [] then .ok { s with modified := true, rpath := [] }
    else .ok { s with
      file := if s.modified then writeAt s.file (s.copyTo + (if s.sep then 1 else 0)) (s.rpath ++ [c]) else s.file,
      copyTo := s.copyTo + s.rpath.length, sep := c == 58, cleared := false, rpath := [] }

/-- The loop of `remove_paths` and what follows it, src/platform/posix/rpath_fixer.c:221-269. The first argument bounds the number of characters
read; it is the length of the file, which does not change. -/
def loop (build : Bytes) : Nat → RP → Res (Bytes × Bool)
  | 0, _ => .error
  | n + 1, s =>
    match s.file[s.cur]? with
    | none => .error
    | some c =>
      if c = 0 then (entry build c s).bind fun t => .ok (writeAt t.file t.copyTo [0], t.cleared)
      else if c = 58 then (entry build c s).bind fun t => loop build n { t with cur := t.cur + 1 }
      else if s.rpath.length ≥ 4096 then .bad
      else loop build n { s with rpath := s.rpath ++ [c], cur := s.cur + 1 }

/-- `remove_paths`, src/platform/posix/rpath_fixer.c:207-270: the new content of the file, and whether no path is left. -/
def removePaths (build f : Bytes) (off : Nat) : Res (Bytes × Bool) :=
  loop build (f.length + 1) ⟨f, off, [], off, false, false, true⟩

/-! ### The structure of ELF files -/

/-- `struct elf`, src/platform/posix/rpath_fixer.c:32-37. -/
structure Elf where
  is64 : Bool
  shoff : Nat
  shentsize : Nat
  shnum : Nat
deriving DecidableEq

/-- A number in memory on a little-endian host. -/
def le : Bytes → Nat
  | [] => 0
  | c :: s => c.toNat + 256 * le s

/-- The field of a structure at an offset, with a size; `EHDR`, `SHDR` and `DHDR`, src/platform/posix/rpath_fixer.c:64-66: where it is depends
on the class of the file. -/
def field (e : Bool) (buf : Bytes) (at64 size64 at32 size32 : Nat) : Nat :=
  if e then le ((buf.drop at64).take size64) else le ((buf.drop at32).take size32)

/-- `parse_elf`, src/platform/posix/rpath_fixer.c:68-122. -/
def parseElf (f : Bytes) : Option Elf :=
  match readAt f 0 16 with
  | none => none
  | some ident =>
    if ident.take 4 ≠ [127, 69, 76, 70] then none
    else if ident[4]? ≠ some 1 ∧ ident[4]? ≠ some 2 then none
    else if ident[5]? ≠ some 1 ∧ ident[5]? ≠ some 2 then none
    else
      let is64 := ident[4]? = some 2
      match readAt f 0 (if is64 then 64 else 52) with
      | none => none
      | some b => some ⟨is64, field is64 b 40 8 32 4, field is64 b 58 2 46 2, field is64 b 60 2 48 2⟩

/-- `struct elf_section`, src/platform/posix/rpath_fixer.c:39-45; `type` and `found` are not kept. -/
structure Sect where
  off : Nat
  size : Nat
  entsize : Nat
  len : Nat
deriving DecidableEq

/-- What is read from a section header, src/platform/posix/rpath_fixer.c:137-146: its type and the section. If headers are smaller than they should
be, the rest of the buffer is not initialised. -/
def header (e : Elf) (f : Bytes) (i : Nat) : Res (Nat × Sect) :=
  match readAt f (e.shoff + e.shentsize * i) e.shentsize with
  | none => .error
  | some b =>
    if b.length < (if e.is64 then 64 else 40) then .bad
    else
      let size := field e.is64 b 32 8 20 4
      let entsize := field e.is64 b 56 8 36 4 % 2 ^ 32
      .ok (field e.is64 b 4 4 4 4, ⟨field e.is64 b 24 8 16 4, size, entsize, size / entsize % 2 ^ 32⟩)

/-- The loop of `parse_elf_sections`, src/platform/posix/rpath_fixer.c:136-169, for the sections of type `SHT_DYNAMIC` and `SHT_STRTAB`. -/
def sectLoop (e : Elf) (f : Bytes) : Nat → Nat → Option Sect → Option Sect → Res (Sect × Sect)
  | 0, _, _, _ => .error
  | n + 1, i, d, s =>
    (header e f i).bind fun h =>
      let d := if h.1 = 6 then some h.2 else d
      let s := if h.1 = 3 then some h.2 else s
      match d, s with
      | some d, some s => .ok (d, s)
      | _, _ => sectLoop e f n (i + 1) d s

/-- `parse_elf_sections`, src/platform/posix/rpath_fixer.c:124-170. -/
def sections (e : Elf) (f : Bytes) : Res (Sect × Sect) :=
  if e.shentsize > 2048 then .bad else sectLoop e f e.shnum 0 none none

/-- An entry of the dynamic section, src/platform/posix/rpath_fixer.c:184-189: tag and value. -/
def dyn (e : Elf) (d : Sect) (f : Bytes) (i : Nat) : Res (Nat × Nat) :=
  match readAt f (d.off + d.entsize * i) d.entsize with
  | none => .error
  | some b =>
    if b.length < (if e.is64 then 16 else 8) then .bad
    else .ok (field e.is64 b 0 8 0 4 % 2 ^ 32, field e.is64 b 8 8 4 4)

/-- The entries of the dynamic section from an index on, read in order. -/
def dynFrom (e : Elf) (d : Sect) (f : Bytes) : Nat → Nat → Res (List (Nat × Nat))
  | 0, _ => .ok []
  | n + 1, i => (dyn e d f i).bind fun x => (dynFrom e d f n (i + 1)).bind fun l => .ok (x :: l)

/-- `parse_elf_dynamic`, src/platform/posix/rpath_fixer.c:172-205, but for the search, see `find`. -/
def dynTable (e : Elf) (d : Sect) (f : Bytes) : Res (List (Nat × Nat)) :=
  if d.entsize > 2048 then .bad else dynFrom e d f d.len 0

/-- The search in `parse_elf_dynamic`, src/platform/posix/rpath_fixer.c:191-201: value and index of the last entry with a tag. -/
def find (tag : Nat) : List (Nat × Nat) → Nat → Option (Nat × Nat)
  | [], _ => none
  | x :: l, i => match find tag l (i + 1) with
    | some r => some r
    | none => if x.1 = tag then some (x.2, i) else none

/-- The loop of `remove_path_entry`, src/platform/posix/rpath_fixer.c:279-296: `n` entries from `i` on are moved to the one before. -/
def shift (d : Sect) : Nat → Nat → Bytes → Res Bytes
  | 0, _, f => .ok f
  | n + 1, i, f => match readAt f (d.off + d.entsize * i) d.entsize with
    | none => .error
    | some b => shift d n (i + 1) (writeAt f (d.off + d.entsize * (i - 1)) b)

/-- `remove_path_entry`, src/platform/posix/rpath_fixer.c:272-307. -/
def removeEntry (e : Elf) (d : Sect) (index : Nat) (f : Bytes) : Res Bytes :=
  if d.entsize > 2048 then .bad
  else (shift d (d.len - (index + 1)) (index + 1) f).bind fun f => (dynTable e d f).bind fun _ => .ok f

/-- The body of the loop in `fix_rpaths`, src/platform/posix/rpath_fixer.c:336-350. -/
def fixOne (build : Bytes) (e : Elf) (d s : Sect) (r : Option (Nat × Nat)) (f : Bytes) : Res Bytes :=
  match r with
  | none => .ok f
  | some r => (removePaths build f (s.off + r.1)).bind fun x => if x.2 then removeEntry e d r.2 x.1 else .ok x.1

/-- `fix_rpaths`, src/platform/posix/rpath_fixer.c:309-362: the new content of the file. After an error the file may have been changed. -/
def fixRpaths (build f : Bytes) : Res Bytes :=
  match parseElf f with
  | none => .ok f
  | some e => (sections e f).bind fun ds => (dynTable e ds.1 f).bind fun t =>
    (fixOne build e ds.1 ds.2 (find 15 t 0) f).bind (fixOne build e ds.1 ds.2 (find 29 t 0))

end Muon.Rpath
