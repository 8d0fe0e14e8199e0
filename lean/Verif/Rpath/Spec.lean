import Verif.Path.Spec
/-
Specification of run paths (C87) and of the parts of the ELF format that are needed for them, independent of the model.
-/
namespace Muon.Rpath.Spec
open Muon

/-- The text of a list of directories: separated by colons. -/
def text : List Bytes → Bytes
  | [] => []
  | [d] => d
  | d :: e :: ds => d ++ 58 :: text (e :: ds)

/-- A directory is in the build directory: their names begin with the same components (both are absolute or both are not). -/
def inside (build d : Bytes) : Bool := decide (Path.Spec.isAbs build = Path.Spec.isAbs d ∧ Path.Spec.comps build <+: Path.Spec.comps d)

/-- The directories that an installed program should have: neither empty nor in the build directory. -/
def kept (build : Bytes) (ds : List Bytes) : List Bytes := ds.filter fun d => d ≠ [] && !inside build d

/-- The NUL-terminated string at an offset. -/
def stringAt (f : Bytes) (off : Nat) : Bytes := (f.drop off).takeWhile (· ≠ 0)

/-- Bytes at an offset of a file. -/
def At (f : Bytes) (off : Nat) (b : Bytes) : Prop := (f.drop off).take b.length = b

/-! ### ELF, System V ABI, chapters 4 and 5; little-endian -/

/-- A number in `k` bytes. -/
def num : Nat → Nat → Bytes
  | 0, _ => []
  | k + 1, n => UInt8.ofNat (n % 256) :: num k (n / 256)

/-- The size of addresses, offsets and sizes: 8 bytes for files of class 64, or else 4. -/
def word (is64 : Bool) : Nat := if is64 then 8 else 4

/-- `Elf64_Ehdr` and `Elf32_Ehdr`. `x` are the bytes of the identification after the byte order; the other numbers are those of the format. -/
def ehdr (is64 : Bool) (x : Bytes) (type machine version entry phoff shoff flags ehsize phentsize phnum shentsize shnum shstrndx : Nat) : Bytes :=
  [127, 69, 76, 70, if is64 then 2 else 1, 1] ++ x ++ num 2 type ++ num 2 machine ++ num 4 version ++ num (word is64) entry ++ num (word is64) phoff ++
  num (word is64) shoff ++ num 4 flags ++ num 2 ehsize ++ num 2 phentsize ++ num 2 phnum ++ num 2 shentsize ++ num 2 shnum ++ num 2 shstrndx

/-- `Elf64_Shdr` and `Elf32_Shdr`. -/
structure Shdr where
  name : Nat
  type : Nat
  flags : Nat
  addr : Nat
  offset : Nat
  size : Nat
  link : Nat
  info : Nat
  align : Nat
  entsize : Nat

/-- The numbers fit into their fields. -/
def Shdr.Fits (is64 : Bool) (h : Shdr) : Prop :=
  h.type < 256 ^ 4 ∧ h.offset < 256 ^ word is64 ∧ h.size < 256 ^ word is64 ∧ h.entsize < 256 ^ word is64

/-- The bytes of a section header. -/
def Shdr.bytes (is64 : Bool) (h : Shdr) : Bytes :=
  num 4 h.name ++ num 4 h.type ++ num (word is64) h.flags ++ num (word is64) h.addr ++ num (word is64) h.offset ++ num (word is64) h.size ++
  num 4 h.link ++ num 4 h.info ++ num (word is64) h.align ++ num (word is64) h.entsize

/-- The size of a section header. -/
def shsize (is64 : Bool) : Nat := if is64 then 64 else 40

/-- `Elf64_Dyn` and `Elf32_Dyn`: tag and value. -/
def dynBytes (is64 : Bool) (d : Nat × Nat) : Bytes := num (word is64) d.1 ++ num (word is64) d.2

/-- The types of the sections with the dynamic table and with strings; the tags for run paths. -/
def SHT_DYNAMIC : Nat := 6
@[inherit_doc SHT_DYNAMIC] def SHT_STRTAB : Nat := 3
@[inherit_doc SHT_DYNAMIC] def DT_RPATH : Nat := 15
@[inherit_doc SHT_DYNAMIC] def DT_RUNPATH : Nat := 29

/-- A dynamically linked program or library: its sections are `hs`, the first section with strings, at `strOff`, comes before the dynamic section, at
`tabOff`, and is the only one there. The dynamic table is `ds`. -/
structure Image (is64 : Bool) (f : Bytes) (tabOff strOff : Nat) (ds : List (Nat × Nat)) : Prop where
  head : ∃ x type machine version entry phoff shoff flags ehsize phentsize phnum shstrndx hs,
    At f 0 (ehdr is64 x type machine version entry phoff shoff flags ehsize phentsize phnum (shsize is64) (List.length hs) shstrndx) ∧
    x.length = 10 ∧ shoff < 256 ^ word is64 ∧ hs.length < 256 ^ 2 ∧
    At f shoff (hs.flatMap (Shdr.bytes is64)) ∧ (∀ h ∈ hs, h.Fits is64) ∧
    ∃ a str b dyn c, hs = a ++ str :: b ++ dyn :: c ∧ (∀ h ∈ a ++ b, h.type ≠ SHT_DYNAMIC ∧ h.type ≠ SHT_STRTAB) ∧
      str.type = SHT_STRTAB ∧ str.offset = strOff ∧ dyn.type = SHT_DYNAMIC ∧ dyn.offset = tabOff ∧
      dyn.entsize = 2 * word is64 ∧ dyn.size = 2 * word is64 * ds.length
  table : At f tabOff (ds.flatMap (dynBytes is64))
  values : ∀ d ∈ ds, d.1 < 2 ^ 32 ∧ d.2 < 256 ^ word is64
  small : ds.length < 2 ^ 32

/-- The only run path is the one at `v` with text `s`; its entry has the entries `ds1` before it and `ds2` after it. The text does not overlap the
table. -/
structure RunPath (is64 : Bool) (f : Bytes) (tabOff strOff : Nat) (ds1 ds2 : List (Nat × Nat)) (tag v : Nat) (s : Bytes) : Prop where
  kind : tag = DT_RPATH ∨ tag = DT_RUNPATH
  only : ∀ d ∈ ds1 ++ ds2, d.1 ≠ DT_RPATH ∧ d.1 ≠ DT_RUNPATH
  str : At f (strOff + v) (s ++ [0])
  apart : strOff + v + s.length + 1 ≤ tabOff ∨ tabOff + 2 * word is64 * (ds1 ++ (tag, v) :: ds2).length ≤ strOff + v

end Muon.Rpath.Spec
