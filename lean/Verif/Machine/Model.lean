import Verif.Base
/-
The machine: src/functions/machine.c. What `uname_machine` and `uname_sysname` give (nothing if they fail) is a parameter; both give lower case.
-/
namespace Muon.Machine
open Muon

/-- `strstr`: whether a text has another one in it. -/
def hasInfix (p : Bytes) : Bytes → Bool
  | [] => p.isPrefixOf []
  | c :: r => p.isPrefixOf (c :: r) || hasInfix p r

/-- `str_startswith` and `str_endswith`. -/
def starts (s : Bytes) (p : String) : Bool := (ascii p).isPrefixOf s
def ends (s : Bytes) (p : String) : Bool := (ascii p).isSuffixOf s

/-- The loops over `map`: the first entry with that name. -/
def find (m : List (String × String)) (s : Bytes) : Option Bytes := (m.find? (fun e => ascii e.1 == s)).map (fun e => ascii e.2)

/-- `machine_cpu_normalize_base`, src/functions/machine.c:179-220. -/
def base (s : Bytes) : Option Bytes :=
  if starts s "aarch64" then some (ascii "aarch64")
  else if starts s "earm" then some (ascii "arm")
  else if starts s "mips" then (if hasInfix (ascii "64") s then some (ascii "mips64") else some (ascii "mips"))
  else find [("amd64", "x86_64"), ("x64", "x86_64"), ("i86pc", "x86_64")] s

/-- What `machine_cpu_normalize_base` does first, src/functions/machine.c:186-190: if the name is unknown, nothing more is done with it. -/
def nameOf (m : Option Bytes) : Bytes := m.getD (ascii "unknown")

/-- The part of `machine_cpu_family` after that, src/functions/machine.c:235-268. -/
def other (s : Bytes) : Option Bytes :=
  if starts s "i" && ends s "86" then some (ascii "x86")
  else if starts s "arm" then some (ascii "arm")
  else if starts s "powerpc64" || starts s "ppc64" then some (ascii "ppc64")
  else if starts s "powerpc" || starts s "ppc" then some (ascii "ppc")
  else find [("bepc", "x86"), ("arm64", "aarch64"), ("macppc", "ppc"), ("power macintosh", "ppc"), ("amd64", "x86_64"), ("x64", "x86_64"), ("i86pc", "x86_64"),
    ("sun4u", "sparc64"), ("sun4v", "sparc64"), ("ip30", "mpis64"), ("ip35", "mpis64")] s

/-- `machine_cpu_family`, src/functions/machine.c:222-284: without the warning. -/
def family (m : Option Bytes) : Bytes :=
  match base (nameOf m) with
  | some n => n
  | none => (other (nameOf m)).getD (nameOf m)

/-- `func_machine_cpu`, src/functions/machine.c:327-343. -/
def cpu (m : Option Bytes) : Bytes := (base (nameOf m)).getD (nameOf m)

/-- `is_64_bit` in `machine_cpu_address_bits`, src/functions/machine.c:297-324. -/
def is64 : List Bytes := ["aarch64", "alpha", "ia64", "loongarch64", "mips64", "ppc64", "riscv64", "s390x", "sparc64", "wasm64", "x86_64"].map ascii

/-- `machine_cpu_address_bits`, src/functions/machine.c:297-324. -/
def addressBits (m : Option Bytes) : Nat := if family m ∈ is64 then 64 else 32

/-- `machine_system` and `machine_system_to_s`, src/functions/machine.c:55-140. -/
def system (m : Option Bytes) : Bytes :=
  match m with
  | none => ascii "unknown"
  | some s =>
    if starts s "cygwin_nt" then ascii "cygwin"
    else if starts s "msys_nt" then ascii "msys2"
    else (find [("darwin", "darwin"), ("dragonfly", "dragonfly"), ("freebsd", "freebsd"), ("gnu", "gnu"), ("haiku", "haiku"), ("linux", "linux"), ("netbsd", "netbsd"),
      ("openbsd", "openbsd"), ("sunos", "sunos"), ("android", "android"), ("emscripten", "emscripten"), ("windows", "windows")] s).getD (ascii "unknown")

end Muon.Machine
