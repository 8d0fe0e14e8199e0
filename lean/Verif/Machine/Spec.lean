import Verif.Machine.Model
/-
C118: the names of machines.
-/
namespace Muon.Machine.Spec
open Muon

/-- The names of a family: those that begin with one of some texts, and some more. -/
structure Names where
  begins : List String
  also_ : List String

def Names.Has (n : Names) (s : Bytes) : Prop := (∃ p ∈ n.begins, ascii p <+: s) ∨ ∃ t ∈ n.also_, s = ascii t

def arm64 : Names := ⟨["aarch64"], ["arm64"]⟩
def arm : Names := ⟨["earm", "arm"], []⟩
def ppc64 : Names := ⟨["powerpc64", "ppc64"], []⟩
def ppc : Names := ⟨["powerpc", "ppc"], ["macppc", "power macintosh"]⟩
def x86_64 : Names := ⟨[], ["amd64", "x64", "i86pc"]⟩
def sparc64 : Names := ⟨[], ["sun4u", "sun4v"]⟩
def sgi : Names := ⟨[], ["ip30", "ip35"]⟩
def mips : Names := ⟨["mips"], []⟩

/-- i386, i486 and so on, and one more. -/
def X86 (s : Bytes) : Prop := (∃ m, s = ascii "i" ++ m ++ ascii "86") ∨ s = ascii "bepc"

/-- The family of a machine, as Meson names it. -/
inductive Family : Bytes → Bytes → Prop
  | arm64 (s) (h : arm64.Has s) : Family s (ascii "aarch64")
  | arm (s) (h : arm.Has s) (n : ¬ arm64.Has s) : Family s (ascii "arm")
  | mips64 (s) (h : mips.Has s) (b : ascii "64" <:+: s) : Family s (ascii "mips64")
  | mips (s) (h : mips.Has s) (b : ¬ ascii "64" <:+: s) : Family s (ascii "mips")
  | sgi (s) (h : sgi.Has s) : Family s (ascii "mips64")
  | x86 (s) (h : X86 s) : Family s (ascii "x86")
  | x86_64 (s) (h : x86_64.Has s) : Family s (ascii "x86_64")
  | ppc64 (s) (h : ppc64.Has s) : Family s (ascii "ppc64")
  | ppc (s) (h : ppc.Has s) (n : ¬ ppc64.Has s) : Family s (ascii "ppc")
  | sparc64 (s) (h : sparc64.Has s) : Family s (ascii "sparc64")
  | same (s) (h : ∀ n ∈ [arm64, arm, ppc64, ppc, x86_64, sparc64, sgi, mips], ¬ n.Has s) (x : ¬ X86 s) : Family s s

/-- The families with addresses of 64 bits. -/
def wide : List String := ["aarch64", "alpha", "ia64", "loongarch64", "mips64", "ppc64", "riscv64", "s390x", "sparc64", "wasm64", "x86_64"]

/-- Systems that are called as `uname` calls them. -/
def systems : List Bytes := ["darwin", "dragonfly", "freebsd", "gnu", "haiku", "linux", "netbsd", "openbsd", "sunos", "android", "emscripten", "windows"].map ascii

/-- The system's name. -/
inductive System : Bytes → Bytes → Prop
  | cygwin (s) (h : ascii "cygwin_nt" <+: s) : System s (ascii "cygwin")
  | msys2 (s) (h : ascii "msys_nt" <+: s) : System s (ascii "msys2")
  | same (s) (h : s ∈ systems) : System s s
  | unknown (s) (h : s ∉ systems) (c : ¬ ascii "cygwin_nt" <+: s) (m : ¬ ascii "msys_nt" <+: s) : System s (ascii "unknown")

end Muon.Machine.Spec
