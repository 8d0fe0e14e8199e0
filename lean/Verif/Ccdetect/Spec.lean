import Verif.Ccdetect.Model
import Verif.Str.Spec
/-
C119: what a compiler says about itself.
-/
namespace Muon.Ccdetect.Spec
open Muon

/-- The text that the output is: up to a NUL byte. -/
def Text (out t : Bytes) : Prop := 0 ∉ t ∧ (out = t ∨ ∃ r, out = t ++ 0 :: r)

/-- A word occurs in a text. -/
def Word (t : Bytes) (w : String) : Prop := ascii w <:+: t

/-- The kind of a compiler by the text it prints. -/
inductive KindIs (t : Bytes) : Option Kind → Prop
  | apple (a : Word t "Apple") (b : Word t "clang") : KindIs t (some .appleClang)
  | clangCl (a : ¬ (Word t "Apple" ∧ Word t "clang")) (b : Word t "clang" ∨ Word t "Clang") (c : Word t "msvc") : KindIs t (some .clangCl)
  | clang (a : ¬ (Word t "Apple" ∧ Word t "clang")) (b : Word t "clang" ∨ Word t "Clang") (c : ¬ Word t "msvc") : KindIs t (some .clang)
  | gcc (a : ¬ Word t "clang") (b : ¬ Word t "Clang") (c : Word t "Free Software Foundation") : KindIs t (some .gcc)
  | msvc (a : ¬ Word t "clang") (b : ¬ Word t "Clang") (c : ¬ Word t "Free Software Foundation") (d : Word t "Microsoft") : KindIs t (some .msvc)
  | other (a : ¬ Word t "clang") (b : ¬ Word t "Clang") (c : ¬ Word t "Free Software Foundation") (d : ¬ Word t "Microsoft") : KindIs t none

/-- A line of the text begins after `pre`. -/
def LineStart (pre : Bytes) : Prop := pre = [] ∨ ∃ q, pre = q ++ [10]

/-- `rest` follows the first `libraries: ` at the beginning of a line. -/
def After (t rest : Bytes) : Prop :=
  ∃ pre, t = pre ++ ascii "libraries: " ++ rest ∧ LineStart pre ∧ ∀ p' r', t = p' ++ ascii "libraries: " ++ r' → LineStart p' → pre.length ≤ p'.length

/-- The value of the line: without an equals sign before it, up to the end of the line. -/
def Value (rest v : Bytes) : Prop :=
  ∃ eq tail, rest = eq ++ v ++ tail ∧ (eq = [61] ∨ eq = [] ∧ rest.head? ≠ some 61) ∧ 10 ∉ v ∧ (tail = [] ∨ ∃ q, tail = 10 :: q)

/-- The directories: those of the line, with colons between them, or the usual ones. -/
inductive Dirs : Option Ran → List Bytes → Prop
  | said (r : Ran) (h : r.status = 0) (t rest v : Bytes) (ht : Text r.out t) (a : After t rest) (w : Value rest v) (dirs : List Bytes) (ne : dirs ≠ [])
      (j : Str.Spec.join (ascii ":") dirs = v) (c : ∀ d ∈ dirs, 58 ∉ d) : Dirs (some r) dirs
  | notRun : Dirs none (["/usr/lib", "/usr/local/lib", "/lib"].map ascii)
  | failed (r : Ran) (h : r.status ≠ 0) : Dirs (some r) (["/usr/lib", "/usr/local/lib", "/lib"].map ascii)
  | unsaid (r : Ran) (t : Bytes) (ht : Text r.out t) (u : ¬ ∃ p r', t = p ++ ascii "libraries: " ++ r' ∧ LineStart p) :
      Dirs (some r) (["/usr/lib", "/usr/local/lib", "/lib"].map ascii)

end Muon.Ccdetect.Spec
