import Verif.Machine.Model
import Verif.Prog.Model
import Verif.Str.Model
/-
What kind of compiler a command is, and where it searches for libraries: src/compilers.c. What the command does is a parameter: nothing if it cannot be run, else the status and the two outputs.
-/
namespace Muon.Ccdetect
open Muon

/-- What the command did: `struct run_cmd_ctx`. -/
structure Ran where
  status : Nat
  out : Bytes
  err : Bytes
  deriving DecidableEq

/-- The kinds that can be detected, of `enum compiler_type`, include/compilers.h. -/
inductive Kind
  | posix | gcc | clang | appleClang | clangCl | msvc
  deriving DecidableEq

/-- A text as a C string. -/
def cstr (t : Bytes) : Bytes := t.takeWhile (· ≠ 0)

/-- `strstr` on the output. -/
def says (t : Bytes) (w : String) : Bool := Machine.hasInfix (ascii w) (cstr t)

/-- The tests of `compiler_detect_c_or_cpp`, src/compilers.c:236-251. -/
def kindOf (out : Bytes) : Option Kind :=
  if says out "Apple" && says out "clang" then some .appleClang
  else if says out "clang" || says out "Clang" then (if says out "msvc" then some .clangCl else some .clang)
  else if says out "Free Software Foundation" then some .gcc
  else if says out "Microsoft" then some .msvc
  else none

/-- `compiler_detect_c_or_cpp`, src/compilers.c:215-271: the kind and the version. -/
def detect (r : Option Ran) : Option (Kind × Bytes) :=
  r.map fun r =>
    if r.status ≠ 0 then (.posix, ascii "unknown")
    else match kindOf r.out with
      | none => (.posix, ascii "unknown")
      | some k => (k, (Prog.guessVersion (cstr (if k = .msvc then r.err else r.out))).getD (ascii "unknown"))

/-- The line from `s`, src/compilers.c:351-360. -/
def lineAt (s : Bytes) : Bytes := (if s.head? = some 61 then s.tail else s).takeWhile (· ≠ 10)

/-- The loop of `compiler_get_libdirs`, src/compilers.c:345-368: `beginning_of_line` and the text from `s`. -/
def libLoop : Bool → Bytes → Option Bytes
  | _, [] => none
  | b, c :: r =>
    if b && (ascii "libraries: ").isPrefixOf (c :: r) then some (lineAt ((c :: r).drop (ascii "libraries: ").length))
    else libLoop (c == 10) r

/-- What is used if the compiler does not say it, src/compilers.c:374-379. -/
def usual : List Bytes := ["/usr/lib", "/usr/local/lib", "/lib"].map ascii

/-- `compiler_get_libdirs`, src/compilers.c:336-389: the directories; `str_split` is a relation. -/
def Libdirs (r : Option Ran) (dirs : List Bytes) : Prop :=
  match r with
  | none => dirs = usual
  | some r =>
    if r.status ≠ 0 then dirs = usual
    else match libLoop true (cstr r.out) with
      | none => dirs = usual
      | some l => Str.SplitsInto l (ascii ":") dirs

end Muon.Ccdetect
