import Verif.Ccdetect.Model
/-
Which commands are the compiler, the linker and the static linker: src/compilers.c. Not modelled: nasm.
-/
namespace Muon.Ccdetect
open Muon

/-- Languages with a compiler that is looked for in the same way. -/
inductive Lang
  | c | cpp | objc
  deriving DecidableEq

/-- `toolchain_exe_detect`, src/compilers.c:469-499: the command of the option if it was set, and otherwise the first of the list that can be used. -/
def exeDetect {α : Type} (opt : Option (List Bytes)) (l : List Bytes) (cb : List Bytes → Option α) : Option α :=
  match opt with
  | some c => cb c
  | none => l.findSome? fun e => cb [e]

/-- `default_executables`, src/compilers.c:545-562: on Windows or not. -/
def compilerNames (win : Bool) : Lang → List Bytes
  | .c => (if win then ["cl", "cc", "gcc", "clang", "clang-cl"] else ["cc", "gcc", "clang"]).map ascii
  | .cpp => (if win then ["cl", "c++", "g++", "clang++", "clang-cl"] else ["c++", "g++", "clang++"]).map ascii
  | .objc => (if win then ["cc", "gcc"] else ["cc", "gcc", "clang"]).map ascii

/-- `guess_version_arg`, src/compilers.c:205-213. -/
def versionArg (msvcLike : Bool) : Bytes := if msvcLike then ascii "/?" else ascii "--version"

/-- What commands do, given their last argument (`run_cmd_arr`), and the name of the default linker of a kind of compiler. -/
structure Tools where
  run : List Bytes → Bytes → Option Ran
  ldName : Kind → Bytes

/-- `enum static_linker_type`, include/compilers.h. -/
inductive ArKind
  | posix | gcc | msvc
  deriving DecidableEq

/-- `struct obj_compiler`: the commands, with the kinds and the version. -/
structure Chain where
  cc : List Bytes
  kind : Kind
  ver : Bytes
  ld : List Bytes
  ar : List Bytes
  arKind : ArKind
  deriving DecidableEq

/-- `compiler_detect_c_or_cpp` for a command, src/compilers.c:215-224. -/
def tryCompiler (T : Tools) (c : List Bytes) : Option (List Bytes × Kind × Bytes) :=
  (detect (T.run c (versionArg (c.contains (ascii "cl"))))).map fun d => (c, d)

/-- `linker_detect`, src/compilers.c:445-465. -/
def tryLinker (T : Tools) (k : Kind) (c : List Bytes) : Option (List Bytes) := (T.run c (versionArg (k == .msvc))).map fun _ => c

/-- `static_linker_detect`, src/compilers.c:421-443. -/
def tryAr (T : Tools) (k : Kind) (c : List Bytes) : Option (List Bytes × ArKind) :=
  (T.run c (versionArg (k == .msvc))).map fun r =>
    (c, if r.status = 0 && says r.out "Free Software Foundation" then .gcc else if k = .msvc then .msvc else .posix)

/-- `toolchain_detect`, src/compilers.c:568-595, with `toolchain_compiler_detect`, `toolchain_linker_detect` and `toolchain_static_linker_detect`, 501-565; the options are `env.CC` (or that of the
language), `env.LD` and `env.AR`, if they were set. -/
def toolchain (T : Tools) (win : Bool) (lang : Lang) (cc ld ar : Option (List Bytes)) : Option Chain :=
  (exeDetect cc (compilerNames win lang) (tryCompiler T)).bind fun x =>
  (exeDetect ld [T.ldName x.2.1, ascii "ld"] (tryLinker T x.2.1)).bind fun l =>
  (exeDetect ar [if x.2.1 = .msvc then ascii "lib" else ascii "ar"] (tryAr T x.2.1)).map fun a =>
  ⟨x.1, x.2.1, x.2.2, l, a.1, a.2⟩

end Muon.Ccdetect
