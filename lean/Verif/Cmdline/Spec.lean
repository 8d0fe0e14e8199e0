import Verif.Cmdline.Model
import Verif.Path.Spec
import Verif.Opt.Spec
/-
What the command lines of compilers and linkers should be (C103).
-/
namespace Muon.Cmdline.Spec
open Muon Muon.Cmdline

/-- The dictionary gives the option. -/
def Has (d : Dict) (n : Bytes) (o : O) : Prop := ∃ l r, d = l ++ (n, o) :: r ∧ ∀ p ∈ l, p.1 ≠ n

/-- The dictionary does not have the option. -/
def Lacks (d : Dict) (n : Bytes) : Prop := ∀ p ∈ d, p.1 ≠ n

/-- The option that applies to a target: that of its `override_options`, else that of its project, else the global one. -/
def Applies (w : Where) (n : Bytes) (o : O) : Prop :=
  (∃ d, w.overrides = some d ∧ Has d n o) ∨
  ((∀ d, w.overrides = some d → Lacks d n) ∧ (Has w.proj n o ∨ (Lacks w.proj n ∧ Has w.glob n o)))

def Str (w : Where) (n : String) (s : Bytes) : Prop := ∃ src, Applies w (ascii n) ⟨.str s, src⟩
def Bln (w : Where) (n : String) (b : Bool) : Prop := ∃ src, Applies w (ascii n) ⟨.bool b, src⟩
def Arr (w : Where) (n : String) (l : List Bytes) : Prop := ∃ src, Applies w (ascii n) ⟨.arr (l.map .s), src⟩

/-- The optimisation level and the debugging information of a build type. -/
inductive Kind : Bytes → Lvl → Bool → Prop
  | plain : Kind (ascii "plain") .none false
  | debug : Kind (ascii "debug") .o0 true
  | debugoptimized : Kind (ascii "debugoptimized") .og true
  | release : Kind (ascii "release") .o3 false
  | minsize : Kind (ascii "minsize") .os false

/-- The text of a level. -/
inductive LvlText : Bytes → Lvl → Prop
  | o0 : LvlText (ascii "0") .o0
  | o1 : LvlText (ascii "1") .o1
  | o2 : LvlText (ascii "2") .o2
  | o3 : LvlText (ascii "3") .o3
  | og : LvlText (ascii "g") .og
  | os : LvlText (ascii "s") .os

/-- The level and whether there is debugging information: from `optimization` and `debug` if the build type is `custom` or
was not set by anybody, else from the build type. -/
def Level (w : Where) (l : Lvl) (dbg : Bool) : Prop :=
  ∃ bt src, Applies w (ascii "buildtype") ⟨.str bt, src⟩ ∧
    (((bt = ascii "custom" ∨ src ≤ 1) ∧ (∃ s, Str w "optimization" s ∧ LvlText s l) ∧ Bln w "debug" dbg) ∨
     (bt ≠ ascii "custom" ∧ 1 < src ∧ Kind bt l dbg))

/-- The text of a warning level; `none`: everything. -/
inductive WarnText : Bytes → Option Nat → Prop
  | everything : WarnText (ascii "everything") none
  | w0 : WarnText (ascii "0") (some 0)
  | w1 : WarnText (ascii "1") (some 1)
  | w2 : WarnText (ascii "2") (some 2)
  | w3 : WarnText (ascii "3") (some 3)

/-- The text of `b_pgo`: nothing, or whether the profile is used. -/
inductive PgoText : Bytes → Option Bool → Prop
  | off : PgoText (ascii "off") none
  | generate : PgoText (ascii "generate") (some false)
  | use : PgoText (ascii "use") (some true)

/-- What the options say about the compilation of a target. -/
structure Set where
  lvl : Lvl
  debug : Bool
  warn : Option Nat
  werror : Bool
  std : Option Bytes
  pgo : Option Bool
  sanitize : Option Bytes
  ndebug : Bool
  color : Option Bytes
  lto : Bool
  args : List Bytes

/-- A text of which one value stands for nothing. -/
def Unless (off : String) (s : Bytes) (r : Option Bytes) : Prop := (s = ascii off ∧ r = none) ∨ (s ≠ ascii off ∧ r = some s)

/-- The name of an option of a language. -/
def Option? (l : Lang) (n : String) : Option String :=
  match l with
  | .c => some ("c_" ++ n)
  | .cpp => some ("cpp_" ++ n)
  | .other _ => none

/-- The options of the target say `x`. -/
structure Reads (w : Where) (l : Lang) (x : Set) : Prop where
  level : Level w x.lvl x.debug
  warn : ∃ s, Str w "warning_level" s ∧ WarnText s x.warn
  werror : Bln w "werror" x.werror
  std : (∀ n, Option? l "std" = some n → ∃ s, Str w n s ∧ Unless "none" s x.std) ∧ (Option? l "std" = none → x.std = none)
  pgo : ∃ s, Str w "b_pgo" s ∧ PgoText s x.pgo
  sanitize : ∃ s, Str w "b_sanitize" s ∧ Unless "none" s x.sanitize
  ndebug : ∃ s bt, Str w "b_ndebug" s ∧ Str w "buildtype" bt ∧
    (x.ndebug = true ↔ s = ascii "true" ∨ (s = ascii "if-release" ∧ bt = ascii "release"))
  color : ∃ s, Str w "b_colorout" s ∧ Unless "never" s x.color
  lto : Bln w "b_lto" x.lto
  args : (∀ n, Option? l "args" = some n → Arr w n x.args) ∧ (Option? l "args" = none → x.args = [])

/-- The texts that fit into the buffers. -/
def Short (x : Set) : Prop :=
  (∀ s, x.std = some s → s.length ≤ 200) ∧ (∀ s, x.sanitize = some s → s.length ≤ 200) ∧
  (∀ s, x.color = some s → s.length ≤ 200)

def given (o : Option Bytes) (pre : String) : List Bytes :=
  match o with
  | some s => [ascii pre ++ s]
  | none => []

def flag (b : Bool) (l : List String) : List Bytes := if b then l.map ascii else []

/-- The options of gcc for a level. -/
def gccLvl : Lvl → List String
  | .none => []
  | .o0 => ["-O0"]
  | .o1 => ["-O1"]
  | .o2 => ["-O2"]
  | .o3 => ["-O3"]
  | .og => ["-Og"]
  | .os => ["-Os"]

/-- The warnings for a numbered level: each level adds one. -/
def gccWarn (n : Nat) : List Bytes :=
  flag (3 ≤ n) ["-Wpedantic"] ++ flag (2 ≤ n) ["-Wextra"] ++ flag (1 ≤ n) ["-Wall"]

/-- The command line of gcc and clang for what the options say; `every`: the warnings of the level `everything`. -/
def gccText (every : List Bytes) (x : Set) : List Bytes :=
  given x.std "-std=" ++ flag x.debug ["-g"] ++ (gccLvl x.lvl).map ascii ++
  (match x.warn with | none => every | some n => gccWarn n) ++ flag x.werror ["-Werror"] ++
  flag (x.pgo = some false) ["-fprofile-generate"] ++ flag (x.pgo = some true) ["-fprofile-use", "-fprofile-correction"] ++
  given x.sanitize "-fsanitize=" ++ flag x.ndebug ["-D", "NDEBUG"] ++ given x.color "-fdiagnostics-color=" ++
  flag x.lto ["-flto"]

/-- The options of cl for a level. -/
def clLvl : Lvl → List String
  | .none | .og => []
  | .o0 => ["/Od"]
  | .o1 => ["/O1"]
  | .o2 => ["/O2"]
  | .o3 => ["/O2", "/Gw"]
  | .os => ["/O1", "/Gw"]

def clWarn : Option Nat → List String
  | none => ["/Wall"]
  | some 0 => []
  | some 1 => ["/W2"]
  | some 2 => ["/W3"]
  | some _ => ["/W4"]

/-- The command line of cl; `clang`: of clang-cl, which knows more. -/
def clText (clang : Bool) (x : Set) : List Bytes :=
  [ascii "/nologo"] ++ given x.std "/std:" ++ flag x.debug ["/Zi"] ++ (clLvl x.lvl).map ascii ++ (clWarn x.warn).map ascii ++
  flag x.werror ["/WX"] ++ given x.sanitize "-fsanitize=" ++ flag x.ndebug ["/D", "NDEBUG"] ++
  flag (clang && x.color.isSome) ["-fcolor-diagnostics"] ++ flag (clang && x.lto) ["-flto"]

/-- The options of a posix compiler for a level: there are two. -/
def posixLvl : Lvl → List String
  | .o0 => ["-O0"]
  | .o1 | .o2 | .o3 => ["-O1"]
  | _ => []

/-- The command line of a compiler of which only what POSIX says is known, and of nasm. -/
def posixText (x : Set) : List Bytes := flag x.debug ["-g"] ++ (posixLvl x.lvl).map ascii ++ flag x.ndebug ["-D", "NDEBUG"]

/-- The settings with which the static variables of the program are changed: no optimisation at all for gcc and clang, and
also `g` and `s` for posix compilers; the warning level 0 for cl. -/
def Spoils (t : Cc) (x : Set) : Prop :=
  match t with
  | .gcc | .clang | .appleClang => x.lvl = .none
  | .msvc | .clangCl => x.warn = some 0
  | .posix | .nasm | .yasm => x.lvl = .none ∨ x.lvl = .og ∨ x.lvl = .os
  | .clangIr => False

/-- Each element the first time it occurs. -/
def firsts : List Inc → List Inc
  | [] => []
  | x :: l => x :: (firsts l).filter (fun y => y ≠ x)

/-- The path `r`, read in the directory `build`, leads to where `d` leads. -/
def Leads (build r d : Bytes) : Prop :=
  Path.Spec.walk [] (if Path.Spec.isAbs r then Path.Spec.comps r else Path.Spec.comps build ++ Path.Spec.comps r) =
  Path.Spec.walk [] (Path.Spec.comps d)

/-- The arguments for a list of directories, one after the other. -/
inductive IncText (build : Bytes) (plain sys : String) : List Inc → List Bytes → Prop
  | nil : IncText build plain sys [] []
  | cons {i : Inc} {r : Bytes} {is : List Inc} {l : List Bytes} : Leads build r i.path → IncText build plain sys is l →
      IncText build plain sys (i :: is) (ascii (if i.sys then sys else plain) :: r :: l)

/-- An absolute path. -/
def Abs (p : Bytes) : Prop := Path.Spec.isAbs p = true ∧ 0 ∉ p

/-- The directories that a target has: its own private one, those of it and its dependencies, those of the project. -/
def dirs (g : Tgt) : List Inc := (match g.priv with | some p => [.str p] | none => []) ++ g.incs ++ g.projIncs.getD []

def visText : Option Vis → List String
  | none => []
  | some .default => ["-fvisibility=default"]
  | some .internal => ["-fvisibility=internal"]
  | some .prot => ["-fvisibility=protected"]
  | some .hidden => ["-fvisibility=hidden"]
  | some .inlineshidden => ["-fvisibility=hidden", "-fvisibility-inlines-hidden"]

/-- The option from the environment that stands in an argument `-Dname=text` is read back as it was. -/
def ReadBack (ev : Bytes → Option Opt.OV) (n : Bytes) (v : Opt.OV) (a : Bytes) : Prop :=
  ∃ t s ty, a = ascii "-D" ++ t ∧ Opt.parseConfig t = some (none, n, s) ∧
    (ty = Opt.Ty.string ∧ (∃ b, v = .str b) ∨ ty = Opt.Ty.array ∧ (∃ l, v = .arr l)) ∧
    Opt.coerceTy ty (Opt.coerceArray ev s) s = some v

/-- Every option that came from the environment is read back, each once and in order; the others are not there. -/
inductive AllBack (ev : Bytes → Option Opt.OV) : Dict → List Bytes → Prop
  | nil : AllBack ev [] []
  | skip {n : Bytes} {o : O} {d : Dict} {l : List Bytes} : o.src ≠ 2 → AllBack ev d l → AllBack ev ((n, o) :: d) l
  | take {n : Bytes} {o : O} {d : Dict} {a : Bytes} {l : List Bytes} : o.src = 2 → ReadBack ev n o.val a → AllBack ev d l →
      AllBack ev ((n, o) :: d) (a :: l)

/-- A value that survives: no NUL; in an array no comma, not a single empty element, no bracket at the beginning. -/
def Plain (v : Opt.OV) : Prop :=
  (∃ s, v = .str s ∧ 0 ∉ s) ∨
  (∃ l : List Bytes, v = .arr (l.map .s) ∧ (∀ e ∈ l, 0 ∉ e ∧ 44 ∉ e) ∧ l ≠ [[]] ∧ (∀ e, l.head? = some e → e.head? ≠ some 91))

end Muon.Cmdline.Spec
