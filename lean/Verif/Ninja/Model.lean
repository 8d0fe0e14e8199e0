import Verif.Manifest.Model
/-
The writer of build.ninja: src/backend/ninja.c, src/backend/ninja/{rules,custom_target,alias_target,build_target}.c. Paths are given
here as they are after `relativize_paths`, and lists of arguments after `arr_to_args`, `setup_linker_args` and `build_target_args`.
Writing to the file does not fail.
-/
namespace Muon.Ninja
open Muon Esc

/-- `get_cstr`, src/lang/string.c:56-70: a string with a NUL byte ends the program. -/
def cstr (s : Bytes) : Res Bytes := if 0 ∈ s then .bad else .ok s

/-- Nothing, or the text of a value. -/
def given {α : Type} (f : α → Res Bytes) : Option α → Res Bytes
  | some a => f a
  | none => .ok []

/-- A custom target. `argsDat` is the file with the arguments, if they cannot be written to build.ninja. -/
structure Custom where
  outs : List Bytes
  ins : List Bytes
  depends : List Bytes
  argv0 : Bytes
  capture : Option Bytes
  feed : Option Bytes
  env : Option Bytes
  args : List Bytes
  argsDat : Bytes
  stale : Bool
  console : Bool
  byDefault : Bool
  depfile : Option Bytes

/-- The outputs of a target without outputs, src/backend/ninja/custom_target.c:88-101. -/
def noOutputs (subproject : Option Bytes) (name : Bytes) : List Bytes :=
  match subproject with
  | some p => [p ++ ascii "@@" ++ name]
  | none => [name]

/-- `ninja_args_are_escapable`, src/backend/ninja/custom_target.c:24-43. -/
def escapable (args : List Bytes) : Bool := args.all (fun a => !a.contains 0 && !a.contains 10)

/-- The command line, src/backend/ninja/custom_target.c:103-152. -/
def Custom.cmdline (t : Custom) : List Bytes :=
  [t.argv0, ascii "internal", ascii "exe"]
  ++ (match t.capture with | some o => [ascii "-c", o] | none => [])
  ++ (match t.feed with | some i => [ascii "-f", i] | none => [])
  ++ (match t.env with | some e => [ascii "-e", e] | none => [])
  ++ (if escapable t.args then ascii "--" :: t.args else [ascii "-a", t.argsDat])

/-- `ninja_write_custom_tgt`, src/backend/ninja/custom_target.c:75-199. -/
def Custom.text (t : Custom) : Res Bytes :=
  joinArgsNinja (t.depends ++ if t.stale then [ascii "build_always_stale"] else []) >>= cstr >>= fun deps =>
  joinArgsNinja t.outs >>= cstr >>= fun outs =>
  joinArgsNinja t.ins >>= cstr >>= fun ins =>
  joinArgsShellNinja t.cmdline >>= cstr >>= fun cmd =>
  given (fun d => cstr d >>= fun d => .ok (ascii " DEPFILE = " ++ d ++ ascii "\n")) t.depfile >>= fun depfile =>
  .ok (ascii "build " ++ outs ++ ascii ": " ++ (if t.depfile.isSome then ascii "CUSTOM_COMMAND_DEP" else ascii "CUSTOM_COMMAND") ++ ascii " " ++ ins
    ++ ascii " | " ++ deps ++ ascii "\n COMMAND = " ++ cmd ++ ascii "\n" ++ depfile
    ++ (if t.console then ascii " pool = console\n" else [])
    ++ (if t.byDefault then ascii "default " ++ outs ++ ascii "\n" else [])
    ++ ascii "\n")

/-- An alias target. -/
structure Alias where
  name : Bytes
  depends : List Bytes

/-- `ninja_write_alias_tgt`, src/backend/ninja/alias_target.c:17-40. -/
def Alias.text (t : Alias) : Res Bytes :=
  cstr t.name >>= fun n =>
  ninjaEscape n >>= fun name =>
  joinArgsNinja t.depends >>= cstr >>= fun deps =>
  .ok (ascii "build " ++ name ++ ascii ": phony | " ++ deps ++ ascii "\n\n")

/-- A source file of a build target: its object file, the rule, and the arguments unless the rule contains them. -/
structure Source where
  src : Bytes
  dest : Bytes
  rule : Bytes
  args : Option (List Bytes)

/-- A build target: its path, the order-only dependencies (without repetitions, by `obj_array_dedup`), object files given as such,
sources, what the linker depends on, the rule, the arguments of the linker. -/
structure Target where
  path : Bytes
  order : List Bytes
  objects : List Bytes
  sources : List Source
  implicit : List Bytes
  rulePrefix : Bytes
  linker : Bytes
  linkArgs : Option (List Bytes)
  byDefault : Bool

/-- An optional part of a line. -/
def part (sep : Bytes) : Option Bytes → Bytes
  | some x => sep ++ x
  | none => []

/-- `write_tgt_sources_iter`, src/backend/ninja/build_target.c:46-114. -/
def Source.text (implicit order : Option Bytes) (s : Source) : Res Bytes :=
  ninjaEscape s.dest >>= fun dest =>
  ninjaEscape s.src >>= fun src =>
  cstr s.rule >>= fun rule =>
  given (fun a => joinArgsShellNinja a >>= cstr >>= fun a => .ok (ascii " ARGS = " ++ a ++ ascii "\n")) s.args >>= fun args =>
  .ok (ascii "build " ++ dest ++ ascii ": " ++ rule ++ ascii " " ++ src ++ part (ascii " | ") implicit ++ part (ascii " || ") order ++ ascii "\n" ++ args)

/-- One after the other, src/backend/ninja/build_target.c:171-177. -/
def sourcesText (implicit order : Option Bytes) : List Source → Res Bytes
  | [] => .ok []
  | s :: ss => s.text implicit order >>= fun a => sourcesText implicit order ss >>= fun b => .ok (a ++ b)

/-- `ninja_write_build_tgt`, src/backend/ninja/build_target.c:116-260. The arguments of the linker are absent for static libraries. -/
def Target.text (t : Target) : Res Bytes :=
  ninjaEscape t.path >>= fun path =>
  joinArgsNinja t.order >>= cstr >>= fun order =>
  let many := decide (1 < t.order.length)
  let orderPart := if many || t.order = [] then none else some order
  let implicitPart := if many then some (path ++ ascii "-order_deps") else none
  sourcesText implicitPart orderPart t.sources >>= fun sources =>
  joinArgsNinja (t.objects ++ t.sources.map (·.dest)) >>= cstr >>= fun objects =>
  let implicit := (if many then [t.path ++ ascii "-order_deps"] else []) ++ t.implicit
  joinArgsNinja implicit >>= cstr >>= fun imp =>
  cstr t.rulePrefix >>= fun pre =>
  given (fun a => joinArgsShellNinja a >>= cstr >>= fun a => .ok (ascii "\n LINK_ARGS = " ++ a)) t.linkArgs >>= fun largs =>
  .ok ((if many then ascii "build " ++ path ++ ascii "-order_deps: phony || " ++ order ++ ascii "\n" else [])
    ++ sources
    ++ ascii "build " ++ path ++ ascii ": " ++ pre ++ ascii "_" ++ t.linker ++ ascii "_linker " ++ objects
    ++ part (ascii " | ") (if implicit = [] then none else some imp) ++ part (ascii " || ") orderPart ++ largs
    ++ (if t.byDefault then ascii "\ndefault " ++ path ++ ascii "\n" else []) ++ ascii "\n")

/-- A word of the command of a rule: text as it is, a variable, or the name of the depfile. -/
inductive Word
  | raw (w : Bytes)
  | var (v : Bytes)
  | outD

def Word.text : Word → Bytes
  | .raw w => w
  | .var v => ascii "$" ++ v
  | .outD => ascii "${out}.d"

/-- `join_args_plain`, src/args.c:129-132. -/
def joinArgsPlain (args : List Bytes) : Res Bytes := joinArgsFrom (fun s => .ok s) args.length 0 args []

/-- A rule of a compiler or linker. `deps` is `deps = gcc`. -/
structure RuleText where
  name : Bytes
  command : List Word
  deps : Bool
  description : Bytes

/-- The command of a compiler, src/backend/ninja/rules.c:114-124, for the options of gcc (src/compilers.c:606-612, 622-630, 704-713): `args` is
`$ARGS`, or the arguments of the target, joined already. -/
def compileWords (cmd : List Bytes) (args : Word) (deps : Bool) : List Word :=
  cmd.map .raw ++ [args]
  ++ (if deps then [.raw (ascii "-MD"), .raw (ascii "-MQ"), .var (ascii "out"), .raw (ascii "-MF"), .outD] else [])
  ++ [.raw (ascii "-o"), .var (ascii "out"), .raw (ascii "-c"), .var (ascii "in")]

/-- The command of a linker, src/backend/ninja/rules.c:69-75, for a compiler that is its own linker. -/
def linkWords (cmd : List Bytes) : List Word :=
  cmd.map .raw ++ [.var (ascii "ARGS"), .raw (ascii "-o"), .var (ascii "out"), .var (ascii "in"), .var (ascii "LINK_ARGS")]

/-- The command of `ar`, src/backend/ninja/rules.c:424-438; `base` is `csr` or `csrD`, src/compilers.c:1549-1561. -/
def staticLinkWords (argv0 : Bytes) (cmd : List Bytes) (base : Bytes) : List Word :=
  [.raw argv0, .raw (ascii "internal"), .raw (ascii "exe"), .raw (ascii "-R"), .var (ascii "out"), .raw (ascii "--")]
  ++ cmd.map .raw ++ [.raw base, .var (ascii "out"), .var (ascii "in")]

/-- The text of a rule, src/backend/ninja/rules.c:124-139, 83-90, 440-448. -/
def RuleText.text (r : RuleText) : Res Bytes :=
  joinArgsPlain (r.command.map Word.text) >>= cstr >>= fun command =>
  cstr r.name >>= fun name =>
  .ok (ascii "rule " ++ name ++ ascii "\n command = " ++ command ++ ascii "\n"
    ++ (if r.deps then ascii " deps = gcc\n depfile = ${out}.d\n" else [])
    ++ ascii " description = " ++ r.description ++ ascii " $out\n\n")

/-- The rules of custom targets, src/backend/ninja/rules.c:322-335. -/
def customRules : Bytes :=
  ascii "rule CUSTOM_COMMAND\n command = $COMMAND\n description = $COMMAND\n restat = 1\n\nrule CUSTOM_COMMAND_DEP\n command = $COMMAND\n description = $COMMAND\n deps = gcc\n depfile = $DEPFILE\n restat = 1\n\n"

inductive Tgt
  | custom (t : Custom)
  | alias (t : Alias)
  | build (t : Target)

/-- `write_tgt_iter`, src/backend/ninja.c:59-102. -/
def Tgt.text : Tgt → Res Bytes
  | .custom t => t.text
  | .alias t => t.text
  | .build t => t.text

/-- Whether a default target is written, custom_target.c:192-195, build_target.c:254-257. -/
def Tgt.isDefault : Tgt → Bool
  | .custom t => t.byDefault
  | .alias _ => false
  | .build t => t.byDefault

/-- `check_tgt_iter`, src/backend/ninja.c:32-57. -/
def Tgt.isStale : Tgt → Bool
  | .custom t => t.stale
  | _ => false

/-- Texts one after the other. -/
def textAll {α : Type} (f : α → Res Bytes) : List α → Res Bytes
  | [] => .ok []
  | x :: xs => f x >>= fun a => textAll f xs >>= fun b => .ok (a ++ b)

/-- What build.ninja is written from. -/
structure Build where
  name : Bytes
  regenCmd : List Bytes
  regenDeps : List Bytes
  rules : List RuleText
  targets : List Tgt

/-- `ninja_write_rules`, src/backend/ninja/rules.c:281-460, and `ninja_write_build`, src/backend/ninja.c:108-154. -/
def Build.text (b : Build) : Res Bytes :=
  cstr b.name >>= fun name =>
  joinArgsShell b.regenCmd >>= cstr >>= fun regen =>
  joinArgsNinja b.regenDeps >>= cstr >>= fun deps =>
  textAll RuleText.text b.rules >>= fun rules =>
  textAll Tgt.text b.targets >>= fun targets =>
  .ok (ascii "# This is the build file for project \"" ++ name ++ ascii "\"\n# It is autogenerated by the muon build system.\nninja_required_version = 1.7.1\nbuilddir = .muon\n\n"
    ++ ascii "rule REGENERATE_BUILD\n command = " ++ regen ++ ascii "\n description = Regenerating build files.\n generator = 1\n\n"
    ++ ascii "build build.ninja: REGENERATE_BUILD " ++ deps ++ ascii "\n pool = console\n\n"
    ++ customRules
    ++ (if b.targets.any Tgt.isStale then ascii "build build_always_stale: phony\n\n" else [])
    ++ rules ++ ascii "# targets\n\n" ++ targets
    ++ (if b.targets.any Tgt.isDefault then [] else ascii "build muon_do_nothing: phony\ndefault muon_do_nothing\n"))

/-! ### Names of rules -/

/-- `escape_rule`, src/backend/ninja/rules.c:41-55. -/
def escapeRule (s : Bytes) : Bytes := s.map (fun c => if c = 95 ∨ (97 ≤ c ∧ c ≤ 122) ∨ (65 ≤ c ∧ c ≤ 90) ∨ (48 ≤ c ∧ c ≤ 57) then c else 95)

/-- The loop of `uniqify_name`, src/backend/ninja/rules.c:28-39. The first argument bounds the number of iterations (`uniqify_ok`). -/
def uniqify (digits : Nat → Bytes) : Nat → List Bytes → Bytes → Nat → Res Bytes
  | 0, _, _, _ => .bad
  | f + 1, arr, name, x => if name ∈ arr then uniqify digits f arr (name ++ digits x) (x + 1) else .ok name

/-- Naming one rule after the other: `obj_array_push`. -/
def nameAll (digits : Nat → Bytes) : List Bytes → List Bytes → Res (List Bytes)
  | arr, [] => .ok arr
  | arr, n :: ns => uniqify digits (arr.length + 1) arr (escapeRule n) 1 >>= fun m => nameAll digits (arr ++ [m]) ns

/-- The name of a compiler rule before it is made unique, src/backend/ninja/rules.c:231-252. -/
def compilerRule (pre lang : Bytes) (tgt : Option Bytes) : Bytes :=
  escapeRule (match tgt with
    | some t => pre ++ ascii "_" ++ lang ++ ascii "_compiler_for_" ++ t
    | none => pre ++ ascii "_" ++ lang ++ ascii "_compiler")

/-- The name of a linker rule, src/backend/ninja/rules.c:85-90. -/
def linkerRule (pre lang : Bytes) : Bytes := pre ++ ascii "_" ++ lang ++ ascii "_linker"

end Muon.Ninja
