import Verif.Path.Model
/-
Running programs: options of the command line (include/opts.h, src/opts.c, getopt), `muon internal exe` (src/main.c), lists of
arguments and environments as strings (src/args.c, src/platform/run_cmd.c), the start of a program (src/platform/posix/run_cmd.c).
-/
namespace Muon.Exec
open Muon

/-! ### Options -/

/-- What `os_getopt` returns: an option with its argument, or `?`. -/
inductive Item
  | opt (c : UInt8) (arg : Bytes)
  | unknown
  deriving DecidableEq

/-- The options in one argument `-abc`, src/platform/windows/os.c:93-131 (ported from musl; on other systems `getopt` is the C
library's, src/platform/posix/os.c:35-39, with the behaviour of POSIX). `spec` is the option string: whether an option takes an argument. The second component is the
option that takes the next argument. -/
def cluster (spec : UInt8 → Option Bool) : Bytes → List Item × Option UInt8
  | [] => ([], none)
  | c :: cs =>
    match spec c with
    | none => let r := cluster spec cs; (.unknown :: r.1, r.2)
    | some false => let r := cluster spec cs; (.opt c [] :: r.1, r.2)
    | some true => if cs = [] then ([], some c) else ([.opt c cs], none)

/-- The options of an argument, if it has some, src/platform/windows/os.c:81-91. -/
def optChars (a : Bytes) : Option Bytes := if a.head? = some 45 ∧ 2 ≤ a.length then some a.tail else none

/-- All results of `os_getopt`, and the operands, src/platform/windows/os.c:65-133. -/
def getopt (spec : UInt8 → Option Bool) : List Bytes → List Item × List Bytes
  | [] => ([], [])
  | a :: as =>
    match optChars a with
    | none => ([], a :: as)
    | some cs =>
      if cs = [45] then ([], as)
      else match (cluster spec cs).2, as with
        | none, as => ((cluster spec cs).1 ++ (getopt spec as).1, (getopt spec as).2)
        | some _, [] => ((cluster spec cs).1 ++ [.unknown], [])
        | some o, x :: as => ((cluster spec cs).1 ++ .opt o x :: (getopt spec as).1, (getopt spec as).2)

/-- The option string `"h"`. -/
def optH (c : UInt8) : Option Bool := if c = 104 then some false else none
/-- The option string `"vC:h"`, src/main.c:1048. -/
def optMain (c : UInt8) : Option Bool := if c = 67 then some true else if c = 118 then some false else optH c
/-- The option string `"f:c:e:a:R:h"`, src/main.c:85. -/
def optExe (c : UInt8) : Option Bool := if c ∈ ascii "fceaR" then some true else optH c

/-- The loop of `OPTSTART` and `OPTEND`, include/opts.h:19-38: `none` is the end of the program after the help. An unknown option is an
error; with the `os_getopt` of Windows the option string is read past its end (src/platform/windows/os.c:108-112). -/
def optLoop {α : Type} (win : Bool) (f : α → UInt8 → Bytes → α) : α → List Item → Res (Option α)
  | a, [] => .ok (some a)
  | _, .unknown :: _ => if win then .bad else .error
  | a, .opt c x :: is => if c = 104 then .ok none else optLoop win f (f a c x) is

/-- The options of `muon internal exe`, src/main.c:76-83. -/
structure ExeOpts where
  feed : Option Bytes
  capture : Option Bytes
  environment : Option Bytes
  args : Option Bytes
  remove : Option Bytes
  deriving DecidableEq

/-- The `switch` of `cmd_exe`, src/main.c:86-100. -/
def exeOpt (o : ExeOpts) (c : UInt8) (x : Bytes) : ExeOpts :=
  if c = 102 then { o with feed := some x }
  else if c = 99 then { o with capture := some x }
  else if c = 101 then { o with environment := some x }
  else if c = 97 then { o with args := some x }
  else { o with remove := some x }

/-- What `muon` is asked to do. -/
inductive Action
  | help
  | other
  | exe (o : ExeOpts) (cmd : List Bytes)
  deriving DecidableEq

/-- The options of `cmd_exe`, src/main.c:85-118. -/
def cmdExe (win : Bool) (args : List Bytes) : Res Action :=
  let r := getopt optExe args
  optLoop win exeOpt ⟨none, none, none, none, none⟩ r.1 >>= fun o =>
  match o with
  | none => .ok .help
  | some o =>
    if r.2 = [] ∧ o.args = none then .error
    else if r.2 ≠ [] ∧ o.args.isSome then .error
    else .ok (.exe o r.2)

/-- `find_cmd`, src/opts.c:71-99, and the command. -/
def dispatch (commands : List (Bytes × (List Bytes → Res Action))) : List Bytes → Res Action
  | [] => .error
  | c :: as =>
    match commands.find? (·.1 == c) with
    | some k => k.2 as
    | none => .error

/-- `cmd_internal`, src/main.c:672-693. -/
def cmdInternal (win : Bool) (args : List Bytes) : Res Action :=
  let r := getopt optH args
  optLoop win (fun a _ _ => a) () r.1 >>= fun o =>
  match o with
  | none => .ok .help
  | some _ => dispatch [(ascii "eval", fun _ => .ok .other), (ascii "exe", cmdExe win), (ascii "repl", fun _ => .ok .other),
      (ascii "dump_funcs", fun _ => .ok .other)] r.2

/-- `cmd_main`, src/main.c:1022-1080. The effects of `-v` and `-C` are left out. -/
def cmdMain (win : Bool) (args : List Bytes) : Res Action :=
  let r := getopt optMain args
  optLoop win (fun a _ _ => a) () r.1 >>= fun o =>
  match o with
  | none => .ok .help
  | some _ => dispatch ((ascii "internal", cmdInternal win) :: ["analyze", "benchmark", "check", "fmt", "fmt_unstable", "info", "install", "meson", "options",
      "samu", "setup", "subprojects", "summary", "test", "version"].map (fun n => (ascii n, fun _ => .ok .other))) r.2

/-- `main`, src/main.c:1082-1114: `meson` without arguments compares NULL. -/
def main (win : Bool) : List Bytes → Res Action
  | [] => .bad
  | a0 :: args =>
    if Path.basename a0 = ascii "meson" then
      match args with
      | [] => .bad
      | a :: _ => if a = ascii "internal" then cmdMain win args else .ok .other
    else cmdMain win args

/-! ### Lists as strings -/

/-- The C string at a place in memory: up to the first NUL. -/
def cstrAt (mem : Bytes) : Res Bytes := if 0 ∈ mem then .ok (mem.takeWhile (· ≠ 0)) else .bad

/-- `join_args_argstr`, src/args.c:265-291; the byte after the string is NUL. -/
def argstr (args : List Bytes) : Bytes := args.flatMap (fun a => a ++ [0]) ++ [0]

/-- The loop of `argstr_pushall`, src/platform/run_cmd.c:31-49, from a place in memory: the current argument starts at `arg`, `i` arguments have been pushed,
and `room` more fit (`push_argv_single`, src/platform/run_cmd.c:23-29, checks this). -/
def pushLoop (argc : Nat) : Bytes → Bytes → Nat → Nat → Res (List Bytes)
  | [], _, _, _ => .bad
  | c :: mem, arg, i, room =>
    if c = 0 then
      if room = 0 then .bad
      else cstrAt arg >>= fun a => if i + 1 ≥ argc then .ok [a] else pushLoop argc mem mem (i + 1) (room - 1) >>= fun as => .ok (a :: as)
    else pushLoop argc mem arg i room

/-- `argstr_to_argv` without `prepend`, src/platform/run_cmd.c:51-70. -/
def argstrToArgv (mem : Bytes) (argc : Nat) : Res (List Bytes) := pushLoop argc mem mem 0 argc

/-- `env_to_envstr` of a dictionary, src/args.c:297-327. -/
def envstr (d : List (Bytes × Bytes)) : Bytes := d.flatMap (fun e => e.1 ++ [0] ++ (e.2 ++ [0])) ++ [0]

/-- `setenv`: the name is not empty and has no `=`. -/
def setenv (k v : Bytes) : Res (Bytes × Bytes) := if k = [] ∨ 61 ∈ k then .error else .ok (k, v)

/-- The loop of `run_cmd_internal` that sets variables, src/platform/posix/run_cmd.c:284-307: all variables set, in this order. `k` is the name, if it has been
seen, `i` the number of variables that have been set. -/
def envLoop (envc : Nat) : Bytes → Option Bytes → Nat → Res (List (Bytes × Bytes))
  | [], _, _ => .bad
  | c :: mem, k, i =>
    if c = 0 then
      match k with
      | none => envLoop envc mem (some mem) i
      | some k =>
        cstrAt k >>= fun k => cstrAt mem >>= fun v => setenv k v >>= fun e =>
        if i + 1 ≥ envc then .ok [e] else envLoop envc mem none (i + 1) >>= fun es => .ok (e :: es)
    else envLoop envc mem k i

/-- The variables that are set for the program. -/
def setAll (mem : Bytes) (envc : Nat) : Res (List (Bytes × Bytes)) := envLoop envc mem (some mem) 0

/-! ### Starting the program -/

/-- What `muon internal exe` does: the command, the variables, standard input, the file that gets the output, the file that is removed before. -/
structure Launch where
  argv : List Bytes
  env : List (Bytes × Bytes)
  stdin : Option Bytes
  capture : Option Bytes
  removed : Option Bytes
  deriving DecidableEq

/-- The variables of the environment file, src/main.c:142-151; `loadEnv` reads the file (`load_obj_from_serial_dump`, main.c:51-71, see Verif/Serial). A variable that
cannot be set ends the child, which is an error of the command. -/
def envOf (loadEnv : Bytes → Option (List (Bytes × Bytes))) : Option Bytes → Res (List (Bytes × Bytes))
  | none => .ok []
  | some f => match loadEnv f with
    | none => .error
    | some d => setAll (envstr d) d.length

/-- The arguments, src/main.c:153-170; `loadArgs` reads the file. -/
def argsOf (loadArgs : Bytes → Option (List Bytes)) (cmd : List Bytes) : Option Bytes → Res (List Bytes)
  | none => .ok cmd
  | some f => match loadArgs f with
    | none => .error
    | some l => argstrToArgv (argstr l) l.length

/-- `cmd_exe` until the command is run, src/main.c:119-172. -/
def launch (loadArgs : Bytes → Option (List Bytes)) (loadEnv : Bytes → Option (List (Bytes × Bytes))) (o : ExeOpts) (cmd : List Bytes) : Res Launch :=
  envOf loadEnv o.environment >>= fun env =>
  argsOf loadArgs cmd o.args >>= fun argv =>
  .ok ⟨argv, env, o.feed, o.capture, o.remove⟩

/-- The characters of the line after `#!`: to the end of the line or of the file (src/platform/run_cmd.c:112-114). -/
def shebang (src : Bytes) : Bytes := src.takeWhile (fun c => c ≠ 10 ∧ c ≠ 0)

/-- Blanks for `run_cmd_determine_interpreter_skip_chars`, src/platform/run_cmd.c:72-94. -/
def blank (c : UInt8) : Bool := c == 32 || c == 13 || c == 9

/-- `run_cmd_determine_interpreter`, src/platform/run_cmd.c:96-143: the interpreter and its argument. -/
def interpreter (src : Bytes) : Res (Bytes × Option Bytes) :=
  if src.take 2 = ascii "#!" then
    let l := (shebang (src.drop 2)).dropWhile blank
    if l = [] then .error
    else
      let r := (l.dropWhile (fun c => !blank c)).drop 1
      let a := r.dropWhile blank
      .ok (l.takeWhile (fun c => !blank c), if a = [] then none else some a)
  else .error

/-- Files: which are executable, what they contain; the working directory; `PATH`. -/
structure Files where
  isExe : Bytes → Bool
  read : Bytes → Option Bytes
  cwd : Bytes
  path : Option Bytes

/-- `build_argv`, src/platform/posix/run_cmd.c:339-405: the command and its arguments. -/
def buildArgv (w : Files) (argv : List Bytes) : Res (Bytes × List Bytes) :=
  match argv with
  | [] => .bad
  | a0 :: _ =>
    if a0 = [] then .bad
    else if Path.isBasename a0 then .ok (a0, argv)
    else
      let p := Path.makeAbsolute w.cwd a0
      if w.isExe p then .ok (p, argv)
      else match w.read p with
        | none => .error
        | some src => interpreter src >>= fun i => .ok (Path.copy i.1, i.1 :: (i.2.toList ++ argv))

/-- The loop of `fs_find_cmd`, src/platform/posix/filesystem.c:387-409; `base` is the part of `PATH` from `base_start`. -/
def findLoop (isExe : Bytes → Bool) (cmd : Bytes) : Bytes → Bytes → Res Bytes
  | base, [] => if isExe (Path.push base cmd) then .ok (Path.push base cmd) else .error
  | base, c :: r =>
    if c = 58 then (if isExe (Path.push base cmd) then .ok (Path.push base cmd) else findLoop isExe cmd [] r)
    else findLoop isExe cmd (base ++ [c]) r

/-- `fs_find_cmd`, src/platform/posix/filesystem.c:363-412. -/
def findCmd (w : Files) (cmd : Bytes) : Res Bytes :=
  if cmd = [] then .bad
  else if Path.isBasename cmd then
    match w.path with
    | none => .error
    | some p => findLoop w.isExe cmd [] p
  else
    let p := Path.makeAbsolute w.cwd cmd
    if w.isExe p then .ok p else .error

/-- `run_cmd_argv` until `execve`, src/platform/posix/run_cmd.c:407-431, 191-200: the file and the arguments that are executed. -/
def execve (w : Files) (argv : List Bytes) : Res (Bytes × List Bytes) :=
  buildArgv w argv >>= fun r => findCmd w r.1 >>= fun f => .ok (f, r.2)

end Muon.Exec
