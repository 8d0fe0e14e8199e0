import Verif.Exec.Model
/-
Command lines of meson: src/meson_opts.c, and what muon then does, src/main.c.
-/
namespace Muon.Mopts
open Muon
open Muon.Exec (Item getopt optH optMain argstr argstrToArgv)

/-! ### Translation -/

/-- `handle_as`: `enum meson_opts_test`, `meson_opts_install`, `meson_opts_setup`, src/meson_opts.c:191-201,285-289,341-344. -/
inductive Act
  | chdir | noRebuild | list | suite | benchmark | workers | verbose | setup | failFast | dryrun | destdir | version | define
  deriving DecidableEq

/-- `struct meson_option_spec`, meson_opts.c:31-37. -/
structure Spec where
  name : Bytes
  hasValue : Bool
  opt : Option Bytes
  ignore : Bool
  help : Bool
  act : Option Act
  deriving DecidableEq

/-- Entries of the tables: the help, an option that is handled, one that corresponds to an option of muon, one that is ignored. -/
def eHelp (n : String) : Spec := ⟨ascii n, false, none, false, true, none⟩
def eAct (n : String) (v : Bool) (a : Act) : Spec := ⟨ascii n, v, none, false, false, some a⟩
def eOpt (n : String) (v : Bool) (o : String) : Spec := ⟨ascii n, v, some (ascii o), false, false, none⟩
def eIgn (n : String) (v : Bool) : Spec := ⟨ascii n, v, none, true, false, none⟩

/-- The table of `translate_meson_opts_test`, meson_opts.c:252-277. -/
def testOpts : List Spec :=
  [eHelp "h", eHelp "help", eAct "C" true .chdir, eAct "v" false .verbose, eAct "maxfail" true .failFast, eAct "no-rebuild" false .noRebuild,
   eAct "list" false .list, eAct "suite" true .suite, eAct "benchmark" false .benchmark, eAct "num-processes" true .workers, eAct "setup" true .setup,
   eIgn "q" false, eIgn "quiet" false, eIgn "t" true, eIgn "timeout-multiplier" true, eIgn "gdb" false, eIgn "gdb-path" true, eIgn "repeat" true,
   eIgn "wrapper" true, eIgn "no-suite" false, eIgn "no-stdsplit" false, eIgn "print-errorlogs" false, eIgn "logbase" true, eIgn "test-args" true]

/-- The table of `translate_meson_opts_install`, meson_opts.c:317-330. -/
def installOpts : List Spec :=
  [eHelp "h", eHelp "help", eAct "C" true .chdir, eAct "n" false .dryrun, eAct "dryrun" false .dryrun, eAct "destdir" true .destdir, eIgn "no-rebuild" false,
   eIgn "only-changed" false, eIgn "quiet" false, eIgn "skip-subprojects" true, eIgn "tags" true, eIgn "strip" false]

/-- The table of `translate_meson_opts_setup`, meson_opts.c:369-423. -/
def setupOpts : List Spec :=
  [eHelp "h", eHelp "help", eAct "v" false .version, eAct "D" true .define,
   eOpt "prefix" true "prefix", eOpt "bindir" true "bindir", eOpt "datadir" true "datadir", eOpt "includedir" true "includedir",
   eOpt "infodir" true "infodir", eOpt "libdir" true "libdir", eOpt "libexecdir" true "libexecdir", eOpt "localedir" true "localedir",
   eOpt "localstatedir" true "localstatedir", eOpt "mandir" true "mandir", eOpt "sbindir" true "sbindir", eOpt "sharedstatedir" true "sharedstatedir",
   eOpt "sysconfdir" true "sysconfdir",
   eOpt "auto-features" true "auto_features", eOpt "backend" true "backend", eOpt "build.cmake-prefix-path" true "cmake_prefix_path",
   eOpt "build.pkg-config-path" true "pkg_config_path", eOpt "buildtype" true "buildtype", eOpt "cmake-prefix-path" true "cmake_prefix_path",
   eIgn "cross-file" true, eOpt "debug" false "debug", eOpt "default-library" true "default_library", eIgn "errorlogs" false,
   eIgn "fatal-meson-warnings" false, eOpt "force-fallback-for" true "force_fallback_for", eOpt "install-umask" true "insall_umask",
   eOpt "layout" true "layout", eIgn "native-file" true, eOpt "optimization" true "optimization", eOpt "pkg-config-path" true "pkg_config_path",
   eIgn "pkgconfig.relocatable" false, eOpt "prefer-static" false "prefer_static", eIgn "python.install-env" true, eIgn "python.platlibdir" true,
   eIgn "python.purelibdir" true, eOpt "stdsplit" false "stdsplit", eOpt "strip" false "strip", eOpt "unity" true "unity",
   eOpt "unity-size" true "unity_size", eOpt "warnlevel" true "warning_level", eOpt "werror" false "werror", eOpt "wrap-mode" true "wrap_mode",
   eIgn "reconfigure" false, eAct "version" false .version, eIgn "vsenv" false, eIgn "wipe" false]

/-- `struct translate_meson_opts_ctx`, meson_opts.c:23-29. -/
structure Ctx where
  pre : List Bytes := []
  stray : List Bytes := []
  argv : List Bytes := []
  help : Bool := false
  deriving DecidableEq

/-- The name and the value within an argument, meson_opts.c:113-134; `none` if it is not an option (`next_is_val` is never set). -/
def split (a : Bytes) : Option (Bytes × Option Bytes) :=
  if 1 < a.length ∧ a.head? = some 45 then
    if 2 < a.length ∧ a.tail.head? = some 45 then
      some ((a.drop 2).takeWhile (· ≠ 61), if 61 ∈ a.drop 2 then some ((a.drop 2).dropWhile (· ≠ 61)).tail else none)
    else some (a.tail.take 1, if 1 < a.tail.length then some (a.tail.drop 1) else none)
  else none

/-- A value that is printed: printing NULL is undefined. -/
def withVal (v : Option Bytes) (f : Bytes → Ctx) : Res Ctx :=
  match v with
  | none => .bad
  | some x => .ok (f x)

/-- The callbacks, meson_opts.c:203-246,291-311,346-363. -/
def handle (v : Option Bytes) (c : Ctx) : Act → Res Ctx
  | .chdir => withVal v fun x => { c with pre := c.pre ++ [ascii "-C" ++ x] }
  | .noRebuild => .ok { c with argv := c.argv ++ [ascii "-R"] }
  | .list => .ok { c with argv := c.argv ++ [ascii "-l"] }
  | .suite => withVal v fun x => { c with argv := c.argv ++ [ascii "-s" ++ x] }
  | .benchmark => .ok { c with argv := c.argv.set 0 (ascii "benchmark") }
  | .workers => withVal v fun x => { c with argv := c.argv ++ [ascii "-j" ++ x] }
  | .verbose => .ok { c with argv := c.argv ++ [ascii "-v"] }
  | .setup => withVal v fun x => { c with argv := c.argv ++ [ascii "-e" ++ x] }
  | .failFast => match v with
    | none => .bad
    | some x => if x = ascii "1" then .ok { c with argv := c.argv ++ [ascii "-f"] } else .error
  | .dryrun => .ok { c with argv := c.argv ++ [ascii "-n"] }
  | .destdir => withVal v fun x => { c with argv := c.argv ++ [ascii "-d" ++ x] }
  | .version => .ok { c with argv := ascii "version" :: c.argv }
  | .define => withVal v fun x => { c with argv := c.argv ++ [ascii "-D" ++ x] }

/-- What an option does, meson_opts.c:168-185. -/
def apply (s : Spec) (v : Option Bytes) (c : Ctx) : Res Ctx :=
  if s.ignore then .ok c
  else match s.opt with
    | some o => withVal (if s.hasValue then v else some (ascii "true")) fun x => { c with argv := c.argv ++ [ascii "-D" ++ o ++ ascii "=" ++ x] }
    | none =>
      if s.help then .ok { c with help := true }
      else match s.act with
        | none => .bad
        | some a => handle v c a

/-- `translate_meson_opts_parser`, meson_opts.c:99-189. -/
def parse (tbl : List Spec) : List Bytes → Ctx → Res Ctx
  | [], c => .ok c
  | a :: as, c =>
    match split a with
    | none => parse tbl as { c with stray := c.stray ++ [a] }
    | some p =>
      match tbl.find? (·.name == p.1) with
      | none => .error
      | some s =>
        if s.hasValue ∧ p.2 = none then
          match as with
          | [] => .error
          | x :: bs => apply s (some x) c >>= fun c => parse tbl bs c
        else apply s p.2 c >>= fun c => parse tbl as c

/-- The end of `translate_meson_opts_setup`, meson_opts.c:431-447: a build directory and a source directory. -/
def afterSetup (cwd : Bytes) (c : Ctx) : Ctx :=
  match c.stray with
  | [build, src] => { c with pre := c.pre ++ [ascii "-C" ++ src], stray := [Path.makeAbsolute cwd build] }
  | _ => c

/-- `translate_meson_opts_setup`, `_install`, `_test`, by name, meson_opts.c:248-283,313-339,365-474. -/
def subcommand (cwd sub : Bytes) (args : List Bytes) : Res Ctx :=
  if sub = ascii "setup" ∨ sub = ascii "configure" then
    parse setupOpts args { argv := [ascii "setup"] } >>= fun c => .ok (afterSetup cwd c)
  else if sub = ascii "install" then parse installOpts args { argv := [ascii "install"] }
  else if sub = ascii "test" then parse testOpts args { argv := [ascii "test", ascii "-v"] }
  else .error

/-- `translate_meson_opts`, meson_opts.c:491-542: the command line of muon; `none` if muon ends after printing something. -/
def translate (cwd argv0 : Bytes) : List Bytes → Res (Option (List Bytes))
  | [] => .error
  | sub :: args =>
    if sub = ascii "-v" ∨ sub = ascii "--version" ∨ sub = ascii "-h" then .ok none
    else subcommand cwd sub args >>= fun c =>
      if c.help then .ok none
      else
        let l := argv0 :: c.pre ++ c.argv ++ c.stray
        argstrToArgv (argstr l) l.length >>= fun l => .ok (some l)

/-! ### Commands of muon -/

/-- The option string `"D:c:bh"`, src/main.c:820. -/
def optSetup (c : UInt8) : Option Bool := if c ∈ ascii "Dc" then some true else if c = 98 then some false else optH c
/-- The option string `"nd:h"`, src/main.c:791. -/
def optInstall (c : UInt8) : Option Bool := if c = 100 then some true else if c = 110 then some false else optH c
/-- The option string `"s:d:Sfj:lvRe:h"`, src/main.c:711. -/
def optTest (c : UInt8) : Option Bool := if c ∈ ascii "sdje" then some true else if c ∈ ascii "SflvR" then some false else optH c

/-- The loop of `OPTSTART` and `OPTEND`, include/opts.h:19-38, on systems with the `getopt` of POSIX; `none`: the help. -/
def optLoop {α : Type} (f : α → UInt8 → Bytes → Res α) : α → List Item → Res (Option α)
  | a, [] => .ok (some a)
  | _, .unknown :: _ => .error
  | a, .opt c x :: is => if c = 104 then .ok none else f a c x >>= fun b => optLoop f b is

/-- `struct test_options`, include/cmd_test.h:24-34; without the display and the summary. The number of jobs is the text, whether it is a number is left out. -/
structure TestRun where
  bench : Bool := false
  list : Bool := false
  setup : Option Bytes := none
  suites : List Bytes := []
  failFast : Bool := false
  jobs : Option Bytes := none
  verbosity : Nat := 0
  noRebuild : Bool := false
  tests : List Bytes := []
  deriving DecidableEq

/-- The `switch` of `cmd_test`, src/main.c:712-761. `suites` has room for 64. -/
def testOpt (t : TestRun) (c : UInt8) (x : Bytes) : Res TestRun :=
  if c = 108 then .ok { t with list := true }
  else if c = 101 then .ok { t with setup := some x }
  else if c = 115 then
    if t.suites.length > 64 then .error
    else if t.suites.length = 64 then .bad
    else .ok { t with suites := t.suites ++ [x] }
  else if c = 102 then .ok { t with failFast := true }
  else if c = 106 then .ok { t with jobs := some x }
  else if c = 118 then .ok { t with verbosity := t.verbosity + 1 }
  else if c = 82 then .ok { t with noRebuild := true }
  else .ok t

/-- What muon does. -/
inductive Cmd
  /-- Help or a version is printed. -/
  | print
  | other
  /-- `-D` options in their order, and the build directory. -/
  | setup (defs : List Bytes) (build : Bytes)
  | install (dry : Bool) (destdir : Option Bytes)
  | test (t : TestRun)
  deriving DecidableEq

/-- `cmd_setup`, src/main.c:810-852: only `-D` is kept; there is one operand. -/
def cmdSetup (args : List Bytes) : Res Cmd :=
  let r := getopt optSetup args
  optLoop (fun d c x => .ok (if c = 68 then d ++ [x] else d)) [] r.1 >>= fun o =>
  match o, r.2 with
  | none, _ => .ok .print
  | some d, [b] => .ok (.setup d b)
  | some _, _ => .error

/-- `cmd_install`, src/main.c:784-808, without `DESTDIR` in the environment. -/
def cmdInstall (args : List Bytes) : Res Cmd :=
  let r := getopt optInstall args
  optLoop (fun d c x => .ok (if c = 110 then (true, d.2) else (d.1, some x))) (false, none) r.1 >>= fun o =>
  match o, r.2 with
  | none, _ => .ok .print
  | some d, [] => .ok (.install d.1 d.2)
  | some _, _ => .error

/-- `cmd_test`, src/main.c:701-782. -/
def cmdTest (bench : Bool) (args : List Bytes) : Res Cmd :=
  let r := getopt optTest args
  optLoop testOpt { bench := bench } r.1 >>= fun o =>
  match o with
  | none => .ok .print
  | some t => .ok (.test { t with tests := r.2 })

/-- `find_cmd`, src/opts.c:71-99, for the commands of src/main.c:1025-1043. -/
def command : List Bytes → Res Cmd
  | [] => .error
  | c :: as =>
    if c = ascii "setup" then cmdSetup as
    else if c = ascii "install" then cmdInstall as
    else if c = ascii "test" then cmdTest false as
    else if c = ascii "benchmark" then cmdTest true as
    else if c = ascii "version" then .ok .print
    else if c ∈ ["analyze", "check", "fmt", "fmt_unstable", "info", "internal", "meson", "options", "samu", "subprojects", "summary"].map ascii then .ok .other
    else .error

/-- `cmd_main`, src/main.c:1022-1080, without the program name: the directories that are entered one after another, and the command. -/
def cmdMain (args : List Bytes) : Res (List Bytes × Cmd) :=
  let r := getopt optMain args
  optLoop (fun d c x => .ok (if c = 67 then d ++ [x] else d)) [] r.1 >>= fun o =>
  match o with
  | none => .ok ([], .print)
  | some d => command r.2 >>= fun c => .ok (d, c)

/-- `cmd_meson`, src/main.c:997-1020: `muon meson args...`, or a program of name `meson`. -/
def meson (cwd argv0 : Bytes) (args : List Bytes) : Res (List Bytes × Cmd) :=
  translate cwd argv0 args >>= fun l =>
  match l with
  | none => .ok ([], .print)
  | some l => cmdMain l.tail

end Muon.Mopts
