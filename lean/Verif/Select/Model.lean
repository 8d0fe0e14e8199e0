import Verif.Str.Model
/-
Model of the selection of tests by `muon test`: src/cmd_test.c (setups, suites, names), the file of tests written at the
end of configuration (src/backend/ninja.c:156-194) and the `-s` option (src/main.c:718-725).
-/
namespace Muon.Select
open Muon

/-- `struct obj_test`, include/lang/object.h: the fields used for selection. `suites` is `none` if the test was defined
without `suite` (kernel.c:1447 stores the null object). -/
structure Test where
  name : Bytes
  suites : Option (List Bytes)
  benchmark : Bool
  deriving DecidableEq, Repr

/-- An element of `test_setups`, functions/kernel.c:1274-1287. `exclude` is `none` if `exclude_suites` was not given. -/
structure Setup where
  name : Bytes
  exclude : Option (List Bytes)
  isDefault : Bool
  deriving DecidableEq, Repr

/-- A project: `struct project`, include/lang/workspace.h. `setups` is `none` if there is no `add_test_setup`. -/
structure Proj where
  name : Bytes
  tests : List Test
  setups : Option (List Setup)
  notOk : Bool := false
  deriving DecidableEq, Repr

/-- `struct test_options`, include/cmd_test.h:25-34: the fields used for selection. -/
structure Opts where
  suites : List Bytes := []
  tests : List Bytes := []
  setup : Option Bytes := none
  benchmark : Bool := false
  list : Bool := false
  deriving DecidableEq, Repr

/-- The option `-s`, main.c:718-725: the suites collected from the command line. `suites[suites_len] = optarg` with
`suites_len` equal to the size 64 of the array writes outside it. -/
def addSuites : List Bytes → List Bytes → Res (List Bytes)
  | [], acc => .ok acc
  | s :: rest, acc => if acc.length > 64 then .error else if acc.length = 64 then .bad else addSuites rest (acc ++ [s])

/-- `ninja_write_tests`, backend/ninja.c:156-194: the projects written, in order. That two have the same name is an
assertion there, and excluded here. -/
def written (ps : List Proj) : List Proj := ps.filter (fun p => !p.notOk && !p.tests.isEmpty)

/-- `strchr(s, ':')` and the two parts, cmd_test.c:292-314 and :735-771: what precedes the colon, and what follows it.
Without a colon the first part is empty. -/
def splitColon (s : Bytes) : Bytes × Bytes :=
  if 58 ∈ s then (s.takeWhile (· != 58), (s.dropWhile (· != 58)).drop 1) else ([], s)

/-- `project_namespaced_name_matches`, cmd_test.c:292-314. -/
def nameMatches (spec : Bytes) (isMain : Bool) (proj name : Bytes) : Bool :=
  let (p1, n1) := splitColon spec
  if p1 ≠ [] then p1 == proj && n1 == name
  else isMain && n1 == name

/-- The parts of `struct run_test_ctx` used here: `proj_i`, `proj_name`, `setup.exclude_suites`. -/
structure Ctx where
  projI : Nat := 0
  projName : Bytes := []
  exclude : Option (List Bytes) := none
  deriving DecidableEq, Repr

/-- `test_in_suite` with its callbacks, cmd_test.c:323-398. `obj_array_foreach` on the null object aborts
(object.c:500, :30-34). -/
def inSuite (o : Opts) (c : Ctx) (t : Test) : Res Bool :=
  if o.suites = [] then
    match c.exclude with
    | none => .ok true
    | some ex => match t.suites with
      | none => .bad
      | some ss => .ok (!ss.any (fun s => ex.any (fun e => nameMatches e (c.projI == 0) c.projName s)))
  else match t.suites with
    | none => .ok false
    | some ss => .ok (ss.any (fun s => o.suites.any (fun e => nameMatches e (c.projI == 0) c.projName s)))

/-- `test_matches_cmdline_tests`, cmd_test.c:735-771. -/
def inNames (o : Opts) (c : Ctx) (t : Test) : Bool :=
  o.tests.isEmpty || o.tests.any (fun spec =>
    let (p, n) := splitColon spec
    (p.isEmpty || p == c.projName) && (n.isEmpty || Str.eqlGlob n t.name))

/-- `gather_project_tests_iter` over the tests of a project, cmd_test.c:773-795. Dependencies left out. -/
def gather (o : Opts) (c : Ctx) : List Test → Res (List Test)
  | [] => .ok []
  | t :: ts =>
    if t.benchmark ≠ o.benchmark then gather o c ts
    else (inSuite o c t).bind fun b =>
      (gather o c ts).bind fun r => .ok (if b && inNames o c t then t :: r else r)

/-- The condition of `find_test_setup_iter`, cmd_test.c:419-427. -/
def wanted (o : Opts) (c : Ctx) (s : Setup) : Bool :=
  match o.setup with
  | some e => nameMatches e (c.projI == 0) c.projName s.name
  | none => s.isDefault

/-- `find_test_setup_iter` over the setups of a project, cmd_test.c:405-444. -/
def findSetup (o : Opts) (c : Ctx) : List Setup → Option Setup
  | [] => none
  | s :: rest =>
    if wanted o c s then some s else findSetup o c rest

/-- `find_test_setup_project_iter` over the projects, cmd_test.c:446-467, then `load_test_setup`, cmd_test.c:469-490:
the context left behind. -/
def loadSetup (o : Opts) : List Proj → Ctx → Res Ctx
  | [], c => if o.setup.isSome then .error else .ok { c with projI := 0 }
  | p :: ps, c =>
    let c := { c with projName := p.name }
    match p.setups with
    | none => loadSetup o ps c
    | some ss => match findSetup o c ss with
      | some s => .ok { c with exclude := s.exclude, projI := 0 }
      | none => loadSetup o ps { c with projI := c.projI + 1 }

/-- `run_project_tests` over the projects, cmd_test.c:832-888: for each project for which something is printed or run,
the name of the project, the name printed by `list_tests_iter` (cmd_test.c:819-830) or by the progress display, and
the tests. `failed` tells whether a failure has been seen, with `-f`, when the tests of a project have been started. The tests are in
the order in which they were defined; the sort before running (`test_compare`) is not applied. -/
def runProjects (o : Opts) (failed : Bytes → Bool) : List Proj → Ctx → Res (List (Bytes × Bytes × List Test))
  | [], _ => .ok []
  | p :: ps, c => (gather o c p.tests).bind fun ts =>
    if o.list then (runProjects o failed ps c).bind fun r => .ok ((p.name, c.projName, ts) :: r)
    else if ts = [] then runProjects o failed ps c
    else if failed p.name then .ok [(p.name, p.name, ts)]
    else (runProjects o failed ps { c with projName := p.name, projI := c.projI + 1 }).bind fun r =>
      .ok ((p.name, p.name, ts) :: r)

/-- `tests_run`, cmd_test.c:951-962, on the projects of the configuration. -/
def testsRun (o : Opts) (failed : Bytes → Bool) (ps : List Proj) : Res (List (Bytes × Bytes × List Test)) :=
  (loadSetup o (written ps) {}).bind fun c => runProjects o failed (written ps) c

end Muon.Select
