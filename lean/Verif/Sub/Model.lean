import Verif.Wrap.Model
import Verif.Version.Model
/-
Model of `subproject()`, src/functions/kernel/subproject.c, the evaluation of projects, src/lang/eval.c:25-78, and the methods of
subproject objects, src/functions/subproject.c. Project files are programs of the actions that matter here; the options that
`default_options` sets, the trace and logs are left out.
-/
namespace Muon.Sub
open Muon

/-- `struct project`, include/lang/workspace.h:18-42; only what is looked at here: the roots `source_root` and `build_root`, variables,
targets (which stand for all that is built), the version. -/
structure Proj where
  name : Bytes
  cwd : Bytes
  build : Bytes
  subprojects : Bytes := ascii "subprojects"
  vars : Bytes → Option Nat := fun _ => none
  targets : List Bytes := []
  version : Bytes := []
  notOk : Bool := false

/-- `struct workspace`, include/lang/workspace.h:61-141: the files of the machine, `projects`, `subprojects` and `cur_project`. -/
structure St (σ : Type) where
  files : σ
  projects : List Proj
  cache : Bytes → Option Nat
  cur : Nat

/-- `enum requirement_type`, include/coerce.h:10-14. -/
inductive Req
  | skip | required | auto
  deriving DecidableEq, Repr

/-- A subproject object, include/lang/object.h:154-157: not found, or the project. -/
inductive Obj
  | missing
  | found (id : Nat)
  deriving DecidableEq, Repr

/-- A call of `subproject()`; `defaultsOk`: whether `default_options` can be set. -/
structure Call where
  name : Bytes
  req : Req
  version : Option (List Bytes) := none
  defaultsOk : Bool := true

/-- What a project file does. -/
inductive Prog
  | stop (ok : Bool)
  | project (version subprojects : Bytes) (k : Prog)
  | set (x : Bytes) (v : Nat) (k : Prog)
  | get (x : Bytes) (k : Option Nat → Prog)
  | target (t : Bytes) (k : Prog)
  | sub (c : Call) (k : Obj → Prog)
  | member (o : Obj) (x : Bytes) (k : Option Nat → Prog)

/-- The machine: files, the program that a file contains, whether the options of a project can be read, whether downloads are
allowed (`wrap_mode`), and whether the build directory exists. -/
structure Env (σ : Type) where
  host : Wrap.Host σ
  prog : Bytes → Prog
  options : σ → Bytes → Bool
  download : Bool
  buildRoot : σ → Bool

/-- The outcome: too deep, undefined, or a state and whether there was no error. -/
inductive Out (σ α : Type)
  | deep
  | bad
  | ret (st : St σ) (r : Option α)

/-- Changing the current project. -/
def St.modify {σ : Type} (st : St σ) (f : Proj → Proj) : St σ := { st with projects := st.projects.modify st.cur f }

/-- `current_project`, src/lang/workspace.c:56-60. -/
def St.current {σ : Type} (st : St σ) : Option Proj := st.projects[st.cur]?

/-- What running a program gives, with what calls of `subproject()` do. `subproject_get_variable`,
src/functions/subproject.c:14-35: an error if the subproject was not found. -/
def run {σ : Type} (call : St σ → Call → Out σ Obj) : Prog → St σ → Out σ Unit
  | .stop ok, st => .ret st (if ok then some () else none)
  | .project v d k, st => run call k (st.modify fun p => { p with version := v, subprojects := d })
  | .set x v k, st => run call k (st.modify fun p => { p with vars := fun y => if y = x then some v else p.vars y })
  | .get x k, st => run call (k (st.current.bind fun p => p.vars x)) st
  | .target t k, st => run call k (st.modify fun p => { p with targets := p.targets ++ [t] })
  | .sub c k, st =>
    match call st c with
    | .deep => .deep
    | .bad => .bad
    | .ret st' none => .ret st' none
    | .ret st' (some o) => run call (k o) st'
  | .member o x k, st =>
    match o with
    | .missing => .ret st none
    | .found id => run call (k ((st.projects[id]?).bind fun p => p.vars x)) st

/-- What `subproject_prepare` says. -/
inductive Prep
  | fail
  | missing
  | there (cwd build : Bytes)
  deriving DecidableEq, Repr

/-- An error if it is required. -/
def noProject (required : Bool) : Prep := if required then .fail else .missing

/-- The check of `meson.build`, src/functions/kernel/subproject.c:66-81. -/
def checkFile {σ : Type} (H : Wrap.Host σ) (s : σ) (cwd build : Bytes) (required : Bool) : Prep :=
  if H.isFile s (Path.join cwd (ascii "meson.build")) then .there cwd build else noProject required

/-- The directories a wrap leads to, src/functions/kernel/subproject.c:42-50. -/
def wrapDirs (w : Wrap.Wrap) (cwd build : Bytes) : Bytes × Bytes :=
  match w.fields .directory with
  | some d => (Path.join (Path.dirname cwd) d, Path.join (Path.dirname build) d)
  | none => (cwd, build)

/-- `subproject_prepare`, src/functions/kernel/subproject.c:18-82. -/
def prepare {σ : Type} (H : Wrap.Host σ) (s : σ) (cwd build : Bytes) (required download : Bool) : Res (σ × Prep) :=
  if H.isDir s cwd then .ok (s, checkFile H s cwd build required)
  else if !H.isFile s (cwd ++ ascii ".wrap") then .ok (s, noProject required)
  else Wrap.wrapHandle H s (cwd ++ ascii ".wrap") (Path.dirname cwd) download >>= fun r =>
    match r.2 with
    | none => .ok (r.1, noProject required)
    | some w => .ok (r.1, checkFile H r.1 (wrapDirs w cwd build).1 (wrapDirs w cwd build).2 required)

/-- `eval_project`, src/lang/eval.c:25-78, for subprojects, with what evaluates a program: the new project, the state and whether it
succeeded. The current project is set back. -/
def evalProject {σ : Type} (E : Env σ) (ev : Prog → St σ → Out σ Unit) (st : St σ) (name cwd build : Bytes) : Out σ Unit :=
  let st1 : St σ := { st with projects := st.projects ++ [{ name := name, cwd := cwd, build := build }], cur := st.projects.length }
  if !E.options st1.files cwd then .ret { st1 with cur := st.cur } none
  else match E.host.read st1.files (Path.join cwd (ascii "meson.build")) with
    | none => .ret { st1 with cur := st.cur } none
    | some content =>
      match ev (E.prog content) st1 with
      | .deep => .deep
      | .bad => .bad
      | .ret st2 r => .ret { st2 with cur := st.cur } r

/-- `not_found:`, src/functions/kernel/subproject.c:165-173: the project is marked, unless it is the first. -/
def notFound {σ : Type} (st : St σ) (id : Nat) (req : Req) : Out σ Obj :=
  let st' : St σ := if id = 0 then st else { st with projects := st.projects.modify id fun p => { p with notOk := true } }
  .ret st' (if req = .required then none else some .missing)

/-- The version is looked at, src/functions/kernel/subproject.c:128-148: whether the evaluation counts as failed. -/
def refused (c : Call) (version : Bytes) : Bool :=
  match c.version with
  | none => false
  | some vs => !Version.versionCompare version vs && c.req = .required

/-- The end, src/functions/kernel/subproject.c:150-163. `build_dir` is the directory before a wrap changed it. -/
def finish {σ : Type} (E : Env σ) (st : St σ) (name : Bytes) (id : Nat) (build : Bytes) : Out σ Obj :=
  let st1 : St σ := { st with cache := fun n => if n = name then some id else st.cache n }
  if E.buildRoot st1.files then
    match E.host.mkdir st1.files build with
    | (s, true) => .ret { st1 with files := s } (some (.found id))
    | (s, false) => .ret { st1 with files := s } none
  else .ret st1 (some (.found id))

/-- After `subproject_prepare`, src/functions/kernel/subproject.c:117-173. -/
def evaluate {σ : Type} (E : Env σ) (ev : Prog → St σ → Out σ Unit) (st : St σ) (c : Call) (cwd build build0 : Bytes) : Out σ Obj :=
  if !c.defaultsOk then .ret st none
  else match evalProject E ev st c.name cwd build with
    | .deep => .deep
    | .bad => .bad
    | .ret st' none => notFound st' st.projects.length c.req
    | .ret st' (some ()) =>
      if refused c (((st'.projects[st.projects.length]?).map (·.version)).getD []) then notFound st' st.projects.length c.req
      else finish E st' c.name st.projects.length build0

/-- The directory of a subproject in a directory of the current project, src/functions/kernel/subproject.c:100-104. -/
def subDir (root subprojects name : Bytes) : Bytes := Path.push (Path.join root subprojects) name

/-- `subproject` when it was not evaluated before, src/functions/kernel/subproject.c:93-163. -/
def fresh {σ : Type} (E : Env σ) (ev : Prog → St σ → Out σ Unit) (st : St σ) (c : Call) : Out σ Obj :=
  if c.req = .skip then .ret st (some .missing)
  else match st.current with
    | none => .bad
    | some p =>
      match prepare E.host st.files (subDir p.cwd p.subprojects c.name) (subDir p.build p.subprojects c.name) (c.req = .required) E.download with
      | .bad => .bad
      | .error => .bad
      | .ok (s, .fail) => .ret { st with files := s } none
      | .ok (s, .missing) => .ret { st with files := s } (some .missing)
      | .ok (s, .there cwd build) => evaluate E ev { st with files := s } c cwd build (subDir p.build p.subprojects c.name)

/-- `subproject`, src/functions/kernel/subproject.c:84-174. -/
def subproject {σ : Type} (E : Env σ) (ev : Prog → St σ → Out σ Unit) (st : St σ) (c : Call) : Out σ Obj :=
  match st.cache c.name with
  | some id => .ret st (some (.found id))
  | none => fresh E ev st c

/-- Evaluating programs, with subprojects in subprojects up to a depth. -/
def eval {σ : Type} (E : Env σ) : Nat → Prog → St σ → Out σ Unit
  | 0, p, st => run (fun _ _ => .deep) p st
  | n + 1, p, st => run (subproject E (eval E n)) p st

/-- The targets of the projects that count, src/backend/ninja.c:108-154: those of projects that are not marked. -/
def built {σ : Type} (st : St σ) : List Bytes := (st.projects.filter (fun p => !p.notOk)).flatMap (·.targets)

end Muon.Sub
