import Verif.Env.Model
import Verif.Path.Model
/-
Declarations of tests and benchmarks, src/functions/kernel.c, and the environments of commands, src/coerce.c and src/functions/environment.c.
-/
namespace Muon.Tdecl
open Muon

/-! ### Programs and arguments -/

/-- Objects of type `tc_exe`, include/lang/typecheck.h:86-87. A target has its directory, name and path; a target of `both_libraries()` that of the shared library; a
custom target the paths of its outputs, a run target none (src/functions/kernel/custom_target.c:515-537); a program whether it was found, and its command. -/
inductive Obj
  | str (s : Bytes)
  | file (p : Bytes)
  | target (dir name path : Bytes)
  | both (dir name path : Bytes)
  | custom (name : Bytes) (outs : Option (List Bytes))
  | prog (found : Bool) (cmd : List Bytes)
  | python (found : Bool) (cmd : List Bytes)
  deriving DecidableEq, Repr

/-- What does not change: the path of muon, the roots of the build and of the source, and the environment muon runs in. -/
structure World where
  argv0 : Bytes
  build : Bytes
  source : Bytes
  getenv : Bytes → Option Bytes

/-- The type of the second argument of `test()` and `coerce_executable`, kernel.c:1344-1346, src/coerce.c:233-280: the program and its first arguments. -/
def coerceExe (E : World) : Obj → Res (Bytes × List Bytes)
  | .file p => .ok (p, [])
  | .target d n _ => Path.relativeTo E.build (Path.join d n) >>= fun r => .ok (Path.executable r, [])
  | .prog f cmd | .python f cmd =>
    if !f then .error
    else match cmd with
      | [] => .bad
      | x :: xs => .ok (x, xs)
  | .str _ | .both _ _ _ | .custom _ _ => .error

/-- `arr_to_args_iter` with `arr_to_args_build_target | arr_to_args_custom_target`, src/args.c:163-249. -/
def argWords : Obj → Res (List Bytes)
  | .str s => .ok [s]
  | .file p => .ok [p]
  | .target _ _ p | .both _ _ p => .ok [p]
  | .custom n none => .ok [n]
  | .custom _ (some outs) => .ok outs
  | .prog _ _ | .python _ _ => .error

/-- `arr_to_args`, src/args.c:251-262; the array is flat (`TYPE_TAG_LISTIFY`). -/
def allWords : List Obj → Res (List Bytes)
  | [] => .ok []
  | o :: os => argWords o >>= fun w => allWords os >>= fun ws => .ok (w ++ ws)

/-- Paths relative to the build directory. -/
def relAll (E : World) : List Bytes → Res (List Bytes)
  | [] => .ok []
  | p :: ps => Path.relativeTo E.build p >>= fun r => relAll E ps >>= fun rs => .ok (r :: rs)

/-- `add_test_depends_iter`, kernel.c:1296-1339. The outputs of a run target are object 0, of which there is no array: `abort`, src/lang/object.c:73-79. -/
def depOf (E : World) : Obj → Res (List Bytes)
  | .str _ | .file _ | .prog _ _ | .python _ _ => .ok []
  | .target _ _ p | .both _ _ p => relAll E [p]
  | .custom _ none => .bad
  | .custom _ (some outs) => relAll E outs

/-- `obj_array_foreach` with it. -/
def depsOf (E : World) : List Obj → Res (List Bytes)
  | [] => .ok []
  | o :: os => depOf E o >>= fun d => depsOf E os >>= fun ds => .ok (d ++ ds)

/-! ### Environments -/

/-- A dictionary or an environment object, by number: objects are shared. -/
inductive Ref
  | dict (i : Nat)
  | env (i : Nat)
  deriving DecidableEq, Repr

/-- `env:`: not given, a string, an array of strings, a variable with a dictionary or an environment object. -/
inductive EnvArg
  | none
  | str (s : Bytes)
  | arr (l : List Bytes)
  | var (v : Nat)
  deriving DecidableEq, Repr

/-- A declared test, `struct obj_test`, include/lang/object.h:353-366. -/
structure Test where
  name : Bytes
  exe : Bytes
  args : List Bytes
  env : Ref
  suites : List Bytes
  workdir : Option Bytes
  depends : List Bytes
  timeout : Option Int
  priority : Option Int
  bench : Bool
  shouldFail : Bool
  parallel : Bool
  verbose : Bool
  tap : Bool
  deriving DecidableEq, Repr

/-- The state: all dictionaries and environment objects, the variables of the build file, the tests, and the run targets with the directory of their declaration
(relative to the source) and their environment. -/
structure St where
  dicts : List (List (Bytes × Bytes)) := []
  envs : List (List Env.Action) := []
  vars : List Ref := []
  tests : List Test := []
  runs : List (Bytes × Ref) := []

/-- `coerce_environment_iter`, coerce.c:42-69. -/
def item (d : List (Bytes × Bytes)) (s : Bytes) : Res (List (Bytes × Bytes)) :=
  if 0 ∈ s then .error
  else if 61 ∉ s then .error
  else .ok (Env.dictSet d (s.takeWhile (· ≠ 61)) (s.dropWhile (· ≠ 61)).tail)

/-- `obj_array_foreach_flat` with it. -/
def items : List (Bytes × Bytes) → List Bytes → Res (List (Bytes × Bytes))
  | d, [] => .ok d
  | d, s :: l => item d s >>= fun d => items d l

/-- `typecheck_environment_dict_iter`, coerce.c:71-93. -/
def entryOk (e : Bytes × Bytes) : Bool := !e.1.isEmpty && !e.1.contains 0 && !e.2.contains 0 && !e.1.contains 61

/-- A new dictionary. -/
def St.newDict (st : St) (d : List (Bytes × Bytes)) : St × Ref := ({ st with dicts := st.dicts ++ [d] }, .dict st.dicts.length)

/-- `coerce_key_value_dict`, coerce.c:95-128, and the first part of `coerce_environment_from_kwarg`, coerce.c:20-31: a dictionary is not copied. -/
def coerceEnv (st : St) : EnvArg → Res (St × Ref)
  | .none => .ok (st.newDict [])
  | .str s => item [] s >>= fun d => .ok (st.newDict d)
  | .arr l => items [] l >>= fun d => .ok (st.newDict d)
  | .var v => match st.vars[v]? with
    | none => .error
    | some (.env i) => .ok (st, .env i)
    | some (.dict i) => if (st.dicts.getD i []).all entryOk then .ok (st, .dict i) else .error

/-- `environment_or_dict_set`, environment.c:76-89. -/
def setVar (st : St) (r : Ref) (k v : Bytes) : St :=
  match r with
  | .dict i => { st with dicts := st.dicts.modify i fun d => Env.dictSet d k v }
  | .env i => { st with envs := st.envs.modify i fun a => Env.envSet a .set k [v] none }

/-- `set_default_environment_vars`, environment.c:91-106. -/
def defaults (E : World) (sub : Option Bytes) (r : Ref) (st : St) : St :=
  let st := setVar (setVar (setVar st r (ascii "MUON_PATH") E.argv0) r (ascii "MESON_BUILD_ROOT") E.build) r (ascii "MESON_SOURCE_ROOT") E.source
  match sub with
  | none => st
  | some d => setVar st r (ascii "MESON_SUBDIR") d

/-- `coerce_environment_from_kwarg`, coerce.c:20-35. -/
def envOf (E : World) (sub : Option Bytes) (a : EnvArg) (st : St) : Res (St × Ref) :=
  coerceEnv st a >>= fun r => .ok (defaults E sub r.2 r.1, r.2)

/-- The variables of a command that has the environment, when it is run: `environment_to_dict`, environment.c:63-74. -/
def valuesOf (E : World) (st : St) : Ref → Res (List (Bytes × Bytes))
  | .dict i => .ok (st.dicts.getD i [])
  | .env i => Env.toDict E.getenv [] (st.envs.getD i [])

/-! ### Declarations -/

/-- A call of `test()` or `benchmark()`. -/
structure Call where
  name : Bytes
  exe : Obj
  args : Option (List Obj) := none
  workdir : Option Bytes := none
  depends : Option (List Obj) := none
  shouldFail : Option Bool := none
  env : EnvArg := .none
  suite : Option (List Bytes) := none
  priority : Option Int := none
  timeout : Option Int := none
  protocol : Option Bytes := none
  parallel : Option Bool := none
  verbose : Option Bool := none

/-- The protocol, kernel.c:1380-1408: is it TAP? -/
def protocolOf : Option Bytes → Res Bool
  | none => .ok false
  | some p => if p = ascii "tap" then .ok true else if p ∈ ["exitcode", "gtest", "rust"].map ascii then .ok false else .error

/-- The keyword arguments, kernel.c:1361-1378: those of a benchmark end at the place of `is_parallel`, so `verbose` is not known either. -/
def keywordsOk (bench : Bool) (c : Call) : Bool := !bench || (c.parallel.isNone && c.verbose.isNone)

/-- `tc_depends_kw`, typecheck.h:93. -/
def dependsOk : Obj → Bool
  | .target _ _ _ | .both _ _ _ | .custom _ _ => true
  | _ => false

/-- `add_test_common`, kernel.c:1341-1474. -/
def addTest (E : World) (bench : Bool) (c : Call) (st : St) : Res St :=
  if !keywordsOk bench c then .error
  else if !(c.depends.getD []).all dependsOk then .error
  else
    protocolOf c.protocol >>= fun tap =>
    coerceExe E c.exe >>= fun x =>
    allWords (c.args.getD []) >>= fun args =>
    envOf E none c.env st >>= fun e =>
    depOf E c.exe >>= fun d1 =>
    depsOf E (c.depends.getD []) >>= fun d2 =>
    depsOf E (c.args.getD []) >>= fun d3 =>
    .ok { e.1 with tests := e.1.tests ++ [
      { name := c.name, exe := x.1, args := x.2 ++ args, env := e.2, suites := c.suite.getD [], workdir := c.workdir, depends := d1 ++ d2 ++ d3,
        timeout := c.timeout, priority := c.priority, bench := bench, shouldFail := c.shouldFail.getD false, parallel := !bench && c.parallel.getD true,
        verbose := c.verbose.getD false, tap := tap }] }

/-- Statements: a variable with a dictionary or an environment object, a second variable for the same object, a call of a method of an environment object, a test, a run target. -/
inductive Stmt
  | dict (d : List (Bytes × Bytes))
  | environment (d : List (Bytes × Bytes))
  | same (v : Nat)
  | call (v : Nat) (c : Env.Call)
  | test (bench : Bool) (c : Call)
  | runTarget (sub : Bytes) (env : EnvArg)

/-- Statements: dictionaries (src/lang/interpreter.c), `func_environment`, kernel.c:1529-1563, `func_environment_set_common`, environment.c:137-158, tests, and the environment in
`func_run_target`, kernel.c:1134-1136. -/
def exec (E : World) (s : Stmt) (st : St) : Res St :=
  match s with
  | .dict d => .ok { st with dicts := st.dicts ++ [d.foldl (fun a e => Env.dictSet a e.1 e.2) []], vars := st.vars ++ [.dict st.dicts.length] }
  | .environment d => .ok { st with envs := st.envs ++ [d.foldl (fun a e => Env.envSet a .set e.1 [e.2] none) []], vars := st.vars ++ [.env st.envs.length] }
  | .same v => match st.vars[v]? with
    | none => .error
    | some r => .ok { st with vars := st.vars ++ [r] }
  | .call v c => match st.vars[v]? with
    | some (.env i) => Env.call (st.envs.getD i []) c >>= fun a => .ok { st with envs := st.envs.modify i fun _ => a }
    | _ => .error
  | .test bench c => addTest E bench c st
  | .runTarget sub a => envOf E (some sub) a st >>= fun r => .ok { r.1 with runs := r.1.runs ++ [(sub, r.2)] }

/-- A build file. -/
def run (E : World) : List Stmt → St → Res St
  | [], st => .ok st
  | s :: ss, st => exec E s st >>= fun st => run E ss st

end Muon.Tdecl
