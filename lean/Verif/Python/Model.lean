import Verif.Feature.Model
/-
Finding Python: src/functions/modules/python.c.
-/
namespace Muon.Python
open Muon

/-- What is outside: `fs_find_cmd` (its result, and the path it leaves), `run_cmd_argv` (nothing if it fails; else the status and the output), and
`muon_json_to_dict`. Programs are taken to give the same output each time. -/
structure World where
  find : Bytes → Bool × Bytes
  run : List Bytes → Option (Nat × Bytes)
  json : Bytes → Option (List (Bytes × Bytes))

/-- `introspect_version`, `introspect_paths`, `introspect_vars`, src/functions/modules/python.c:19-31. -/
def srcVersion : Bytes := ascii "import sysconfig\nprint(sysconfig.get_python_version())\n"
def srcPaths : Bytes := ascii "import sysconfig\nimport json\nprint(json.dumps(sysconfig.get_paths()))\n"
def srcVars : Bytes := ascii "import sysconfig\nimport json\nprint(json.dumps(sysconfig.get_config_vars()))\n"

/-- `struct obj_python_installation` and its program. -/
structure Inst where
  found : Bool
  cmd : Bytes
  version : Option Bytes
  paths : List (Bytes × Bytes)
  vars : List (Bytes × Bytes)
  deriving DecidableEq

/-- Running a program of Python: its output if the status is 0; as in `query_version`, src/functions/modules/python.c:37-41. -/
def query (W : World) (path src : Bytes) : Option Bytes :=
  match W.run [path, ascii "-c", src] with
  | some (0, out) => some out
  | _ => none

/-- The loop of `query_version`, src/functions/modules/python.c:43-58: `index` and `entry`, as far as it was read. `make_str` ends at a NUL byte. -/
def versionLoop : Nat → Bytes → Option Bytes → Bytes → Option Bytes
  | _, _, v, [] => v
  | i, e, v, c :: r =>
    if c = 10 then versionLoop (i + 1) [] (if i = 0 then some (e.takeWhile (· ≠ 0)) else v) r
    else versionLoop i (e ++ [c]) v r

/-- `introspect_python_interpreter`, src/functions/modules/python.c:98-104, with `query_version`, `query_paths`, `query_vars`, 33-96. -/
def introspect (W : World) (found : Bool) (path : Bytes) : Res Inst :=
  match query W path srcVersion with
  | none => .error
  | some o =>
    match (query W path srcPaths).bind W.json with
    | none => .error
    | some ps =>
      match (query W path srcVars).bind W.json with
      | none => .error
      | some vs => .ok ⟨found, path, versionLoop 0 [] none o, ps, vs⟩

/-- `python_module_present`, src/functions/modules/python.c:106-126. -/
def present (W : World) (path m : Bytes) : Bool :=
  match W.run [path, ascii "-c", ascii "import " ++ m] with
  | some (s, _) => s == 0
  | none => false

/-- What `find_installation()` gives. -/
inductive Val
  | disabler
  | inst (i : Inst)
  deriving DecidableEq

/-- `func_module_python_find_installation`, src/functions/modules/python.c:151-233, with `iterate_required_module_list`, 134-149. Arguments without NUL. -/
def findInstallation (W : World) (af : Option Feature.State) (name : Option Bytes) (req : Option Feature.ReqVal) (dis : Option Bool) (mods : Option (List Bytes)) : Res Val :=
  Feature.requirement af req >>= fun r =>
  let disabler := dis.getD false
  let cmd := name.getD (ascii "python3")
  if cmd = [] then .bad
  else
    let f := W.find cmd
    if !f.1 && r = .required then .error
    else if !f.1 && disabler then .ok .disabler
    else if f.1 && !((mods.getD []).all (present W f.2)) then
      if r = .required then .error
      else if disabler then .ok .disabler
      else introspect W false f.2 >>= fun i => .ok (.inst i)
    else introspect W f.1 f.2 >>= fun i => .ok (.inst i)

/-- `func_module_python3_find_python`, src/functions/modules/python.c:247-273: the command. -/
def findPython (W : World) (name : Option Bytes) : Res Bytes :=
  let cmd := name.getD (ascii "python3")
  if cmd = [] then .bad else if (W.find cmd).1 then .ok (W.find cmd).2 else .error

/-- `func_python_installation_get_path` and `func_python_installation_get_var`, src/functions/modules/python.c:275-325. -/
def getOr (d : List (Bytes × Bytes)) (k : Bytes) (dflt : Option Bytes) : Res Bytes :=
  match d.lookup k with
  | some v => .ok v
  | none => match dflt with
    | none => .error
    | some v => .ok v

/-- `func_python_installation_has_path` and `func_python_installation_has_var`, src/functions/modules/python.c:327-359. -/
def has (d : List (Bytes × Bytes)) (k : Bytes) : Bool := (d.lookup k).isSome

end Muon.Python
