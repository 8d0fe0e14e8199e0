import Verif.Tdecl.Model
/-
Command lines of scripts: src/functions/meson.c.
-/
namespace Muon.Script
open Muon
open Muon.Tdecl (Obj World)

/-- `coerce_executable` for what `process_script_commandline_iter` gives to it, src/coerce.c:233-280. Outputs of custom targets are files. -/
def program (E : World) : Obj → Res (Bytes × List Bytes)
  | .file p => .ok (p, [])
  | .target d n _ => Path.relativeTo E.build (Path.join d n) >>= fun r => .ok (Path.executable r, [])
  | .prog f cmd | .python f cmd =>
    if !f then .error
    else match cmd with
      | [] => .bad
      | x :: xs => .ok (x, xs)
  | .str _ | .both _ _ _ | .custom _ _ => .error

/-- `struct process_script_commandline_ctx`, meson.c:318-324: `first` is `i == 0`; `made`: the targets that became `build_by_default`. -/
structure Ctx where
  first : Bool := true
  arr : List Bytes := []
  made : List Obj := []
  deriving DecidableEq

/-- `process_script_commandline_iter`, meson.c:326-402; `unbuilt` is `allow_not_built`, `mark` is `make_deps_default`. `get_cstr` ends muon if a string has NUL bytes, src/lang/string.c:56-70.
A custom target's outputs are files, so the inner loop adds them; a run target's are object 0: `abort`, src/lang/object.c:73-79. Words of a program with arguments do not count. -/
def step (E : World) (cwd : Bytes) (unbuilt mark : Bool) (o : Obj) (c : Ctx) : Res Ctx :=
  match o with
  | .str s =>
    if !c.first then .ok { c with arr := c.arr ++ [s] }
    else if 0 ∈ s then .error
    else .ok { c with first := false, arr := c.arr ++ [if Path.isAbsolute s then s else Path.join cwd s] }
  | .custom n outs =>
    if !unbuilt then .error
    else match outs with
      | none => .bad
      | some outs => .ok { first := false, arr := c.arr ++ outs, made := if mark then c.made ++ [.custom n (some outs)] else c.made }
  | .target d n p =>
    if !unbuilt then .error
    else program E (.target d n p) >>= fun x => .ok { first := false, arr := c.arr ++ [x.1], made := if mark then c.made ++ [.target d n p] else c.made }
  | .both _ _ _ => .error
  | o => program E o >>= fun x =>
    if x.2.isEmpty then .ok { c with first := false, arr := c.arr ++ [x.1] }
    else .ok { c with arr := c.arr ++ x.1 :: x.2 }

/-- `obj_array_foreach_flat` with it, for the flat arguments. -/
def steps (E : World) (cwd : Bytes) (unbuilt mark : Bool) : List Obj → Ctx → Res Ctx
  | [], c => .ok c
  | o :: os, c => step E cwd unbuilt mark o c >>= fun c => steps E cwd unbuilt mark os c

/-- What is known after the build file: scripts to run when installing, with their `dry_run:`, scripts to run after configuring, and targets that became `build_by_default`. -/
structure St where
  install : List (Bool × List Bytes) := []
  postconf : List (List Bytes) := []
  made : List Obj := []
  deriving DecidableEq

/-- Calls of `meson.add_install_script()`, `meson.add_postconf_script()` and `meson.add_dist_script()`. -/
inductive Call
  | install (cwd : Bytes) (args : List Obj) (dry : Option Bool)
  | postconf (cwd : Bytes) (args : List Obj)
  | dist (cwd : Bytes) (args : List Obj)

/-- `func_meson_add_install_script`, `_postconf_script`, `_dist_script`, meson.c:404-491. Dist scripts are dropped. -/
def exec (E : World) (st : St) : Call → Res St
  | .install cwd args dry => steps E cwd true true args {} >>= fun c => .ok { st with install := st.install ++ [(dry.getD false, c.arr)], made := st.made ++ c.made }
  | .postconf cwd args => steps E cwd false false args {} >>= fun c => .ok { st with postconf := st.postconf ++ [c.arr], made := st.made ++ c.made }
  | .dist cwd args => steps E cwd true false args {} >>= fun _ => .ok st

/-- A build file. -/
def run (E : World) : List Call → St → Res St
  | [], st => .ok st
  | c :: cs, st => exec E st c >>= fun st => run E cs st

/-- `obj_array_foreach` with `run_postconf_script_iter`, src/backend/backend.c:15-50,62-65: the scripts that are run, and whether configuring succeeds. `ok` says whether a
command can be run and ends with 0. -/
def runAll (ok : List Bytes → Bool) : List (List Bytes) → List (List Bytes) × Bool
  | [] => ([], true)
  | c :: cs => if ok c then (c :: (runAll ok cs).1, (runAll ok cs).2) else ([c], false)

end Muon.Script
