import Verif.Feature.Model
/-
Importing modules: src/functions/kernel.c, src/functions/modules.c. Not in the analyzer.
-/
namespace Muon.Import
open Muon

/-- `struct obj_module`: `name` is `module`, which is the first of the enumeration if it was not set; `exports` are the names of the functions of a script. -/
structure Mod where
  name : Bytes := ascii "fs"
  found : Bool := false
  impl : Bool := false
  exports : Option (List Bytes) := none
  deriving DecidableEq

/-- `module_names`, src/functions/modules.c:23-50: those before `module_unimplemented_separator`, include/lang/object.h:106-116. -/
def implemented : List Bytes := ["fs", "keyval", "pkgconfig", "python3", "python", "sourceset"].map ascii

/-- The others in `module_names`, src/functions/modules.c:23-50. -/
def unimplemented : List Bytes := ["cmake", "dlang", "gnome", "hotdoc", "i18n", "java", "modtest", "qt", "qt4", "qt5", "qt6", "unstable-cuda", "unstable-external_project",
  "unstable-icestorm", "unstable-rust", "unstable-simd", "unstable-wayland", "windows"].map ascii

/-- `module_lookup_builtin`, src/functions/modules.c:52-65: whether the module is implemented. -/
def builtin (n : Bytes) : Option Bool := if n ∈ implemented then some true else if n ∈ unimplemented then some false else none

/-- Scripts in the program: nothing if there is none of that name; then nothing if evaluating it fails, or it does not give a dictionary of functions. -/
abbrev Scripts := Bytes → Option (Option (List Bytes))

/-- `module_import` with `encapsulate`, src/functions/modules.c:67-140: its result, and the module. -/
def moduleImport (S : Scripts) (n : Bytes) : Bool × Mod :=
  match S n with
  | some (some fs) => (true, { found := true, impl := true, exports := some fs })
  | some none => (false, {})
  | none => match builtin n with
    | some i => (true, { name := n, found := i, impl := i })
    | none => (false, {})

/-- What `import()` gives. -/
inductive Val
  | disabler
  | module_ (m : Mod)
  deriving DecidableEq

/-- The end of `func_import`, src/functions/kernel.c:1605-1621: `found`, the local variable. -/
def finish (r : Feature.Req) (dis : Option Bool) (found : Bool) (m : Mod) : Val :=
  if !(if !m.impl && r ≠ .required then false else found) && dis.getD false then .disabler else .module_ m

/-- `func_import`, src/functions/kernel.c:1565-1622. `get_cstr` ends muon if there is a NUL byte, but not if nothing is imported. -/
def importFn (af : Option Feature.State) (S : Scripts) (n : Bytes) (req : Option Feature.ReqVal) (dis : Option Bool) : Res Val :=
  Feature.requirement af req >>= fun r =>
  if r = .skip then .ok (finish r dis false {})
  else if 0 ∈ n then .error
  else if (moduleImport S n).1 then .ok (finish r dis true (moduleImport S n).2)
  else if r = .required then .error
  else .ok (finish r dis false (moduleImport S n).2)

/-- `func_module_found`, src/functions/modules.c:142-152. -/
def foundFn (m : Mod) : Bool := m.found

/-- Which function a call of a method of a module is. -/
inductive Fn
  | found
  | own (m f : Bytes)
  | script (f : Bytes)
  deriving DecidableEq

/-- `builtin_run` for a module, src/functions/common.c:995-1024, with `module_func_lookup`, src/functions/modules.c:168-181: `has` says whether a module has a function. -/
def method (has : Bytes → Bytes → Bool) (m : Mod) (f : Bytes) : Res Fn :=
  if !m.found && f ≠ ascii "found" then .error
  else match m.exports with
    | some fs => if f ∈ fs then .ok (.script f) else .error
    | none => if f = ascii "found" then .ok .found else if has m.name f then .ok (.own m.name f) else .error

end Muon.Import
