import Verif.Base
/-
What a build file reads from a dependency: src/functions/dependency.c.
-/
namespace Muon.Dobj
open Muon

/-- `enum dependency_type`, include/lang/object.h:280-287. -/
inductive Kind
  | declared | pkgconf | threads | library | framework | notFound
  deriving DecidableEq

/-- `struct obj_dependency`, include/lang/object.h:299-309, without what is compiled and linked (C92). The object 0 is `none`; `variables` is a dictionary; only string values are modelled. -/
structure Dep where
  name : Option Bytes := none
  version : Option Bytes := none
  vars : Option (List (Bytes × Bytes)) := none
  found : Bool := false
  kind : Kind := .declared
  deriving DecidableEq

/-- `get_dependency_pkgconfig`, src/functions/kernel/dependency.c:238-243. -/
def fromPkgconf (name ver : Bytes) : Dep := { name := some name, version := some ver, found := true, kind := .pkgconf }

/-- `func_declare_dependency`, src/functions/kernel/dependency.c:762-794; `place` is the name made from project, file and line, `ver` is `version:` or the version of the project. -/
def fromDeclare (place ver : Bytes) (vars : Option (List (Bytes × Bytes))) : Dep := { name := some place, version := some ver, vars := vars, found := true, kind := .declared }

/-- `handle_special_dependency` for `threads`, src/functions/kernel/dependency.c:346-354. -/
def fromThreads : Dep := { name := some (ascii "threads"), found := true, kind := .threads }

/-- `func_compiler_find_library`, src/functions/compiler.c:2021-2023: the name is not set. -/
def fromLibrary (found : Bool) : Dep := { found := found, kind := .library }

/-- `func_dependency` when nothing is found, src/functions/kernel/dependency.c:639-642. -/
def fromNothing (name : Bytes) : Dep := { name := some name, kind := .notFound }

/-- `func_dependency` when `required:` is a disabled feature, src/functions/kernel/dependency.c:552-556: the type stays the first of the enumeration. -/
def fromSkipped (name : Bytes) : Dep := { name := some name }

/-- `func_dependency_found`, dependency.c:23-34. -/
def found (d : Dep) : Bool := d.found

/-- `func_dependency_version`, dependency.c:180-196. -/
def version (d : Dep) : Bytes := d.version.getD (ascii "unknown")

/-- `func_dependency_type_name`, dependency.c:198-234. -/
def typeName (d : Dep) : Bytes :=
  if !d.found then ascii "not-found"
  else match d.kind with
    | .pkgconf => ascii "pkgconfig"
    | .declared => ascii "internal"
    | .framework | .threads => ascii "system"
    | .library => ascii "library"
    | .notFound => ascii "not-found"

/-- `func_dependency_name`, dependency.c:236-252: `none` is the object 0. -/
def name (d : Dep) : Option Bytes := if d.kind = .declared then some (ascii "internal") else d.name

/-- pkg-config: the definitions that were made, the package and the variable. libpkgconf is not modelled. -/
abbrev Pkg := List (Bytes × Bytes) → Bytes → Bytes → Option Bytes

/-- `dep_get_pkgconfig_variable`, dependency.c:36-49, with `muon_pkgconf_get_variable`, src/external/libpkgconf.c:396-420; `get_cstr` ends muon if there is a NUL byte. -/
def pkgVar (pkg : Pkg) (defs : List (Bytes × Bytes)) (d : Dep) (var : Bytes) : Res (Option Bytes) :=
  if d.kind ≠ .pkgconf then .ok none
  else match d.name with
    | none => .bad
    | some n => if 0 ∈ n ∨ 0 ∈ var then .error else .ok (pkg defs n var)

/-- `func_dependency_get_pkgconfig_variable`, dependency.c:51-77. -/
def getPkgVar (pkg : Pkg) (defs : List (Bytes × Bytes)) (d : Dep) (var : Bytes) (dflt : Option Bytes) : Res Bytes :=
  pkgVar pkg defs d var >>= fun r =>
  match r, dflt with
  | some v, _ => .ok v
  | none, some v => .ok v
  | none, none => .error

/-- `dep_pkgconfig_define`, dependency.c:79-103, with `muon_pkgconf_define`, src/external/libpkgconf.c:293-305: definitions are added to those made before. -/
def define : List Bytes → List (Bytes × Bytes) → Res (List (Bytes × Bytes))
  | [], defs => .ok defs
  | k :: v :: l, defs => if 0 ∈ k ∨ 0 ∈ v then .error else define l (defs ++ [(k, v)])
  | [_], _ => .error

/-- The arguments of `get_variable()`. -/
structure Args where
  pos : Option Bytes := none
  pkgconfig : Option Bytes := none
  defines : Option (List Bytes) := none
  inside : Option Bytes := none
  dflt : Option Bytes := none
  deriving DecidableEq

/-- dependency.c:171-177. -/
def orDefault (dflt : Option Bytes) : Res Bytes :=
  match dflt with
  | some v => .ok v
  | none => .error

/-- `func_dependency_get_variable`, dependency.c:105-178: the value, and the definitions pkg-config has then. An odd number of definitions is an error before any is
made; here the definitions before the last one are lost with the error, since nothing is evaluated after it. -/
def getVariable (pkg : Pkg) (defs : List (Bytes × Bytes)) (d : Dep) (a : Args) : Res (Bytes × List (Bytes × Bytes)) :=
  let p := if a.pkgconfig.isSome then a.pkgconfig else a.pos
  let i := if a.inside.isSome then a.inside else a.pos
  if d.kind = .pkgconf then
    define (a.defines.getD []) defs >>= fun defs =>
    match p with
    | none => orDefault a.dflt >>= fun v => .ok (v, defs)
    | some x => pkgVar pkg defs d x >>= fun r =>
      match r with
      | some v => .ok (v, defs)
      | none => orDefault a.dflt >>= fun v => .ok (v, defs)
  else match d.vars, i with
    | some vs, some x =>
      match vs.lookup x with
      | some v => .ok (v, defs)
      | none => orDefault a.dflt >>= fun v => .ok (v, defs)
    | _, _ => orDefault a.dflt >>= fun v => .ok (v, defs)

/-- The values of several calls, one after the other. -/
def reads (pkg : Pkg) : List (Dep × Args) → List (Bytes × Bytes) → Res (List Bytes)
  | [], _ => .ok []
  | c :: cs, defs => getVariable pkg defs c.1 c.2 >>= fun r => reads pkg cs r.2 >>= fun vs => .ok (r.1 :: vs)

end Muon.Dobj
