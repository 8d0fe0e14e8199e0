import Verif.Base
import Verif.Path.Model
/-
Model of the names of the files a target makes: the object of each source (`tgt_src_to_object_path`,
src/functions/build_target.c), and the name, private directory, soname and links of the target
(src/functions/kernel/build_target.c). Systems that name libraries as Windows does are left out.
-/
namespace Muon.Names
open Muon Path

/-- The directories `tgt_src_to_object_path` looks at: `private_path`, `build_dir` and `cwd` of the target, and
`wk->source_root`. -/
structure Dirs where
  priv : Bytes
  build : Bytes
  cwd : Bytes
  source : Bytes
  deriving DecidableEq, Repr

/-- The directory of which the name of the object keeps the part below: src/functions/build_target.c:35-50. -/
def base (d : Dirs) (src : Bytes) : Res (Option Bytes) :=
  (isSubpath d.priv src).bind fun p =>
  if p then .ok (some d.priv) else
  (isSubpath d.build src).bind fun b =>
  if b then .ok (some d.build) else
  (isSubpath d.cwd src).bind fun c =>
  if c then .ok (some d.cwd) else
  (isSubpath d.source src).bind fun s =>
  if s then .ok (some d.source) else .ok none

/-- src/functions/build_target.c:52-63: `rel`. -/
def rel (b : Option Bytes) (src : Bytes) : Res Bytes :=
  match b with
  | some b => relativeTo b src
  | none => .ok ((copy src).map fun c => if c = 47 then 95 else c)

/-- What follows the last dot of a name: `strrchr(str, '.')` in `filename_to_compiler_language`, src/compilers.c:121-142. -/
def suffix (s : Bytes) : Option Bytes :=
  if 46 ∈ s then some (s.reverse.takeWhile (· ≠ 46)).reverse else none

/-- `tgt_src_to_object_path`, src/functions/build_target.c:21-80. `root` is `wk->build_root`. `ext` is the choice of
the extension of the object (lines 67-76), which depends on what follows the last dot of the name so far (that tells
the language) and on the compilers of the project. -/
def objectPath (d : Dirs) (root : Bytes) (ext : Option Bytes → Bytes) (relative : Bool) (src : Bytes) : Res Bytes :=
  (if relative then relativeTo root d.priv else .ok d.priv).bind fun p =>
  (base d src).bind fun b =>
  (rel b src).bind fun r =>
  let res := join p r
  .ok (res ++ ext (suffix res))

/-- `enum tgt_type`, include/lang/object.h: the kinds of target. -/
inductive Kind
  | executable | static | shared | sharedModule
  deriving DecidableEq, Repr

/-- The arguments of a target that its name depends on: the name, `soversion`, `version`, `name_prefix`,
`name_suffix`; `darwin` tells whether `machine_system()` is darwin (the other systems here are those that are not
windows, cygwin or darwin). -/
structure Named where
  kind : Kind
  name : Bytes
  sover : Option Bytes
  ver : Option Bytes
  pre : Option Bytes
  suff : Option Bytes
  darwin : Bool
  deriving DecidableEq, Repr

/-- `pref`, `suff`: src/functions/kernel/build_target.c:380-433. -/
def prefOf (n : Named) : Bytes :=
  n.pre.getD (match n.kind with
    | .executable => []
    | .static | .shared | .sharedModule => [108, 105, 98])  -- "lib"

def suffOf (n : Named) : Option Bytes :=
  match n.suff with
  | some s => some s
  | none => match n.kind with
    | .executable => none
    | .static => some [97]  -- "a"
    | .shared | .sharedModule => if n.darwin then some [100, 121, 108, 105, 98] else some [115, 111]  -- "dylib", "so"

/-- `ver_suff`: src/functions/kernel/build_target.c:416-425. -/
def verSuff (n : Named) : Option Bytes :=
  match n.kind with
  | .executable | .static => none
  | .shared | .sharedModule =>
    if n.darwin then none else
    match n.ver with
    | some v => some v
    | none => n.sover

/-- `suff ? "." : ""` and `suff ? suff : ""`. -/
def dotted (s : Option Bytes) : Bytes :=
  match s with
  | some s => 46 :: s
  | none => []

/-- `plain_name`: src/functions/kernel/build_target.c:446, `snprintf` into 2048 bytes. -/
def plainName (n : Named) : Bytes := (prefOf n ++ n.name ++ dotted (suffOf n)).take 2047

/-- `build_name`: src/functions/kernel/build_target.c:447. -/
def buildName (n : Named) : Bytes := plainName n ++ dotted (verSuff n)

/-- `build_path` and `private_path`: src/functions/kernel/build_target.c:584-593. -/
def buildPath (buildDir : Bytes) (n : Named) : Bytes := join buildDir (buildName n)
def privatePath (buildDir : Bytes) (n : Named) : Bytes := buildPath buildDir n ++ [46, 112]

/-- `setup_soname`, src/functions/kernel/build_target.c:295-314. `strncpy` leaves at most 1022 bytes of the version;
the rest of the buffer is zero. -/
def soname (n : Named) : Bytes :=
  plainName n ++
    match n.sover, n.ver with
    | some s, _ => 46 :: s.take 1022
    | none, some v => 46 :: (v.take 1022).takeWhile (· ≠ 46)
    | none, none => []

/-- `setup_shared_object_symlinks`, src/functions/kernel/build_target.c:337-369, called for shared libraries at lines
711-719: the links made, in order, each with what it says. -/
def links (buildDir : Bytes) (n : Named) : List (Bytes × Bytes) :=
  if n.kind = .shared then
    (if buildName n ≠ soname n then [(join buildDir (soname n), buildName n)] else []) ++
    (if soname n ≠ plainName n then [(join buildDir (plainName n), soname n)] else [])
  else []

end Muon.Names
