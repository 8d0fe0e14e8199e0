import Verif.Names.Model
/-
Model of which targets a call of `executable`, `library`, `both_libraries` … makes, of their position independence, and
of the objects they share (src/functions/kernel/build_target.c, src/functions/build_target.c). Other parts of
`create_target` are modelled in Verif/Deps, Verif/Names and Verif/Install.
-/
namespace Muon.Kinds
open Muon Names

/-- What a file given as a source is taken for, `build_tgt_push_source_files_iter`,
src/functions/kernel/build_target.c:205-239: a library (`file_is_linkable`), a header or an unknown file, an object, or
something to compile. -/
inductive Cls
  | library | header | object | compiled
  deriving DecidableEq, Repr

/-- A target: the directories for the names of its objects, `src`, `objects`, what sources add to `link_with`, and the
flags `build_tgt_flag_pic`, `build_tgt_flag_pie`. -/
structure Tgt where
  kind : Kind
  dirs : Dirs
  src : List Bytes
  objects : List Bytes
  linkWith : List Bytes
  pic : Bool
  pie : Bool
  deriving DecidableEq, Repr

/-- `default_library`. -/
inductive Default
  | static | shared | both
  deriving DecidableEq, Repr

/-- What a target depends on besides the call: the option `default_library`, the options `b_staticpic` and `b_pie` (with
overrides), the directories of a target of each kind, `wk->build_root`, the extension of objects (see
`Names.objectPath`) and the classification of sources by their names. -/
structure Env where
  default : Default
  staticpic : Bool
  pieOpt : Bool
  dirs : Kind → Dirs
  root : Bytes
  ext : Option Bytes → Bytes
  cls : Bytes → Cls

/-- The keywords: `pic`, `pie`, `objects`, whether `link_whole`, `version`, `soversion`, `vs_module_defs` are set, the
`target_type`, and the objects that come with dependencies. -/
structure Kw where
  pic : Option Bool := none
  pie : Option Bool := none
  objects : Option (List Bytes) := none
  depObjects : List Bytes := []
  linkWhole : Bool := false
  version : Bool := false
  soversion : Bool := false
  defs : Bool := false
  targetType : Option Bytes := none
  deriving DecidableEq, Repr

/-- `obj_array_dedup`: the first occurrences. -/
def dedup (l : List Bytes) : List Bytes := l.foldl (fun r x => if x ∈ r then r else r ++ [x]) []

/-- src/functions/kernel/build_target.c:498-521. -/
def picOf (E : Env) (k : Kind) (kw : Option Bool) : Res Bool :=
  match kw with
  | some p => if !p ∧ (k = .shared ∨ k = .sharedModule) then .error else .ok p
  | none => .ok (if k = .static then E.staticpic else decide (k = .shared ∨ k = .sharedModule))

/-- src/functions/kernel/build_target.c:523-540: the value is looked up as the object whose number is the flag `set`,
that is object 1, the disabler, which is not a boolean: `get_obj_internal` aborts. -/
def pieOf (E : Env) (k : Kind) (kw : Option Bool) : Res Bool :=
  match kw with
  | some _ => .bad
  | none => .ok (if k = .executable then E.pieOpt else false)

/-- `create_target`, src/functions/kernel/build_target.c:453-825, as far as sources, objects and these flags go.
`sources` are the files of the positional arguments, of `sources` and of dependencies, after `coerce_files` and
`generated_list_process_for_target`. -/
def create (E : Env) (kw : Kw) (k : Kind) (ignoreSources : Bool) (sources : List Bytes) : Res Tgt :=
  (picOf E k kw.pic).bind fun pic =>
  (pieOf E k kw.pie).bind fun pie =>
  let objs := dedup (dedup (kw.objects.getD []) ++ kw.depObjects)
  let srcs := if ignoreSources then [] else sources
  let t : Tgt := {
    kind := k, dirs := E.dirs k,
    src := dedup (srcs.filter (fun s => E.cls s = .compiled)),
    objects := objs ++ srcs.filter (fun s => E.cls s = .object),
    linkWith := srcs.filter (fun s => E.cls s = .library),
    pic := pic, pie := pie }
  if t.src = [] ∧ t.objects = [] ∧ !kw.linkWhole ∧ k ≠ .static then .error else .ok t

/-- The objects of a list of sources, `build_target_extract_objects_iter`, src/functions/build_target.c:113-197: files
that are not compiled are skipped, others must be sources of the target. (`filename_to_compiler_language` decides here;
a library has no language.) -/
def extract (E : Env) (t : Tgt) : List Bytes → Res (List Bytes)
  | [] => .ok []
  | s :: l =>
    if E.cls s ≠ .compiled then extract E t l
    else if s ∉ t.src then .error
    else (objectPath t.dirs E.root E.ext false s).bind fun o => (extract E t l).bind fun os => .ok (o :: os)

/-- `build_target_extract_all_objects`, src/functions/build_target.c:233-254. -/
def extractAll (E : Env) (t : Tgt) (recursive : Bool) : Res (List Bytes) :=
  (extract E t t.src).bind fun os => .ok (if recursive then os ++ t.objects else os)

/-- The functions that make targets, src/functions/kernel/build_target.c:1006-1050. -/
inductive Fn
  | executable | staticLibrary | sharedLibrary | bothLibraries | library | sharedModule | buildTarget
  deriving DecidableEq, Repr

/-- `get_option_default_library`, src/options.c:1023-1037; the types are sets of kinds, in the order of their bits. -/
def defaultKinds : Default → List Kind
  | .static => [.static]
  | .shared => [.shared]
  | .both => [.static, .shared]

/-- `type_from_kw`, src/functions/kernel/build_target.c:265-293. -/
def typeFromKw (E : Env) (s : Bytes) : Res (List Kind) :=
  if s = ascii "executable" then .ok [.executable]
  else if s = ascii "shared_library" then .ok [.shared]
  else if s = ascii "shared_module" then .ok [.sharedModule]
  else if s = ascii "static_library" then .ok [.static]
  else if s = ascii "both_libraries" then .ok [.static, .shared]
  else if s = ascii "library" then .ok (defaultKinds E.default)
  else .error

/-- `type` and `argtype` of each function. -/
def typeOf (E : Env) : Fn → List Kind
  | .executable => [.executable]
  | .staticLibrary => [.static]
  | .sharedLibrary => [.shared]
  | .bothLibraries => [.static, .shared]
  | .library => defaultKinds E.default
  | .sharedModule => [.sharedModule]
  | .buildTarget => []

def argtypeOf : Fn → List Kind
  | .executable => [.executable]
  | .staticLibrary => [.static]
  | .sharedLibrary => [.shared]
  | .bothLibraries => [.static, .shared]
  | .library => [.static, .shared]
  | .sharedModule => [.sharedModule]
  | .buildTarget => [.executable, .static, .shared]

/-- `keyword_validity`, src/functions/kernel/build_target.c:918-932. -/
def kwValid (kw : Kw) (arg : List Kind) : Bool :=
  (!kw.version || arg.contains .shared) && (!kw.soversion || arg.contains .shared) &&
  (!kw.defs || arg.contains .shared || arg.contains .static || arg.contains .sharedModule)

/-- The loop over the kinds, src/functions/kernel/build_target.c:950-986: the second target takes the objects of the
first instead of the sources. -/
def makeAll (E : Env) (kw : Kw) (sources : List Bytes) : List Kind → Res (List Tgt)
  | [] => .ok []
  | [k] => (create E kw k false sources).bind fun t => .ok [t]
  | k :: l :: _ =>
    (create E kw k false sources).bind fun t =>
    (extractAll E t true).bind fun os =>
    (create E { kw with objects := some (kw.objects.getD [] ++ os) } l true sources).bind fun u => .ok [t, u]

/-- `type` after src/functions/kernel/build_target.c:902-916. -/
def kindsFor (E : Env) (f : Fn) (kw : Kw) : Res (List Kind) :=
  if f = .buildTarget then
    match kw.targetType with
    | none => .error
    | some s => typeFromKw E s
  else if kw.targetType.isSome then .error else .ok (typeOf E f)

/-- `pic` is set for both libraries, src/functions/kernel/build_target.c:940-945. -/
def withPic (ks : List Kind) (kw : Kw) : Kw :=
  if ks = [.static, .shared] ∧ kw.pic = none then { kw with pic := some true } else kw

/-- `tgt_common`, src/functions/kernel/build_target.c:847-1004. -/
def tgtCommon (E : Env) (f : Fn) (kw : Kw) (sources : List Bytes) : Res (List Tgt) :=
  (kindsFor E f kw).bind fun ks =>
  if !kwValid kw (argtypeOf f) then .error else makeAll E (withPic ks kw) sources ks

end Muon.Kinds
