import Verif.Base
import Verif.Path.Model
/-
Model of how dependencies and linked libraries are merged into targets: `dep_process_link_with`, `dep_process_link_whole`,
`dep_process_deps`, `declare_dependency`, `partial_dependency`, `as_system` (src/functions/kernel/dependency.c,
src/functions/dependency.c), the parts of `create_target` that use them (src/functions/kernel/build_target.c), and the
arguments of the linker (src/backend/common_args.c).

The objects a program makes are numbered in the order in which they are made; a reference is a number. Arrays that are
the null object (not yet initialised by `build_dep_init`) are empty lists, except that `incs` tells whether
`include_directories` is an array. `raw`, which is used by the pkgconfig module only, is left out.
-/
namespace Muon.Deps
open Muon

/-- `enum compiler_language`, include/compilers.h:48-60. -/
inductive Lang
  | null | c | cHdr | cpp | cppHdr | cObj | objc | assembly | llvmIr | nasm
  deriving DecidableEq, Repr

/-- `coalesce_link_languages`, src/compilers.c:150-184. -/
def coalesce (cur new : Lang) : Lang :=
  match new with
  | .null | .cHdr | .cppHdr | .llvmIr => cur
  | .assembly => if cur = .null then .assembly else cur
  | .nasm | .c | .cObj | .objc => if cur = .null then .c else cur
  | .cpp => if cur = .null ∨ cur = .c ∨ cur = .assembly then .cpp else cur

/-- The arrays of `struct build_dep`, include/lang/object.h:200-224. -/
inductive Field
  | linkWith | linkWhole | notFound | linkArgs | compileArgs | includes | rpath | orderDeps | sources | objects
  deriving DecidableEq, Repr

/-- An element of such an array: a string or the path of a file, and for include directories `is_system`. -/
structure Item where
  text : Bytes
  system : Bool := false
  deriving DecidableEq, Repr

/-- `struct build_dep`, include/lang/object.h:200-224. -/
structure BDep where
  lists : Field → List Item
  lang : Lang
  incs : Bool

/-- `build_dep_init` on a zeroed structure, dependency.c:893-935. -/
def empty : BDep := ⟨fun _ => [], .null, true⟩

/-- Replacing one array. -/
def BDep.set (d : BDep) (f : Field) (l : List Item) : BDep := { d with lists := fun g => if g = f then l else d.lists g }

/-- `obj_array_push` on one array. -/
def BDep.push (d : BDep) (f : Field) (v : Item) : BDep := d.set f (d.lists f ++ [v])

/-- The arrays that `merge_build_deps` copies even if the source is a target that is linked with. -/
def passes : Field → Bool
  | .includes | .compileArgs | .sources | .objects => false
  | _ => true

/-- `merge_build_deps`, dependency.c:937-983. -/
def merge (src dest : BDep) (dep : Bool) : BDep :=
  { lists := fun f => if dep || passes f then dest.lists f ++ src.lists f else dest.lists f,
    lang := coalesce src.lang dest.lang,
    incs := true }

/-- `obj_array_dedup`, object.c:898-905 (modelled with the hash table in Verif/Val): the first occurrences. -/
def dedup (l : List Item) : List Item := l.foldl (fun r x => if x ∈ r then r else r ++ [x]) []

/-- `dedup_link_args_iter`, dependency.c:985-1009. -/
def dedupArgs (l : List Item) : List Item :=
  l.foldl (fun r x => if x.text = ascii "-pthread" ∧ x ∈ r then r else r ++ [x]) []

/-- `dedup_build_dep`, dependency.c:1011-1035. -/
def dedupDep (d : BDep) : BDep :=
  { d with lists := fun f => if f = .linkArgs ∨ f = .compileArgs then dedupArgs (d.lists f) else dedup (d.lists f) }

/-- `enum tgt_type`, include/lang/object.h. -/
inductive Kind
  | exe | static | shared | module
  deriving DecidableEq, Repr

/-- The objects that occur in `link_with`, `link_whole` and `dependencies`. A target has `dep_internal`, with which it is
built itself, and `dep`, which is used where it is linked. -/
inductive Obj
  | target (k : Kind) (path : Bytes) (int ext : BDep)
  | both (stat dyn : Nat)
  | custom (outs : List Nat)
  | file (p : Bytes)
  | dep (found : Bool) (d : BDep)

abbrev Store := List Obj

/-- The run path for a library, dependency.c:1082-1094. -/
def runDir (root path : Bytes) : Bytes :=
  let d := Path.dirname path
  if Path.isAbsolute d then d else Path.join root d

/-- The array that is added to, dependency.c:1058-1064. -/
def destField (whole : Bool) : Field := if whole then .linkWhole else .linkWith

/-- `dep_process_link_with_iter` on a target, dependency.c:1069-1105. -/
def linkTarget (root : Bytes) (whole : Bool) (k : Kind) (path : Bytes) (ext : BDep) (d : BDep) : Res BDep :=
  if whole && k != .static then .error
  else
    let d := if k = .exe then d else d.push (destField whole) ⟨path, false⟩
    let s : Item := ⟨runDir root path, false⟩
    let d := if k = .static then d else if s ∈ d.lists .rpath then d else d.push .rpath s
    .ok (merge ext d false)

/-- `dep_process_link_with_iter` on the outputs of a custom target, which are files, dependency.c:1107-1114. -/
def linkOuts (st : Store) (whole : Bool) : List Nat → List Nat × BDep → Res (List Nat × BDep)
  | [], s => .ok s
  | j :: js, (seen, d) =>
    if j ∈ seen then linkOuts st whole js (seen, d)
    else match st[j]? with
      | some (.file p) => linkOuts st whole js (j :: seen, d.push (destField whole) ⟨p, false⟩)
      | _ => .error

/-- `dep_process_link_with_iter`, dependency.c:1043-1124. The strings that `compiler.find_library` and the like give are
treated as files are. `seen` is `wk->obj_hash`. -/
def linkOne (root : Bytes) (st : Store) (whole : Bool) (s : List Nat × BDep) (i : Nat) : Res (List Nat × BDep) :=
  if i ∈ s.1 then .ok s
  else match st[i]? with
    | some (.target k p _ ext) => (linkTarget root whole k p ext s.2).bind fun d => .ok (i :: s.1, d)
    | some (.both _ dyn) => match st[dyn]? with
      | some (.target k p _ ext) => (linkTarget root whole k p ext s.2).bind fun d => .ok (i :: s.1, d)
      | _ => .error
    | some (.custom outs) => linkOuts st whole outs (i :: s.1, s.2)
    | some (.file p) => .ok (i :: s.1, s.2.push (destField whole) ⟨p, false⟩)
    | _ => .error

/-- `obj_array_foreach_flat` with an iterator that can fail. -/
def each {σ : Type} (f : σ → Nat → Res σ) : List Nat → σ → Res σ
  | [], s => .ok s
  | i :: is, s => (f s i).bind fun s => each f is s

/-- `dep_process_link_with` and `dep_process_link_whole`, dependency.c:1126-1163; not called if the keyword is not given
(build_target.c:470-483, dependency.c:807-819). -/
def processLink (root : Bytes) (st : Store) (whole : Bool) (l : Option (List Nat)) (d : BDep) : Res BDep :=
  match l with
  | none => .ok d
  | some l => (each (linkOne root st whole) l ([], d)).bind fun s => .ok (dedupDep s.2)

/-- `dep_process_deps_iter`, dependency.c:1165-1184. -/
def depOne (st : Store) (s : List Nat × BDep) (i : Nat) : Res (List Nat × BDep) :=
  if i ∈ s.1 then .ok s
  else match st[i]? with
    | some (.dep found src) => .ok (i :: s.1, if found then merge src s.2 true else s.2)
    | _ => .error

/-- `dep_process_deps`, dependency.c:1186-1197; not called if the keyword is not given. -/
def processDeps (st : Store) (l : Option (List Nat)) (d : BDep) : Res BDep :=
  match l with
  | none => .ok d
  | some l => (each (depOne st) l ([], d)).bind fun s => .ok (dedupDep s.2)

/-- `enum include_type`, include/lang/object.h. -/
inductive IncType
  | preserve | system | nonSystem
  deriving DecidableEq, Repr

/-- `dep_process_includes_iter`, dependency.c:852-882. -/
def incItem (t : IncType) (v : Item) : Item :=
  match t with
  | .preserve => v
  | .system => { v with system := true }
  | .nonSystem => { v with system := false }

/-- The calls that make the objects. Own contributions of a target or dependency are lists of items:
the keywords `link_args`, `compile_args`, `include_directories`, `sources`, `objects`, and for targets the include
directories and order dependencies from its sources and the keywords `build_rpath` and `install_rpath`. -/
inductive Cmd
  | target (k : Kind) (path : Bytes) (linkWith linkWhole deps : Option (List Nat)) (linkArgs includes orderDeps rpaths : List Item)
      (srcs objs : List Bytes)
  | both (stat dyn : Nat)
  | custom (outs : List Nat)
  | file (p : Bytes)
  | declare (linkWith linkWhole deps : Option (List Nat)) (linkArgs compileArgs includes sources objects : List Item)
  | external (found : Bool) (d : BDep)
  | partialDep (i : Nat) (compileArgs includes linkArgs links sources : Bool)
  | asSystem (i : Nat) (t : IncType)

/-- The environment: `wk->build_root`, `filename_to_compiler_language`, and the first of the compilers for c and c++ that
the project has. -/
structure Env where
  root : Bytes
  langOf : Bytes → Option Lang
  fallback : Lang

/-- The text of an object file's name without its last extension, build_target.c:112-116. Without a dot it is written
through a pointer computed from a null pointer. -/
def stripExt (p : Bytes) : Res Bytes :=
  let b := Path.basename p
  if 46 ∈ b then .ok ((b.reverse.dropWhile (· != 46)).drop 1).reverse else .bad

/-- `determine_linker_from_objects_iter`, build_target.c:95-130. -/
def objLangs (e : Env) : List Bytes → Lang → Res Lang
  | [], l => .ok l
  | p :: ps, l => (stripExt p).bind fun b =>
    if 46 ∈ b then match e.langOf b with
      | some n => objLangs e ps (coalesce l n)
      | none => objLangs e ps l
    else objLangs e ps l

/-- `build_tgt_determine_linker`, build_target.c:132-165. `langs` are the languages of the sources,
`determine_linker_iter`, build_target.c:78-93. -/
def determineLinker (e : Env) (langs : List Lang) (objs : List Bytes) (l : Lang) : Res Lang :=
  (objLangs e objs (langs.foldl coalesce l)).bind fun l =>
    let l := if l = .null then e.fallback else l
    if l = .null then .error else .ok l

/-- What a target gives to those that link with it, build_target.c:803-816. -/
def external (k : Kind) (d : BDep) : BDep :=
  { lists := fun f => match f with
      | .includes | .orderDeps | .rpath => d.lists f
      | .linkWhole | .linkWith | .notFound | .linkArgs => if k = .static then d.lists f else []
      | _ => [],
    lang := d.lang, incs := d.incs }

/-- `create_target`, build_target.c:453-825: the parts that fill `dep_internal` and `dep`. Libraries and objects
among the sources are left out; include directories that come from generated headers (build_target.c:175-203) stand
before those of the dependencies instead of after them. -/
def createTarget (e : Env) (st : Store) (k : Kind) (path : Bytes) (lw lh deps : Option (List Nat))
    (linkArgs incs order rpaths : List Item) (srcs objs : List Bytes) : Res Obj :=
  (processLink e.root st false lw empty).bind fun d =>
  (processLink e.root st true lh d).bind fun d =>
  (processDeps st deps d).bind fun d =>
  let d := d.set .orderDeps (d.lists .orderDeps ++ order)
  let d := d.set .includes (incs ++ d.lists .includes)
  (determineLinker e ((srcs ++ (d.lists .sources).map Item.text).filterMap e.langOf) (objs ++ (d.lists .objects).map Item.text) d.lang).bind fun l =>
  let d := { d with lang := l }
  let d := d.set .rpath (d.lists .rpath ++ rpaths)
  .ok (.target k path (d.set .linkArgs (d.lists .linkArgs ++ linkArgs)) (external k d))

/-- `func_declare_dependency`, dependency.c:719-830. -/
def declare (e : Env) (st : Store) (lw lh deps : Option (List Nat)) (linkArgs compArgs incs sources objects : List Item) : Res Obj :=
  let d := ((empty.set .objects objects).set .linkArgs linkArgs).set .compileArgs compArgs
  let d := d.set .sources sources
  (processLink e.root st false lw d).bind fun d =>
  (processLink e.root st true lh d).bind fun d =>
  (processDeps st deps (d.set .includes (d.lists .includes ++ incs))).bind fun d =>
  .ok (.dep true d)

/-- The arrays kept by `partial_dependency`, functions/dependency.c:283-306. -/
def keeps (ca inc la links src : Bool) : Field → Bool
  | .compileArgs => ca
  | .includes => inc
  | .linkArgs => la
  | .linkWith | .linkWhole | .notFound => links
  | .sources => src
  | _ => false

/-- `func_dependency_partial_dependency`, functions/dependency.c:254-308. -/
def partialDep (st : Store) (i : Nat) (ca inc la links src : Bool) : Res Obj :=
  match st[i]? with
  | some (.dep found d) =>
    .ok (.dep found ⟨fun f => if keeps ca inc la links src f then d.lists f else [], .null, inc && d.incs⟩)
  | _ => .error

/-- `func_dependency_as_system`, functions/dependency.c:310-340. The loop over an array that is the null object aborts. -/
def asSystem (st : Store) (i : Nat) (t : IncType) : Res Obj :=
  match st[i]? with
  | some (.dep found d) =>
    if d.incs then .ok (.dep found (d.set .includes ((d.lists .includes).map (incItem t)))) else .bad
  | _ => .error

/-- One call. -/
def step (e : Env) (st : Store) : Cmd → Res Obj
  | .target k p lw lh ds la inc od rp ss os => createTarget e st k p lw lh ds la inc od rp ss os
  | .both s d => match st[s]?, st[d]? with
    | some (.target .static _ _ _), some (.target .shared _ _ _) => .ok (.both s d)
    | _, _ => .error
  | .custom outs => if outs.all (fun j => match st[j]? with | some (.file _) => true | _ => false) then .ok (.custom outs) else .error
  | .file p => .ok (.file p)
  | .declare lw lh ds la ca inc src os => declare e st lw lh ds la ca inc src os
  | .external found d => .ok (.dep found d)
  | .partialDep i ca inc la links src => partialDep st i ca inc la links src
  | .asSystem i t => asSystem st i t

/-- The program: every call adds its object. -/
def run (e : Env) : List Cmd → Store → Res Store
  | [], st => .ok st
  | c :: cs, st => (step e st c).bind fun o => run e cs (st ++ [o])

/-- The arguments of a linker that matter here: `linkers[..].args`, src/compilers.c. -/
structure Linker where
  startGroup : List Bytes
  endGroup : List Bytes
  wholeArchive : List Bytes
  noWholeArchive : List Bytes
  rpath : Bytes → List Bytes
  lib : Bytes → List Bytes

/-- The end of `setup_linker_args`, common_args.c:556-628. `opts` are the arguments that come from options, the project
and `add_global_link_arguments`, lines 572-602. `rel` stands for `relativize_paths`, ninja/build_target.c:150-151. -/
def linkLine (l : Linker) (rel : Bytes → Bytes) (opts : List Bytes) (d : BDep) : List Bytes :=
  let with_ := dedup ((d.lists .linkWith).map (fun v => ⟨rel v.text, false⟩))
  let whole := dedup ((d.lists .linkWhole).map (fun v => ⟨rel v.text, false⟩))
  let nf := dedup (d.lists .notFound)
  let args := (d.lists .linkArgs).map Item.text ++ opts ++
    ((d.lists .rpath).filter (fun v => !v.text.isEmpty)).flatMap (fun v => l.rpath v.text)
  if whole.isEmpty && with_.isEmpty && nf.isEmpty then args
  else args ++ l.startGroup ++
    (if whole.isEmpty then [] else l.wholeArchive ++ whole.map Item.text ++ l.noWholeArchive) ++
    with_.map Item.text ++ nf.flatMap (fun v => l.lib v.text) ++ l.endGroup

end Muon.Deps
