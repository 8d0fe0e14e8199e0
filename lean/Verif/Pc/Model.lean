import Verif.Path.Model
import Verif.Esc.Model
/-
Model of `pkgconfig.generate()`, src/functions/modules/pkgconfig.c: how the libraries and requirements are collected, and
the file that is written. Strings have no null bytes (`get_cstr` aborts muon on those).
-/
namespace Muon.Pc
open Muon

/-- `enum pkgconf_visibility`, src/functions/modules/pkgconfig.c:24-27. -/
inductive Vis
  | pub
  | priv
  deriving DecidableEq, Repr

/-- `enum tgt_type`, as far as it matters here. -/
inductive Kind
  | exe
  | static
  | shared
  deriving DecidableEq, Repr

/-- What can be given as a library; `both_libraries` stands for its shared library, and a dependency that was not found
or is a framework is `nothing`. The lists of a target are its keywords `dependencies`, `link_with`, `link_whole`, and
`pc` is the file generated for it before. -/
inductive Lib
  | str (s : Bytes)
  | file (path : Bytes)
  | target (name : Bytes) (kind : Kind) (installed : Bool) (pc : Option Bytes) (deps linkWith linkWhole : List Lib)
  | nothing
  | declared (cargs : List Bytes) (linkWith linkWhole deps : List Lib)
  | pkg (name : Bytes)
  | threads
  | external (paths : List Bytes)
  | custom (outs : List Bytes)

/-- What can be given as a requirement. -/
inductive Req
  | str (s : Bytes)
  | target (pc : Option Bytes)
  | nothing
  | pkg (name : Bytes)
  | dep
  deriving DecidableEq, Repr

/-- `struct pkgconf_file`, src/functions/modules/pkgconfig.c:29-41: the lists that are collected. -/
structure Pc where
  cflags : List Bytes := []
  reqs : Vis → List Bytes := fun _ => []
  libs : Vis → List Bytes := fun _ => []
  exclude : List Bytes := []
  internal : Vis → Bool := fun _ => false

/-- The two directories of `path_is_subpath`. -/
structure Roots where
  source : Bytes
  build : Bytes

def Pc.addLib (pc : Pc) (v : Vis) (f : Bytes) : Pc :=
  { pc with libs := fun u => if u = v then pc.libs u ++ [f] else pc.libs u }
def Pc.addReq (pc : Pc) (v : Vis) (f : Bytes) : Pc :=
  { pc with reqs := fun u => if u = v then pc.reqs u ++ [f] else pc.reqs u }
def Pc.mark (pc : Pc) (v : Vis) : Pc := { pc with internal := fun u => if u = v then true else pc.internal u }

/-- `module_pkgconf_lib_to_lname` on a string, src/functions/modules/pkgconfig.c:116-131 (the test for `-l` comes after one
for `-` that returns). -/
def lname (s : Bytes) : Bytes :=
  if s.head? = some 45 then s
  else if (ascii "lib").isPrefixOf s then ascii "-l" ++ s.drop 3
  else ascii "-l" ++ s

/-- A name up to its last dot, src/functions/modules/pkgconfig.c:104-107. -/
def cutDot (b : Bytes) : Bytes :=
  if 46 ∈ b then ((b.reverse.dropWhile (· ≠ 46)).drop 1).reverse else b

/-- `module_pkgconf_lib_to_lname` on a file, src/functions/modules/pkgconfig.c:101-131. -/
def fileLname (p : Bytes) : Bytes := lname (cutDot (Path.basename p))

/-- `file_is_linkable`, src/functions/file.c:17-30. -/
def linkable (p : Bytes) : Bool :=
  [ascii ".a", ascii ".dll", ascii ".lib", ascii ".so", ascii ".dylib"].any (fun x => x.isSuffixOf p)

/-- A file, src/functions/modules/pkgconfig.c:238-256. -/
def procFile (R : Roots) (v : Vis) (p : Bytes) (pc : Pc) : Res Pc :=
  if !linkable p then .error
  else (Path.isSubpath R.source p).bind fun a =>
    (if a then .ok true else Path.isSubpath R.build p).bind fun b =>
    .ok ((if b then pc.mark v else pc).addLib v (fileLname p))

/-- The files of an external library, src/functions/modules/pkgconfig.c:357-367. -/
def procFiles (R : Roots) (v : Vis) : List Bytes → Pc → Res Pc
  | [], pc => .ok pc
  | p :: ps, pc => (procFile R v p pc).bind fun pc => procFiles R v ps pc

/-- What `link_with` and `link_whole` of a target are for, src/functions/modules/pkgconfig.c:277-280. -/
def linkVis : Kind → Vis
  | .static => .pub
  | _ => .priv

/-- The target itself, src/functions/modules/pkgconfig.c:296-309. -/
def addTarget (v : Vis) (whole : Bool) (kind : Kind) (installed : Bool) (l : Bytes) (pc : Pc) : Pc :=
  if whole then { pc with exclude := pc.exclude ++ [l] }
  else if kind = .static && !installed then pc
  else (pc.mark v).addLib v l

/-- A custom target, src/functions/modules/pkgconfig.c:376-398. -/
def procCustom (v : Vis) (outs : List Bytes) (pc : Pc) : Res Pc :=
  match outs with
  | [o] =>
    if !linkable o then .error
    else if (ascii ".a").isSuffixOf o then .ok pc
    else .ok ((pc.mark v).addLib v (fileLname o))
  | _ => .error

mutual
/-- `module_pkgconf_process_libs_iter`, src/functions/modules/pkgconfig.c:221-405. -/
def procLib (R : Roots) (v : Vis) (whole : Bool) : Lib → Pc → Res Pc
  | .str s, pc => .ok (pc.addLib v (lname s))
  | .file p, pc => procFile R v p pc
  | .target name kind installed gen deps linkWith linkWhole, pc =>
    match gen with
    | some g => .ok (pc.addReq v g)
    | none =>
      if kind = .exe then .error
      else (procLibs R .priv false deps pc).bind fun pc =>
        (procLibs R (linkVis kind) false linkWith pc).bind fun pc =>
        (procLibs R (linkVis kind) true linkWhole pc).bind fun pc =>
        .ok (addTarget v whole kind installed (lname name) pc)
  | .nothing, pc => .ok pc
  | .declared cargs linkWith linkWhole deps, pc =>
    (procLibs R v false linkWith { pc with cflags := pc.cflags ++ cargs }).bind fun pc =>
    (procLibs R v true linkWhole pc).bind fun pc =>
    procLibs R .priv false deps pc
  | .pkg name, pc => .ok (pc.addReq v name)
  | .threads, pc => .ok (pc.addLib .priv (ascii "-pthread"))
  | .external paths, pc => procFiles R v paths pc
  | .custom outs, pc => procCustom v outs pc
/-- `module_pkgconf_process_libs`, src/functions/modules/pkgconfig.c:407-429. -/
def procLibs (R : Roots) (v : Vis) (whole : Bool) : List Lib → Pc → Res Pc
  | [], pc => .ok pc
  | l :: ls, pc => (procLib R v whole l pc).bind fun pc => procLibs R v whole ls pc
end

/-- `module_pkgconf_process_reqs`, src/functions/modules/pkgconfig.c:139-197. -/
def procReqs : List Req → List Bytes → Res (List Bytes)
  | [], dest => .ok dest
  | r :: rs, dest =>
    match r with
    | .str s => procReqs rs (dest ++ [s])
    | .target (some g) => procReqs rs (dest ++ [g])
    | .target none => .error
    | .nothing => procReqs rs dest
    | .pkg n => procReqs rs (dest ++ [n])
    | .dep => .error

/-- `module_pkgconf_remove_dups`, src/functions/modules/pkgconfig.c:612-640: the list, and what is excluded after it. -/
def removeDups : List Bytes → List Bytes → List Bytes × List Bytes
  | [], ex => ([], ex)
  | x :: xs, ex =>
    if x ∈ ex then removeDups xs ex
    else
      let r := removeDups xs (ex ++ [x])
      (x :: r.1, r.2)

/-- The four calls, src/functions/modules/pkgconfig.c:852-855. -/
def dedup (pc : Pc) : Pc :=
  let a := removeDups (pc.reqs .pub) pc.exclude
  let b := removeDups (pc.libs .pub) a.2
  let c := removeDups (pc.reqs .priv) b.2
  let d := removeDups (pc.libs .priv) c.2
  { pc with
    reqs := fun v => match v with | .pub => a.1 | .priv => c.1
    libs := fun v => match v with | .pub => b.1 | .priv => d.1
    exclude := d.2 }

/-- The options for directories, `module_pkgconf_diropts`, src/functions/modules/pkgconfig.c:43-73. -/
def dirs : List Bytes :=
  [ascii "prefix", ascii "bindir", ascii "datadir", ascii "includedir", ascii "infodir", ascii "libdir",
   ascii "libexecdir", ascii "localedir", ascii "localstatedir", ascii "mandir", ascii "sbindir",
   ascii "sharedstatedir", ascii "sysconfdir"]

/-- A reference to a variable of a pc file. -/
def ref (name : Bytes) : Bytes := [36, 123] ++ name ++ [125]

/-- `module_pkgconf_prepend_libdir`, src/functions/modules/pkgconfig.c:571-605. -/
def libdirFlag (pre : Bytes) (installDir : Option Bytes) : Res Bytes :=
  match installDir with
  | none => .ok (ascii "-L${libdir}")
  | some d =>
    (Path.isSubpath pre d).bind fun sub =>
    if sub then (Path.relativeTo pre d).bind fun rel => .ok (ascii "-L${prefix}/" ++ rel)
    else if Path.isAbsolute d then .error
    else .ok (ascii "-L${prefix}/" ++ d)

/-- One of the two lists of libraries, src/functions/modules/pkgconfig.c:857-863. -/
def withLibdir (pre : Bytes) (installDir : Option Bytes) (internal : Bool) (libs : List Bytes) : Res (List Bytes) :=
  if libs ≠ [] ∧ internal = true then (libdirFlag pre installDir).bind fun f => .ok (f :: libs)
  else .ok libs

/-- The flags `refd` and `added` of the table of directories (`added` is kept from one call to the next), and the
variables declared. -/
structure Vars where
  refd : List Bytes
  added : List Bytes
  out : List Bytes
  deriving DecidableEq, Repr

/-- The loop of `module_pkgconf_declare_var`, src/functions/modules/pkgconfig.c:445-458. -/
def noteDirs (key val : Bytes) : List Bytes → Vars → Vars
  | [], s => s
  | d :: ds, s =>
    let s := if key = d then { s with added := d :: s.added } else s
    let s := if d ∈ s.refd then s
      else if (ref d).isPrefixOf val then { s with refd := d :: ascii "prefix" :: s.refd } else s
    noteDirs key val ds s

/-- `module_pkgconf_declare_var`, src/functions/modules/pkgconfig.c:431-472. -/
def declareVar (escape skip : Bool) (key val : Bytes) (s : Vars) : Res Vars :=
  if !skip && (key = ascii "prefix" || key = ascii "libdir" || key = ascii "includedir") then .error
  else
    let s := if skip then s else noteDirs key val dirs s
    (if escape then Esc.pkgconfEscape val else .ok val).bind fun v =>
    .ok { s with out := s.out ++ [key ++ [61] ++ v] }

/-- The variables given: strings with `=`, or a dictionary. -/
inductive Given
  | strs (l : List Bytes)
  | dict (l : List (Bytes × Bytes))
  deriving DecidableEq, Repr

/-- A string at its first `=`, src/functions/modules/pkgconfig.c:499-513. -/
def splitVar (s : Bytes) : Option (Bytes × Bytes) :=
  if 61 ∈ s then some (s.takeWhile (· ≠ 61), (s.dropWhile (· ≠ 61)).drop 1) else none

/-- `module_pkgconf_process_vars_array_iter`, src/functions/modules/pkgconfig.c:494-521. -/
def declareStrs (escape skip : Bool) : List Bytes → Vars → Res Vars
  | [], s => .ok s
  | x :: xs, s =>
    match splitVar x with
    | none => .error
    | some (k, v) => (declareVar escape skip k v s).bind fun s => declareStrs escape skip xs s

/-- `module_pkgconf_process_vars_dict_iter`, src/functions/modules/pkgconfig.c:523-534. -/
def declareDict (escape skip : Bool) : List (Bytes × Bytes) → Vars → Res Vars
  | [], s => .ok s
  | (k, v) :: xs, s => (declareVar escape skip k v s).bind fun s => declareDict escape skip xs s

/-- `module_pkgconf_process_vars`, src/functions/modules/pkgconfig.c:536-569. -/
def declareGiven (escape skip : Bool) : Given → Vars → Res Vars
  | .strs l, s => declareStrs escape skip l s
  | .dict l, s => declareDict escape skip l s

/-- `module_pkgconf_declare_builtin_dir_var` for each directory that is referred to and not declared,
src/functions/modules/pkgconfig.c:474-486 and 911-917. `opt` is the value of an option. -/
def builtins (opt : Bytes → Bytes) (refd added : List Bytes) : List Bytes → Res (List Bytes)
  | [] => .ok []
  | d :: ds =>
    if d ∈ refd ∧ d ∉ added then
      (Esc.pkgconfEscape (if d = ascii "prefix" then opt d else ascii "${prefix}/" ++ opt d)).bind fun v =>
      (builtins opt refd added ds).bind fun r => .ok ((d ++ [61] ++ v) :: r)
    else builtins opt refd added ds

/-- `obj_array_join`, src/lang/object.c:728-787. -/
def sepBy (sep : Bytes) : List Bytes → Bytes
  | [] => []
  | [x] => x
  | x :: y :: l => x ++ sep ++ sepBy sep (y :: l)

/-- What is written. -/
structure File where
  builtins : List Bytes
  variables : List Bytes
  name : Bytes
  description : Option Bytes
  url : Option Bytes
  version : Bytes
  reqs : Vis → List Bytes
  libs : Vis → List Bytes
  cflags : List Bytes
  dataonly : Bool

/-- A field that is left out if its list is empty. -/
def field (key sep : Bytes) (l : List Bytes) : Bytes := if l = [] then [] else key ++ ascii ": " ++ sepBy sep l ++ [10]

/-- The line of the URL, src/functions/modules/pkgconfig.c:670-672. -/
def urlText : Option Bytes → Bytes
  | none => []
  | some u => ascii "URL: " ++ u ++ [10]

/-- `module_pkgconf_write`, src/functions/modules/pkgconfig.c:642-709. Without a description a null pointer is printed. -/
def write (f : File) : Res Bytes :=
  match f.description with
  | none => .bad
  | some desc =>
    (if f.dataonly = true ∨ f.cflags = [] then .ok []
     else (Esc.joinArgsPkgconf f.cflags).bind fun c => .ok (ascii "Cflags: " ++ c ++ [10])).bind fun cflags =>
    .ok ((if f.builtins = [] then [] else sepBy [10] f.builtins ++ [10]) ++
      (if f.variables = [] then [] else [10] ++ sepBy [10] f.variables ++ [10]) ++
      [10] ++
      ascii "Name: " ++ f.name ++ [10] ++
      ascii "Description: " ++ desc ++ [10] ++
      urlText f.url ++
      ascii "Version: " ++ f.version ++ [10] ++
      field (ascii "Requires") (ascii ", ") (f.reqs .pub) ++
      field (ascii "Requires.private") (ascii ", ") (f.reqs .priv) ++
      field (ascii "Libs") [32] (f.libs .pub) ++
      field (ascii "Libs.private") [32] (f.libs .priv) ++
      cflags)

/-- The arguments of `generate()`, and the name and version of the project. -/
structure Call where
  project : Bytes
  projectVersion : Bytes
  main : Option Lib := none
  mainName : Bytes := []
  name : Option Bytes := none
  description : Option Bytes := none
  extraCflags : List Bytes := []
  filebase : Option Bytes := none
  installDir : Option Bytes := none
  libraries : List Lib := []
  librariesPrivate : List Lib := []
  subdirs : Option (List Bytes) := none
  requires : List Req := []
  requiresPrivate : List Req := []
  url : Option Bytes := none
  variables : Option Given := none
  unescapedVariables : Option Given := none
  version : Option Bytes := none
  dataonly : Bool := false
  conflicts : List Bytes := []

/-- `add_subdirs_includes_iter`, src/functions/modules/pkgconfig.c:75-89. -/
def include_ (d : Bytes) : Bytes :=
  if d = [46] then ascii "-I${includedir}" else Path.join (ascii "-I${includedir}") d

/-- The directories for headers, src/functions/modules/pkgconfig.c:822-829. -/
def includes : Option (List Bytes) → List Bytes
  | some ds => ds.map include_
  | none => [ascii "-I${includedir}"]

/-- The collection, src/functions/modules/pkgconfig.c:822-850. -/
def collect (R : Roots) (c : Call) : Res Pc :=
  (match c.main with
    | none => Res.ok ({ cflags := includes c.subdirs } : Pc)
    | some l => procLib R .pub false l { cflags := includes c.subdirs }).bind fun pc =>
  (procLibs R .pub false c.libraries pc).bind fun pc =>
  procLibs R .priv false c.librariesPrivate pc

/-- The flags before the variables given are looked at, src/functions/modules/pkgconfig.c:884-895. -/
def firstRefd (dataonly haveLibs : Bool) : List Bytes :=
  if dataonly then [] else ascii "prefix" :: ascii "includedir" :: (if haveLibs then [ascii "libdir"] else [])

/-- Given variables or none. -/
def declareOpt (escape skip : Bool) (g : Option Given) (s : Vars) : Res Vars :=
  match g with
  | none => .ok s
  | some g => declareGiven escape skip g s

/-- The variables, src/functions/modules/pkgconfig.c:883-918: those for directories, the others, and the flags `added`. -/
def variables (opt : Bytes → Bytes) (added : List Bytes) (c : Call) (haveLibs : Bool) :
    Res (List Bytes × List Bytes × List Bytes) :=
  (declareOpt true c.dataonly c.variables ⟨firstRefd c.dataonly haveLibs, added, []⟩).bind fun s =>
  (declareOpt false c.dataonly c.unescapedVariables s).bind fun s =>
  (builtins opt s.refd s.added dirs).bind fun b => .ok (b, s.out, s.added)

/-- The name, src/functions/modules/pkgconfig.c:765-769 and 802-806. -/
def nameOf (c : Call) : Res Bytes :=
  match c.name, c.main with
  | some n, _ => .ok n
  | none, some _ => .ok c.mainName
  | none, none => .error

/-- The description, src/functions/modules/pkgconfig.c:808-814. -/
def descriptionOf (c : Call) (name : Bytes) : Option Bytes :=
  match c.description, c.main with
  | some d, _ => some d
  | none, some _ => some (c.project ++ ascii ": " ++ name)
  | none, none => none

/-- The contents of the file, src/functions/modules/pkgconfig.c:765-918: also the flags `added` after it. -/
def contents (R : Roots) (opt : Bytes → Bytes) (added : List Bytes) (c : Call) : Res (File × List Bytes) :=
  (nameOf c).bind fun name =>
  (collect R c).bind fun pc =>
  (withLibdir (opt (ascii "prefix")) c.installDir (pc.internal .pub) ((dedup pc).libs .pub)).bind fun pub =>
  (withLibdir (opt (ascii "prefix")) c.installDir (pc.internal .priv) ((dedup pc).libs .priv)).bind fun priv =>
  (procReqs c.requires ((dedup pc).reqs .pub)).bind fun reqPub =>
  (procReqs c.requiresPrivate ((dedup pc).reqs .priv)).bind fun reqPriv =>
  (variables opt added c (pub ≠ [] || priv ≠ [])).bind fun vars =>
  .ok ({ builtins := vars.1
         variables := vars.2.1
         name := name
         description := descriptionOf c name
         url := c.url
         version := c.version.getD c.projectVersion
         reqs := fun v => match v with | .pub => reqPub | .priv => reqPriv
         libs := fun v => match v with | .pub => pub | .priv => priv
         cflags := pc.cflags ++ c.extraCflags
         dataonly := c.dataonly }, vars.2.2)

/-- What `generate()` does: the text of the file, its name without `.pc`, where it is installed, and the flags `added`. -/
structure Made where
  text : Bytes
  filebase : Bytes
  dest : Bytes
  added : List Bytes
  deriving DecidableEq, Repr

/-- Where the file is installed, src/functions/modules/pkgconfig.c:940-962. -/
def destOf (opt : Bytes → Bytes) (c : Call) (filebase : Bytes) : Bytes :=
  Path.join (match c.installDir with
    | some d => d
    | none => Path.join (opt (if c.dataonly then ascii "datadir" else ascii "libdir")) (ascii "pkgconfig")) filebase ++ ascii ".pc"

/-- `func_module_pkgconfig_generate`, src/functions/modules/pkgconfig.c:711-965. The failure of writing the file is not modelled. -/
def generate (R : Roots) (opt : Bytes → Bytes) (added : List Bytes) (c : Call) : Res Made :=
  (contents R opt added c).bind fun f =>
  (write f.1).bind fun t =>
  .ok ⟨t, c.filebase.getD f.1.name, destOf opt c (c.filebase.getD f.1.name), f.2⟩

end Muon.Pc
