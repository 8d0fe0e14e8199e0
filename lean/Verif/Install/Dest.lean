import Verif.Install.Perm
import Verif.Path.Model
import Verif.Str.Model
/-
C89: where files are installed. Model of src/install.c and src/functions/kernel/install.c. Strings are taken to be without NUL.
-/
namespace Muon.Install
open Muon Path

/-- `enum install_target_type`, include/lang/object.h:380-385. -/
inductive Kind
  | default
  | subdir
  | symlink
  | emptydir
  deriving DecidableEq

/-- `struct obj_install_target`, include/lang/object.h:387-396. -/
structure Target where
  src : Bytes
  dest : Bytes
  perm : Option Nat
  kind : Kind
  build : Bool
  excludeDirs : List Bytes
  excludeFiles : List Bytes
  deriving DecidableEq

/-- What the functions see: the current directory, the name of the project, the options, and which files exist. -/
structure Proj where
  cwd : Bytes
  name : Bytes
  pre : Bytes
  datadir : Bytes
  includedir : Bytes
  mandir : Bytes
  bindir : Bytes
  libdir : Bytes
  exist : Bytes → Bool

/-- `push_install_target`, src/install.c:82-137: the new target, or an error. -/
def pushTarget (E : Proj) (src dest : Bytes) (mode : Option (List ModeVal)) : Res Target :=
  (pushMode mode).bind fun p => .ok ⟨src, if isAbsolute dest then dest else join E.pre dest, p, .default, false, [], []⟩

/-- `push_install_target_install_dir`, src/install.c:139-151. -/
def pushTargetDir (E : Proj) (src dir : Bytes) (mode : Option (List ModeVal)) : Res Target := pushTarget E src (join dir (basename src)) mode

/-- The files that are given: names, or file objects. -/
inductive Src
  | str (s : Bytes)
  | file (p : Bytes)
  deriving DecidableEq

/-- `coerce_file`, src/coerce.c:345-363, 365-432, 515-527. -/
def coerceFile (E : Proj) : Src → Res Bytes
  | .file p => .ok p
  | .str s =>
    let p := normalize true (if isAbsolute s then copy s else join E.cwd s)
    if E.exist p then .ok p else .error

/-- An element of `install_dir`. -/
inductive DirVal
  | str (s : Bytes)
  | bool (b : Bool)
  deriving DecidableEq

/-- `push_install_targets_iter`, src/install.c:160-232, for a file and its directory: the targets that are added. -/
def pushTargetsIter (E : Proj) (mode : Option (List ModeVal)) (preserve : Bool) (f : Src) (dir : DirVal) : Res (List Target) :=
  match dir with
  | .bool b => if b then .error else .ok []
  | .str dir =>
    match f with
    | .str s =>
      (coerceFile E (.str s)).bind fun p =>
      (pushTarget E p (join dir (if preserve then s else basename p)) mode).bind fun t => .ok [t]
    | .file p =>
      if preserve then .error
      else (pushTarget E p (join dir (basename p)) mode).bind fun t => .ok [t]

/-- The loop of `push_install_targets`, src/install.c:257. -/
def pushTargetsLoop (E : Proj) (mode : Option (List ModeVal)) (preserve : Bool) : List (Src × DirVal) → Res (List Target)
  | [] => .ok []
  | (f, d) :: l => (pushTargetsIter E mode preserve f d).bind fun t => (pushTargetsLoop E mode preserve l).bind fun ts => .ok (t ++ ts)

/-- `push_install_targets`, src/install.c:234-258, with one directory for all files (left) or one for each. -/
def pushTargets (E : Proj) (files : List Src) (dirs : Bytes ⊕ List DirVal) (mode : Option (List ModeVal)) (preserve : Bool) : Res (List Target) :=
  match dirs with
  | .inl d => pushTargetsLoop E mode preserve (files.map fun f => (f, .str d))
  | .inr ds => if files.length ≠ ds.length then .error else pushTargetsLoop E mode preserve (files.zip ds)

/-- `coerce_files`, src/coerce.c:434-472, 474-501, 509-513, for a list of names and files. -/
def coerceFiles (E : Proj) : List Src → Res (List Bytes)
  | [] => .ok []
  | f :: l => (coerceFile E f).bind fun p => (coerceFiles E l).bind fun ps => .ok (p :: ps)

/-- The loop with `install_data_rename_iter`, src/functions/kernel/install.c:267-287: an error of `push_install_target` is ignored. -/
def renameLoop (E : Proj) (mode : Option (List ModeVal)) (dir : Bytes) : List (Bytes × Bytes) → Res (List Target)
  | [] => .ok []
  | (p, r) :: l =>
    match pushTarget E p (join dir r) mode with
    | .bad => .bad
    | .error => renameLoop E mode dir l
    | .ok t => (renameLoop E mode dir l).bind fun ts => .ok (t :: ts)

/-- `install_data`, src/functions/kernel/install.c:289-371. `files` are the arguments and those of the keyword `sources`. -/
def installData (E : Proj) (files : List Src) (dir : Option Bytes) (mode : Option (List ModeVal)) (rename : Option (List Bytes)) (preserve : Option Bool) : Res (List Target) :=
  if rename ≠ none ∧ preserve ≠ none then .error
  else
    let dir := dir.getD (join E.datadir E.name)
    match rename with
    | some rs => if rs.length ≠ files.length then .error else (coerceFiles E files).bind fun ps => renameLoop E mode dir (ps.zip rs)
    | none => pushTargets E files (.inl dir) mode (preserve = some true)

/-- `install_headers`, src/functions/kernel/install.c:373-421. -/
def installHeaders (E : Proj) (files : List Src) (dir subdir : Option Bytes) (mode : Option (List ModeVal)) (preserve : Option Bool) : Res (List Target) :=
  if dir ≠ none ∧ subdir ≠ none then .error
  else
    let base := dir.getD E.includedir
    let d := match subdir with
      | some s => join base s
      | none => base
    pushTargets E files (.inl d) mode (preserve = some true)

/-- The name of an installed page with the section `sec`, src/functions/kernel/install.c:117-126: if what follows the first dot begins with the locale, everything between is dropped. -/
def manName (locale : Option Bytes) (man : Bytes) (sec : UInt8) : Bytes :=
  match locale with
  | none => man
  | some loc =>
    let stem := man.takeWhile (· ≠ 46)
    if Str.startswith (man.drop (stem.length + 1)) loc then stem ++ [46, sec] else man

/-- `install_man_iter`, src/functions/kernel/install.c:93-136. `dflt`: the directory is that of the option, to which the directory of the section is added. -/
def manIter (E : Proj) (mode : Option (List ModeVal)) (dir : Bytes) (dflt : Bool) (locale : Option Bytes) (src : Bytes) : Res Target :=
  let man := basename src
  if man.length = 0 then .bad
  else
    let len := man.length - 1
    if len ≤ 1 ∨ byteAt man (len - 1) ≠ 46 ∨ byteAt man len < 48 ∨ byteAt man len > 57 then .error
    else
      let d := if dflt then dir ++ ascii "/man" ++ [byteAt man len] else dir
      pushTarget E src (join d (manName locale man (byteAt man len))) mode

/-- `install_man`, src/functions/kernel/install.c:138-185. -/
def installMan (E : Proj) (files : List Src) (dir locale : Option Bytes) (mode : Option (List ModeVal)) : Res (List Target) :=
  (coerceFiles E files).bind fun ps =>
    let go : Bytes → Bool → Option Bytes → Res (List Target) := fun d dflt loc =>
      ps.foldr (fun p r => (manIter E mode d dflt loc p).bind fun t => r.bind fun ts => .ok (t :: ts)) (.ok [])
    match dir, locale with
    | some d, _ => go d false none
    | none, some l => go (join E.mandir l) true (some l)
    | none, none => go E.mandir true none

/-- `install_subdir`, src/functions/kernel/install.c:20-83. -/
def installSubdir (E : Proj) (name dir : Bytes) (mode : Option (List ModeVal)) (exDirs exFiles : List Bytes) (strip : Bool) : Res Target :=
  let dest := if strip then dir else join dir (if name.contains 47 then (name.dropWhile (· ≠ 47)).drop 1 else name)
  (pushTarget E (join E.cwd name) dest mode).bind fun t => .ok { t with excludeDirs := exDirs, excludeFiles := exFiles, kind := .subdir }

/-- `install_symlink`, src/functions/kernel/install.c:187-216. -/
def installSymlink (E : Proj) (name dir target : Bytes) : Res Target :=
  (pushTarget E target (join dir name) none).bind fun t => .ok { t with kind := .symlink }

/-- `install_emptydir`, src/functions/kernel/install.c:222-257. -/
def installEmptydir (E : Proj) (mode : Option (List ModeVal)) : List Bytes → Res (List Target)
  | [] => .ok []
  | d :: l => (pushTarget E [] d mode).bind fun t => (installEmptydir E mode l).bind fun ts => .ok ({ t with kind := .emptydir } :: ts)

/-- The part of `create_target` for `install: true` of executables (`lib = false`) and of libraries, on systems other than Windows, src/functions/kernel/build_target.c:734-788. `links` are the
symbolic links for the plain name and the soname. Errors for these are ignored, but they cannot be other errors than those of the target. -/
def installBuild (E : Proj) (lib : Bool) (buildDir name : Bytes) (dir : Option Bytes) (mode : Option (List ModeVal)) (links : List Bytes) : Res (List Target) :=
  let d := dir.getD (if lib then E.libdir else E.bindir)
  (pushTarget E (join buildDir name) (join d name) mode).bind fun t =>
    .ok ({ t with build := true } :: links.filterMap fun l => match pushTargetDir E l d mode with
      | .ok t => some t
      | _ => none)

/-- The last part of `configure_file`, src/functions/kernel/configure_file.c:740-748: the error of `push_install_target` is ignored. -/
def installConfigured (E : Proj) (output : Bytes) (install : Option Bool) (dir : Option Bytes) (mode : Option (List ModeVal)) : Res (List Target) :=
  if install = some true ∨ (install = none ∧ dir ≠ none) then
    match dir with
    | none => .error
    | some d => match pushTargetDir E output d mode with
      | .ok t => .ok [t]
      | .error => .ok []
      | .bad => .bad
  else .ok []

end Muon.Install
