import Verif.Ini.Model
import Verif.Path.Model
import Verif.Str.Model
/-
Model of wrap files and of how subprojects are fetched, src/wrap.c, and of `muon subprojects download`, src/main.c:452-520.
Messages and warnings are left out. The checksum is a parameter (Verif/Sha models it).
-/
namespace Muon.Wrap
open Muon Ini

/-- `enum wrap_fields`, include/wrap.h:21-50. -/
inductive Field
  | directory | patchUrl | patchFallbackUrl | patchFilename | patchHash | patchDirectory | diffFiles
  | sourceUrl | sourceFallbackUrl | sourceFilename | sourceHash | leadDirectoryMissing
  | url | revision | depth | pushUrl | cloneRecursive | wrapdbVersion
  deriving DecidableEq, Repr

/-- `wrap_field_names`, src/wrap.c:26-45. -/
def Field.name : Field → Bytes
  | .directory => ascii "directory"
  | .patchUrl => ascii "patch_url"
  | .patchFallbackUrl => ascii "patch_fallback_url"
  | .patchFilename => ascii "patch_filename"
  | .patchHash => ascii "patch_hash"
  | .patchDirectory => ascii "patch_directory"
  | .diffFiles => ascii "diff_files"
  | .sourceUrl => ascii "source_url"
  | .sourceFallbackUrl => ascii "source_fallback_url"
  | .sourceFilename => ascii "source_filename"
  | .sourceHash => ascii "source_hash"
  | .leadDirectoryMissing => ascii "lead_directory_missing"
  | .url => ascii "url"
  | .revision => ascii "revision"
  | .depth => ascii "depth"
  | .pushUrl => ascii "push-url"
  | .cloneRecursive => ascii "clone-recursive"
  | .wrapdbVersion => ascii "wrapdb_version"

/-- All fields, in the order of the enumeration. -/
def Field.all : List Field :=
  [.directory, .patchUrl, .patchFallbackUrl, .patchFilename, .patchHash, .patchDirectory, .diffFiles, .sourceUrl, .sourceFallbackUrl,
   .sourceFilename, .sourceHash, .leadDirectoryMissing, .url, .revision, .depth, .pushUrl, .cloneRecursive, .wrapdbVersion]

/-- `lookup_wrap_str` for keys, src/wrap.c:53-65. -/
def fieldOf (k : Bytes) : Option Field := Field.all.find? (fun f => f.name == k)

/-- `enum wrap_type`, include/wrap.h:52-57. -/
inductive Sect
  | file | git | provide
  deriving DecidableEq, Repr

/-- `lookup_wrap_str` for sections, with `wrap_type_section_header`, src/wrap.c:47-65. -/
def sectOf (s : Bytes) : Option Sect :=
  if s = ascii "wrap-file" then some .file else if s = ascii "wrap-git" then some .git else if s = ascii "provide" then some .provide else none

/-- `struct wrap_parse_ctx`, src/wrap.c:67-72; without the lines of the fields. -/
structure St where
  type : Sect := .file
  section' : Sect := .file
  haveType : Bool := false
  provides : Bool := false
  fields : Field → Option Bytes := fun _ => none

/-- `wrap_parse_cb` on a section, src/wrap.c:83-105. -/
def onSection (st : St) (s : Bytes) : St × Bool :=
  match sectOf s with
  | none => (st, false)
  | some .provide => ({ st with section' := .provide, provides := true }, true)
  | some t =>
    if st.haveType then ({ st with section' := t }, false)
    else ({ st with section' := t, type := t, haveType := true }, true)

/-- Setting a field. -/
def setField (st : St) (f : Field) (v : Bytes) : St := { st with fields := fun g => if g = f then some v else st.fields g }

/-- `wrap_parse_cb` on a pair, src/wrap.c:105-121. -/
def onPair (st : St) (k v : Bytes) : St × Bool :=
  if st.section' = .provide then (st, true)
  else match fieldOf k with
    | none => (st, false)
    | some f => if (st.fields f).isSome then (st, false) else (setField st f v, true)

/-- `wrap_parse_cb`, src/wrap.c:74-122. -/
def parseCb (st : St) (e : Event) : St × Bool :=
  match e.sect, e.kv with
  | none, _ => (st, false)
  | some s, none => onSection st s
  | some _, some (k, v) => onPair st k v

/-- `enum req`, src/wrap.c:349. -/
inductive Need
  | invalid | required | optional
  deriving DecidableEq, Repr

/-- `field_req`, src/wrap.c:350-389: later assignments replace earlier ones. -/
def need (git : Bool) (set : Field → Bool) (f : Field) : Need :=
  let patch := set .patchUrl || set .patchFilename || set .patchHash
  match f with
  | .directory => .optional
  | .diffFiles => .optional
  | .wrapdbVersion => .optional
  | .patchDirectory => if patch then .invalid else .optional
  | .patchUrl => if patch then .optional else .invalid
  | .patchFilename => if patch then .required else .invalid
  | .patchHash => if patch then .optional else .invalid
  | .patchFallbackUrl => if patch then .optional else .invalid
  | .sourceFilename => if git then .invalid else if set .sourceUrl then .required else .optional
  | .sourceUrl => if git then .invalid else .optional
  | .sourceHash => if git then .invalid else .optional
  | .sourceFallbackUrl => if git then .invalid else .optional
  | .leadDirectoryMissing => if git then .invalid else .optional
  | .url => if git then .required else .invalid
  | .revision => if git then .required else .invalid
  | .depth => if git then .optional else .invalid
  | .cloneRecursive => if git then .optional else .invalid
  | .pushUrl => if git then .optional else .invalid

/-- `validate_wrap`, src/wrap.c:344-412. -/
def validate (git : Bool) (set : Field → Bool) : Bool :=
  Field.all.all fun f =>
    match need git set f with
    | .optional => true
    | .required => set f
    | .invalid => !set f

/-- `struct wrap`, include/wrap.h:59-68. -/
structure Wrap where
  git : Bool
  fields : Field → Option Bytes
  name : Bytes
  dest : Bytes
  provides : Bool

/-- `wrap_parse`, src/wrap.c:427-475, on the path of the file and what it contains. `bad`: the name does not end in
`.wrap`. -/
def parse (path content : Bytes) : Res Wrap :=
  Ini.parse false parseCb {} content >>= fun r =>
    if !r.2 then .error
    else if !validate (r.1.type = .git) (fun f => (r.1.fields f).isSome) then .error
    else if !Str.endswith (Path.basename path) (ascii ".wrap") then .bad
    else
      let name := (Path.basename path).take ((Path.basename path).length - 5)
      .ok ⟨r.1.type = .git, r.1.fields, name, Path.join (Path.dirname path) ((r.1.fields .directory).getD name), r.1.provides⟩

/-! ### What wraps provide -/

/-- A dictionary, of which only the values are looked at. -/
abbrev Map := Bytes → Option (List Bytes)

/-- `obj_dict_set`. -/
def Map.set (m : Map) (k : Bytes) (v : List Bytes) : Map := fun q => if q = k then some v else m q

/-- The state of the second pass: the section, and what is provided: `wrap_provides_deps` and `wrap_provides_exes`. -/
structure Prov where
  section' : Sect := .file
  deps : Map := fun _ => none
  exes : Map := fun _ => none

/-- `str_split` at commas, src/lang/string.c:421-468. -/
def commas : Bytes → List Bytes
  | [] => [[]]
  | c :: s =>
    match commas s with
    | [] => []
    | p :: ps => if c = 44 then [] :: p :: ps else (c :: p) :: ps

/-- `str_split_strip` at commas, src/lang/string.c:516-543; `str_strip` does not fail (C07). -/
def nameList (v : Bytes) : List Bytes :=
  (commas v).map fun p =>
    match Str.strip p none with
    | .ok s => s
    | _ => []

/-- `wrap_parse_provides_cb_add_provides_iter`, src/wrap.c:148-157, over the names. -/
def addAll (m : Map) (name : Bytes) (l : List Bytes) : Map := l.foldl (fun m n => m.set n [name]) m

/-- `wrap_parse_provides_cb`, src/wrap.c:159-220, for the wrap of a name. -/
def provideCb (name : Bytes) (st : Prov) (e : Event) : Prov × Bool :=
  match e.sect, e.kv with
  | none, _ => (st, false)
  | some s, none =>
    match sectOf s with
    | none => (st, false)
    | some t => ({ st with section' := t }, true)
  | some _, some (k, v) =>
    if st.section' ≠ .provide then (st, true)
    else if k = [] then (st, false)
    else if v = [] then (st, false)
    else if k = ascii "dependency_names" then ({ st with deps := addAll st.deps name (nameList v) }, true)
    else if k = ascii "program_names" then ({ st with exes := addAll st.exes name (nameList v) }, true)
    else ({ st with deps := st.deps.set k [name, v] }, true)

/-- `wrap_load_all_iter`, src/wrap.c:697-741, for a file in the directory: its name and what is in it, unless it is no
file. -/
def loadOne (subprojects : Bytes) (st : Map × Map) (f : Bytes × Option Bytes) : Res (Map × Map) :=
  if !Str.endswith f.1 (ascii ".wrap") then .ok st
  else match f.2 with
    | none => .ok st
    | some content =>
      parse (Path.join subprojects f.1) content >>= fun w =>
        if !w.provides then .ok st
        else Ini.parse false (provideCb w.name) ⟨.file, st.1, st.2⟩ content >>= fun r =>
          if r.2 then .ok (r.1.deps, r.1.exes) else .error

/-- `wrap_load_all_provides`, src/wrap.c:743-763, over the files of the directory in the order in which they are listed. -/
def loadAll (subprojects : Bytes) : List (Bytes × Option Bytes) → Map × Map → Res (Map × Map)
  | [], st => .ok st
  | f :: l, st => loadOne subprojects st f >>= loadAll subprojects l

/-! ### Fetching -/

/-- What the system can do, with `σ` the state of the files: each action gives the new state and whether it succeeded. -/
structure Host (σ : Type) where
  isFile : σ → Bytes → Bool
  isDir : σ → Bytes → Bool
  read : σ → Bytes → Option Bytes
  mkdir : σ → Bytes → σ × Bool
  extract : σ → Bytes → Bytes → σ × Bool
  copyDir : σ → Bytes → Bytes → σ × Bool
  run : σ → List Bytes → Option Bytes → Option Bytes → σ × Bool
  fetch : Bytes → Option Bytes
  hasPatch : Bool
  sum : Bytes → Bytes → Bool

/-- `checksum_extract`, src/wrap.c:248-259. -/
def checkExtract {σ : Type} (H : Host σ) (s : σ) (data : Bytes) (hash : Option Bytes) (dir : Bytes) : σ × Bool :=
  match hash with
  | none => H.extract s data dir
  | some h => if H.sum data h then H.extract s data dir else (s, false)

/-- `wrap_download_or_check_packagefiles`, src/wrap.c:286-342, with `fetch_checksum_extract`, src/wrap.c:261-284. -/
def obtain' {σ : Type} (H : Host σ) (s : σ) (filename : Bytes) (url hash : Option Bytes) (subprojects dir : Bytes) (download : Bool) : σ × Bool :=
  let path := Path.push (Path.join subprojects (ascii "packagefiles")) filename
  if H.isFile s path then
    match H.read s path with
    | none => (s, false)
    | some data => checkExtract H s data hash dir
  else if H.isDir s path then H.copyDir s path dir
  else match url with
    | none => (s, false)
    | some u =>
      if !download then (s, false)
      else match H.fetch u with
        | none => (s, false)
        | some data => checkExtract H s data hash dir

/-- The names of `diff_files` one after the other, src/wrap.c:508-552: the text before `p`, and the text from `p` on.
The result says whether the loop reads behind the end. The first argument is at least the length of the text. -/
def diffs : Nat → Bytes → Bytes → List Bytes × Bool
  | 0, _, _ => ([], true)
  | _ + 1, _, [] => ([], true)
  | _ + 1, cur, [c] => ([cur ++ [c]], false)
  | n + 1, cur, c :: d :: r =>
    if d = 44 then
      match r.dropWhile (fun x => x == 32 || x == 13 || x == 9) with
      | [] => ([cur ++ [c]], false)
      | x :: r' => ((cur ++ [c]) :: (diffs n [x] r').1, (diffs n [x] r').2)
    else diffs n (cur ++ [c]) (d :: r)

/-- Applying one, src/wrap.c:513-532. -/
def applyDiff {σ : Type} (H : Host σ) (s : σ) (subprojects dest d : Bytes) : σ × Bool :=
  let path := Path.join (Path.join subprojects (ascii "packagefiles")) d
  if H.hasPatch then H.run s [ascii "patch", ascii "-p1"] (some dest) (some path)
  else H.run s [ascii "git", ascii "--work-tree", ascii ".", ascii "apply", ascii "-p1", path] (some dest) none

/-- All of them; then reading behind the end. -/
def applyAll {σ : Type} (H : Host σ) (subprojects dest : Bytes) (over : Bool) : List Bytes → σ → Res (σ × Bool)
  | [], s => if over then .bad else .ok (s, true)
  | d :: l, s =>
    match applyDiff H s subprojects dest d with
    | (s', true) => applyAll H subprojects dest over l s'
    | (s', false) => .ok (s', false)

/-- `wrap_apply_diff_files`, src/wrap.c:497-560. -/
def applyDiffs {σ : Type} (H : Host σ) (s : σ) (subprojects dest v : Bytes) : Res (σ × Bool) :=
  applyAll H subprojects dest (diffs v.length [] v).2 (diffs v.length [] v).1 s

/-- The patch itself, src/wrap.c:565-585. -/
def patchFirst {σ : Type} (H : Host σ) (s : σ) (w : Wrap) (subprojects : Bytes) (download : Bool) : σ × Bool :=
  match w.fields .patchDirectory with
  | some d => obtain' H s d (w.fields .patchUrl) (w.fields .patchHash) subprojects w.dest download
  | none =>
    match w.fields .patchFilename with
    | some f => obtain' H s f (w.fields .patchUrl) (w.fields .patchHash) subprojects subprojects download
    | none => (s, true)

/-- `wrap_apply_patch`, src/wrap.c:562-594. -/
def applyPatch {σ : Type} (H : Host σ) (s : σ) (w : Wrap) (subprojects : Bytes) (download : Bool) : Res (σ × Bool) :=
  match patchFirst H s w subprojects download with
  | (s', false) => .ok (s', false)
  | (s', true) =>
    match w.fields .diffFiles with
    | none => .ok (s', true)
    | some v => applyDiffs H s' subprojects w.dest v

/-- `wrap_handle_git`, src/wrap.c:596-614. `bad`: a missing field, which `validate` does not let through. -/
def handleGit {σ : Type} (H : Host σ) (s : σ) (w : Wrap) : Res (σ × Bool) :=
  match w.fields .url, w.fields .revision with
  | some u, some r =>
    match H.run s [ascii "git", ascii "clone", u, w.dest] none none with
    | (s', false) => .ok (s', false)
    | (s', true) => .ok (H.run s' [ascii "git", ascii "-c", ascii "advice.detachedHead=false", ascii "checkout", r, ascii "--"] (some w.dest) none)
  | _, _ => .bad

/-- The directory an archive is extracted to, src/wrap.c:619-625. -/
def fileDest (w : Wrap) (subprojects : Bytes) : Bytes := if (w.fields .leadDirectoryMissing).isSome then w.dest else subprojects

/-- Making it, src/wrap.c:627-631. -/
def ensure {σ : Type} (H : Host σ) (s : σ) (dir : Bytes) : σ × Bool := if H.isDir s dir then (s, true) else H.mkdir s dir

/-- `wrap_handle_file`, src/wrap.c:616-641. `bad`: without `source_filename` a null pointer is passed to `path_push`. -/
def handleFile {σ : Type} (H : Host σ) (s : σ) (w : Wrap) (subprojects : Bytes) (download : Bool) : Res (σ × Bool) :=
  match ensure H s (fileDest w subprojects) with
  | (s', false) => .ok (s', false)
  | (s', true) =>
    match w.fields .sourceFilename with
    | none => .bad
    | some f => .ok (obtain' H s' f (w.fields .sourceUrl) (w.fields .sourceHash) subprojects (fileDest w subprojects) download)

/-- The source, src/wrap.c:659-677. -/
def handleSource {σ : Type} (H : Host σ) (s : σ) (w : Wrap) (subprojects : Bytes) (download : Bool) : Res (σ × Bool) :=
  if w.git then (if download then handleGit H s w else .ok (s, false))
  else handleFile H s w subprojects download

/-- `wrap_handle` for a wrap that was parsed, src/wrap.c:652-689. -/
def handle {σ : Type} (H : Host σ) (s : σ) (w : Wrap) (subprojects : Bytes) (download : Bool) : Res (σ × Bool) :=
  if H.isFile s (Path.join w.dest (ascii "meson.build")) then .ok (s, true)
  else handleSource H s w subprojects download >>= fun r =>
    if r.2 then applyPatch H r.1 w subprojects download else .ok r

/-- `wrap_handle`, src/wrap.c:643-689. -/
def wrapHandle {σ : Type} (H : Host σ) (s : σ) (path subprojects : Bytes) (download : Bool) : Res (σ × Option Wrap) :=
  match H.read s path with
  | none => .ok (s, none)
  | some content =>
    match parse path content with
    | .bad => .bad
    | .error => .ok (s, none)
    | .ok w => handle H s w subprojects download >>= fun r => .ok (r.1, if r.2 then some w else none)

/-- `cmd_subprojects_download_iter`, src/main.c:452-480: what `wrap_handle` gives is not looked at. -/
def downloadOne {σ : Type} (H : Host σ) (subprojects : Bytes) (s : σ) (name : Bytes) : Res σ :=
  if name.length ≤ 5 || name.drop (name.length - 5) ≠ ascii ".wrap" then .ok s
  else
    let path := Path.join subprojects name
    if !H.isFile s path then .ok s
    else wrapHandle H s path subprojects true >>= fun r => .ok r.1

/-- `cmd_subprojects_download` for subprojects that are named, src/main.c:497-513; the result says whether the command
succeeds. -/
def downloadNamed {σ : Type} (H : Host σ) (subprojects : Bytes) : List Bytes → σ → Res (σ × Bool)
  | [], s => .ok (s, true)
  | n :: l, s =>
    let path := Path.join subprojects n ++ ascii ".wrap"
    if !H.isFile s path then .ok (s, false)
    else downloadOne H subprojects s path >>= downloadNamed H subprojects l

end Muon.Wrap
