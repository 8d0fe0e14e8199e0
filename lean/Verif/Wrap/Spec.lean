import Verif.Wrap.Model
import Verif.Ini.Spec
import Verif.Str.Spec
/-
What wrap files say, what they provide, and what is done to fetch a subproject.
-/
namespace Muon.Wrap.Spec
open Muon Ini Wrap

/-- The keys of wrap files. -/
def key : Field → Bytes
  | .directory => ascii "directory"
  | .patchUrl => ascii "patch_url"
  | .patchFallbackUrl => ascii "patch_fallback_url"
  | .patchFilename => ascii "patch_filename"
  | .patchHash => ascii "patch_hash"
  | .patchDirectory => ascii "patch_directory"
  | .diffFiles => ascii "diff_files"
  | .sourceUrl => ascii "source_url"
  | .sourceFallbackUrl => ascii "source_fallback_url"
  | .sourceFilename => ascii "source_filename"
  | .sourceHash => ascii "source_hash"
  | .leadDirectoryMissing => ascii "lead_directory_missing"
  | .url => ascii "url"
  | .revision => ascii "revision"
  | .depth => ascii "depth"
  | .pushUrl => ascii "push-url"
  | .cloneRecursive => ascii "clone-recursive"
  | .wrapdbVersion => ascii "wrapdb_version"

/-- The headers of a file, and those of them that give its type. -/
def headers (es : List Event) : List Bytes := es.filterMap fun e => if e.kv = none then e.sect else none
def types (es : List Event) : List Bytes := (headers es).filter (· ≠ ascii "provide")

/-- The pairs outside of `[provide]`, and those in it. -/
def own (es : List Event) : List (Bytes × Bytes) := es.filterMap fun e => if e.sect = some (ascii "provide") then none else e.kv
def given (es : List Event) : List (Bytes × Bytes) := es.filterMap fun e => if e.sect = some (ascii "provide") then e.kv else none

/-- A file that can be read: all pairs are in sections, which are known, at most one gives the type, and the keys are
known and different. -/
structure Readable (es : List Event) : Prop where
  inside : ∀ e ∈ es, e.sect ≠ none
  known : ∀ h ∈ headers es, h = ascii "wrap-file" ∨ h = ascii "wrap-git" ∨ h = ascii "provide"
  oneType : (types es).length ≤ 1
  keys : ∀ p ∈ own es, ∃ f, key f = p.1
  once : ((own es).map (·.1)).Nodup

/-- The combinations of fields that make sense. -/
structure Valid (git : Bool) (has : Field → Prop) : Prop where
  patch : has .patchUrl ∨ has .patchFilename ∨ has .patchHash → has .patchFilename ∧ ¬ has .patchDirectory
  fallback : has .patchFallbackUrl → has .patchFilename
  file : git = false → (has .sourceUrl → has .sourceFilename) ∧
    ¬ has .url ∧ ¬ has .revision ∧ ¬ has .depth ∧ ¬ has .pushUrl ∧ ¬ has .cloneRecursive
  git : git = true → has .url ∧ has .revision ∧
    ¬ has .sourceUrl ∧ ¬ has .sourceFallbackUrl ∧ ¬ has .sourceFilename ∧ ¬ has .sourceHash ∧ ¬ has .leadDirectoryMissing

/-- A list of names with commas and blanks. -/
inductive Listed : Bytes → List Bytes → Prop
  | one (s n : Bytes) : 44 ∉ s → Str.Spec.Stripped [32, 10, 9] s n → Listed s [n]
  | more (s n r : Bytes) (l : List Bytes) : 44 ∉ s → Str.Spec.Stripped [32, 10, 9] s n → Listed r l → Listed (s ++ 44 :: r) (n :: l)

/-- What the pairs of `[provide]` of a wrap provide: dependencies and programs, with the subproject, and for
dependencies the variable. -/
inductive Entries (name : Bytes) : List (Bytes × Bytes) → List (Bytes × List Bytes) → List (Bytes × List Bytes) → Prop
  | nil : Entries name [] [] []
  | deps {v : Bytes} {l : List Bytes} {ps : List (Bytes × Bytes)} {D X : List (Bytes × List Bytes)} : Listed v l → Entries name ps D X →
      Entries name ((ascii "dependency_names", v) :: ps) (l.map (fun n => (n, [name])) ++ D) X
  | programs {v : Bytes} {l : List Bytes} {ps : List (Bytes × Bytes)} {D X : List (Bytes × List Bytes)} : Listed v l → Entries name ps D X →
      Entries name ((ascii "program_names", v) :: ps) D (l.map (fun n => (n, [name])) ++ X)
  | variable {k v : Bytes} {ps : List (Bytes × Bytes)} {D X : List (Bytes × List Bytes)} : k ≠ ascii "dependency_names" → k ≠ ascii "program_names" →
      Entries name ps D X → Entries name ((k, v) :: ps) ((k, [name, v]) :: D) X

/-- The last entry for a key, or what was there before. -/
def lastOr (D : List (Bytes × List Bytes)) (old : Option (List Bytes)) (q : Bytes) : Option (List Bytes) :=
  match (D.filter (fun e => e.1 = q)).getLast? with
  | some e => some e.2
  | none => old

/-- A file with valid lines that makes sense as a wrap file. -/
def Accepted (es : List Event) (ok : Bool) : Prop :=
  ok = true ∧ Readable es ∧ Valid (decide (ascii "wrap-git" ∈ headers es)) (fun f => key f ∈ (own es).map (·.1))

/-- Lines of a file that ends in a line end, has no NUL bytes, and whose first line is not a pair without a key (C15). -/
def Form (ls : List Bytes) : Prop :=
  ls ≠ [] ∧ (∀ l ∈ ls, Ini.Spec.Line l) ∧
    ∀ l, ls.head? = some l → ¬ Ini.Spec.NoKey l ∨ Ini.Spec.Skipped false l ∨ l.head? = some 91

/-- What all wrap files of a directory provide, in order. Other files and what is no file do not matter. -/
inductive Provides (subprojects : Bytes) : List (Bytes × Option Bytes) → List (Bytes × List Bytes) → List (Bytes × List Bytes) → Prop
  | nil : Provides subprojects [] [] []
  | other {f : Bytes} {c : Option Bytes} {l : List (Bytes × Option Bytes)} {D X : List (Bytes × List Bytes)} :
      ¬ ascii ".wrap" <:+ f → Provides subprojects l D X → Provides subprojects ((f, c) :: l) D X
  | noFile {f : Bytes} {l : List (Bytes × Option Bytes)} {D X : List (Bytes × List Bytes)} :
      Provides subprojects l D X → Provides subprojects ((f, none) :: l) D X
  | wrap {f name : Bytes} {ls : List Bytes} {es : List Event} {ok : Bool} {l : List (Bytes × Option Bytes)} {D1 X1 D X : List (Bytes × List Bytes)} :
      Path.basename (Path.join subprojects f) = name ++ ascii ".wrap" → ascii ".wrap" <:+ f → Form ls →
      Ini.Spec.Says false none 1 ls es ok → Accepted es ok → (∀ p ∈ given es, p.1 ≠ [] ∧ p.2 ≠ []) → Entries name (given es) D1 X1 →
      Provides subprojects l D X → Provides subprojects ((f, some (Ini.Spec.file ls)) :: l) (D1 ++ D) (X1 ++ X)

/-! ### Fetching -/

/-- The hash, if there is one, is that of the data. -/
def SumOk {σ : Type} (H : Host σ) (data : Bytes) (hash : Option Bytes) : Prop := ∀ h, hash = some h → H.sum data h = true

/-- The file of a name in `packagefiles`. -/
def package (subprojects f : Bytes) : Bytes := Path.push (Path.join subprojects (ascii "packagefiles")) f

/-- Something was obtained: from a local archive, a local directory, or else from the URL, in this order; archives have
the right hash. -/
inductive Obtained {σ : Type} (H : Host σ) (f : Bytes) (url hash : Option Bytes) (subprojects dir : Bytes) (download : Bool) (s s' : σ) : Prop
  | archive (data : Bytes) : H.isFile s (package subprojects f) = true → H.read s (package subprojects f) = some data → SumOk H data hash →
      H.extract s data dir = (s', true) → Obtained H f url hash subprojects dir download s s'
  | directory : H.isFile s (package subprojects f) = false → H.isDir s (package subprojects f) = true →
      H.copyDir s (package subprojects f) dir = (s', true) → Obtained H f url hash subprojects dir download s s'
  | download (u data : Bytes) : H.isFile s (package subprojects f) = false → H.isDir s (package subprojects f) = false →
      url = some u → download = true → H.fetch u = some data → SumOk H data hash → H.extract s data dir = (s', true) →
      Obtained H f url hash subprojects dir download s s'

/-- The source of a wrap is there. -/
inductive Source {σ : Type} (H : Host σ) (w : Wrap) (subprojects : Bytes) (download : Bool) (s s' : σ) : Prop
  | git (u r : Bytes) (s1 : σ) : w.git = true → download = true → w.fields .url = some u → w.fields .revision = some r →
      H.run s [ascii "git", ascii "clone", u, w.dest] none none = (s1, true) →
      H.run s1 [ascii "git", ascii "-c", ascii "advice.detachedHead=false", ascii "checkout", r, ascii "--"] (some w.dest) none = (s', true) →
      Source H w subprojects download s s'
  | file (f dir : Bytes) (s1 : σ) : w.git = false → w.fields .sourceFilename = some f →
      dir = (if w.fields .leadDirectoryMissing = none then subprojects else w.dest) →
      (H.isDir s dir = true ∧ s1 = s ∨ H.isDir s dir = false ∧ H.mkdir s dir = (s1, true)) →
      Obtained H f (w.fields .sourceUrl) (w.fields .sourceHash) subprojects dir download s1 s' →
      Source H w subprojects download s s'

/-- Its patch is. -/
inductive Patch {σ : Type} (H : Host σ) (w : Wrap) (subprojects : Bytes) (download : Bool) (s s' : σ) : Prop
  | none : w.fields .patchDirectory = none → w.fields .patchFilename = none → s' = s → Patch H w subprojects download s s'
  | directory (d : Bytes) : w.fields .patchDirectory = some d →
      Obtained H d (w.fields .patchUrl) (w.fields .patchHash) subprojects w.dest download s s' → Patch H w subprojects download s s'
  | file (f : Bytes) : w.fields .patchDirectory = none → w.fields .patchFilename = some f →
      Obtained H f (w.fields .patchUrl) (w.fields .patchHash) subprojects subprojects download s s' → Patch H w subprojects download s s'

/-- Differences are applied one after the other in the directory of the subproject. -/
inductive Applied {σ : Type} (H : Host σ) (subprojects dest : Bytes) : List Bytes → σ → σ → Prop
  | nil (s : σ) : Applied H subprojects dest [] s s
  | patch {d : Bytes} {l : List Bytes} {s s1 s' : σ} : H.hasPatch = true →
      H.run s [ascii "patch", ascii "-p1"] (some dest) (some (Path.join (Path.join subprojects (ascii "packagefiles")) d)) = (s1, true) →
      Applied H subprojects dest l s1 s' → Applied H subprojects dest (d :: l) s s'
  | git {d : Bytes} {l : List Bytes} {s s1 s' : σ} : H.hasPatch = false →
      H.run s [ascii "git", ascii "--work-tree", ascii ".", ascii "apply", ascii "-p1", Path.join (Path.join subprojects (ascii "packagefiles")) d]
        (some dest) none = (s1, true) →
      Applied H subprojects dest l s1 s' → Applied H subprojects dest (d :: l) s s'

/-- Names with commas between them; blanks may follow a comma, and a comma the last name. Names have at least two bytes,
do not begin with a blank and have no commas. -/
inductive DiffNames : Bytes → List Bytes → Prop
  | one (n : Bytes) : 2 ≤ n.length → 44 ∉ n → DiffNames n [n]
  | last (n b : Bytes) : 2 ≤ n.length → 44 ∉ n → (∀ c ∈ b, c = 32 ∨ c = 13 ∨ c = 9) → DiffNames (n ++ 44 :: b) [n]
  | more (n b r : Bytes) (l : List Bytes) : 2 ≤ n.length → 44 ∉ n → (∀ c ∈ b, c = 32 ∨ c = 13 ∨ c = 9) →
      (∀ c, r.head? = some c → c ≠ 32 ∧ c ≠ 13 ∧ c ≠ 9) → DiffNames r l → DiffNames (n ++ 44 :: (b ++ r)) (n :: l)

/-- A subproject is fetched completely. -/
def Complete {σ : Type} (H : Host σ) (w : Wrap) (names : List Bytes) (subprojects : Bytes) (download : Bool) (s s' : σ) : Prop :=
  ∃ s1 s2, Source H w subprojects download s s1 ∧ Patch H w subprojects download s1 s2 ∧ Applied H subprojects w.dest names s2 s'

/-- Something that holds of the files and that none of the permitted actions changes. -/
structure Kept {σ : Type} (H : Host σ) (w : Wrap) (names : List Bytes) (subprojects : Bytes) (download : Bool) (I : σ → Prop) : Prop where
  mkdir : ∀ s dir, dir = subprojects ∨ dir = w.dest → I s → I (H.mkdir s dir).1
  archive : ∀ s f hash dir data, ((f, hash) = (w.fields .sourceFilename, w.fields .sourceHash) ∨ (f, hash) = (w.fields .patchFilename, w.fields .patchHash) ∨
      (f, hash) = (w.fields .patchDirectory, w.fields .patchHash)) → (dir = subprojects ∨ dir = w.dest) →
      (∃ n, f = some n ∧ H.read s (package subprojects n) = some data) → SumOk H data hash → I s → I (H.extract s data dir).1
  fetched : download = true → ∀ s url hash dir data, ((url, hash) = (w.fields .sourceUrl, w.fields .sourceHash) ∨ (url, hash) = (w.fields .patchUrl, w.fields .patchHash)) →
      (dir = subprojects ∨ dir = w.dest) → (∃ u, url = some u ∧ H.fetch u = some data) → SumOk H data hash → I s → I (H.extract s data dir).1
  copy : ∀ s n dir, (some n = w.fields .sourceFilename ∨ some n = w.fields .patchFilename ∨ some n = w.fields .patchDirectory) →
      (dir = subprojects ∨ dir = w.dest) → I s → I (H.copyDir s (package subprojects n) dir).1
  clone : download = true → w.git = true → ∀ s u, w.fields .url = some u → I s → I (H.run s [ascii "git", ascii "clone", u, w.dest] none none).1
  checkout : download = true → w.git = true → ∀ s r, w.fields .revision = some r → I s →
      I (H.run s [ascii "git", ascii "-c", ascii "advice.detachedHead=false", ascii "checkout", r, ascii "--"] (some w.dest) none).1
  patch : ∀ s d, d ∈ names → I s →
      I (H.run s [ascii "patch", ascii "-p1"] (some w.dest) (some (Path.join (Path.join subprojects (ascii "packagefiles")) d))).1
  apply : ∀ s d, d ∈ names → I s →
      I (H.run s [ascii "git", ascii "--work-tree", ascii ".", ascii "apply", ascii "-p1", Path.join (Path.join subprojects (ascii "packagefiles")) d]
        (some w.dest) none).1

end Muon.Wrap.Spec
