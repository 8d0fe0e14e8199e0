import Verif.Wrap.Fetch
import Verif.Wrap.Provides
import Verif.Names.Props
/-
Where subprojects end up, and what fetching them gets wrong (C100).
-/
namespace Muon.Wrap
open Muon Spec Path Path.Spec Names Names.Spec

/-- A subproject is fetched to the directory beside the wrap file that has its name, or the name the wrap gives. -/
theorem dest_spec (dir f content : Bytes) (hd : Place dir) (hf : FileName f) (w : Wrap) (h : parse (Path.join dir f) content = .ok w) :
    f = w.name ++ ascii ".wrap" ∧ (w.fields .directory = none → FileName w.name → comps w.dest = comps dir ++ [w.name]) ∧
    ∀ d, w.fields .directory = some d → FileName d → comps w.dest = comps dir ++ [d] := by
  have hj := join_comps hd hf
  obtain ⟨_, hja, hj0⟩ := join_facts dir f hd.2.1 hf.2.2.2.2
  rw [hd.1, Bool.or_true] at hja
  have hjne : Path.join dir f ≠ [] := by intro h'; rw [h'] at hja; cases hja
  have hdn : dirname (Path.join dir f) = render true (comps dir) := by
    rw [dirname_spec _ hj0 hjne, hja, hj, List.dropLast_concat]
  have hbn : basename (Path.join dir f) = f := by
    rw [basename_spec _ hj0 hjne, hj, List.getLast?_concat]
  have hdc : comps (dirname (Path.join dir f)) = comps dir := by
    rw [hdn, render_comps]; exact hd.comp
  have hdp : Place (dirname (Path.join dir f)) := by
    refine ⟨?_, ?_, by rw [hdc]; exact hd.2.2.1, by rw [hdc]; exact hd.2.2.2⟩
    · rw [hdn]; exact render_isAbs _ _ hd.comp
    · rw [hdn]; exact render_no0 _ _ hd.comp
  unfold parse at h
  obtain ⟨r, _, h⟩ := Res.bind_eq_ok.1 h
  split at h
  · cases h
  · split at h
    · cases h
    · split at h
      · cases h
      · rename_i he
        rw [hbn] at he h
        have he : Str.endswith f (ascii ".wrap") = true := by simpa using he
        obtain ⟨n, hn⟩ := (Str.endswith_iff _ _).1 he
        have htk : f.take (f.length - 5) = n := by
          rw [← hn, List.length_append, show (ascii ".wrap").length = 5 from by decide +kernel, Nat.add_sub_cancel]
          exact List.take_left ..
        rw [htk] at h
        cases h
        refine ⟨hn.symm, fun hno hfn => ?_, fun d hdir hfd => ?_⟩
        · simp only [] at hno hfn ⊢
          rw [hno, Option.getD_none, join_comps hdp hfn, hdc]
        · simp only [] at hdir ⊢
          rw [hdir, Option.getD_some, join_comps hdp hfd, hdc]

/-- Fields that fetching looks at; the name of the directory is in `dest`. -/
def looked : List Field :=
  [.patchUrl, .patchFilename, .patchHash, .patchDirectory, .diffFiles, .sourceUrl, .sourceFilename, .sourceHash, .leadDirectoryMissing, .url, .revision]

/-- Nothing else in the wrap matters. In particular `source_fallback_url`, `patch_fallback_url`, `depth`, `push-url` and
`clone-recursive` have no effect. -/
theorem others_ignored {σ : Type} (H : Host σ) (s : σ) (w w' : Wrap) (subprojects : Bytes) (download : Bool) (hg : w.git = w'.git) (hd : w.dest = w'.dest)
    (hf : ∀ f ∈ looked, w.fields f = w'.fields f) : handle H s w subprojects download = handle H s w' subprojects download := by
  have e1 := hf .patchUrl (by decide +kernel); have e2 := hf .patchFilename (by decide +kernel); have e3 := hf .patchHash (by decide +kernel)
  have e4 := hf .patchDirectory (by decide +kernel); have e5 := hf .diffFiles (by decide +kernel); have e6 := hf .sourceUrl (by decide +kernel)
  have e7 := hf .sourceFilename (by decide +kernel); have e8 := hf .sourceHash (by decide +kernel); have e9 := hf .leadDirectoryMissing (by decide +kernel)
  have e10 := hf .url (by decide +kernel); have e11 := hf .revision (by decide +kernel)
  unfold handle handleSource handleGit handleFile applyPatch patchFirst fileDest
  simp only [hg, hd, e1, e2, e3, e4, e5, e6, e7, e8, e9, e10, e11]

/-! ### Witnesses -/

/-- A wrap with these fields. -/
def mk (git : Bool) (fs : List (Field × Bytes)) : Wrap :=
  ⟨git, fun f => (fs.find? (fun p => p.1 = f)).map (·.2), ascii "a", ascii "/s/a", false⟩

/-- A machine on which the archive at `good` can be downloaded, and on which cloning works but nothing else that is run. The state is the
directory something was extracted to. -/
def host (good : Bytes) : Host (Option Bytes) where
  isFile s p := s ≠ none && p == ascii "/s/a/meson.build"
  isDir _ p := p == ascii "/s" || p == ascii "/s/a"
  read _ _ := none
  mkdir s _ := (s, true)
  extract _ _ dir := (some dir, true)
  copyDir s _ _ := (s, false)
  run _ c _ _ := (some (ascii "/s"), c.contains (ascii "clone"))
  fetch u := if u = good then some [1, 2, 3] else none
  hasPatch := true
  sum d h := d == h

/-- The source is fetched and checked. -/
example : handle (host (ascii "u")) none (mk false [(.sourceFilename, ascii "a.tar"), (.sourceUrl, ascii "u"), (.sourceHash, [1, 2, 3])]) (ascii "/s") true =
    .ok (some (ascii "/s"), true) := by decide +kernel
/-- With another hash it is not extracted. -/
example : handle (host (ascii "u")) none (mk false [(.sourceFilename, ascii "a.tar"), (.sourceUrl, ascii "u"), (.sourceHash, [1, 2, 4])]) (ascii "/s") true =
    .ok (none, false) := by decide +kernel
example : Diffs (mk false [(.diffFiles, ascii "ab.diff, cd.diff")]) [ascii "ab.diff", ascii "cd.diff"] :=
  .inr ⟨_, rfl, .more (ascii "ab.diff") (ascii " ") (ascii "cd.diff") _ (by decide +kernel) (by decide +kernel) (by decide +kernel)
    (by intro c hc; cases hc; decide +kernel) (.one _ (by decide +kernel) (by decide +kernel))⟩

/-- A second URL is not tried when the first does not work. -/
theorem fallback_counterexample :
    handle (host (ascii "v")) none (mk false [(.sourceFilename, ascii "a.tar"), (.sourceUrl, ascii "u"), (.sourceFallbackUrl, ascii "v")]) (ascii "/s") true =
      .ok (none, false) := by decide +kernel

/-- If the patch cannot be fetched, fetching fails; trying again succeeds without the patch. -/
theorem unpatched_counterexample :
    let w := mk false [(.sourceFilename, ascii "a.tar"), (.sourceUrl, ascii "u"), (.patchFilename, ascii "p.tar"), (.patchUrl, ascii "v")]
    handle (host (ascii "u")) none w (ascii "/s") true = .ok (some (ascii "/s"), false) ∧
    handle (host (ascii "u")) (some (ascii "/s")) w (ascii "/s") true = .ok (some (ascii "/s"), true) := by decide +kernel

/-- If the revision cannot be checked out, fetching fails; trying again succeeds with another revision. -/
theorem revision_counterexample :
    let w := mk true [(.url, ascii "u"), (.revision, ascii "v1")]
    handle (host (ascii "u")) none w (ascii "/s") true = .ok (some (ascii "/s"), false) ∧
    handle (host (ascii "u")) (some (ascii "/s")) w (ascii "/s") true = .ok (some (ascii "/s"), true) := by decide +kernel

/-- `lead_directory_missing = false` is taken for true: the archive is extracted to the directory of the subproject. -/
theorem lead_counterexample :
    handle (host (ascii "u")) none (mk false [(.sourceFilename, ascii "a.tar"), (.sourceUrl, ascii "u"), (.leadDirectoryMissing, ascii "false")]) (ascii "/s") true =
      .ok (some (ascii "/s/a"), true) := by decide +kernel

/-- A wrap file that says nothing of a source is accepted, and fetching it passes a null pointer on. -/
theorem no_source_counterexample :
    (match parse (ascii "/s/a.wrap") (ascii "[provide]\nx = y\n") with
      | .ok w => handle (host []) none w (ascii "/s") true
      | _ => .error) = .bad := by decide +kernel

/-- An empty `diff_files` is read behind its end, as is a last name of one byte. -/
theorem diff_empty_counterexample {σ : Type} (H : Host σ) (s : σ) (subprojects dest : Bytes) : applyDiffs H s subprojects dest [] = .bad := rfl
theorem diff_short_counterexample {σ : Type} (H : Host σ) (hr : ∀ s c d f, (H.run s c d f).2 = true) (s : σ) (subprojects dest : Bytes) :
    applyDiffs H s subprojects dest (ascii "ab,c") = .bad := by
  have hd : diffs (ascii "ab,c").length [] (ascii "ab,c") = ([ascii "ab"], true) := by decide +kernel
  unfold applyDiffs
  rw [hd]
  unfold applyAll
  have : (applyDiff H s subprojects dest (ascii "ab")).2 = true := by
    unfold applyDiff; simp only []; split <;> exact hr ..
  generalize applyDiff H s subprojects dest (ascii "ab") = x at this
  obtain ⟨s1, b⟩ := x
  simp only [] at this
  rw [this]
  rfl
/-- A name of one byte between others is taken together with the next. -/
theorem diff_merged_counterexample : (diffs 9 [] (ascii "ab,c,d.di")).1 = [ascii "ab", ascii "c,d.di"] := by decide +kernel

/-- A wrap can name any directory of the machine. -/
theorem directory_counterexample :
    (match parse (ascii "/s/a.wrap") (ascii "[wrap-file]\ndirectory = /etc\n") with
      | .ok w => w.dest
      | _ => []) = ascii "/etc" := by decide +kernel

/-- `muon subprojects download a` succeeds although the wrap file is invalid. -/
theorem download_counterexample :
    downloadNamed { host [] with isFile := fun _ p => p == ascii "/s/a.wrap", read := fun _ _ => some (ascii "[wrap-file]\nx = y\n") } (ascii "/s") [ascii "a"] none =
      .ok (none, true) ∧
    parse (ascii "/s/a.wrap") (ascii "[wrap-file]\nx = y\n") = .error := by
  constructor
  · decide +kernel
  · have : (match parse (ascii "/s/a.wrap") (ascii "[wrap-file]\nx = y\n") with | .error => true | _ => false) = true := by decide +kernel
    revert this
    cases parse (ascii "/s/a.wrap") (ascii "[wrap-file]\nx = y\n") <;> simp

/-! ### Wrap files that meet the hypotheses -/

/-- The lines of a wrap file, and what they say. -/
def exLines : List Bytes := [ascii "[wrap-git]", ascii "url = u", ascii "revision = v1", [], ascii "[provide]", ascii "dependency_names = x, y"]

example : (match parse (ascii "/s/a.wrap") (Ini.Spec.file exLines) with
    | .ok w => (w.git, w.fields .url, w.fields .revision, w.name, w.dest, w.provides)
    | _ => (false, none, none, [], [], false)) = (true, some (ascii "u"), some (ascii "v1"), ascii "a", ascii "/s/a", true) := by decide +kernel
example : (match loadAll (ascii "/s") [(ascii "a.wrap", some (Ini.Spec.file exLines)), (ascii "b.txt", none)] (fun _ => none, fun _ => none) with
    | .ok (d, _) => (d (ascii "x"), d (ascii "y"), d (ascii "z"))
    | _ => (none, none, none)) = (some [ascii "a"], some [ascii "a"], none) := by decide +kernel
example : Form exLines := by
  refine ⟨by decide +kernel, ?_, ?_⟩
  · unfold Ini.Spec.Line; decide +kernel
  · intro l hl; cases hl; exact .inr (.inr rfl)
example : Listed (ascii "x, y") [ascii "x", ascii "y"] := by
  have : nameList (ascii "x, y") = [ascii "x", ascii "y"] := by decide +kernel
  rw [← this]; exact nameList_spec _

end Muon.Wrap
