import Verif.Wrap.Counter
/-
C100: `muon subprojects download`.
-/
namespace Muon.Wrap
open Muon Spec Path Path.Spec

/-- A wrap is available exactly if its file can be read, is a wrap file, and what it describes could be fetched. -/
theorem wrap_given {σ : Type} (H : Host σ) (s s' : σ) (path subprojects : Bytes) (download : Bool) (w : Wrap) :
    wrapHandle H s path subprojects download = .ok (s', some w) ↔
      ∃ content, H.read s path = some content ∧ parse path content = .ok w ∧ handle H s w subprojects download = .ok (s', true) := by
  unfold wrapHandle
  cases hr : H.read s path with
  | none => simp
  | some content =>
    simp only [Option.some.injEq, exists_eq_left']
    cases hp : parse path content with
    | bad => simp
    | error => simp
    | ok v =>
      simp only [Res.ok.injEq]
      constructor
      · intro h
        rw [Res.bind_eq_ok] at h
        obtain ⟨⟨s1, b⟩, h1, h2⟩ := h
        cases b with
        | false => simp at h2
        | true =>
          simp only [if_true, Res.ok.injEq, Prod.mk.injEq, Option.some.injEq] at h2
          obtain ⟨rfl, rfl⟩ := h2
          exact ⟨rfl, h1⟩
      · rintro ⟨rfl, h⟩
        rw [h, Res.ok_bind]
        rfl

/-- A wrap that could not be read or is not one changes nothing. -/
theorem wrap_refused {σ : Type} (H : Host σ) (s : σ) (path subprojects : Bytes) (download : Bool)
    (h : H.read s path = none ∨ ∃ content, H.read s path = some content ∧ parse path content = .error) :
    wrapHandle H s path subprojects download = .ok (s, none) := by
  unfold wrapHandle
  rcases h with h | ⟨content, h, h'⟩
  · rw [h]
  · rw [h]
    dsimp only
    rw [h']

theorem wrap_ending (name : Bytes) : (name.length ≤ 5 || name.drop (name.length - 5) ≠ ascii ".wrap") = false ↔ ∃ stem, stem ≠ [] ∧ name = stem ++ ascii ".wrap" := by
  have hl : (ascii ".wrap").length = 5 := by decide +kernel
  simp only [ne_eq, decide_not, Bool.or_eq_false_iff, decide_eq_false_iff_not, Bool.not_eq_false', decide_eq_true_eq, Nat.not_le]
  constructor
  · rintro ⟨h1, h2⟩
    refine ⟨name.take (name.length - 5), ?_, ?_⟩
    · intro h
      have := congrArg List.length h
      rw [List.length_take, List.length_nil] at this
      omega
    · rw [← h2, List.take_append_drop]
  · rintro ⟨stem, h1, rfl⟩
    have : 0 < stem.length := List.length_pos_iff.2 h1
    rw [List.length_append, hl]
    exact ⟨by omega, by simp⟩

/-- What is done for an entry of the directory of subprojects: only files `NAME.wrap` are looked at, and they may be downloaded. -/
theorem download_one {σ : Type} (H : Host σ) (subprojects : Bytes) (s s' : σ) (name : Bytes) :
    downloadOne H subprojects s name = .ok s' ↔
      ((¬ ∃ stem, stem ≠ [] ∧ name = stem ++ ascii ".wrap") ∨ H.isFile s (join subprojects name) = false) ∧ s' = s ∨
      (∃ stem, stem ≠ [] ∧ name = stem ++ ascii ".wrap") ∧ H.isFile s (join subprojects name) = true ∧ ∃ r, wrapHandle H s (join subprojects name) subprojects true = .ok (s', r) := by
  rw [← wrap_ending]
  unfold downloadOne
  generalize (name.length ≤ 5 || name.drop (name.length - 5) ≠ ascii ".wrap") = b
  cases b with
  | true =>
    constructor
    · intro h; cases h; exact .inl ⟨.inl (by simp), rfl⟩
    · rintro (⟨_, rfl⟩ | ⟨h, _⟩)
      · rfl
      · cases h
  | false =>
    cases hf : H.isFile s (join subprojects name) with
    | false =>
      simp only [Bool.false_eq_true, if_false, hf, Bool.not_false, if_true, or_true, true_and, false_and, and_false, or_false]
      constructor
      · intro h; cases h; rfl
      · rintro rfl; rfl
    | true =>
      simp only [Bool.false_eq_true, if_false, hf, Bool.not_true, not_true, or_self, false_and, true_and, false_or, Bool.true_eq_false]
      rw [Res.bind_eq_ok]
      constructor
      · rintro ⟨r, h1, h2⟩
        cases h2
        exact ⟨r.2, h1⟩
      · rintro ⟨r, h⟩
        exact ⟨_, h, rfl⟩

/-- `muon subprojects download NAME...`, with an absolute directory of subprojects: the wraps are fetched in turn; the command fails at
the first one for which there is no file, and else succeeds. -/
theorem download_named {σ : Type} (H : Host σ) (subprojects : Bytes) (n : Bytes) (l : List Bytes) (s : σ) :
    downloadNamed H subprojects [] s = .ok (s, true) ∧
    (H.isFile s (join subprojects n ++ ascii ".wrap") = false → downloadNamed H subprojects (n :: l) s = .ok (s, false)) ∧
    (H.isFile s (join subprojects n ++ ascii ".wrap") = true → ∀ s' b, downloadNamed H subprojects (n :: l) s = .ok (s', b) ↔
      ∃ s1, downloadOne H subprojects s (join subprojects n ++ ascii ".wrap") = .ok s1 ∧ downloadNamed H subprojects l s1 = .ok (s', b)) := by
  refine ⟨rfl, fun h => ?_, fun h s' b => ?_⟩
  · rw [downloadNamed]; simp [h]
  · rw [downloadNamed]
    simp only [h, Bool.not_true, Bool.false_eq_true, if_false]
    rw [Res.bind_eq_ok]

/-- A wrap named on the command line is the file `NAME.wrap` of the directory of subprojects, if that is an absolute path. -/
theorem download_path (subprojects n : Bytes) (h1 : 0 ∉ subprojects) (h2 : 0 ∉ n) (ha : isAbs subprojects = true) (hn : n ≠ []) (hs : 47 ∉ n) (hd : n ≠ [46]) :
    comps (join subprojects (join subprojects n ++ ascii ".wrap")) = comps subprojects ++ [n ++ ascii ".wrap"] := by
  have hw : (0 : UInt8) ∉ ascii ".wrap" ∧ (47 : UInt8) ∉ ascii ".wrap" ∧ 1 < (ascii ".wrap").length := by decide +kernel
  have hsn : subprojects ≠ [] := by rintro rfl; simp [isAbs] at ha
  have hna : isAbs n = false := by
    cases n with
    | nil => exact absurd rfl hn
    | cons c n =>
      have : c ≠ 47 := fun h => hs (by simp [h])
      simp [isAbs, this]
  have hg := comps_good subprojects h1
  have hcn : Comp (n ++ ascii ".wrap") := by
    refine ⟨by simp [hn], ?_, by simp [hs, hw.2.1], by simp [h2, hw.1]⟩
    intro h
    have := congrArg List.length h
    rw [List.length_append, List.length_singleton] at this
    omega
  have hall : ∀ c ∈ comps subprojects ++ [n ++ ascii ".wrap"], Comp c := by
    intro c hc
    rcases List.mem_append.1 hc with hc | hc
    · exact hg c hc
    · rw [List.mem_singleton] at hc; rw [hc]; exact hcn
  have htext : join subprojects n ++ ascii ".wrap" = render true (comps subprojects ++ [n ++ ascii ".wrap"]) := by
    rw [join_text subprojects n h1 h2 hsn hna, if_neg hn, ha, comps_self n ⟨hn, hd, hs, h2⟩, render_snoc, render_snoc, List.append_assoc]
  rw [htext, (join_facts subprojects _ h1 (render_no0 true _ hall)).1, render_isAbs true _ hall, if_pos rfl, render_comps true _ hall]

end Muon.Wrap
