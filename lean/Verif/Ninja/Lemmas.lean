import Verif.Ninja.Spec
import Verif.Manifest.Props
import Verif.Esc.Props
/-
Texts of the writer as files of the grammar of ninja files.
-/
namespace Muon.Ninja
open Muon Esc Esc.Spec Manifest Manifest.Spec Spec

/-! ### Elements -/

/-- A piece of text. -/
def lit (s : Bytes) : List Part := if s = [] then [] else [.lit s]

def pathToks (s : Bytes) : List Tok := s.map (fun c => if c ∈ ([32, 58, 36] : Bytes) then .esc c else .chr c)
def valToks (s : Bytes) : List Tok := s.map (fun c => if c = 36 then .esc c else .chr c)

theorem pathToks_text (s : Bytes) : toks (pathToks s) = escText [32, 58, 36] 36 s := by
  simp only [toks, pathToks, escText, List.flatMap_map]
  congr 1; funext c
  split <;> rfl

theorem valToks_text (s : Bytes) : toks (valToks s) = escText [36] 36 s := by
  simp only [toks, valToks, escText, List.flatMap_map]
  congr 1; funext c
  simp only [List.mem_singleton]
  split <;> rfl

theorem joinLit_lit (c : UInt8) (s : Bytes) : joinLit [c] (lit s) = lit (c :: s) := by
  unfold lit joinLit
  cases s <;> simp

theorem pathToks_parts (s : Bytes) : parts (pathToks s) = lit s := by
  induction s with
  | nil => rfl
  | cons c s ih =>
    simp only [pathToks, List.map_cons]
    split
    · rw [parts]; rw [pathToks] at ih; rw [ih, joinLit_lit]
    · rw [parts]; rw [pathToks] at ih; rw [ih, joinLit_lit]

theorem valToks_parts (s : Bytes) : parts (valToks s) = lit s := by
  induction s with
  | nil => rfl
  | cons c s ih =>
    simp only [valToks, List.map_cons]
    split
    · rw [parts]; rw [valToks] at ih; rw [ih, joinLit_lit]
    · rw [parts]; rw [valToks] at ih; rw [ih, joinLit_lit]


theorem pathToks_wf {p : Bytes} (h : CleanPath p) : wfPath (pathToks p) := by
  obtain ⟨h1, h2⟩ := h
  refine ⟨?_, ?_, by simpa [pathToks] using h1⟩
  · clear h1
    induction p with
    | nil => trivial
    | cons c p ih =>
      have hc := h2 c (by simp)
      simp only [pathToks, List.map_cons]
      have ih' := ih (fun d hd => h2 d (by simp [hd]))
      rw [pathToks] at ih'
      split
      · rename_i h
        refine ⟨?_, ih'⟩
        revert h; revert c; exact fun c _ _ h => by simp at h; rcases h with rfl | rfl | rfl <;> decide
      · rename_i h
        refine ⟨?_, ?_, ih'⟩
        · simp at h hc ⊢; simp [h, hc]
        · intro _
          rw [show ascii " :|" = [32, 58, 124] from by decide]
          simp at h hc ⊢; simp [h, hc]
  · cases p with
    | nil => exact absurd rfl h1
    | cons c p =>
      constructor
      · simp only [pathToks, List.map_cons, List.head?_cons]
        split
        · simp
        · rename_i h; intro h'; cases h'; exact h (by decide)
      · intro e g
        simp only [pathToks, List.map_cons, List.head?_cons]
        split <;> simp

theorem valToks_wf {v : Bytes} (h : Clean v) (h32 : v.head? ≠ some 32) : wfValue (valToks v) := by
  refine ⟨?_, ?_⟩
  · clear h32
    induction v with
    | nil => trivial
    | cons c p ih =>
      have hc := h c (by simp)
      simp only [valToks, List.map_cons]
      have ih' := ih (fun d hd => h d (by simp [hd]))
      rw [valToks] at ih'
      split
      · rename_i h; subst h
        exact ⟨by decide, ih'⟩
      · rename_i h
        refine ⟨?_, (fun h => by cases h), ih'⟩
        simp at h hc ⊢; simp [h, hc]
  · cases v with
    | nil => exact ⟨by simp [valToks], by simp [valToks]⟩
    | cons c p =>
      constructor
      · simp only [valToks, List.map_cons, List.head?_cons]
        split
        · simp
        · intro h'; cases h'; exact h32 rfl
      · intro e g
        simp only [valToks, List.map_cons, List.head?_cons]
        split <;> simp

/-! ### Lists -/

/-- Paths with a space between them. -/
def ninjaText (ps : List Bytes) : Bytes := ((ps.map (escText [32, 58, 36] 36)).intersperse [32]).flatten
def shellText (as : List Bytes) : Bytes := ((as.map shellEscape).intersperse [32]).flatten

/-- Paths as they are written: `last` is the gap after the last one. -/
def pathsW (last : Gap) : List Bytes → WPaths
  | [] => []
  | [p] => [(pathToks p, last)]
  | p :: q :: ps => (pathToks p, [.sp]) :: pathsW last (q :: ps)

theorem pathsW_text (last : Gap) : ∀ (ps : List Bytes), (pathsW last ps).written = ninjaText ps ++ if ps = [] then [] else last.written
  | [] => by simp [pathsW, WPaths.written, ninjaText]
  | [p] => by simp [pathsW, WPaths.written, ninjaText, pathToks_text]
  | p :: q :: ps => by
    have ih := pathsW_text last (q :: ps)
    have hw : ninjaText (p :: q :: ps) = escText [32, 58, 36] 36 p ++ 32 :: ninjaText (q :: ps) := words_cons _ _ _ _
    rw [pathsW, WPaths.written, List.flatMap_cons, ← WPaths.written, ih, hw, pathToks_text]
    simp [Gap.written, Blank.written, show ascii " " = [32] from by decide]

theorem pathsW_meaning (last : Gap) : ∀ (ps : List Bytes), (pathsW last ps).meaning = ps.map lit
  | [] => rfl
  | [p] => by simp [pathsW, WPaths.meaning, pathToks_parts]
  | p :: q :: ps => by
    have ih := pathsW_meaning last (q :: ps)
    rw [pathsW, WPaths.meaning, List.map_cons, ← WPaths.meaning, ih, pathToks_parts]; rfl

theorem pathsW_wf (last : Gap) (hl : last = [] ∨ last.spaced) : ∀ (ps : List Bytes), (∀ p ∈ ps, CleanPath p) → (pathsW last ps).wf
  | [], _ => trivial
  | [p], h => ⟨pathToks_wf (h p (by simp)), hl⟩
  | p :: q :: ps, h => by
    have ih := pathsW_wf last hl (q :: ps) (fun x hx => h x (by simp [hx]))
    rw [pathsW]
    cases hp : pathsW last (q :: ps) with
    | nil => cases ps <;> simp [pathsW] at hp
    | cons x xs =>
      rw [hp] at ih
      exact ⟨pathToks_wf (h p (by simp)), rfl, ih⟩

theorem pathsW_nil (last : Gap) (ps : List Bytes) : pathsW last ps = [] ↔ ps = [] := by
  cases ps with
  | nil => simp [pathsW]
  | cons p ps => cases ps <;> simp [pathsW]

theorem cstr_ok {s : Bytes} (h : 0 ∉ s) : cstr s = .ok s := by rw [cstr, if_neg h]

theorem escText_mem (need : Bytes) (esc : UInt8) (s : Bytes) : ∀ c ∈ escText need esc s, c ∈ s ∨ c = esc := by
  intro c hc
  simp only [escText, List.mem_flatMap] at hc
  obtain ⟨d, hd, hc⟩ := hc
  split at hc
  · simp at hc; rcases hc with rfl | rfl
    · exact Or.inr rfl
    · exact Or.inl hd
  · simp at hc; subst hc; exact Or.inl hd

theorem words_mem (f : Bytes → Bytes) : ∀ (as : List Bytes), ∀ c ∈ ((as.map f).intersperse [32]).flatten, c = 32 ∨ ∃ a ∈ as, c ∈ f a
  | [], c, h => by simp at h
  | [a], c, h => by simp at h; exact Or.inr ⟨a, by simp, h⟩
  | a :: b :: as, c, h => by
    rw [words_cons] at h
    rcases List.mem_append.1 h with h | h
    · exact Or.inr ⟨a, by simp, h⟩
    · rcases List.mem_cons.1 h with h | h
      · exact Or.inl h
      · rcases words_mem f (b :: as) c h with h | ⟨x, hx, h⟩
        · exact Or.inl h
        · exact Or.inr ⟨x, List.mem_cons_of_mem _ hx, h⟩

theorem joinNinja_ok {ps : List Bytes} (h : ∀ p ∈ ps, CleanPath p) : (joinArgsNinja ps >>= cstr) = .ok (ninjaText ps) := by
  have hj := joinArgsFrom_ok ninjaEscape (escText [32, 58, 36] 36) ps.length ps 0 []
    (fun a ha => simpleEscape_ok _ _ _ (Or.inr (fun hm => (h a ha).2 10 hm (by decide)))) (by simp)
  rw [joinArgsNinja, hj, Res.ok_bind]
  apply cstr_ok
  intro h0
  rcases words_mem _ _ _ h0 with h0 | ⟨a, ha, h0⟩
  · cases h0
  · rcases escText_mem _ _ _ _ h0 with h0 | h0
    · exact (h a ha).2 0 h0 (by decide)
    · cases h0

theorem shellText_clean {as : List Bytes} (h : ∀ a ∈ as, Clean a) : Clean (shellText as) := by
  intro c hc
  rcases words_mem _ _ _ hc with rfl | ⟨a, ha, hc⟩
  · decide
  · rcases shellEscape_mem a c hc with h1 | rfl | rfl
    · exact h a ha c h1
    · decide
    · decide

theorem shellText_start (as : List Bytes) : (shellText as).head? ≠ some 32 := by
  have hs : ∀ a, shellEscape a ≠ [] ∧ (shellEscape a).head? ≠ some 32 := by
    intro a
    unfold shellEscape
    split
    · simp
    · split
      · rename_i h1 h2
        refine ⟨h1, fun h => ?_⟩
        simp only [Bool.not_eq_true', List.any_eq_false] at h2
        exact h2 32 (List.mem_of_mem_head? h) (by decide)
      · simp
  cases as with
  | nil => simp [shellText]
  | cons a as =>
    have h := hs a
    have : ∃ r, shellText (a :: as) = shellEscape a ++ r := by
      cases as with
      | nil => exact ⟨[], by simp [shellText]⟩
      | cons b as => exact ⟨_, words_cons _ _ _ _⟩
    obtain ⟨r, hr⟩ := this
    rw [hr]
    cases hb : shellEscape a with
    | nil => exact absurd hb h.1
    | cons c t => rw [hb] at h; simpa using h.2

theorem shellText_words {as : List Bytes} (h : ∀ a ∈ as, ¬ Misquoted a) : shellWords (shellText as) = some as := by
  have := read_words shellEscape as [] (fun a ha => shellEscape_reads a (h a ha))
  simpa [shellWords, shellText] using this

theorem joinShellNinja_ok {as : List Bytes} (h : ∀ a ∈ as, Clean a) : (joinArgsShellNinja as >>= cstr) = .ok (escText [36] 36 (shellText as)) := by
  have hj := joinArgsFrom_ok shellNinjaEscape (fun a => escText [36] 36 (shellEscape a)) as.length as 0 []
    (fun a ha => by
      have h10 : 10 ∉ shellEscape a := by
        intro hm
        rcases shellEscape_mem a 10 hm with h1 | h1 | h1
        · exact h a ha 10 h1 (by decide)
        · cases h1
        · cases h1
      rw [← escText_dollar _ h10]; exact simpleEscape_ok _ _ _ (Or.inl (by decide))) (by simp)
  have hesc : ((as.map fun a => escText [36] 36 (shellEscape a)).intersperse [32]).flatten = escText [36] 36 (shellText as) := by
    have happ : ∀ a b, escText [36] 36 (a ++ b) = escText [36] 36 a ++ escText [36] 36 b := by intro a b; simp [escText]
    clear hj h
    induction as with
    | nil => rfl
    | cons a as ih =>
      cases as with
      | nil => simp [shellText]
      | cons b as =>
        rw [words_cons, shellText, words_cons, ← shellText, ih, happ, escText_cons]
        simp
  rw [joinArgsShellNinja, hj, Res.ok_bind, hesc]
  apply cstr_ok
  intro h0
  rcases escText_mem _ _ _ _ h0 with h0 | h0
  · exact shellText_clean h 0 h0 (by decide)
  · cases h0

end Muon.Ninja
