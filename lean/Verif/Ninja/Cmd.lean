import Verif.Ninja.Whole
/-
The commands of edges, as the shell reads them.
-/
namespace Muon.Ninja
open Muon Esc Esc.Spec Manifest Manifest.Spec Spec

/-! ### Text of the shell in pieces -/

/-- Text that is read as these words, if a space or nothing follows. -/
def ReadsAs (t : Bytes) (ws : List Bytes) : Prop :=
  ∀ acc, readWords none .plain acc t = some (acc ++ ws) ∧ ∀ r, readWords none .plain acc (t ++ 32 :: r) = readWords none .plain (acc ++ ws) r

theorem readsAs_nil : ReadsAs [] [] := by
  intro acc
  refine ⟨by simp [readWords], fun r => ?_⟩
  rw [List.nil_append, readWords]; simp

theorem readsAs_one {t s : Bytes} (h : Reads t s) : ReadsAs t [s] := by
  intro acc
  refine ⟨?_, fun r => ?_⟩
  · have := h acc []
    rw [List.append_nil] at this
    rw [this]; simp [readWords]
  · rw [h acc, readWords]; simp

theorem readsAs_cons {t t' : Bytes} {ws ws' : List Bytes} (h : ReadsAs t ws) (h' : ReadsAs t' ws') : ReadsAs (t ++ 32 :: t') (ws ++ ws') := by
  intro acc
  refine ⟨?_, fun r => ?_⟩
  · rw [(h acc).2, (h' _).1]; simp
  · rw [List.append_assoc, List.cons_append, (h acc).2, (h' _).2]; simp

theorem readsAs_words (f : Bytes → Bytes) : ∀ (as : List Bytes), (∀ a ∈ as, Reads (f a) a) → ReadsAs ((as.map f).intersperse [32]).flatten as
  | [], _ => readsAs_nil
  | [a], h => by simpa using readsAs_one (h a (by simp))
  | a :: b :: as, h => by
    rw [words_cons]
    exact readsAs_cons (ws := [a]) (readsAs_one (h a (by simp))) (readsAs_words f (b :: as) (fun x hx => h x (by simp [hx])))

/-- The words of the pieces one after the other. -/
theorem readsAs_join : ∀ (ts : List (Bytes × List Bytes)), (∀ x ∈ ts, ReadsAs x.1 x.2) → ReadsAs ((ts.map (·.1)).intersperse [32]).flatten (ts.flatMap (·.2))
  | [], _ => readsAs_nil
  | [t], h => by simpa using h t (by simp)
  | t :: u :: ts, h => by
    have ih := readsAs_join (u :: ts) (fun x hx => h x (by simp [hx]))
    rw [List.map_cons, List.map_cons, List.flatMap_cons]
    have := readsAs_cons (h t (by simp)) ih
    simpa using this

theorem readsAs_shellWords {t : Bytes} {ws : List Bytes} (h : ReadsAs t ws) : shellWords t = some ws := by
  have := (h []).1
  simpa [shellWords] using this

theorem shellText_readsAs {as : List Bytes} (h : ∀ a ∈ as, ¬ Misquoted a) : ReadsAs (shellText as) as :=
  readsAs_words shellEscape as (fun a ha => shellEscape_reads a (h a ha))

theorem listOf_readsAs (ps : List Bytes) (h : ∀ p ∈ ps, p ≠ []) : ReadsAs ((listOf true 32 ps).getD []) ps := by
  cases ps with
  | nil => exact readsAs_nil
  | cons p ps =>
    have := readsAs_words nodePath (p :: ps) (fun a ha => nodePath_reads a (h a ha))
    have e : (listOf true 32 (p :: ps)).getD [] = (((p :: ps).map nodePath).intersperse [32]).flatten := by
      simp only [listOf, if_true, Option.getD_some]
      clear h this
      induction ps generalizing p with
      | nil => simp
      | cons q ps ih => rw [words_cons, ← ih, List.flatMap_cons]; simp
    rw [e]; exact this

theorem dotD_readsAs (p : Bytes) (h : p ≠ []) : ReadsAs (nodePath p ++ ascii ".d") [p ++ ascii ".d"] := by
  refine readsAs_one ?_
  intro ws r
  rw [List.append_assoc, nodePath_reads p h ws]
  have key : ∀ c ∈ ascii ".d", Ordinary c := by
    intro c hc
    have : c = 46 ∨ c = 100 := by
      have e : ascii ".d" = [46, 100] := by decide
      rw [e] at hc; simpa using hc
    rcases this with rfl | rfl <;> exact ⟨by decide, by decide, by decide, by decide, by decide⟩
  exact read_ordinary ws r _ key p

theorem plain_reads {x : Bytes} (h : Plain x) : Reads x x := by
  obtain ⟨h1, h2, h3⟩ := h
  cases x with
  | nil => exact absurd rfl h1
  | cons c s =>
    refine reads_ordinary c s (fun d hd => ?_) (fun hc => h3 c rfl hc)
    have := h2 d hd
    have e : ascii "'\\ \t" = [39, 92, 32, 9] := by decide
    rw [e] at this
    simp only [List.mem_cons, List.not_mem_nil, or_false, not_or] at this
    exact ⟨this.1.1, this.1.2.1, this.1.2.2.1, this.1.2.2.2, this.2⟩

/-! ### Values of variables -/

def tokVal (val : Bytes → Bytes) : List Tok → Bytes
  | [] => []
  | .chr c :: ts => c :: tokVal val ts
  | .esc c :: ts => c :: tokVal val ts
  | .braced v :: ts => val v ++ tokVal val ts
  | .bare v :: ts => val v ++ tokVal val ts
  | .cont _ _ :: ts => tokVal val ts

def tokVars : List Tok → List Bytes
  | [] => []
  | .braced v :: ts => v :: tokVars ts
  | .bare v :: ts => v :: tokVars ts
  | .chr _ :: ts => tokVars ts
  | .esc _ :: ts => tokVars ts
  | .cont _ _ :: ts => tokVars ts

theorem text_joinLit {scope : Bytes → Option Bytes} {e : Manifest.Edge} {esc : Bool} (s : Bytes) {ps : List Part} {y : Bytes} (h : Text scope e esc ps y) :
    Text scope e esc (joinLit s ps) (s ++ y) := by
  by_cases hs : s = []
  · subst hs; simpa [joinLit] using h
  unfold joinLit
  rw [if_neg hs]
  cases h with
  | nil => exact Text.lit s [] [] .nil
  | lit x ps y h => rw [← List.append_assoc]; exact Text.lit (s ++ x) ps y h
  | value v x ps y h1 h2 => exact Text.lit s _ _ (.value v x ps y h1 h2)
  | rule v qs x ps y h1 h2 h3 => exact Text.lit s _ _ (.rule v qs x ps y h1 h2 h3)

theorem text_toks {scope : Bytes → Option Bytes} {e : Manifest.Edge} {esc : Bool} (val : Bytes → Bytes) : ∀ (ts : List Tok),
    (∀ v ∈ tokVars ts, ∃ x, direct scope e esc v = some x ∧ val v = x.getD []) → Text scope e esc (parts ts) (tokVal val ts)
  | [], _ => .nil
  | .chr c :: ts, h => text_joinLit [c] (text_toks val ts h)
  | .esc c :: ts, h => text_joinLit [c] (text_toks val ts h)
  | .cont _ _ :: ts, h => text_toks val ts h
  | .braced v :: ts, h => by
    obtain ⟨x, h1, h2⟩ := h v (by simp [tokVars])
    rw [parts, tokVal, h2]
    exact .value v x _ _ h1 (text_toks val ts (fun u hu => h u (by simp [tokVars, hu])))
  | .bare v :: ts, h => by
    obtain ⟨x, h1, h2⟩ := h v (by simp [tokVars])
    rw [parts, tokVal, h2]
    exact .value v x _ _ h1 (text_toks val ts (fun u hu => h u (by simp [tokVars, hu])))

theorem tokVal_append (val : Bytes → Bytes) (a b : List Tok) : tokVal val (a ++ b) = tokVal val a ++ tokVal val b := by
  induction a with
  | nil => rfl
  | cons t a ih => cases t <;> simp [tokVal, ih]

theorem tokVars_append (a b : List Tok) : tokVars (a ++ b) = tokVars a ++ tokVars b := by
  induction a with
  | nil => rfl
  | cons t a ih => cases t <;> simp [tokVars, ih]

theorem tokVal_val (val : Bytes → Bytes) (u : Bytes) : tokVal val (valToks u) = u ∧ tokVars (valToks u) = [] := by
  induction u with
  | nil => exact ⟨rfl, rfl⟩
  | cons c u ih =>
    simp only [valToks, List.map_cons]
    simp only [valToks] at ih
    split
    · rename_i h; subst h; exact ⟨by rw [tokVal, ih.1], by rw [tokVars, ih.2]⟩
    · exact ⟨by rw [tokVal, ih.1], by rw [tokVars, ih.2]⟩

/-- The value of a word of a command. -/
def wordVal (val : Bytes → Bytes) : CWord → Bytes
  | .text u => u
  | .var v => val v
  | .outD => val (ascii "out") ++ ascii ".d"

def wordVars : CWord → List Bytes
  | .text _ => []
  | .var v => [v]
  | .outD => [ascii "out"]

theorem cword_val (val : Bytes → Bytes) (w : CWord) : tokVal val (cwordToks w) = wordVal val w ∧ tokVars (cwordToks w) = wordVars w := by
  cases w with
  | text u => exact tokVal_val val u
  | var v => exact ⟨by simp [cwordToks, tokVal, wordVal], rfl⟩
  | outD => exact ⟨rfl, rfl⟩

theorem cmd_val (val : Bytes → Bytes) : ∀ (cs : List CWord), tokVal val (cmdToks cs) = ((cs.map (wordVal val)).intersperse [32]).flatten ∧
    tokVars (cmdToks cs) = cs.flatMap wordVars
  | [] => ⟨rfl, rfl⟩
  | [w] => by have := cword_val val w; simp [cmdToks, this]
  | w :: x :: ws => by
    have ih := cmd_val val (x :: ws)
    have := cword_val val w
    constructor
    · rw [cmdToks, tokVal_append, this.1, tokVal, ih.1]; simp
    · rw [cmdToks, tokVars_append, this.2, tokVars, ih.2]; simp

theorem dollars_inj : ∀ {u v : Bytes}, dollars u = dollars v → u = v
  | [], [], _ => rfl
  | [], c :: v, h => by simp only [dollars, List.flatMap_nil, List.flatMap_cons] at h; split at h <;> simp at h
  | c :: u, [], h => by simp only [dollars, List.flatMap_nil, List.flatMap_cons] at h; split at h <;> simp at h
  | c :: u, d :: v, h => by
    simp only [dollars, List.flatMap_cons] at h
    have ih := fun h => dollars_inj (u := u) (v := v) h
    simp only [dollars] at ih
    split at h <;> split at h
    · rename_i h1 h2; rw [h1, h2, ih (by simpa using h)]
    · rename_i h1 h2; simp at h; exact absurd h.1.symm h2
    · rename_i h1 h2; simp at h; exact absurd h.1 h1
    · simp at h; rw [h.1, ih h.2]

theorem word_inj {a b : CWord} (h : a.word = b.word) : a = b := by
  cases a <;> cases b <;> simp only [CWord.word, Word.raw.injEq, Word.var.injEq, reduceCtorEq] at h
  · rw [dollars_inj h]
  · rw [h]
  · rfl

theorem words_inj : ∀ {a b : List CWord}, a.map CWord.word = b.map CWord.word → a = b
  | [], [], _ => rfl
  | [], _ :: _, h => by simp at h
  | _ :: _, [], h => by simp at h
  | a :: as, b :: bs, h => by
    simp only [List.map_cons, List.cons.injEq] at h
    rw [word_inj h.1, words_inj h.2]

end Muon.Ninja
