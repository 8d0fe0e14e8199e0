import Verif.Manifest.Spec
import Verif.Esc.Props
/-
The scanner on written strings.
-/
namespace Muon.Manifest
open Muon Esc Spec

theorem asc_sp : ascii " " = [32] := by decide
theorem asc_dollar : ascii "$" = [36] := by decide
theorem asc_brace : ascii "${" = [36, 123] := by decide
theorem asc_close : ascii "}" = [125] := by decide
theorem asc_hash : ascii "#" = [35] := by decide
theorem asc_eq : ascii "=" = [61] := by decide
theorem asc_pipe : ascii "|" = [124] := by decide
theorem asc_pipe2 : ascii "||" = [124, 124] := by decide
theorem asc_colon : ascii ":" = [58] := by decide
theorem asc_path : ascii " :|" = [32, 58, 124] := by decide
theorem asc_esc : ascii "$ :" = [36, 32, 58] := by decide

/-- Nothing to skip here. -/
def Solid (r : Bytes) : Prop := space r = .ok (false, r)

theorem solid_nil : Solid [] := by simp [Solid, space]

theorem solid_cons {c : UInt8} (r : Bytes) (h1 : c ≠ 32) (h2 : c ≠ 36) : Solid (c :: r) := by
  unfold Solid
  rw [space] <;> simp_all

theorem solid_dollar {c : UInt8} (r : Bytes) (h1 : c ≠ 10) (h2 : c ≠ 13) : Solid (36 :: c :: r) := by
  unfold Solid
  rw [space] <;> simp_all

theorem solid_eol (e : Eol) (r : Bytes) : Solid (e.written ++ r) := by
  cases e
  · exact solid_cons r (by decide) (by decide)
  · exact solid_cons _ (by decide) (by decide)

theorem space_gap (g : Gap) (r : Bytes) (h : Solid r) : space (g.written ++ r) = .ok (g != [], r) := by
  induction g with
  | nil => simpa [Gap.written, Solid] using h
  | cons b g ih =>
    have hw : Gap.written (b :: g) = b.written ++ Gap.written g := by simp [Gap.written]
    rw [hw, List.append_assoc]
    cases b with
    | sp =>
      simp only [Blank.written, asc_sp, List.cons_append, List.nil_append]
      rw [space, ih]; simp
    | cont e =>
      cases e
      · simp only [Blank.written, Eol.written, asc_dollar, List.cons_append, List.nil_append]
        rw [space, ih]; simp
      · simp only [Blank.written, Eol.written, asc_dollar, List.cons_append, List.nil_append]
        rw [space, ih]; simp

theorem newline_eol (e : Eol) (r : Bytes) : newline (e.written ++ r) = .ok (true, r) := by
  cases e <;> simp [Eol.written, newline]

theorem newline_not {c : UInt8} (r : Bytes) (h1 : c ≠ 10) (h2 : c ≠ 13) : newline (c :: r) = .ok (false, c :: r) := by
  rw [newline] <;> simp_all

theorem scannewline_eol (e : Eol) (r : Bytes) : scannewline (e.written ++ r) = .ok r := by
  simp [scannewline, newline_eol]

/-! ### Strings -/

theorem joinLit_nil (ps : List Part) : joinLit [] ps = ps := by simp [joinLit]

theorem joinLit_joinLit (a b : Bytes) (ps : List Part) : joinLit a (joinLit b ps) = joinLit (a ++ b) ps := by
  by_cases ha : a = []
  · subst ha; simp [joinLit]
  · by_cases hb : b = []
    · subst hb; simp [joinLit]
    · rcases ps with _ | ⟨p, ps⟩
      · simp [joinLit, ha, hb]
      · cases p <;> simp [joinLit, ha, hb]

theorem flush_joinLit (ps : List Part) (buf : Bytes) : flush ps buf = ps ++ joinLit buf [] := by
  unfold flush joinLit; split <;> simp

theorem joinLit_var (buf : Bytes) (v : Bytes) (qs : List Part) : joinLit buf (.var v :: qs) = joinLit buf [] ++ .var v :: qs := by
  unfold joinLit; split <;> simp

theorem nameChar_iff (c : UInt8) : isVar c = true ↔ nameChar c := isVar_iff c
theorem simpleChar_iff (c : UInt8) : isSimpleVar c = true ↔ simpleChar c := isSimpleVar_iff c

theorem toks_cons (t : Tok) (ts : List Tok) : toks (t :: ts) = t.written ++ toks ts := by simp [toks]

theorem stops_notSimple {path : Bool} {r : Bytes} (h : Stops path r) : ∀ c, r.head? = some c → isSimpleVar c = false := by
  intro c hc
  rcases h with rfl | ⟨d, t, rfl, hd⟩
  · cases hc
  · cases hc
    rcases hd with rfl | rfl | ⟨_, rfl | rfl | rfl⟩ <;> decide +kernel

/-- A string is not something to skip, unless it says so. -/
theorem toks_solid (path : Bool) (ts : List Tok) (r : Bytes) (h : wfToks path ts) (hs : wfStart ts) (hr : ts = [] → Solid r) :
    Solid (toks ts ++ r) := by
  cases ts with
  | nil => simpa [toks] using hr rfl
  | cons t ts =>
    rw [toks_cons]
    obtain ⟨h1, h2⟩ := hs
    cases t with
    | chr c =>
      have h3 := h.1
      simp only [List.mem_cons, List.not_mem_nil, or_false, not_or] at h3
      exact solid_cons _ (fun e => h1 (by simp [e])) h3.2.2.2
    | esc c =>
      have h3 := h.1
      rw [asc_esc] at h3
      simp only [List.mem_cons, List.not_mem_nil, or_false] at h3
      refine solid_dollar _ ?_ ?_ <;> rcases h3 with rfl | rfl | rfl <;> decide
    | braced v => simp only [Tok.written, asc_brace, List.cons_append]; exact solid_dollar _ (by decide) (by decide)
    | bare v =>
      obtain ⟨hne, hv, _⟩ := h
      cases v with
      | nil => exact absurd rfl hne
      | cons c v =>
        have hc := (simpleChar_iff c).2 (hv c (by simp))
        have key : ∀ c : UInt8, isSimpleVar c = true → c ≠ 10 ∧ c ≠ 13 := forall_byte (by decide +kernel)
        simp only [Tok.written, asc_dollar, List.cons_append, List.nil_append]
        exact solid_dollar _ (key c hc).1 (key c hc).2
    | cont e g => exact absurd rfl (h2 e g)

theorem escape_lit (ps : List Part) (buf : Bytes) (c : UInt8) (r : Bytes) (h : c ∈ ascii "$ :") :
    escape ps buf (c :: r) = .ok (ps, buf ++ [c], r) := by
  rw [asc_esc] at h
  simp only [List.mem_cons, List.not_mem_nil, or_false] at h
  rw [escape, if_pos h]

theorem escape_braced (ps : List Part) (buf v r : Bytes) (h : ∀ c ∈ v, nameChar c) :
    escape ps buf (123 :: (v ++ 125 :: r)) = .ok (flush ps buf ++ [.var v], [], r) := by
  have ht := takeWhile_all isVar v (125 :: r) (fun c hc => (nameChar_iff c).2 (h c hc))
    (by intro c hc; simp at hc; subst hc; decide +kernel)
  unfold escape
  simp only [ht]
  simp

theorem escape_bare (ps : List Part) (buf v r : Bytes) (hne : v ≠ []) (h : ∀ c ∈ v, simpleChar c)
    (hr : ∀ c, r.head? = some c → isSimpleVar c = false) :
    escape ps buf (v ++ r) = .ok (flush ps buf ++ [.var v], [], r) := by
  have ht := takeWhile_all isSimpleVar v r (fun c hc => (simpleChar_iff c).2 (h c hc)) hr
  cases v with
  | nil => exact absurd rfl hne
  | cons c v =>
    have h1 := (simpleChar_iff c).2 (h c (by simp))
    have key : ∀ c : UInt8, isSimpleVar c = true → c ≠ 36 ∧ c ≠ 32 ∧ c ≠ 58 ∧ c ≠ 123 ∧ c ≠ 13 ∧ c ≠ 10 :=
      forall_byte (by decide +kernel)
    obtain ⟨k1, k2, k3, k4, k5, k6⟩ := key c h1
    rw [List.cons_append] at ht ⊢
    unfold escape
    rw [ht.1, ht.2]
    simp [k1, k2, k3, k4, k5, k6]

theorem escape_cont (ps : List Part) (buf : Bytes) (e : Eol) (g : Gap) (r : Bytes) (h : Solid r) :
    escape ps buf (e.written ++ (g.written ++ r)) = .ok (ps, buf, r) := by
  have hn := newline_eol e (g.written ++ r)
  have hs := space_gap g r h
  cases e
  · simp only [Eol.written, List.cons_append, List.nil_append] at hn ⊢
    rw [escape, if_neg (by decide), if_neg (by decide), if_pos (by decide)]
    simp only [hn, hs]
  · simp only [Eol.written, List.cons_append, List.nil_append] at hn ⊢
    rw [escape, if_neg (by decide), if_neg (by decide), if_pos (by decide)]
    simp only [hn, hs]

theorem scanLoop_dollar {path : Bool} {f : Nat} {ps : List Part} {buf r : Bytes} {ps' : List Part} {buf' r' : Bytes}
    (h : escape ps buf r = .ok (ps', buf', r')) : scanLoop path (f + 1) ps buf (36 :: r) = scanLoop path f ps' buf' r' := by
  rw [scanLoop]
  have hc : chr (36 :: r) = some 36 := rfl
  rw [hc]
  simp only [List.drop_succ_cons, List.drop_zero, h, if_true]

/-- Reading a string: its parts, up to what ends it. -/
theorem scanLoop_toks (path : Bool) (r : Bytes) (hr : Stops path r) (hrs : path = false → Solid r) : ∀ (ts : List Tok) (f : Nat) (ps : List Part) (buf : Bytes),
    wfToks path ts → (toks ts).length < f →
    ∃ ps' buf', scanLoop path f ps buf (toks ts ++ r) = .ok (ps', buf', r) ∧ flush ps' buf' = ps ++ joinLit buf (parts ts) := by
  intro ts
  induction ts with
  | nil =>
    intro f ps buf _ hf
    obtain ⟨k, rfl⟩ : ∃ k, f = k + 1 := ⟨f - 1, by simp [toks] at hf; omega⟩
    exact ⟨ps, buf, by simpa [toks] using scanLoop_stop path k ps buf r hr, flush_joinLit ps buf⟩
  | cons t ts ih =>
    intro f ps buf hw hf
    rw [toks_cons, List.length_append] at hf
    rw [toks_cons, List.append_assoc]
    cases t with
    | chr c =>
      obtain ⟨h1, h2, hw⟩ := hw
      simp only [List.mem_cons, List.not_mem_nil, or_false, not_or] at h1
      simp only [Tok.written, List.length_cons, List.length_nil] at hf
      obtain ⟨k, rfl⟩ : ∃ k, f = k + 1 := ⟨f - 1, by omega⟩
      obtain ⟨ps', buf', h3, h4⟩ := ih k ps (buf ++ [c]) hw (by omega)
      refine ⟨ps', buf', ?_, by rw [h4, parts, joinLit_joinLit]⟩
      rw [scanLoop]
      simp only [Tok.written, List.cons_append, List.nil_append]
      have hc : chr (c :: (toks ts ++ r)) = some c := by simp [chr, h1.2.2.1]
      rw [hc]
      simp only [List.drop_succ_cons, List.drop_zero]
      rw [if_neg h1.2.2.2, if_neg (by simp [h1.1, h1.2.1]), if_neg]
      · exact h3
      · rintro ⟨hp, h⟩
        have := h2 hp
        rw [asc_path] at this
        simp only [List.mem_cons, List.not_mem_nil, or_false, not_or] at this
        rcases h with h | h | h
        · exact this.2.1 h
        · exact this.2.2 h
        · exact this.1 h
    | esc c =>
      obtain ⟨h1, hw⟩ := hw
      simp only [Tok.written, List.length_cons, List.length_nil] at hf
      obtain ⟨k, rfl⟩ : ∃ k, f = k + 1 := ⟨f - 1, by omega⟩
      obtain ⟨ps', buf', h3, h4⟩ := ih k ps (buf ++ [c]) hw (by omega)
      refine ⟨ps', buf', ?_, by rw [h4, parts, joinLit_joinLit]⟩
      simp only [Tok.written, List.cons_append, List.nil_append]
      rw [scanLoop_dollar (escape_lit ps buf c _ h1)]
      exact h3
    | braced v =>
      obtain ⟨h1, hw⟩ := hw
      simp only [Tok.written, asc_brace, asc_close, List.length_cons, List.length_nil, List.length_append] at hf
      obtain ⟨k, rfl⟩ : ∃ k, f = k + 1 := ⟨f - 1, by omega⟩
      obtain ⟨ps', buf', h3, h4⟩ := ih k (flush ps buf ++ [.var v]) [] hw (by omega)
      refine ⟨ps', buf', ?_, by rw [h4, parts, joinLit_nil, joinLit_var, flush_joinLit]; simp⟩
      simp only [Tok.written, asc_brace, asc_close, List.cons_append, List.nil_append, List.append_assoc]
      rw [scanLoop_dollar (escape_braced ps buf v _ h1)]
      exact h3
    | bare v =>
      obtain ⟨hne, h1, h2, hw⟩ := hw
      simp only [Tok.written, asc_dollar, List.length_cons, List.length_nil, List.length_append] at hf
      obtain ⟨k, rfl⟩ : ∃ k, f = k + 1 := ⟨f - 1, by omega⟩
      obtain ⟨ps', buf', h3, h4⟩ := ih k (flush ps buf ++ [.var v]) [] hw (by omega)
      refine ⟨ps', buf', ?_, by rw [h4, parts, joinLit_nil, joinLit_var, flush_joinLit]; simp⟩
      simp only [Tok.written, asc_dollar, List.cons_append, List.nil_append]
      rw [scanLoop_dollar (escape_bare ps buf v _ hne h1 ?_)]
      · exact h3
      · intro c hc
        cases hq : toks ts with
        | nil => rw [hq, List.nil_append] at hc; exact stops_notSimple hr c hc
        | cons d q =>
          rw [hq] at hc; simp at hc; subst hc
          have := h2 d (by rw [hq]; rfl)
          rw [← simpleChar_iff] at this
          simpa using this
    | cont e g =>
      obtain ⟨h1, h2, h3, hw⟩ := hw
      simp only [Tok.written, asc_dollar, List.length_cons, List.length_nil, List.length_append] at hf
      obtain ⟨k, rfl⟩ : ∃ k, f = k + 1 := ⟨f - 1, by omega⟩
      obtain ⟨ps', buf', h4, h5⟩ := ih k ps buf hw (by omega)
      refine ⟨ps', buf', ?_, by rw [h5, parts]⟩
      simp only [Tok.written, asc_dollar, List.cons_append, List.nil_append, List.append_assoc]
      rw [scanLoop_dollar (escape_cont ps buf e g _ ?_)]
      · exact h4
      · refine toks_solid path ts r hw ⟨h2, h3⟩ ?_
        intro hts
        cases path with
        | false => exact hrs rfl
        | true => exact absurd hts (h1 rfl)

/-- A value. -/
theorem scanString_value (ts : List Tok) (e : Eol) (r : Bytes) (h : wfToks false ts) :
    scanString false (toks ts ++ (e.written ++ r)) = .ok (parts ts, e.written ++ r) := by
  have hst : Stops false (e.written ++ r) := by
    cases e
    · exact Or.inr ⟨10, r, rfl, Or.inl rfl⟩
    · exact Or.inr ⟨13, 10 :: r, rfl, Or.inr (Or.inl rfl)⟩
  obtain ⟨ps', buf', h1, h2⟩ := scanLoop_toks false (e.written ++ r) hst (fun _ => solid_eol e r) ts
    ((toks ts ++ (e.written ++ r)).length + 1) [] [] h (by simp; omega)
  unfold scanString
  rw [h1]
  simp only [Bool.false_eq_true, if_false]
  rw [h2]
  simp [joinLit_nil]

/-- A path and the gap after it. -/
theorem scanString_path (ts : List Tok) (g : Gap) (r : Bytes) (h : wfToks true ts) (hg : g = [] ∨ Gap.spaced g)
    (hr : Stops true r) (hrs : Solid r) :
    scanString true (toks ts ++ (g.written ++ r)) = .ok (parts ts, r) := by
  have hst : Stops true (g.written ++ r) := by
    rcases hg with rfl | hg
    · simpa [Gap.written] using hr
    · cases g with
      | nil => cases hg
      | cons b g =>
        simp only [Gap.spaced, List.head?_cons, Option.some.injEq] at hg
        subst hg
        exact Or.inr ⟨32, Gap.written g ++ r, by simp [Gap.written, Blank.written, asc_sp], Or.inr (Or.inr ⟨rfl, by simp⟩)⟩
  obtain ⟨ps', buf', h1, h2⟩ := scanLoop_toks true (g.written ++ r) hst (fun h => by cases h) ts
    ((toks ts ++ (g.written ++ r)).length + 1) [] [] h (by simp; omega)
  unfold scanString
  rw [h1]
  simp only [if_true, space_gap g r hrs]
  rw [h2]
  simp [joinLit_nil]

/-- A path followed by a gap and other paths. -/
theorem scanString_path' (ts : List Tok) (g : Gap) (r : Bytes) (h : wfToks true ts) (hg : Gap.spaced g) (hrs : Solid r) :
    scanString true (toks ts ++ (g.written ++ r)) = .ok (parts ts, r) := by
  have hst : Stops true (g.written ++ r) := by
    cases g with
    | nil => cases hg
    | cons b g =>
      simp only [Gap.spaced, List.head?_cons, Option.some.injEq] at hg
      subst hg
      exact Or.inr ⟨32, Gap.written g ++ r, by simp [Gap.written, Blank.written, asc_sp], Or.inr (Or.inr ⟨rfl, by simp⟩)⟩
  obtain ⟨ps', buf', h1, h2⟩ := scanLoop_toks true (g.written ++ r) hst (fun h => by cases h) ts
    ((toks ts ++ (g.written ++ r)).length + 1) [] [] h (by simp; omega)
  unfold scanString
  rw [h1]
  simp only [if_true, space_gap g r hrs]
  rw [h2]
  simp [joinLit_nil]

theorem joinLit_ne (c : UInt8) (ps : List Part) : joinLit [c] ps ≠ [] := by
  unfold joinLit
  rcases ps with _ | ⟨p, ps⟩
  · simp
  · cases p <;> simp

theorem parts_ne (ts : List Tok) (hs : wfStart ts) (hne : ts ≠ []) : parts ts ≠ [] := by
  cases ts with
  | nil => exact absurd rfl hne
  | cons t ts =>
    cases t with
    | chr c => exact joinLit_ne c _
    | esc c => exact joinLit_ne c _
    | braced v => simp [parts]
    | bare v => simp [parts]
    | cont e g => exact absurd rfl (hs.2 e g)

theorem paths_solid (ps : WPaths) (r : Bytes) (h : ps.wf) (hr : ps = [] → Solid r) : Solid (ps.written ++ r) := by
  cases ps with
  | nil => simpa [WPaths.written] using hr rfl
  | cons p ps =>
    have hp : wfPath p.1 := by
      cases ps with
      | nil => exact h.1
      | cons q ps => exact h.1
    have e : WPaths.written (p :: ps) = toks p.1 ++ (p.2.written ++ WPaths.written ps) := by simp [WPaths.written]
    rw [e, List.append_assoc]
    exact toks_solid true p.1 _ hp.1 hp.2.1 (fun h => absurd h hp.2.2)

theorem toks_length (ts : List Tok) (path : Bool) (h : wfToks path ts) (hne : ts ≠ []) : 1 ≤ (toks ts).length := by
  cases ts with
  | nil => exact absurd rfl hne
  | cons t ts =>
    rw [toks_cons, List.length_append]
    cases t <;> simp [Tok.written, asc_brace, asc_dollar] <;> omega

/-- A list of paths. -/
theorem scanPaths_written (ps : WPaths) (r : Bytes) (h : ps.wf) (hr : Stops true r) (hrs : Solid r) :
    scanPaths (ps.written ++ r) = .ok (ps.meaning, r) := by
  have key : ∀ (ps : WPaths) (f : Nat), ps.wf → ps.length < f → scanPathsLoop f (ps.written ++ r) = .ok (ps.meaning, r) := by
    intro ps
    induction ps with
    | nil =>
      intro f _ hf
      obtain ⟨k, rfl⟩ : ∃ k, f = k + 1 := ⟨f - 1, by simp at hf; omega⟩
      rw [scanPathsLoop]
      have := scanString_path [] [] r trivial (Or.inl rfl) hr hrs
      simp only [toks, Gap.written, List.flatMap_nil, List.nil_append, parts] at this
      simp [WPaths.written, this, WPaths.meaning]
    | cons p ps ih =>
      intro f hw hf
      obtain ⟨k, rfl⟩ : ∃ k, f = k + 1 := ⟨f - 1, by simp at hf; omega⟩
      simp only [List.length_cons] at hf
      have hp : wfPath p.1 := by
        cases ps with
        | nil => exact hw.1
        | cons q ps => exact hw.1
      have hws : WPaths.wf ps := by
        cases ps with
        | nil => trivial
        | cons q ps => exact hw.2.2
      have e : WPaths.written (p :: ps) = toks p.1 ++ (p.2.written ++ WPaths.written ps) := by simp [WPaths.written]
      have hscan : scanString true (WPaths.written (p :: ps) ++ r) = .ok (parts p.1, WPaths.written ps ++ r) := by
        rw [e, List.append_assoc, List.append_assoc]
        cases ps with
        | nil => simpa [WPaths.written] using scanString_path p.1 p.2 r hp.1 hw.2 hr hrs
        | cons q ps => exact scanString_path' p.1 p.2 _ hp.1 hw.2.1 (paths_solid _ r hws (fun h => by cases h))
      rw [scanPathsLoop, hscan]
      have hne := parts_ne p.1 hp.2.1 hp.2.2
      cases hq : parts p.1 with
      | nil => exact absurd hq hne
      | cons x xs =>
        simp only []
        rw [ih k hws (by omega)]
        simp [WPaths.meaning, hq]
  refine key ps _ h ?_
  have : ps.length ≤ (WPaths.written ps).length := by
    clear key
    induction ps with
    | nil => simp
    | cons p ps ih =>
      have hp : wfPath p.1 := by
        cases ps with
        | nil => exact h.1
        | cons q ps => exact h.1
      have hws : WPaths.wf ps := by
        cases ps with
        | nil => trivial
        | cons q ps => exact h.2.2
      have e : WPaths.written (p :: ps) = toks p.1 ++ (p.2.written ++ WPaths.written ps) := by simp [WPaths.written]
      have := toks_length p.1 true hp.1 hp.2.2
      rw [e, List.length_append, List.length_append, List.length_cons]
      have := ih hws
      omega
  rw [List.length_append]; omega

end Muon.Manifest
