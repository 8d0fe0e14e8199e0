import Verif.Esc.Model
import Verif.Esc.Spec
namespace Muon.Esc
open Muon Spec

/-! Helper lemmas for `Verif.Esc.Props`. -/

/-! ### Shell reading -/

/-- Quoting of the inside of a single-quoted string. -/
def quoteBody (s : Bytes) : Bytes := s.flatMap fun c => if c = 39 then [39, 92, 39, 39] else [c]

theorem quoteBody_cons (c : UInt8) (s : Bytes) :
    quoteBody (c :: s) = (if c = 39 then [39, 92, 39, 39] else [c]) ++ quoteBody s := by simp [quoteBody]

theorem read_quoteBody (ws : List Bytes) (r : Bytes) (s : Bytes) : ∀ a,
    readWords (some a) .quoted ws (quoteBody s ++ 39 :: r) = readWords (some (a ++ s)) .plain ws r := by
  induction s with
  | nil => intro a; simp [quoteBody, readWords]
  | cons c s ih =>
    intro a
    rw [quoteBody_cons]
    by_cases hc : c = 39
    · subst hc
      rw [if_pos rfl]
      simp only [List.cons_append, List.nil_append]
      simp only [readWords, if_true, if_neg (show ¬ ((92 : UInt8) = 39) by decide), if_neg (show ¬ ((39 : UInt8) = 10) by decide),
        Option.getD_some]
      rw [ih]
      simp
    · rw [if_neg hc]
      simp only [List.cons_append, List.nil_append]
      rw [readWords]
      simp only [if_neg hc, Option.getD_some]
      rw [ih]
      simp

/-- A character read as itself inside a word. -/
def Ordinary (c : UInt8) : Prop := c ≠ 39 ∧ c ≠ 92 ∧ c ≠ 32 ∧ c ≠ 9 ∧ c ∉ special

theorem read_ordinary (ws : List Bytes) (r : Bytes) (s : Bytes) (h : ∀ c ∈ s, Ordinary c) : ∀ a,
    readWords (some a) .plain ws (s ++ r) = readWords (some (a ++ s)) .plain ws r := by
  induction s with
  | nil => intro a; simp
  | cons c s ih =>
    intro a
    obtain ⟨h1, h2, h3, h4, h5⟩ := h c (by simp)
    rw [List.cons_append, readWords, if_neg h1, if_neg h2, if_neg (by simp [h3, h4]), if_neg h5,
      if_neg (by simp), Option.getD_some, ih (fun d hd => h d (by simp [hd]))]
    simp

/-- Text that is read as exactly the word `s`, whatever follows. -/
def Reads (t s : Bytes) : Prop := ∀ ws r, readWords none .plain ws (t ++ r) = readWords (some s) .plain ws r

theorem reads_quoted (s : Bytes) : Reads ([39] ++ quoteBody s ++ [39]) s := by
  intro ws r
  have : [39] ++ quoteBody s ++ [39] ++ r = 39 :: (quoteBody s ++ 39 :: r) := by simp
  rw [this, readWords, if_pos rfl, Option.getD_none, read_quoteBody]
  simp

theorem reads_ordinary (c : UInt8) (s : Bytes) (h : ∀ d ∈ c :: s, Ordinary d) (hc : c ∉ specialFirst) : Reads (c :: s) (c :: s) := by
  intro ws r
  obtain ⟨h1, h2, h3, h4, h5⟩ := h c (by simp)
  rw [List.cons_append, readWords, if_neg h1, if_neg h2, if_neg (by simp [h3, h4]), if_neg h5,
    if_neg (by simp [hc]), read_ordinary ws r s (fun d hd => h d (by simp [hd]))]
  simp

theorem Reads.words {t s : Bytes} (h : Reads t s) : shellWords t = some [s] := by
  have := h [] []
  rw [List.append_nil] at this
  unfold shellWords
  rw [this]; simp [readWords]

/-- Words separated by spaces. -/
theorem read_words (f : Bytes → Bytes) : ∀ (args : List Bytes) (ws : List Bytes), (∀ a ∈ args, Reads (f a) a) →
    readWords none .plain ws (((args.map f).intersperse [32]).flatten) = some (ws ++ args) := by
  intro args
  induction args with
  | nil => intro ws _; simp [readWords]
  | cons a args ih =>
    intro ws h
    have ha := h a (by simp)
    cases args with
    | nil =>
      have := ha ws []
      simp only [List.append_nil] at this
      simp [this, readWords]
    | cons b args =>
      have hb := ih (ws ++ [a]) (fun x hx => h x (by simp [hx]))
      rw [List.map_cons, List.map_cons, List.intersperse_cons_cons, ← List.map_cons, List.flatten_cons, List.flatten_cons,
        ha ws, List.cons_append, List.nil_append, readWords, if_neg (by decide), if_neg (by decide), if_pos (Or.inl rfl)]
      simp only [Option.toList_some]
      rw [hb]; simp

theorem read_special (s : Bytes) : ∀ cur ws, 39 ∉ s → 92 ∉ s → (∃ c ∈ s, c ∈ special) → readWords cur .plain ws s = none := by
  induction s with
  | nil => intro cur ws _ _ h; simp at h
  | cons c s ih =>
    intro cur ws h1 h2 h3
    simp only [List.mem_cons, not_or] at h1 h2
    rw [readWords, if_neg (fun e => h1.1 e.symm), if_neg (fun e => h2.1 e.symm)]
    have hr : c ∉ special → ∃ d ∈ s, d ∈ special := by
      intro hc
      obtain ⟨d, hd, hs⟩ := h3
      rcases List.mem_cons.1 hd with rfl | hd
      · exact absurd hs hc
      · exact ⟨d, hd, hs⟩
    split
    · next hb =>
      exact ih _ _ h1.2 h2.2 (hr (by rcases hb with rfl | rfl <;> decide))
    · split
      · rfl
      · next hc =>
        split
        · rfl
        · exact ih _ _ h1.2 h2.2 (hr hc)

theorem read_tab (s : Bytes) : ∀ cur ws r, 39 ∉ s → 92 ∉ s → (∀ w ∈ ws, 9 ∉ w) → (∀ w, cur = some w → 9 ∉ w) →
    readWords cur .plain ws s = some r → ∀ w ∈ r, 9 ∉ w := by
  induction s with
  | nil =>
    intro cur ws r _ _ hw hc h
    simp only [readWords, Option.some.injEq] at h
    subst h
    intro w hm
    rcases List.mem_append.1 hm with hm | hm
    · exact hw w hm
    · exact hc w (by simpa using hm)
  | cons c s ih =>
    intro cur ws r h1 h2 hw hc h
    simp only [List.mem_cons, not_or] at h1 h2
    rw [readWords, if_neg (fun e => h1.1 e.symm), if_neg (fun e => h2.1 e.symm)] at h
    split at h
    · refine ih _ _ _ h1.2 h2.2 ?_ (by simp) h
      intro w hm
      rcases List.mem_append.1 hm with hm | hm
      · exact hw w hm
      · exact hc w (by simpa using hm)
    · next hb =>
      split at h
      · cases h
      · split at h
        · cases h
        · refine ih _ _ _ h1.2 h2.2 hw ?_ h
          intro w he
          cases he
          intro hm
          rcases List.mem_append.1 hm with hm | hm
          · cases hcur : cur with
            | none => rw [hcur] at hm; simp at hm
            | some w => rw [hcur] at hm; exact hc w hcur (by simpa using hm)
          · exact hb (Or.inr (List.mem_singleton.1 hm).symm)

/-! ### simple_escape -/

def escText (need : Bytes) (esc : UInt8) (s : Bytes) : Bytes := s.flatMap fun c => if c ∈ need then [esc, c] else [c]

theorem escText_cons (need : Bytes) (esc c : UInt8) (s : Bytes) :
    escText need esc (c :: s) = (if c ∈ need then [esc, c] else [c]) ++ escText need esc s := by simp [escText]

theorem simpleEscape_ok (need : Bytes) (esc : UInt8) (s : Bytes) (h : 10 ∈ need ∨ 10 ∉ s) :
    simpleEscape need esc s = .ok (escText need esc s) := by
  induction s with
  | nil => rfl
  | cons c s ih =>
    have hs : 10 ∈ need ∨ 10 ∉ s := by
      rcases h with h | h
      · exact Or.inl h
      · exact Or.inr (fun hm => h (by simp [hm]))
    rw [simpleEscape, escText_cons, ih hs]
    by_cases hc : c ∈ need
    · rw [if_pos (by simpa using hc), if_pos hc]; rfl
    · rw [if_neg (by simpa using hc), if_neg hc, if_neg]
      · rfl
      · rintro rfl
        rcases h with h | h
        · exact hc h
        · exact h (by simp)

theorem simpleEscape_bad (need : Bytes) (esc : UInt8) (s : Bytes) (h : 10 ∉ need) (hs : 10 ∈ s) :
    simpleEscape need esc s = .bad := by
  induction s with
  | nil => simp at hs
  | cons c s ih =>
    rw [simpleEscape]
    by_cases hc : c ∈ need
    · rw [if_pos (by simpa using hc), ih]
      rcases List.mem_cons.1 hs with rfl | hs
      · exact absurd hc h
      · exact hs
    · rw [if_neg (by simpa using hc)]
      split
      · rfl
      · next h10 =>
        rw [ih]
        rcases List.mem_cons.1 hs with rfl | hs
        · exact absurd rfl h10
        · exact hs

theorem joinArgsFrom_ok (esc : Bytes → Res Bytes) (f : Bytes → Bytes) (len : Nat) : ∀ (args : List Bytes) (i : Nat) (o : Bytes),
    (∀ a ∈ args, esc a = .ok (f a)) → i + args.length = len →
    joinArgsFrom esc len i args o = .ok (o ++ ((args.map f).intersperse [32]).flatten) := by
  intro args
  induction args with
  | nil => intro i o _ _; simp [joinArgsFrom]
  | cons a args ih =>
    intro i o h hl
    rw [joinArgsFrom, h a (by simp)]
    simp only [List.length_cons] at hl ⊢
    rw [ih (i + 1) _ (fun x hx => h x (by simp [hx])) (by omega)]
    cases args with
    | nil =>
      simp only [List.length_nil] at hl
      rw [if_neg (by omega)]; simp
    | cons b args =>
      simp only [List.length_cons] at hl
      rw [if_pos (by omega)]; simp

/-! ### Scanner -/

theorem newline_length (r : Bytes) (b : Bool) (r' : Bytes) (h : newline r = .ok (b, r')) : r'.length ≤ r.length := by
  unfold newline at h
  split at h <;> simp at h <;> obtain ⟨_, rfl⟩ := h <;> simp <;> omega

theorem newline_true_length (c : UInt8) (r : Bytes) (hc : c = 13 ∨ c = 10) (b : Bool) (r' : Bytes)
    (h : newline (c :: r) = .ok (b, r')) : r'.length ≤ r.length := by
  unfold newline at h
  split at h
  · next e => simp at h; obtain ⟨_, rfl⟩ := h; cases e; simp
  · cases h
  · next e => simp at h; obtain ⟨_, rfl⟩ := h; cases e; simp
  · next h1 h2 h3 =>
    rcases hc with rfl | rfl
    · exact absurd rfl (h2 _)
    · exact absurd rfl (h3 _)

theorem space_length (r : Bytes) : ∀ b r', space r = .ok (b, r') → r'.length ≤ r.length + 1 := by
  induction r using space.induct with
  | case1 r r2 fst h ih =>
    intro b r' hs; rw [space, h] at hs; cases hs; have := ih _ _ h; simp; omega
  | case2 r h ih =>
    intro b r' hs
    rw [space] at hs
    split at hs
    · next e => exact absurd e (h _ _)
    · next => have := ih _ _ hs; simp; omega
  | case3 r r2 fst h ih =>
    intro b r' hs; rw [space, h] at hs; cases hs; have := ih _ _ h; simp; omega
  | case4 r h ih =>
    intro b r' hs
    rw [space] at hs
    split at hs
    · next e => exact absurd e (h _ _)
    · have := ih _ _ hs; simp; omega
  | case5 r r2 fst h ih =>
    intro b r' hs; rw [space, h] at hs; cases hs; have := ih _ _ h; simp; omega
  | case6 r h ih =>
    intro b r' hs
    rw [space] at hs
    split at hs
    · next e => exact absurd e (h _ _)
    · have := ih _ _ hs; simp; omega
  | case7 r h => intro b r' hs; rw [space] at hs <;> simp_all
  | case8 => intro b r' hs; simp [space] at hs; simp [← hs.2]
  | case9 r h1 h2 h3 h4 h5 =>
    intro b r' hs
    rw [space] at hs <;> simp_all

theorem escape_length (parts : List Part) (buf r : Bytes) (p : List Part) (b r' : Bytes)
    (h : escape parts buf r = .ok (p, b, r')) : r'.length ≤ r.length := by
  unfold escape at h
  split at h
  · cases h
  · next c t =>
    split at h
    · cases h; simp
    · split at h
      · split at h
        · next e =>
          cases h
          have := (List.dropWhile_suffix (l := t) isVar).length_le
          rw [e] at this; simp at this ⊢; omega
        · cases h
      · split at h
        · next hc =>
          split at h
          · next hn =>
            split at h
            · next hs =>
              cases h
              have h1 := newline_true_length c t hc _ _ hn
              have h2 := space_length _ _ _ hs
              simp; omega
            · cases h
          · cases h
        · split at h
          · cases h
          · cases h
            exact (List.dropWhile_suffix (l := c :: t) isSimpleVar).length_le

theorem escape_ne_bad (parts : List Part) (buf r : Bytes) : escape parts buf r ≠ .bad := by
  unfold escape
  split
  · simp
  · split
    · simp
    · split
      · split <;> simp
      · split
        · split
          · split <;> simp
          · simp
        · split <;> simp

theorem chr_cons {r : Bytes} {c : UInt8} (h : chr r = some c) : ∃ t, r = c :: t ∧ c ≠ 255 := by
  cases r with
  | nil => cases h
  | cons d t =>
    rw [chr] at h
    by_cases hd : d = 255
    · rw [if_pos hd] at h; cases h
    · rw [if_neg hd] at h
      simp only [Option.some.injEq] at h
      subst h; exact ⟨t, rfl, hd⟩

/-- The bound on the iterations of `scanLoop` is never reached. -/
theorem scanLoop_enough (path : Bool) : ∀ (fuel : Nat) (parts : List Part) (buf r : Bytes), r.length < fuel →
    scanLoop path fuel parts buf r ≠ .bad := by
  intro fuel
  induction fuel with
  | zero => intro _ _ _ h; omega
  | succ n ih =>
    intro parts buf r h
    rw [scanLoop]
    split
    · simp
    · next c hc =>
      obtain ⟨t, rfl, _⟩ := chr_cons hc
      simp only [List.length_cons] at h
      split
      · split
        · next he =>
          have := escape_length _ _ _ _ _ _ he
          simp only [List.drop_succ_cons, List.drop_zero] at this
          exact ih _ _ _ (by omega)
        · simp
        · next he => exact absurd he (escape_ne_bad _ _ _)
      · split
        · simp
        · split
          · simp
          · simp only [List.drop_succ_cons, List.drop_zero]
            exact ih _ _ _ (by omega)

/-- Scanning escaped text. -/
theorem scanLoop_text (path : Bool) (need : Bytes) (hneed : ∀ c ∈ need, c = 36 ∨ c = 32 ∨ c = 58) (hd : 36 ∈ need)
    (hp : path = true → 32 ∈ need ∧ 58 ∈ need) (r : Bytes) (s : Bytes) :
    ∀ (fuel : Nat) (parts : List Part) (buf : Bytes),
    (∀ c ∈ s, c ≠ 10 ∧ c ≠ 13 ∧ c ≠ 255 ∧ (path = true → c ≠ 124)) →
    scanLoop path (fuel + s.length) parts buf (escText need 36 s ++ r) = scanLoop path fuel parts (buf ++ s) r := by
  induction s with
  | nil => intro fuel parts buf _; simp [escText]
  | cons c s ih =>
    intro fuel parts buf h
    obtain ⟨h1, h2, h3, h4⟩ := h c (by simp)
    rw [escText_cons, List.length_cons, ← Nat.add_assoc, scanLoop]
    by_cases hc : c ∈ need
    · rw [if_pos hc]
      have hchr : chr ([36, c] ++ escText need 36 s ++ r) = some 36 := by simp [chr]
      rw [hchr]
      simp only [if_true, List.cons_append, List.drop_succ_cons, List.drop_zero, List.nil_append]
      rw [escape, if_pos (hneed c hc)]
      simp only []
      rw [ih _ _ _ (fun d hd => h d (by simp [hd]))]
      simp
    · rw [if_neg hc]
      have hchr : chr ([c] ++ escText need 36 s ++ r) = some c := by simp [chr, h3]
      rw [hchr]
      simp only [List.cons_append, List.drop_succ_cons, List.drop_zero, List.nil_append]
      rw [if_neg (by rintro rfl; exact hc hd), if_neg (by simp [h1, h2]), if_neg]
      · rw [ih _ _ _ (fun d hd => h d (by simp [hd]))]; simp
      · rintro ⟨hpath, rfl | rfl | rfl⟩
        · exact hc (hp hpath).2
        · exact h4 hpath rfl
        · exact hc (hp hpath).1

/-- Where a string ends. -/
def Stops (path : Bool) (r : Bytes) : Prop :=
  r = [] ∨ ∃ c t, r = c :: t ∧ (c = 10 ∨ c = 13 ∨ (path = true ∧ (c = 58 ∨ c = 124 ∨ c = 32)))

theorem scanLoop_stop (path : Bool) (fuel : Nat) (parts : List Part) (buf r : Bytes) (h : Stops path r) :
    scanLoop path (fuel + 1) parts buf r = .ok (parts, buf, r) := by
  rw [scanLoop]
  rcases h with rfl | ⟨c, t, rfl, h⟩
  · rfl
  · have h255 : c ≠ 255 ∧ c ≠ 36 := by
      rcases h with rfl | rfl | ⟨_, rfl | rfl | rfl⟩ <;> decide
    have : chr (c :: t) = some c := by simp [chr, h255.1]
    rw [this]
    simp only []
    rw [if_neg h255.2]
    rcases h with rfl | rfl | ⟨hp, h⟩
    · rw [if_pos (Or.inr rfl)]
    · rw [if_pos (Or.inl rfl)]
    · split
      · rfl
      · rw [if_pos ⟨hp, h⟩]

theorem scanLoop_escaped (path : Bool) (need : Bytes) (hneed : ∀ c ∈ need, c = 36 ∨ c = 32 ∨ c = 58) (hd : 36 ∈ need)
    (hp : path = true → 32 ∈ need ∧ 58 ∈ need) (r : Bytes) (s : Bytes)
    (h : ∀ c ∈ s, c ≠ 10 ∧ c ≠ 13 ∧ c ≠ 255 ∧ (path = true → c ≠ 124)) (hr : Stops path r) :
    scanLoop path ((escText need 36 s ++ r).length + 1) [] [] (escText need 36 s ++ r) = .ok ([], s, r) := by
  have hl : s.length ≤ (escText need 36 s).length := by
    clear h
    induction s with
    | nil => simp
    | cons c s ih => rw [escText_cons, List.length_append]; split <;> simp <;> omega
  obtain ⟨k, hk⟩ : ∃ k, (escText need 36 s ++ r).length + 1 = (k + 1) + s.length :=
    ⟨(escText need 36 s ++ r).length - s.length, by simp; omega⟩
  rw [hk, scanLoop_text path need hneed hd hp r s _ _ _ h, scanLoop_stop path k _ _ _ hr]
  simp

theorem ninjaNeed : ∀ c ∈ ([32, 58, 36] : Bytes), c = 36 ∨ c = 32 ∨ c = 58 := by decide
theorem shellNinjaNeed : ∀ c ∈ ([36] : Bytes), c = 36 ∨ c = 32 ∨ c = 58 := by decide

/-- Skipping a single space before an escaped path. -/
theorem space_escText (c : UInt8) (s r : Bytes) (h : c ≠ 10 ∧ c ≠ 13) :
    space (32 :: (escText [32, 58, 36] 36 (c :: s) ++ r)) = .ok (true, escText [32, 58, 36] 36 (c :: s) ++ r) := by
  have key : space (escText [32, 58, 36] 36 (c :: s) ++ r) = .ok (false, escText [32, 58, 36] 36 (c :: s) ++ r) := by
    rw [escText_cons]
    by_cases hc : c ∈ ([32, 58, 36] : Bytes)
    · rw [if_pos hc]
      simp only [List.cons_append, List.nil_append]
      rw [space] <;> simp [h.1, h.2]
    · rw [if_neg hc]
      simp only [List.cons_append, List.nil_append]
      simp at hc
      rw [space] <;> simp [hc]
  rw [space, key]

end Muon.Esc
