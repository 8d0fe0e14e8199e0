import Verif.Str.Lemmas
namespace Muon.Str
open Muon Spec

/-! Helper lemmas about `string_format` (C11). -/

theorem closing_esc (r : Bytes) : closing (92 :: 64 :: r) = none := by simp [closing]
theorem closing_at (r : Bytes) : closing (64 :: r) = some ([], r) := by
  rw [closing.eq_3]
theorem closing_char (c : UInt8) (r : Bytes) (h1 : c ≠ 64) (h2 : ¬ (c = 92 ∧ r.head? = some 64)) :
    closing (c :: r) = (closing r).map fun (k, r') => (c :: k, r') := by
  rw [closing]
  · intro r' h h'; subst h'; exact h2 ⟨h, rfl⟩
  · exact h1

theorem segs_nil (idx : Bytes → Option Int) : segs idx [] = [] := by rw [segs]
theorem segs_esc (idx : Bytes → Option Int) (r : Bytes) : segs idx (92 :: 64 :: r) = .char 64 :: segs idx r := by rw [segs]
theorem segs_at_none (idx : Bytes → Option Int) (r : Bytes) (h : closing r = none) :
    segs idx (64 :: r) = .char 64 :: segs idx r := by
  rw [segs.eq_3]; split
  · next h' => rw [h] at h'; cases h'
  · rfl
theorem segs_at_skip (idx : Bytes → Option Int) (r k r' : Bytes) (h : closing r = some (k, r')) (hk : idx k = none) :
    segs idx (64 :: r) = .char 64 :: segs idx r := by
  rw [segs.eq_3]; split
  · next h' => rw [h] at h'; cases h'; simp [hk]
  · rfl
theorem segs_at_ref (idx : Bytes → Option Int) (r k r' : Bytes) (n : Int) (h : closing r = some (k, r')) (hk : idx k = some n) :
    segs idx (64 :: r) = .ref n :: segs idx r' := by
  rw [segs.eq_3]; split
  · next h' => rw [h] at h'; cases h'; simp [hk]
  · next h' => rw [h] at h'; cases h'
theorem segs_char (idx : Bytes → Option Int) (c : UInt8) (r : Bytes) (h1 : c ≠ 64) (h2 : ¬ (c = 92 ∧ r.head? = some 64)) :
    segs idx (c :: r) = .char c :: segs idx r := by
  rw [segs]
  · intro r' h h'; subst h'; exact h2 ⟨h, rfl⟩
  · exact h1

theorem int_esc (idx : Bytes → Option Int) (r : Bytes) : interrupted idx (92 :: 64 :: r) = interrupted idx r := by rw [interrupted]
theorem int_at_none (idx : Bytes → Option Int) (r : Bytes) (h : closing r = none) :
    interrupted idx (64 :: r) = interrupted.hasEsc r := by
  rw [interrupted.eq_3]; split
  · next h' => rw [h] at h'; cases h'
  · rfl
theorem int_at_skip (idx : Bytes → Option Int) (r k r' : Bytes) (h : closing r = some (k, r')) (hk : idx k = none) :
    interrupted idx (64 :: r) = interrupted idx r := by
  rw [interrupted.eq_3]; split
  · next h' => rw [h] at h'; cases h'; simp [hk]
  · next h' => rw [h] at h'; cases h'
theorem int_at_ref (idx : Bytes → Option Int) (r k r' : Bytes) (n : Int) (h : closing r = some (k, r')) (hk : idx k = some n) :
    interrupted idx (64 :: r) = interrupted idx r' := by
  rw [interrupted.eq_3]; split
  · next h' => rw [h] at h'; cases h'; simp [hk]
  · next h' => rw [h] at h'; cases h'
theorem int_char (idx : Bytes → Option Int) (c : UInt8) (r : Bytes) (h1 : c ≠ 64) (h2 : ¬ (c = 92 ∧ r.head? = some 64)) :
    interrupted idx (c :: r) = interrupted idx r := by
  rw [interrupted]
  · intro r' h h'; subst h'; exact h2 ⟨h, rfl⟩
  · exact h1

theorem hasEsc_esc (r : Bytes) : interrupted.hasEsc (92 :: 64 :: r) = true := by rw [interrupted.hasEsc]
theorem hasEsc_char (c : UInt8) (r : Bytes) (h2 : ¬ (c = 92 ∧ r.head? = some 64)) :
    interrupted.hasEsc (c :: r) = interrupted.hasEsc r := by
  rw [interrupted.hasEsc]
  intro r' h h'; cases h'; exact h2 ⟨h, rfl⟩

/-- Case analysis on the beginning of a template. -/
theorem tmpl_cases (s : Bytes) : s = [] ∨ (∃ r, s = 92 :: 64 :: r) ∨ (∃ r, s = 64 :: r) ∨
    ∃ c r, s = c :: r ∧ c ≠ 64 ∧ ¬ (c = 92 ∧ r.head? = some 64) := by
  cases s with
  | nil => left; rfl
  | cons c r =>
    right
    by_cases h1 : c = 64
    · right; left; exact ⟨r, by rw [h1]⟩
    · by_cases h2 : c = 92 ∧ r.head? = some 64
      · left
        cases r with
        | nil => simp at h2
        | cons d r => simp at h2; exact ⟨r, by rw [h2.1, h2.2]⟩
      · right; right; exact ⟨c, r, rfl, h1, h2⟩

theorem closing_spec (r : Bytes) : ∀ k r', closing r = some (k, r') → r = k ++ 64 :: r' ∧ 64 ∉ k := by
  induction r with
  | nil => intro k r' h; simp [closing] at h
  | cons c r ih =>
    intro k r' h
    rcases tmpl_cases (c :: r) with h0 | ⟨t, h0⟩ | ⟨t, h0⟩ | ⟨c', t, h0, h1, h2⟩
    · cases h0
    · cases h0; rw [closing_esc] at h; cases h
    · cases h0; rw [closing_at] at h; cases h; simp
    · cases h0
      rw [closing_char c r h1 h2] at h
      simp only [Option.map_eq_some_iff] at h
      obtain ⟨⟨k0, r0⟩, hc, he⟩ := h
      cases he
      obtain ⟨e, hn⟩ := ih k0 r0 hc
      refine ⟨by rw [e]; rfl, ?_⟩
      simp only [List.mem_cons, not_or]
      exact ⟨fun e => h1 e.symm, hn⟩

theorem drop_cons_facts {s : Bytes} {p : Nat} {c : UInt8} {r : Bytes} (h : s.drop p = c :: r) :
    p < s.length ∧ at' s p = c ∧ s.drop (p + 1) = r ∧ at' s (p + 1) = r.headD 0 := by
  have hlt : p < s.length := by
    by_cases hlt : p < s.length
    · exact hlt
    · rw [List.drop_of_length_le (by omega)] at h; cases h
  rw [List.drop_eq_getElem_cons hlt] at h
  cases h
  refine ⟨hlt, at'_eq s p hlt, rfl, ?_⟩
  unfold at'
  cases hd : s.drop (p + 1) with
  | nil =>
    have := congrArg List.length hd
    simp at this
    rw [List.getD_eq_getElem?_getD, List.getElem?_eq_none (by omega)]; rfl
  | cons d t =>
    have : s[p + 1]? = some d := by
      rw [← List.head?_drop, hd]; rfl
    rw [List.getD_eq_getElem?_getD, this]; rfl

/-- One step over an ordinary character. -/
theorem fmt_plain (s : Bytes) (cb : Nat → Nat → CbResult) (i idS idE : Nat) (rd : Bool) (res : Bytes) (c : UInt8) (r : Bytes)
    (h : s.drop i = c :: r) (h1 : c ≠ 64) (h2 : ¬ (c = 92 ∧ r.head? = some 64)) :
    fmtStep s cb ⟨i, idS, idE, rd, res⟩ = .inl ⟨i + 1, idS, idE, rd, res⟩ := by
  obtain ⟨hlt, ha, _, ha'⟩ := drop_cons_facts h
  unfold fmtStep
  simp only [hlt, if_true, ha, h1, if_false]
  have : ¬ (c = 92 ∧ at' s (i + 1) = 64) := by
    rw [ha']
    rintro ⟨e1, e2⟩
    refine h2 ⟨e1, ?_⟩
    cases r with
    | nil => simp at e2
    | cons d t => simp at e2; simp [e2]
  rw [if_neg this]

theorem fmt_scan (s : Bytes) (cb : Nat → Nat → CbResult) (idS idE : Nat) (res : Bytes) (o : Option Bytes) (k r' : Bytes) :
    ∀ i, closing (s.drop i) = some (k, r') → Loop (fmtStep s cb) ⟨i + k.length, idS, idE, true, res⟩ o →
      Loop (fmtStep s cb) ⟨i, idS, idE, true, res⟩ o := by
  induction k with
  | nil => intro i _ h; simpa using h
  | cons c k ih =>
    intro i hc hl
    rcases tmpl_cases (s.drop i) with h0 | ⟨t, h0⟩ | ⟨t, h0⟩ | ⟨c', t, h0, h1, h2⟩
    · rw [h0] at hc; simp [closing] at hc
    · rw [h0, closing_esc] at hc; cases hc
    · rw [h0, closing_at] at hc; cases hc
    · rw [h0, closing_char c' t h1 h2] at hc
      simp only [Option.map_eq_some_iff] at hc
      obtain ⟨⟨k0, r0⟩, hc', he⟩ := hc
      cases he
      obtain ⟨_, _, hd, _⟩ := drop_cons_facts h0
      refine .next (fmt_plain s cb i idS idE true res _ t h0 h1 h2) (ih (i + 1) (by rw [hd]; exact hc') ?_)
      have e : ∀ x, i + 1 + x = i + (x + 1) := by intro x; omega
      rw [e]
      simpa using hl

theorem fmt_scan_end (s : Bytes) (cb : Nat → Nat → CbResult) (idS idE : Nat) (res : Bytes) (o : Option Bytes) (n : Nat) :
    ∀ i, s.length - i = n → i ≤ s.length → closing (s.drop i) = none → interrupted.hasEsc (s.drop i) = false →
      Loop (fmtStep s cb) ⟨s.length, idS, idE, true, res⟩ o → Loop (fmtStep s cb) ⟨i, idS, idE, true, res⟩ o := by
  induction n with
  | zero => intro i hn hi _ _ h; rw [show i = s.length by omega]; exact h
  | succ n ih =>
    intro i hn hi hc he hl
    rcases tmpl_cases (s.drop i) with h0 | ⟨t, h0⟩ | ⟨t, h0⟩ | ⟨c', t, h0, h1, h2⟩
    · have := congrArg List.length h0; simp at this; omega
    · rw [h0, hasEsc_esc] at he; cases he
    · rw [h0, closing_at] at hc; cases hc
    · rw [h0, closing_char c' t h1 h2] at hc
      rw [h0, hasEsc_char c' t h2] at he
      obtain ⟨_, _, hd, _⟩ := drop_cons_facts h0
      refine .next (fmt_plain s cb i idS idE true res _ t h0 h1 h2) (ih (i + 1) (by omega) (by omega) ?_ ?_ hl)
      · rw [hd]; simpa using hc
      · rw [hd]; exact he

theorem segs_plain (idx : Bytes → Option Int) (arg : Int → Option Bytes) (r : Bytes) (hc : closing r = none)
    (he : interrupted.hasEsc r = false) : subst arg (segs idx r) = some r := by
  induction r with
  | nil => rw [segs_nil]; rfl
  | cons c r ih =>
    rcases tmpl_cases (c :: r) with h0 | ⟨t, h0⟩ | ⟨t, h0⟩ | ⟨c', t, h0, h1, h2⟩
    · cases h0
    · rw [h0, hasEsc_esc] at he; cases he
    · rw [h0, closing_at] at hc; cases hc
    · cases h0
      rw [closing_char c r h1 h2] at hc
      rw [hasEsc_char c r h2] at he
      rw [segs_char idx c r h1 h2]
      simp only [subst]
      rw [ih (by simpa using hc) he]; rfl

/-- The callback answers according to `idx` and `arg` for keys that follow an `@`. -/
def CbOk (s : Bytes) (cb : Nat → Nat → CbResult) (idx : Bytes → Option Int) (arg : Int → Option Bytes) : Prop :=
  ∀ p k rest, at' s (p - 1) = 64 → 1 ≤ p → s.drop p = k ++ 64 :: rest → 64 ∉ k → k ≠ [] →
    match idx k with
    | none => cb p k.length = .skip
    | some n => match arg n with
      | some v => cb p k.length = .found v
      | none => cb p k.length = .error

theorem slice_succ (s : Bytes) (q p : Nat) (c : UInt8) (r : Bytes) (hq : q ≤ p) (h : s.drop p = c :: r) :
    slice s q (p + 1 - q) = slice s q (p - q) ++ [c] := by
  have h1 := drop_eq_slice_append s q p hq
  have h2 := drop_eq_slice_append s q (p + 1) (by omega)
  obtain ⟨_, _, hd, _⟩ := drop_cons_facts h
  rw [h, h2, hd] at h1
  have : slice s q (p - q) ++ c :: r = (slice s q (p - q) ++ [c]) ++ r := by simp
  rw [this] at h1
  exact List.append_cancel_right h1

theorem fmt_main (s : Bytes) (cb : Nat → Nat → CbResult) (idx : Bytes → Option Int) (arg : Int → Option Bytes)
    (hcb : CbOk s cb idx arg) (hidx : idx [] = none) (n : Nat) :
    (∀ p q idS res, 2 * (s.length - p) + 1 ≤ n → q ≤ p → p ≤ s.length → interrupted idx (s.drop p) = false →
      Loop (fmtStep s cb) ⟨p, idS, q, false, res⟩
        ((subst arg (segs idx (s.drop p))).map (fun t => res ++ slice s q (p - q) ++ t))) ∧
    (∀ p idE res, 2 * (s.length - p) + 2 ≤ n → 1 ≤ p → at' s (p - 1) = 64 → p ≤ s.length →
      interrupted idx (64 :: s.drop p) = false →
      Loop (fmtStep s cb) ⟨p, p, idE, true, res⟩
        ((subst arg (segs idx (64 :: s.drop p))).map (fun t => res ++ t))) := by
  induction n with
  | zero => constructor <;> intros <;> omega
  | succ n ih =>
    obtain ⟨ihT, ihR⟩ := ih
    constructor
    · intro p q idS res hn hq hp hint
      rcases tmpl_cases (s.drop p) with h0 | ⟨t, h0⟩ | ⟨t, h0⟩ | ⟨c, t, h0, h1, h2⟩
      · have hpl : p = s.length := by have := congrArg List.length h0; simp at this; omega
        apply Loop.done
        rw [h0, segs_nil]
        unfold fmtStep
        simp only [hpl, Nat.lt_irrefl, if_false, subst]
        by_cases hgt : s.length > q
        · simp [hgt]
        · have : s.length - q = 0 := by omega
          simp [hgt, this, slice]
      · obtain ⟨hlt, ha, hd, ha'⟩ := drop_cons_facts h0
        obtain ⟨hlt', _, hd', _⟩ := drop_cons_facts hd
        rw [h0, int_esc] at hint
        have hI := ihT (p + 2) (p + 1) (p + 1) (res ++ slice s q (p - q)) (by omega) (by omega) (by omega)
          (by rw [hd']; exact hint)
        rw [hd'] at hI
        refine .next (s' := ⟨p + 2, p + 1, p + 1, false, res ++ slice s q (p - q)⟩) ?_ ?_
        · unfold fmtStep
          have e1 : ¬ ((92 : UInt8) = 64) := by decide
          simp only [hlt, if_true, ha, e1, if_false, ha', List.headD_cons, and_self]
          by_cases hp0 : p = 0
          · have : q = 0 := by omega
            simp [hp0, this, slice]
          · simp [hp0]
        · have hsl : slice s (p + 1) (p + 2 - (p + 1)) = [64] := by
            unfold slice; rw [hd, show p + 2 - (p + 1) = 1 by omega]; rfl
          rw [hsl] at hI
          rw [h0, segs_esc]
          simp only [subst, Option.map_map]
          have : ((fun t => res ++ slice s q (p - q) ++ t) ∘ fun x => (64 : UInt8) :: x) =
              (fun t => res ++ slice s q (p - q) ++ [64] ++ t) := by funext x; simp
          rw [this]; exact hI
      · obtain ⟨hlt, ha, hd, ha'⟩ := drop_cons_facts h0
        rw [h0] at hint
        rw [h0]
        have hI := ihR (p + 1) q (res ++ slice s q (p - q)) (by omega) (by omega) (by simpa using ha) (by omega)
          (by rw [hd]; exact hint)
        rw [hd] at hI
        refine .next (s' := ⟨p + 1, p + 1, q, true, res ++ slice s q (p - q)⟩) ?_ hI
        unfold fmtStep
        simp only [hlt, if_true, ha, Bool.false_eq_true, if_false]
        by_cases hp0 : p = 0
        · have : q = 0 := by omega
          simp [hp0, this, slice]
        · simp [hp0]
      · obtain ⟨hlt, _, hd, _⟩ := drop_cons_facts h0
        rw [h0, int_char idx c t h1 h2] at hint
        have hI := ihT (p + 1) q idS res (by omega) (by omega) (by omega) (by rw [hd]; exact hint)
        refine .next (fmt_plain s cb p idS q false res c t h0 h1 h2) ?_
        rw [h0, segs_char idx c t h1 h2]
        rw [hd, slice_succ s q p c t hq h0] at hI
        simp only [subst, Option.map_map]
        have : ((fun t => res ++ slice s q (p - q) ++ t) ∘ fun x => c :: x) =
            (fun t => res ++ (slice s q (p - q) ++ [c]) ++ t) := by funext x; simp
        rw [this]; exact hI
    · intro p idE res hn hp1 hat hp hint
      cases hc : closing (s.drop p) with
      | none =>
        rw [int_at_none idx _ hc] at hint
        refine fmt_scan_end s cb p idE res _ _ p rfl hp hc hint (.done ?_)
        rw [segs_at_none idx _ hc]
        simp only [subst, segs_plain idx arg _ hc hint]
        unfold fmtStep
        simp [slice_full]
      | some kr =>
        obtain ⟨k, r'⟩ := kr
        obtain ⟨hdrop, hnk⟩ := closing_spec _ k r' hc
        have hlen := congrArg List.length hdrop
        simp at hlen
        have hdk : s.drop (p + k.length) = 64 :: r' := by
          rw [← List.drop_drop, hdrop, List.drop_left]
        obtain ⟨hlt, ha, hd, _⟩ := drop_cons_facts hdk
        refine fmt_scan s cb p idE res _ k r' p hc ?_
        by_cases hk0 : k = []
        · subst hk0
          simp only [List.length_nil, Nat.add_zero, List.nil_append] at *
          rw [int_at_skip idx _ _ _ hc hidx, hdrop] at hint
          have hI := ihR (p + 1) (p + 1) (res ++ [64]) (by omega) (by omega) (by simpa using ha) (by omega)
            (by rw [hd]; exact hint)
          rw [segs_at_skip idx _ _ _ hc hidx, hdrop]
          refine .next (s' := ⟨p + 1, p + 1, p + 1, true, res ++ [64]⟩) ?_ ?_
          · unfold fmtStep; simp [hlt, ha]
          · rw [hd] at hI
            simp only [subst, Option.map_map]
            have : ((fun t => res ++ t) ∘ fun x => (64 : UInt8) :: x) = (fun t => res ++ [64] ++ t) := by funext x; simp
            rw [this]; exact hI
        · have hcb' := hcb p k r' hat hp1 hdrop hnk hk0
          have hkl : 0 < k.length := List.length_pos_iff.2 hk0
          have hne : ¬ (p + k.length = p) := by omega
          cases hi : idx k with
          | none =>
            rw [hi] at hcb'
            rw [int_at_skip idx _ _ _ hc hi] at hint
            have hI := ihT p p 0 (res ++ [64]) (by omega) (Nat.le_refl _) hp hint
            rw [segs_at_skip idx _ _ _ hc hi]
            refine .next (s' := ⟨p, 0, p, false, res ++ [64]⟩) ?_ ?_
            · unfold fmtStep
              simp only [hlt, if_true, ha, hne, if_false, Nat.add_sub_cancel_left]
              simp only [hcb']
            · simp only [subst, Option.map_map]
              have : ((fun t => res ++ t) ∘ fun x => (64 : UInt8) :: x) = (fun t => res ++ [64] ++ slice s p (p - p) ++ t) := by
                funext x; simp [slice]
              rw [this]; exact hI
          | some m =>
            rw [hi] at hcb'
            rw [int_at_ref idx _ _ _ m hc hi] at hint
            rw [segs_at_ref idx _ _ _ m hc hi]
            simp only [subst]
            cases hargm : arg m with
            | none =>
              simp only [hargm] at hcb'
              apply Loop.done
              unfold fmtStep
              simp only [hlt, if_true, ha, hne, if_false, Nat.add_sub_cancel_left]
              simp only [hcb']; rfl
            | some v =>
              simp only [hargm] at hcb'
              have hI := ihT (p + k.length + 1) (p + k.length + 1) p (res ++ v) (by omega) (Nat.le_refl _) (by omega)
                (by rw [hd]; exact hint)
              refine .next (s' := ⟨p + k.length + 1, p, p + k.length + 1, false, res ++ v⟩) ?_ ?_
              · unfold fmtStep
                simp only [hlt, if_true, ha, hne, if_false, Nat.add_sub_cancel_left]
                simp only [hcb']
              · rw [hd] at hI
                simp only [Option.bind_some, Option.map_map]
                have : ((fun t => res ++ t) ∘ fun x => v ++ x) = (fun t => res ++ v ++ slice s (p + k.length + 1) (p + k.length + 1 - (p + k.length + 1)) ++ t) := by
                  funext x; simp [slice]
                rw [this]; exact hI

/-- Formatting always terminates. -/
theorem fmt_term (s : Bytes) (cb : Nat → Nat → CbResult) (n : Nat) :
    (∀ m i idS idE res, 2 * (s.length - i) + 1 ≤ n → s.length - i ≤ m → ∃ o, Loop (fmtStep s cb) ⟨i, idS, idE, false, res⟩ o) ∧
    (∀ m i idS idE res, 2 * (s.length - idS) + 2 ≤ n → s.length - i ≤ m → idS ≤ i → idS ≤ s.length →
      ∃ o, Loop (fmtStep s cb) ⟨i, idS, idE, true, res⟩ o) := by
  induction n with
  | zero => constructor <;> intros <;> omega
  | succ n ih =>
    obtain ⟨ihT, ihR⟩ := ih
    constructor
    · intro m
      induction m with
      | zero =>
        intro i idS idE res _ hm
        exact ⟨_, .done (by unfold fmtStep; rw [if_neg (by show ¬ i < s.length; omega)])⟩
      | succ m ihm =>
        intro i idS idE res hn hm
        by_cases hlt : i < s.length
        · by_cases ha : at' s i = 64
          · obtain ⟨o, ho⟩ := ihR s.length (i + 1) (i + 1) idE (if i ≠ 0 then res ++ slice s idE (i - idE) else res) (by omega) (by omega) (Nat.le_refl _) (by omega)
            exact ⟨o, .next (by unfold fmtStep; simp only [hlt, if_true, ha, Bool.false_eq_true, if_false]) ho⟩
          · by_cases hb : at' s i = 92 ∧ at' s (i + 1) = 64
            · have hstep : fmtStep s cb ⟨i, idS, idE, false, res⟩ = .inl ⟨i + 2, i + 1, i + 1, false, if i ≠ 0 then res ++ slice s idE (i - idE) else res⟩ := by
                unfold fmtStep
                simp only [hlt, if_true]
                rw [if_neg ha, if_pos hb]
                rfl
              obtain ⟨o, ho⟩ := ihm (i + 2) (i + 1) (i + 1) _ (by omega) (by omega)
              exact ⟨o, .next hstep ho⟩
            · obtain ⟨o, ho⟩ := ihm (i + 1) idS idE res (by omega) (by omega)
              exact ⟨o, .next (by unfold fmtStep; simp only [hlt, if_true, ha, if_false, hb]) ho⟩
        · exact ⟨_, .done (by unfold fmtStep; rw [if_neg hlt])⟩
    · intro m
      induction m with
      | zero =>
        intro i idS idE res _ hm _ _
        exact ⟨_, .done (by unfold fmtStep; rw [if_neg (by show ¬ i < s.length; omega)])⟩
      | succ m ihm =>
        intro i idS idE res hn hm hle hl
        by_cases hlt : i < s.length
        · by_cases ha : at' s i = 64
          · by_cases hi : i = idS
            · obtain ⟨o, ho⟩ := ihR s.length (i + 1) (i + 1) (i + 1) (res ++ [64]) (by omega) (by omega) (Nat.le_refl _) (by omega)
              refine ⟨o, .next ?_ ho⟩
              unfold fmtStep; simp only [hlt, if_true, ha]
              rw [if_pos hi]
            · cases hcb : cb idS (i - idS) with
              | found v =>
                obtain ⟨o, ho⟩ := ihT s.length (i + 1) idS (i + 1) (res ++ v) (by omega) (by omega)
                exact ⟨o, .next (by unfold fmtStep; simp only [hlt, if_true, ha, hi, if_false, hcb]) ho⟩
              | notFound => exact ⟨none, .done (by unfold fmtStep; simp only [hlt, if_true, ha, hi, if_false, hcb])⟩
              | error => exact ⟨none, .done (by unfold fmtStep; simp only [hlt, if_true, ha, hi, if_false, hcb])⟩
              | skip =>
                obtain ⟨o, ho⟩ := ihT s.length idS 0 idS (res ++ [64]) (by omega) (by omega)
                exact ⟨o, .next (by unfold fmtStep; simp only [hlt, if_true, ha, hi, if_false, hcb]) ho⟩
          · by_cases hb : at' s i = 92 ∧ at' s (i + 1) = 64
            · have hstep : fmtStep s cb ⟨i, idS, idE, true, res⟩ = .inl ⟨i + 2, i + 1, i + 1, false, if i ≠ 0 then res ++ [64] ++ slice s idE (i - idE) else res⟩ := by
                unfold fmtStep
                simp only [hlt, if_true]
                rw [if_neg ha, if_pos hb]
              obtain ⟨o, ho⟩ := ihT s.length (i + 2) (i + 1) (i + 1) _ (by omega) (by omega)
              exact ⟨o, .next hstep ho⟩
            · obtain ⟨o, ho⟩ := ihm (i + 1) idS idE res (by omega) (by omega) (by omega) hl
              exact ⟨o, .next (by unfold fmtStep; simp only [hlt, if_true, ha, if_false, hb]) ho⟩
        · exact ⟨_, .done (by unfold fmtStep; rw [if_neg hlt])⟩

/-! ### The callback of `format()` -/

theorem natVal_eq (ds : Bytes) : Spec.natVal ds = digitsVal ds := by
  unfold Spec.natVal digitsVal
  congr 1
  funext n c
  rw [Nat.mul_comm]

/-- What `strtol` reads. -/
theorem strtol_accepts (s : Bytes) (h : (strtol s).2 ≠ 0) :
    ∃ ws sign ds rest, s = ws ++ sign ++ ds ++ rest ∧ (∀ c ∈ ws, isSpace c = true) ∧
      (sign = [] ∨ sign = [43] ∨ sign = [45]) ∧ ds ≠ [] ∧ (∀ c ∈ ds, isDigit c = true) ∧
      (strtol s).2 = ws.length + sign.length + ds.length ∧
      (strtol s).1 = max int64Min (min int64Max (if sign = [45] then -(digitsVal ds : Int) else digitsVal ds)) ∧
      (∀ c, rest.head? = some c → isDigit c = false) ∧
      (∀ c, (sign ++ ds).head? = some c → isSpace c = false) := by
  have hws : s = s.takeWhile isSpace ++ s.dropWhile isSpace := by simp
  have hdr : s.drop (s.takeWhile isSpace).length = s.dropWhile isSpace := by
    have := congrArg (List.drop (s.takeWhile isSpace).length) hws
    rw [this, List.drop_left]
  have hwsall : ∀ c ∈ s.takeWhile isSpace, isSpace c = true := by
    have := List.all_takeWhile (p := isSpace) (l := s); rwa [List.all_eq_true] at this
  have hhead : ∀ c, (s.dropWhile isSpace).head? = some c → isSpace c = false := by
    intro c hc
    have := List.head?_dropWhile_not isSpace s
    rw [hc] at this; simpa using this
  have hdall : ∀ t : Bytes, ∀ c ∈ t.takeWhile isDigit, isDigit c = true := by
    intro t; have := List.all_takeWhile (p := isDigit) (l := t); rwa [List.all_eq_true] at this
  have hrest : ∀ t : Bytes, ∀ c, (t.dropWhile isDigit).head? = some c → isDigit c = false := by
    intro t c hc
    have := List.head?_dropWhile_not isDigit t
    rw [hc] at this; simpa using this
  have hne : (((s.dropWhile isSpace).drop (signOf (s.dropWhile isSpace)).2).takeWhile isDigit) ≠ [] := by
    intro hd
    apply h
    unfold strtol
    simp only [hdr, hd, if_true]
  have hval : strtol s = (max int64Min (min int64Max (if (signOf (s.dropWhile isSpace)).1 then
        -(digitsVal (((s.dropWhile isSpace).drop (signOf (s.dropWhile isSpace)).2).takeWhile isDigit) : Int) else
        digitsVal (((s.dropWhile isSpace).drop (signOf (s.dropWhile isSpace)).2).takeWhile isDigit))),
      (s.takeWhile isSpace).length + (signOf (s.dropWhile isSpace)).2 +
        (((s.dropWhile isSpace).drop (signOf (s.dropWhile isSpace)).2).takeWhile isDigit).length) := by
    unfold strtol
    simp only [hdr, if_neg hne]
  rw [hval]
  generalize s.takeWhile isSpace = ws at *
  generalize s.dropWhile isSpace = t at *
  obtain ⟨sign, u, ht, hs, hsg⟩ : ∃ sign u : Bytes, t = sign ++ u ∧ (sign = [] ∨ sign = [43] ∨ sign = [45]) ∧
      signOf t = (decide (sign = [45]), sign.length) := by
    match t with
    | [] => simp at hne
    | c :: r =>
      by_cases h45 : c = 45
      · subst h45; exact ⟨[45], r, rfl, by simp, rfl⟩
      · by_cases h43 : c = 43
        · subst h43; exact ⟨[43], r, rfl, by simp, rfl⟩
        · refine ⟨[], c :: r, rfl, by simp, ?_⟩
          unfold signOf
          split
          · next heq => cases heq; exact absurd rfl h45
          · next heq => cases heq; exact absurd rfl h43
          · rfl
  rw [hsg] at hne ⊢
  simp only at hne ⊢
  have hdrop : t.drop sign.length = u := by rw [ht]; simp
  rw [hdrop] at hne ⊢
  refine ⟨ws, sign, u.takeWhile isDigit, u.dropWhile isDigit, ?_, hwsall, hs, hne, hdall u, rfl, ?_, hrest u, ?_⟩
  · rw [hws, ht]; simp
  · simp only [decide_eq_true_eq]
  · intro c hc
    apply hhead
    rw [ht]
    have : u = u.takeWhile isDigit ++ u.dropWhile isDigit := by simp
    rw [this, ← List.append_assoc, List.head?_append, hc]; rfl

theorem strtol_zero (s : Bytes) (h : (strtol s).2 = 0) : (strtol s).1 = 0 := by
  unfold strtol at h ⊢
  simp only at h ⊢
  split at h
  · next hd => rw [if_pos hd]
  · next hd =>
    have := List.length_pos_iff.2 hd
    simp only at h
    omega

theorem oddKey_of (ws sign ds : Bytes) (h1 : ∀ c ∈ ws, isSpace c = true) (h2 : sign = [] ∨ sign = [43] ∨ sign = [45])
    (h3 : ds ≠ []) (h4 : ∀ c ∈ ds, isDigit c = true) (h6 : (ws ++ sign ++ ds).all isDigit = false) :
    Spec.oddKey (ws ++ sign ++ ds) = true := by
  obtain ⟨c, r, he, hc⟩ := head_digit h3 h4
  have hdw : (ws ++ sign ++ ds).dropWhile isSpace = sign ++ ds := by
    rw [List.append_assoc, List.dropWhile_append_of_pos h1]
    rcases h2 with rfl | rfl | rfl
    · rw [he]; simp [(digit_not c hc).1]
    · simp [show isSpace 43 = false by decide]
    · simp [show isSpace 45 = false by decide]
  unfold Spec.oddKey
  simp only [hdw, h6]
  have hd : ds.all isDigit = true := by simpa using h4
  rcases h2 with rfl | rfl | rfl
  · have h45 : ¬ (c = 43 ∨ c = 45) := fun h => h.elim (digit_not c hc).2.2.2.1 (digit_not c hc).2.2.1
    have : (ds.head? = some 43 ∨ ds.head? = some 45) ↔ False := by rw [he]; simp [h45]
    simp only [List.nil_append, this, if_false, List.drop_zero, hd]
    simp [h3]
  · simp only [List.cons_append, List.nil_append, List.head?_cons, List.drop_one, true_or, if_true, List.tail_cons, hd]
    simp [h3]
  · simp only [List.cons_append, List.nil_append, List.head?_cons, List.drop_one, or_true, if_true, List.tail_cons, hd]
    simp [h3]

theorem hasOddKey_of (s : Bytes) (a k b : Bytes) (h : s = a ++ 64 :: (k ++ 64 :: b)) (hk : 64 ∉ k) (ho : Spec.oddKey k = true) :
    Spec.hasOddKey s = true := by
  induction a generalizing s with
  | nil =>
    subst h
    have ht : (k ++ 64 :: b).takeWhile (· ≠ 64) = k := by
      rw [takeWhile_append_stop k _ (by simp), takeWhile_all]
      intro c hc; simp; rintro rfl; exact hk hc
    simp only [List.nil_append, Spec.hasOddKey, ht, ho]
    simp
  | cons c a ih =>
    subst h
    simp only [List.cons_append, Spec.hasOddKey, ih _ rfl, Bool.or_true]

theorem formatCb_ok (s : Bytes) (args : List Bytes) (hlen : (args.length : Int) ≤ int64Max)
    (hno : Spec.hasOddKey s = false) :
    CbOk s (formatCb s args) Spec.decimal (fun n => args[n.toNat]?) := by
  intro p k rest hat hp hdrop hnk hk
  by_cases hall : k.all isDigit = true
  · -- a decimal number
    have hd : ∀ x ∈ k, isDigit x = true := by simpa using hall
    have hst := strtol_digits false k (64 :: rest) hk hd (by simp; decide)
    simp only [Bool.false_eq_true, if_false, List.nil_append, Nat.zero_add] at hst
    have hdec : Spec.decimal k = some (digitsVal k : Int) := by
      unfold Spec.decimal; rw [if_pos ⟨hk, hall⟩, natVal_eq]
    have hi : strToI (s.drop p) k.length false = some (max int64Min (min int64Max (digitsVal k : Int))) := by
      rw [hdrop]
      unfold strToI
      simp [hst]
    rw [hdec]
    simp only [Int.toNat_natCast]
    unfold formatCb
    rw [hi]
    have hmax : max int64Min (min int64Max (digitsVal k : Int)) = min int64Max (digitsVal k : Int) := by
      unfold int64Min int64Max; omega
    rw [hmax]
    unfold int64Max at hlen ⊢
    by_cases hin : digitsVal k < args.length
    · rw [List.getElem?_eq_getElem hin]
      have hm : min 9223372036854775807 (digitsVal k : Int) = digitsVal k := by omega
      rw [hm]
      have : ¬ ((digitsVal k : Int) < 0) := by omega
      have h2 : (digitsVal k : Int) < args.length := by omega
      have h0 : (0 : Int) ≤ digitsVal k := by omega
      simp [indexArray, boundsAdjust, this, hin, arrayIndex]
    · rw [List.getElem?_eq_none (by omega)]
      have hneg : ¬ (min 9223372036854775807 (digitsVal k : Int) < 0) := by omega
      have hge : ¬ (min 9223372036854775807 (digitsVal k : Int) < args.length) := by omega
      simp only [indexArray, boundsAdjust, hneg, if_false, hge, decide_false]
      rfl
  · have hdec : Spec.decimal k = none := by
      unfold Spec.decimal; rw [if_neg (fun h => hall h.2)]
    rw [hdec]
    unfold formatCb
    have hi : strToI (s.drop p) k.length false = none := by
      unfold strToI
      simp only [Bool.false_eq_true, if_false, Nat.zero_add, List.drop_zero, ite_eq_right_iff, reduceCtorEq, imp_false]
      intro hlen'
      have hkpos : 0 < k.length := List.length_pos_iff.2 hk
      obtain ⟨ws, sign, ds, rest', he, h1, h2, h3, h4, h5, _⟩ := strtol_accepts (s.drop p) (by omega)
      have hkk : k = ws ++ sign ++ ds := by
        rw [hdrop] at he
        refine (List.append_inj he ?_).1
        rw [← hlen', h5]; simp; omega
      have hodd : Spec.oddKey k = true := by
        rw [hkk]; exact oddKey_of ws sign ds h1 h2 h3 h4 (by rw [← hkk]; simpa using hall)
      have : Spec.hasOddKey s = true := by
        refine hasOddKey_of s (s.take (p - 1)) k rest ?_ hnk hodd
        have hlt : p - 1 < s.length := by
          apply Classical.byContradiction; intro hge
          unfold at' at hat
          rw [List.getD_eq_getElem?_getD, List.getElem?_eq_none (by omega)] at hat
          cases hat
        rw [← hdrop]
        conv => lhs; rw [← List.take_append_drop (p - 1) s]
        rw [List.drop_eq_getElem_cons hlt, ← at'_eq s _ hlt, hat, show p - 1 + 1 = p by omega]
      rw [hno] at this; cases this
    rw [hi]

end Muon.Str
