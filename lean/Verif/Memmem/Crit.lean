import Verif.Memmem.Suffix
/-
The critical factorisation theorem: at the position of the shorter one of the maximal suffixes for an order and for its opposite, a
repetition around the position is a period of the word.
-/
namespace Muon.Memmem
open Muon

theorem Order.flip {R : UInt8 → UInt8 → Prop} (h : Order R) : Order (fun a b => R b a) :=
  ⟨h.irrefl, fun a b c h1 h2 => h.trans c b a h2 h1⟩

/-- The letters before the maximal suffix do not repeat its beginning. -/
theorem MaxSuf.no_left {R : UInt8 → UInt8 → Prop} (hR : Order R) {g : Nat → UInt8} {l c p : Nat} (h : MaxSuf R g l c p) (s : Nat) (h0 : 0 < s)
    (hs : s ≤ c) (hl : ∀ e, e < s → c + e < l → g (c - s + e) = g (c + e)) : False := by
  obtain ⟨d, d1, d2, d3, d4⟩ := h.before (c - s) (by omega)
  by_cases hd : d < s
  · rw [hl d hd d2] at d4
    exact hR.irrefl _ d4
  · have hdec : Dec R g l c (c + s) := by
      refine ⟨d - s, by omega, by omega, ?_, ?_⟩
      · intro e he
        have := d3 (s + e) (by omega)
        rw [show c - s + (s + e) = c + e by omega, show c + (s + e) = c + s + e by omega] at this
        exact this
      · rw [show c - s + d = c + (d - s) by omega, show c + d = c + s + (d - s) by omega] at d4
        exact d4
    rcases h.after (c + s) (by omega) with h1 | h1
    · exact hdec.asymm hR h1
    · obtain ⟨d', q1, q2, q3, q4⟩ := hdec
      rw [h1 d' q2] at q4
      exact hR.irrefl _ q4

/-- A word that begins the part before the maximal suffix again begins the suffix. -/
theorem MaxSuf.right_eq {R : UInt8 → UInt8 → Prop} (hR : Order R) {g : Nat → UInt8} {l c p c2 p2 : Nat} (h : MaxSuf R g l c p)
    (h2 : MaxSuf (fun a b => R b a) g l c2 p2) (hc : c2 ≤ c) (s : Nat) (h0 : 0 < s)
    (hl : ∀ e, e < c - c2 → g (c2 + e) = g (c2 + s + e)) : ∀ e, c + s + e < l → g (c + s + e) = g (c + e) := by
  rcases h.after (c + s) (by omega) with ⟨d, d1, d2, d3, d4⟩ | h1
  · exfalso
    have hdec : Dec (fun a b => R b a) g l c2 (c2 + s) := by
      refine ⟨c - c2 + d, by omega, by omega, ?_, ?_⟩
      · intro e he
        by_cases hlt : e < c - c2
        · exact hl e hlt
        · have := d3 (e - (c - c2)) (by omega)
          rw [show c + s + (e - (c - c2)) = c2 + s + e by omega, show c + (e - (c - c2)) = c2 + e by omega] at this
          exact this.symm
      · show R _ _
        rw [show c2 + s + (c - c2 + d) = c + s + d by omega, show c2 + (c - c2 + d) = c + d by omega]
        exact d4
    rcases h2.after (c2 + s) (by omega) with h3 | h3
    · exact hdec.asymm hR.flip h3
    · obtain ⟨d', q1, q2, q3, q4⟩ := hdec
      rw [h3 d' q2] at q4
      exact hR.irrefl _ q4
  · exact h1

/-- The word repeats itself around `c` with distance `s`. -/
def Local (g : Nat → UInt8) (l c s : Nat) : Prop := 0 < s ∧ ∀ i, c ≤ i → i < c + s → i < l → s ≤ i → g i = g (i - s)

/-- The critical factorisation theorem. -/
theorem critical {R : UInt8 → UInt8 → Prop} (hR : Order R) {g : Nat → UInt8} {l c p c2 p2 : Nat} (h : MaxSuf R g l c p)
    (h2 : MaxSuf (fun a b => R b a) g l c2 p2) (hc : c2 ≤ c) (s : Nat) (hs : Local g l c s) : c < s ∧ ∀ i, i + s < l → g i = g (i + s) := by
  obtain ⟨h0, hs⟩ := hs
  have hlt : c < s := by
    apply Classical.byContradiction
    intro hn
    refine h.no_left hR s h0 (by omega) (fun e he hl => ?_)
    rw [hs (c + e) (by omega) (by omega) hl (by omega)]
    congr 1; omega
  refine ⟨hlt, ?_⟩
  intro i hi
  by_cases hic : i < c
  · rw [hs (i + s) (by omega) (by omega) hi (by omega)]
    congr 1; omega
  · have := h.right_eq hR h2 hc s h0 (fun e he => by
      rw [hs (c2 + s + e) (by omega) (by omega) (by omega) (by omega)]
      congr 1; omega) (i - c) (by omega)
    rw [show c + s + (i - c) = i + s by omega, show c + (i - c) = i by omega] at this
    exact this.symm

/-- If the word has a period that is not longer than the maximal suffix, the period of the suffix is one of the word. -/
theorem periodic {R : UInt8 → UInt8 → Prop} (hR : Order R) {g : Nat → UInt8} {l c p c2 p2 : Nat} (h : MaxSuf R g l c p)
    (h2 : MaxSuf (fun a b => R b a) g l c2 p2) (hc : c2 ≤ c) (s : Nat) (hcs : c < s) (hs : ∀ i, i + s < l → g i = g (i + s)) (hsl : c + s ≤ l) :
    ∀ i, i < c → g i = g (i + p) := by
  have hmod := Nat.div_add_mod s p
  have hr := Nat.mod_lt s h.pos
  have hps : p ≤ s := by
    apply Classical.byContradiction
    intro hn
    obtain ⟨e, e1, e2⟩ := h.least s (by omega) (by omega)
    exact e2 (hs (c + e) e1)
  have hq : 0 < s / p := Nat.div_pos hps h.pos
  generalize s / p = q at hmod hq
  generalize s % p = r at hmod hr
  rw [Nat.mul_comm] at hmod
  -- letters of the suffix at distance q * p
  have hqp : ∀ i, c ≤ i → i + q * p < l → g i = g (i + q * p) := by
    intro i hi hl
    have := per_mul h.per q (i - c) (by omega)
    rw [show c + (i - c) = i by omega] at this
    exact this
  by_cases h0 : r = 0
  · subst h0
    intro i hi
    by_cases hip : c ≤ i + p
    · rw [hs i (by omega)]
      obtain ⟨q', rfl⟩ := Nat.exists_eq_succ_of_ne_zero (Nat.ne_of_gt hq)
      rw [Nat.succ_mul] at hmod
      have := per_mul h.per q' (i + p - c) (by omega)
      rw [show c + (i + p - c) = i + p by omega] at this
      rw [this]
      congr 1; omega
    · rw [hs i (by omega), hs (i + p) (by omega)]
      have := h.per (i + s - c) (by omega)
      rw [show c + (i + s - c) = i + s by omega] at this
      rw [this]; congr 1; omega
  · exfalso
    by_cases hrc : r ≤ c
    · refine h.no_left hR r (by omega) hrc (fun e he hl => ?_)
      rw [hs (c - r + e) (by omega), hqp (c + e) (by omega) (by omega)]
      congr 1; omega
    · have := h.right_eq hR h2 hc r (by omega) (fun e he => by
        rw [hs (c2 + e) (by omega), hqp (c2 + r + e) (by omega) (by omega)]
        congr 1; omega)
      obtain ⟨e, e1, e2⟩ := h.least r (by omega) hr
      apply e2
      have := this e (by omega)
      rw [show c + e + r = c + r + e by omega, this]

end Muon.Memmem
