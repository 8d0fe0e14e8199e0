import Verif.Memmem.Crit
/-
The search loop of the two-way algorithm.
-/
namespace Muon.Memmem
open Muon

/-- The needle is at an offset of the haystack. -/
def At (h n : Bytes) (o : Nat) : Prop := o + n.length ≤ h.length ∧ ∀ i, i < n.length → let' h (o + i) = let' n i

/-- What a search finds: the first place. -/
def First (h n : Bytes) (r : Res (Option Nat)) : Prop :=
  (∃ o, r = .ok (some o) ∧ At h n o ∧ ∀ o', o' < o → ¬ At h n o') ∨ (r = .ok none ∧ ∀ o, ¬ At h n o)

/-- The table has the index after the last place of a byte. -/
theorem table_spec (n : Bytes) (i : Nat) (t : UInt8 → Option Nat) (b : UInt8) :
    (table n i t b = t b ∧ ∀ k, k < n.length → let' n k ≠ b) ∨
      (∃ k, k < n.length ∧ table n i t b = some (i + k + 1) ∧ ∀ k', k < k' → k' < n.length → let' n k' ≠ b) := by
  induction n generalizing i t with
  | nil => left; exact ⟨rfl, fun k hk => absurd hk (Nat.not_lt_zero k)⟩
  | cons c n ih =>
    rw [table]
    rcases ih (i + 1) (fun b => if b = c then some (i + 1) else t b) with ⟨h1, h2⟩ | ⟨k, h1, h2, h3⟩
    · rw [h1]
      by_cases hb : b = c
      · right
        refine ⟨0, by simp, by simp [hb], ?_⟩
        intro k' hk' hl
        obtain ⟨k'', rfl⟩ := Nat.exists_eq_succ_of_ne_zero (Nat.ne_of_gt hk')
        simp only [List.length_cons] at hl
        exact h2 k'' (by omega)
      · left
        refine ⟨by simp [hb], ?_⟩
        intro k hk
        cases k with
        | zero => exact fun e => hb e.symm
        | succ k => simp only [List.length_cons] at hk; exact h2 k (by omega)
    · right
      refine ⟨k + 1, by simp; omega, by rw [h2]; congr 1; omega, ?_⟩
      intro k' hk' hl
      obtain ⟨k'', rfl⟩ := Nat.exists_eq_succ_of_ne_zero (show k' ≠ 0 by omega)
      simp only [List.length_cons] at hl
      exact h3 k'' (by omega) (by omega)

/-- Comparing the right half gives the first difference. -/
theorem right_ok (h n : Bytes) (off f k : Nat) (hh : off + n.length ≤ h.length) (hf : n.length < f + k) (hkl : k ≤ n.length) :
    ∃ k', right h n off f k = .ok k' ∧ k ≤ k' ∧ (∀ i, k ≤ i → i < k' → i < n.length → let' n i = let' h (off + i)) ∧
      (k' < n.length → let' n k' ≠ let' h (off + k')) := by
  induction f generalizing k with
  | zero => omega
  | succ f ih =>
    rw [right]
    by_cases hk : k < n.length
    · rw [if_pos hk, get_let n k hk, get_let h (off + k) (by omega)]
      dsimp only
      by_cases he : let' n k = let' h (off + k)
      · rw [if_pos he]
        obtain ⟨k', h1, h2, h3, h4⟩ := ih (k + 1) (by omega) (by omega)
        refine ⟨k', h1, by omega, ?_, h4⟩
        intro i hi hi' hl
        by_cases hik : i = k
        · subst hik; exact he
        · exact h3 i (by omega) hi' hl
      · rw [if_neg he]
        exact ⟨k, rfl, Nat.le_refl _, fun i h1 h2 => by omega, fun _ => he⟩
    · rw [if_neg hk]
      exact ⟨k, rfl, Nat.le_refl _, fun i h1 h2 => by omega, fun h => absurd h hk⟩

/-- Comparing the left half. -/
theorem left_ok (h n : Bytes) (off mem k : Nat) (hh : off + n.length ≤ h.length) (hk : k ≤ n.length) :
    ∃ k', left h n off mem k = .ok k' ∧ k' ≤ k ∧ (∀ i, k' ≤ i → i < k → let' n i = let' h (off + i)) ∧
      (mem < k' → let' n (k' - 1) ≠ let' h (off + (k' - 1))) := by
  induction k with
  | zero => exact ⟨0, rfl, Nat.le_refl _, fun i h1 h2 => by omega, fun h => by omega⟩
  | succ k ih =>
    rw [left]
    by_cases hm : k + 1 > mem
    · rw [if_pos hm, get_let n k (by omega), get_let h (off + k) (by omega)]
      dsimp only
      by_cases he : let' n k = let' h (off + k)
      · rw [if_pos he]
        obtain ⟨k', h1, h2, h3, h4⟩ := ih (by omega)
        refine ⟨k', h1, by omega, ?_, h4⟩
        intro i hi hi'
        by_cases hik : i = k
        · subst hik; exact he
        · exact h3 i hi (by omega)
      · rw [if_neg he]
        exact ⟨k + 1, rfl, Nat.le_refl _, fun i h1 h2 => by omega, fun _ => he⟩
    · rw [if_neg hm]
      exact ⟨k + 1, rfl, Nat.le_refl _, fun i h1 h2 => by omega, fun h => by omega⟩

/-- What the search needs to know of the needle: around `c` repetitions are periods; what is remembered is a prefix that a period leaves;
after a difference in the left half, no repetition is shorter than `p`. -/
structure Fact (n : Bytes) (c p mem0 : Nat) : Prop where
  c_le : c ≤ n.length
  pos : 0 < p
  p_le : p ≤ n.length
  local_per : ∀ s, Local (let' n) n.length c s → (∀ i, i + s < n.length → let' n i = let' n (i + s)) ∧ p ≤ s
  memo : mem0 = 0 ∨ (mem0 = n.length - p ∧ c ≤ p ∧ ∀ i, i + p < n.length → let' n i = let' n (i + p))

/-- If the needle is at a place `s` after one where its letters from `c` to `k` are, there is a repetition. -/
theorem local_of (h n : Bytes) (c off s k : Nat) (h0 : 0 < s) (hk : ∀ i, c ≤ i → i < k → i < n.length → let' n i = let' h (off + i))
    (hat : At h n (off + s)) (hsk : n.length ≤ k ∨ c + s ≤ k) : Local (let' n) n.length c s := by
  refine ⟨h0, ?_⟩
  intro i h1 h2 h3 h4
  rw [hk i h1 (by omega) h3, ← hat.2 (i - s) (by omega)]
  congr 1; omega

/-- The search loop finds the first place. -/
theorem search_ok (h n : Bytes) (c p mem0 : Nat) (hn : 0 < n.length) (hF : Fact n c p mem0) (f off mem : Nat)
    (hf : h.length < f + off) (hoff : off ≤ h.length) (hno : ∀ o, o < off → ¬ At h n o) (hmem : mem = 0 ∨ (mem = mem0))
    (hm : ∀ i, i < mem → let' h (off + i) = let' n i) :
    First h n (search h n (table n 0 (fun _ => none)) c p mem0 f off mem) := by
  induction f generalizing off mem with
  | zero => omega
  | succ f ih =>
    rw [search, if_neg (show ¬ h.length < off by omega)]
    have hml : mem ≤ n.length := by
      rcases hmem with h0 | h0
      · omega
      · rcases hF.memo with h1 | ⟨h1, -, -⟩ <;> omega
    by_cases hend : h.length - off < n.length
    · rw [if_pos hend]
      right
      refine ⟨rfl, fun o ho => ?_⟩
      by_cases hlt : o < off
      · exact hno o hlt ho
      · have := ho.1; omega
    · rw [if_neg hend, get_let h (off + n.length - 1) (by omega)]
      dsimp only
      have hstep : ∀ δ mem', 0 < δ → δ ≤ n.length → (∀ s, s < δ → ¬ At h n (off + s)) → (mem' = 0 ∨ mem' = mem0) →
          (∀ i, i < mem' → let' h (off + δ + i) = let' n i) →
          First h n (search h n (table n 0 (fun _ => none)) c p mem0 f (off + δ) mem') := by
        intro δ mem' hδ hδl hs h1 h2
        refine ih (off + δ) mem' (by omega) (by omega) ?_ h1 h2
        intro o ho
        by_cases hlt : o < off
        · exact hno o hlt
        · have := hs (o - off) (by omega)
          rwa [show off + (o - off) = o by omega] at this
      -- the last byte at places after `off`
      have hlast : ∀ s, s < n.length → At h n (off + s) → let' n (n.length - 1 - s) = let' h (off + n.length - 1) := by
        intro s hs hat
        rw [← hat.2 _ (show n.length - 1 - s < n.length by omega)]
        congr 1; omega
      rcases table_spec n 0 (fun _ => none) (let' h (off + n.length - 1)) with ⟨h1, h2⟩ | ⟨k, h1, h2, h3⟩
      · rw [h1]
        dsimp only
        refine hstep _ 0 hn (Nat.le_refl _) ?_ (Or.inl rfl) (fun i hi => absurd hi (Nat.not_lt_zero i))
        intro s hs hat
        exact h2 _ (by omega) (hlast s hs hat)
      · rw [h2]
        dsimp only
        have htab : ∀ s, s < n.length - (0 + k + 1) → ¬ At h n (off + s) := by
          intro s hs hat
          exact h3 _ (by omega) (by omega) (hlast s (by omega) hat)
        by_cases hk : n.length - (0 + k + 1) ≠ 0
        · rw [if_pos hk]
          refine hstep _ 0 (by split <;> omega) (by split <;> omega) ?_ (Or.inl rfl) (fun i hi => absurd hi (Nat.not_lt_zero i))
          intro s hs hat
          by_cases hlt : n.length - (0 + k + 1) < mem
          · rw [if_pos hlt] at hs
            -- what is remembered
            have hmm : mem = mem0 := by omega
            rcases hF.memo with h0 | ⟨hme, hcp, hper⟩
            · omega
            · have hpos := hF.pos
              by_cases hs0 : s = 0
              · subst hs0; exact htab 0 (by omega) hat
              · -- the last letter of the needle would be the one of the haystack
                have e1 := hper (n.length - 1 - p) (by omega)
                have e2 := hper (n.length - 1 - s - p) (by omega)
                rw [show n.length - 1 - p + p = n.length - 1 by omega] at e1
                rw [show n.length - 1 - s - p + p = n.length - 1 - s by omega] at e2
                have e3 := hm (n.length - 1 - p) (by omega)
                have e4 := hat.2 (n.length - 1 - s - p) (by omega)
                rw [show off + s + (n.length - 1 - s - p) = off + (n.length - 1 - p) by omega] at e4
                have e5 := hlast s (by omega) hat
                refine h3 (n.length - 1) (by omega) (by omega) ?_
                rw [← e5, ← e1, ← e2, ← e3, ← e4]
          · rw [if_neg hlt] at hs
            exact htab s hs hat
        · rw [if_neg hk]
          obtain ⟨k', r1, r2, r3, r4⟩ := right_ok h n off (n.length + 1) (max c mem) (by omega) (by omega) (by have := hF.c_le; omega)
          rw [r1, Res.ok_bind]
          have hright : ∀ i, c ≤ i → i < k' → i < n.length → let' n i = let' h (off + i) := by
            intro i i1 i2 i3
            by_cases him : i < mem
            · exact (hm i him).symm
            · exact r3 i (by omega) i2 i3
          by_cases hk' : k' < n.length
          · rw [if_pos hk']
            refine hstep _ 0 (by omega) (by omega) ?_ (Or.inl rfl) (fun i hi => absurd hi (Nat.not_lt_zero i))
            intro s hs hat
            by_cases hs0 : s = 0
            · subst hs0
              exact r4 hk' (hat.2 k' hk').symm
            · have hl := hF.local_per s (local_of h n c off s k' (by omega) hright hat (Or.inr (by omega)))
              have := hl.1 (k' - s) (by omega)
              rw [show k' - s + s = k' by omega, ← hat.2 (k' - s) (by omega), show off + s + (k' - s) = off + k' by omega] at this
              exact r4 hk' this.symm
          · rw [if_neg hk']
            obtain ⟨k2, l1, l2, l3, l4⟩ := left_ok h n off mem c (by omega) hF.c_le
            rw [l1, Res.ok_bind]
            by_cases hk2 : k2 ≤ mem
            · rw [if_pos hk2]
              left
              refine ⟨off, rfl, ⟨by omega, ?_⟩, hno⟩
              intro i hi
              by_cases hic : c ≤ i
              · exact (hright i hic (by omega) hi).symm
              · by_cases him : i < mem
                · exact hm i him
                · exact (l3 i (by omega) (by omega)).symm
            · rw [if_neg hk2]
              refine hstep p mem0 hF.pos hF.p_le ?_ (Or.inr rfl) ?_
              · intro s hs hat
                by_cases hs0 : s = 0
                · subst hs0
                  exact l4 (by omega) (hat.2 (k2 - 1) (by have := hF.c_le; omega)).symm
                · have hl := hF.local_per s (local_of h n c off s k' (by omega) hright hat (Or.inl (by omega)))
                  omega
              · intro i hi
                rcases hF.memo with h0 | ⟨hme, hcp, hper⟩
                · omega
                · rw [hper i (by omega), hright (i + p) (by omega) (by omega) (by omega)]
                  congr 1; omega

end Muon.Memmem
