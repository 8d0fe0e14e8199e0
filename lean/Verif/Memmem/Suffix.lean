import Verif.Memmem.Model
/-
Maximal suffixes, critical positions. `g` are the letters of a word of length `l`, `R` is an order of the letters.
-/
namespace Muon.Memmem
open Muon

/-- A strict order of letters. -/
structure Order (R : UInt8 → UInt8 → Prop) : Prop where
  irrefl : ∀ a, ¬ R a a
  trans : ∀ a b c, R a b → R b c → R a c

/-- The suffix at `a` is smaller than the one at `i`, with a letter (before `l`) that makes the difference. -/
def Dec (R : UInt8 → UInt8 → Prop) (g : Nat → UInt8) (l a i : Nat) : Prop :=
  ∃ d, a + d < l ∧ i + d < l ∧ (∀ e, e < d → g (a + e) = g (i + e)) ∧ R (g (a + d)) (g (i + d))

theorem Dec.mono {R : UInt8 → UInt8 → Prop} {g : Nat → UInt8} {l l' a i : Nat} (h : Dec R g l a i) (hl : l ≤ l') : Dec R g l' a i := by
  obtain ⟨d, h1, h2, h3, h4⟩ := h
  exact ⟨d, by omega, by omega, h3, h4⟩

theorem Dec.trans {R : UInt8 → UInt8 → Prop} (hR : Order R) {g : Nat → UInt8} {l a b c : Nat} (h1 : Dec R g l a b) (h2 : Dec R g l b c) :
    Dec R g l a c := by
  obtain ⟨d, p1, p2, p3, p4⟩ := h1
  obtain ⟨e, q1, q2, q3, q4⟩ := h2
  by_cases hlt : d < e
  · exact ⟨d, p1, by omega, fun f hf => (p3 f hf).trans (q3 f (by omega)), by rw [← q3 d hlt]; exact p4⟩
  · by_cases heq : d = e
    · subst heq
      exact ⟨d, p1, q2, fun f hf => (p3 f hf).trans (q3 f hf), hR.trans _ _ _ p4 q4⟩
    · exact ⟨e, by omega, q2, fun f hf => (p3 f (by omega)).trans (q3 f hf), by rw [p3 e (by omega)]; exact q4⟩

/-- It cannot be smaller and larger. -/
theorem Dec.asymm {R : UInt8 → UInt8 → Prop} (hR : Order R) {g : Nat → UInt8} {l a b : Nat} (h1 : Dec R g l a b) (h2 : Dec R g l b a) : False := by
  obtain ⟨d, -, -, -, h⟩ := h1.trans hR h2
  exact hR.irrefl _ h

/-- A part of the word that has a period repeats it. -/
theorem per_mul {g : Nat → UInt8} {i N p : Nat} (h : ∀ e, i + e + p < N → g (i + e) = g (i + e + p)) (m e : Nat) (hm : i + e + m * p < N) :
    g (i + e) = g (i + e + m * p) := by
  induction m with
  | zero => simp
  | succ m ih =>
    rw [Nat.add_mul, Nat.one_mul] at hm ⊢
    rw [ih (by omega), show i + e + m * p = i + (e + m * p) by omega, h (e + m * p) (by omega)]
    congr 1; omega

/-- What is known of the word before `N`: no suffix is larger than the one at `i`, of which `p` is the smallest period. -/
structure Core (R : UInt8 → UInt8 → Prop) (g : Nat → UInt8) (l i N p : Nat) : Prop where
  pos : 0 < p
  le : i + p ≤ N
  ple : N ≤ l
  per : ∀ e, i + e + p < N → g (i + e) = g (i + e + p)
  before : ∀ a, a < i → Dec R g l a i
  small : ∀ a, i < a → a < i + p → Dec R g N a i

/-- Suffixes after `i` are smaller, or begin the one at `i`. -/
theorem Core.after {R : UInt8 → UInt8 → Prop} {g : Nat → UInt8} {l i N p : Nat} (h : Core R g l i N p) (a : Nat) (ha : i < a) :
    Dec R g N a i ∨ ∀ e, a + e < N → g (a + e) = g (i + e) := by
  have hmod := Nat.div_add_mod (a - i) p
  have hr := Nat.mod_lt (a - i) h.pos
  generalize (a - i) / p = m at hmod
  generalize (a - i) % p = r at hmod hr
  rw [Nat.mul_comm] at hmod
  have haeq : a = i + r + m * p := by omega
  have hshift : ∀ e, a + e < N → g (a + e) = g (i + r + e) := by
    intro e he
    have := per_mul h.per m (r + e) (by omega)
    rw [show i + r + e = i + (r + e) by omega, this]
    congr 1; omega
  by_cases h0 : r = 0
  · subst h0
    right
    intro e he
    rw [hshift e he]; congr 1
  · obtain ⟨d, d1, d2, d3, d4⟩ := h.small (i + r) (by omega) (by omega)
    by_cases hd : a + d < N
    · left
      exact ⟨d, hd, d2, fun e he => by rw [hshift e (by omega), d3 e he], by rw [hshift d hd]; exact d4⟩
    · right
      intro e he
      rw [hshift e he, d3 e (by omega)]

/-- The next letter is the one the period asks for. -/
theorem Core.eq {R : UInt8 → UInt8 → Prop} {g : Nat → UInt8} {l i N p : Nat} (h : Core R g l i N p) (hN : N < l) (hg : g (N - p) = g N) :
    Core R g l i (N + 1) p := by
  refine ⟨h.pos, by have := h.le; omega, hN, ?_, h.before, fun a h1 h2 => (h.small a h1 h2).mono (by omega)⟩
  intro e he
  by_cases hlt : i + e + p < N
  · exact h.per e hlt
  · have : N = i + e + p := by omega
    rw [← this, ← hg]; congr 1; omega

/-- The next letter is smaller. -/
theorem Core.lt {R : UInt8 → UInt8 → Prop} (hR : Order R) {g : Nat → UInt8} {l i N p : Nat} (h : Core R g l i N p) (hN : N < l)
    (hg : R (g N) (g (N - p))) : Core R g l i (N + 1) (N + 1 - i) := by
  have hle := h.le
  have hpos := h.pos
  refine ⟨by omega, by omega, hN, fun e he => by omega, h.before, ?_⟩
  intro a h1 h2
  have hmod := Nat.div_add_mod (a - i) p
  have hr := Nat.mod_lt (a - i) h.pos
  generalize (a - i) / p = m at hmod
  generalize (a - i) % p = r at hmod hr
  rw [Nat.mul_comm] at hmod
  have haeq : a = i + r + m * p := by omega
  have hshift : ∀ e, a + e < N → g (a + e) = g (i + r + e) := by
    intro e he
    have := per_mul h.per m (r + e) (by omega)
    rw [show i + r + e = i + (r + e) by omega, this]
    congr 1; omega
  -- the letter the period asks for
  have hlast : m ≠ 0 → g (N - p) = g (i + r + (N - a)) := by
    intro hm
    obtain ⟨m', rfl⟩ := Nat.exists_eq_succ_of_ne_zero hm
    rw [Nat.succ_mul] at haeq
    have := per_mul h.per m' (r + (N - a)) (by omega)
    rw [show i + r + (N - a) = i + (r + (N - a)) by omega, this]
    congr 1; omega
  by_cases h0 : r = 0
  · subst h0
    have hm : m ≠ 0 := by intro e; subst e; omega
    refine ⟨N - a, by omega, by omega, ?_, ?_⟩
    · intro e he
      rw [hshift e (by omega)]; congr 1
    · rw [show a + (N - a) = N by omega]
      have := hlast hm
      rw [Nat.add_zero] at this
      rw [← this]; exact hg
  · obtain ⟨d, d1, d2, d3, d4⟩ := h.small (i + r) (by omega) (by omega)
    by_cases hd : a + d < N
    · exact ⟨d, by omega, by omega, fun e he => by rw [hshift e (by omega), d3 e he], by rw [hshift d hd]; exact d4⟩
    · have hm : m ≠ 0 := by
        intro e; subst e; omega
      refine ⟨N - a, by omega, by omega, ?_, ?_⟩
      · intro e he
        rw [hshift e (by omega), d3 e (by omega)]
      · rw [show a + (N - a) = N by omega]
        rw [hlast hm] at hg
        by_cases he : N - a < d
        · rw [d3 _ he] at hg; exact hg
        · have : N - a = d := by omega
          rw [this] at hg ⊢
          exact hR.trans _ _ _ hg d4

/-- The next letter is larger: the largest suffix begins at the last repetition `j`. -/
theorem Core.gt {R : UInt8 → UInt8 → Prop} (hR : Order R) {g : Nat → UInt8} {l i N p : Nat} (h : Core R g l i N p) (hN : N < l)
    (j : Nat) (hj : i < j) (hjN : j ≤ N) (hjp : ∀ e, j + e < N → g (j + e) = g (i + e)) (hg : R (g (i + (N - j))) (g N)) :
    Core R g l j (j + 1) 1 := by
  refine ⟨by omega, by omega, by omega, fun e he => by omega, ?_, fun a h1 h2 => by omega⟩
  have hij : Dec R g l i j := by
    refine ⟨N - j, by omega, by omega, fun e he => (hjp e (by omega)).symm, ?_⟩
    rw [show j + (N - j) = N by omega]; exact hg
  intro a ha
  rcases Nat.lt_trichotomy a i with hlt | rfl | hgt
  · exact (h.before a hlt).trans hR hij
  · exact hij
  · rcases h.after a hgt with hd | he
    · exact (hd.mono (Nat.le_of_lt hN)).trans hR hij
    · refine ⟨N - j, by omega, by omega, ?_, ?_⟩
      · intro e hlt
        rw [he e (by omega), hjp e (by omega)]
      · rw [he _ (by omega), show j + (N - j) = N by omega]; exact hg

/-- The suffix at `c` is the largest, and `p` is its smallest period. -/
structure MaxSuf (R : UInt8 → UInt8 → Prop) (g : Nat → UInt8) (l c p : Nat) : Prop where
  pos : 0 < p
  le : c + p ≤ l
  before : ∀ a, a < c → Dec R g l a c
  after : ∀ a, c < a → Dec R g l a c ∨ ∀ e, a + e < l → g (a + e) = g (c + e)
  per : ∀ e, c + e + p < l → g (c + e) = g (c + e + p)
  least : ∀ t, 0 < t → t < p → ∃ e, c + e + t < l ∧ g (c + e) ≠ g (c + e + t)

theorem Core.maxSuf {R : UInt8 → UInt8 → Prop} (hR : Order R) {g : Nat → UInt8} {l i p : Nat} (h : Core R g l i l p) : MaxSuf R g l i p := by
  refine ⟨h.pos, h.le, h.before, fun a ha => h.after a ha, h.per, ?_⟩
  intro t h0 h1
  obtain ⟨d, d1, d2, d3, d4⟩ := h.small (i + t) (by omega) (by omega)
  refine ⟨d, by omega, ?_⟩
  intro e
  rw [show i + d + t = i + t + d by omega] at e
  rw [← e] at d4
  exact hR.irrefl _ d4

/-- The letters of a needle. -/
def let' (n : Bytes) (i : Nat) : UInt8 := n.getD i 0

theorem get_let (n : Bytes) (i : Nat) (h : i < n.length) : n[i]? = some (let' n i) := by
  unfold let'
  rw [List.getD_eq_getElem?_getD, List.getElem?_eq_getElem h]; rfl

/-- The loop finds the maximal suffix. -/
theorem maxSuffix_ok (gt : UInt8 → UInt8 → Bool) (hR : Order (fun a b => gt b a = true)) (htot : ∀ a b, a ≠ b → gt a b = false → gt b a = true)
    (n : Bytes) (f i jp k p : Nat) (q : Nat) (hq : 0 < q) (hjp : jp + 1 = i + q * p) (hk : 1 ≤ k) (hkp : k ≤ p)
    (h : Core (fun a b => gt b a = true) (let' n) n.length i (jp + k) p) (hf : 2 * n.length + 2 ≤ f + i + jp + k) :
    ∃ c p', maxSuffix gt n f i jp k p = .ok (c, p') ∧ MaxSuf (fun a b => gt b a = true) (let' n) n.length c p' := by
  induction f generalizing i jp k p q with
  | zero =>
    exfalso
    have := h.ple
    have hqp : p ≤ q * p := Nat.le_mul_of_pos_left p hq
    omega
  | succ f ih =>
    have hple := h.ple
    have hqp : p ≤ q * p := Nat.le_mul_of_pos_left p hq
    rw [maxSuffix]
    by_cases hlt : jp + k < n.length
    · rw [if_pos hlt, get_let n (i + k - 1) (by omega), get_let n (jp + k) hlt]
      dsimp only
      -- the letter the period asks for
      have hask : let' n (jp + k - p) = let' n (i + k - 1) := by
        obtain ⟨q', rfl⟩ := Nat.exists_eq_succ_of_ne_zero (Nat.ne_of_gt hq)
        rw [Nat.succ_mul] at hjp
        have := per_mul h.per q' (k - 1) (by omega)
        rw [show i + k - 1 = i + (k - 1) by omega, this]
        congr 1; omega
      by_cases heq : let' n (i + k - 1) = let' n (jp + k)
      · rw [if_pos heq]
        have hc := h.eq hlt (hask.trans heq)
        by_cases hkeq : k = p
        · rw [if_pos hkeq]
          subst hkeq
          exact ih i (jp + k) 1 k (q + 1) (by omega) (by rw [Nat.add_mul]; omega) (by omega) (by omega) hc (by omega)
        · rw [if_neg hkeq]
          exact ih i jp (k + 1) p q hq hjp (by omega) (by omega) hc (by omega)
      · rw [if_neg heq]
        cases hg : gt (let' n (i + k - 1)) (let' n (jp + k)) with
        | true =>
          rw [if_pos rfl]
          have hc := h.lt hR hlt (by rw [hask]; exact hg)
          exact ih i (jp + k) 1 (jp + k + 1 - i) 1 (by omega) (by omega) (by omega) (by omega) hc (by omega)
        | false =>
          rw [if_neg (by simp)]
          have hlast : ∀ e, jp + 1 + e < jp + k → let' n (jp + 1 + e) = let' n (i + e) := by
            intro e he
            have := per_mul h.per q e (by omega)
            rw [this]; congr 1; omega
          have hc := h.gt hR hlt (jp + 1) (by omega) (by omega) hlast (by
            rw [show i + (jp + k - (jp + 1)) = i + k - 1 by omega]
            exact htot _ _ heq hg)
          exact ih (jp + 1) (jp + 1) 1 1 1 (by omega) (by omega) (by omega) (by omega) hc (by omega)
    · rw [if_neg hlt]
      have : jp + k = n.length := by omega
      rw [this] at h
      exact ⟨i, p, rfl, h.maxSuf hR⟩

end Muon.Memmem
