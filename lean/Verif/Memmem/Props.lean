import Verif.Memmem.Search
import Verif.Memmem.Spec
/-
Property C45: `memmem` finds the first place of the needle.
-/
namespace Muon.Memmem
open Muon
open Spec

/-! ### Places -/

theorem occurs_iff (h n : Bytes) (i : Nat) : Occurs h n i ↔ At h n i := by
  constructor
  · rintro ⟨a, b, rfl, rfl⟩
    refine ⟨by simp, ?_⟩
    intro k hk
    unfold let'
    rw [List.getD_eq_getElem?_getD, List.getD_eq_getElem?_getD, List.append_assoc, List.getElem?_append_right (by omega),
      show a.length + k - a.length = k by omega, List.getElem?_append_left hk]
  · rintro ⟨h1, h2⟩
    refine ⟨h.take i, h.drop (i + n.length), ?_, by rw [List.length_take]; omega⟩
    have : (h.drop i).take n.length = n := by
      apply List.ext_getElem?
      intro k
      by_cases hk : k < n.length
      · rw [List.getElem?_take_of_lt hk, List.getElem?_drop, get_let h (i + k) (by omega), h2 k hk, get_let n k hk]
      · rw [List.getElem?_eq_none (by rw [List.length_take]; omega), List.getElem?_eq_none (by omega)]
    conv => lhs; rw [← List.take_append_drop i h, ← List.take_append_drop n.length (h.drop i), this, List.drop_drop]
    simp

theorem occurs_cons (a : UInt8) (h n : Bytes) (i : Nat) : Occurs (a :: h) n (i + 1) ↔ Occurs h n i := by
  constructor
  · rintro ⟨x, y, h1, h2⟩
    cases x with
    | nil => simp at h2
    | cons c x =>
      simp only [List.cons_append] at h1
      injection h1 with e1 e2
      exact ⟨x, y, e2, by simpa using h2⟩
  · rintro ⟨x, y, rfl, rfl⟩
    exact ⟨a :: x, y, by simp, by simp⟩

theorem occurs_drop (h n : Bytes) (o i : Nat) (ho : o ≤ h.length) : Occurs h n (o + i) ↔ Occurs (h.drop o) n i := by
  induction o generalizing h with
  | zero => simp
  | succ o ih =>
    cases h with
    | nil => simp at ho
    | cons a h =>
      rw [show o + 1 + i = (o + i) + 1 by omega, occurs_cons]
      exact ih h (by simpa using ho)

/-! ### Short needles -/

/-- What a search finds. -/
def Finds (h n : Bytes) (r : Option Nat) : Prop :=
  (∃ o, r = some o ∧ Occurs h n o ∧ ∀ o', o' < o → ¬ Occurs h n o') ∨ (r = none ∧ ∀ o, ¬ Occurs h n o)

/-- A shift register that holds `m` bytes in a way that keeps them apart finds the first place. -/
theorem regLoop_ok (put : Nat → UInt8 → Nat) (enc : Bytes → Nat) (m : Nat) (n : Bytes) (hn : n.length = m + 1)
    (hinj : ∀ a b : Bytes, a.length = m + 1 → b.length = m + 1 → enc a = enc b → a = b)
    (hput : ∀ a w c, w.length = m → put (enc (a :: w)) c = enc (w ++ [c])) (r w : Bytes) (hw : w.length = m + 1) (off : Nat) :
    ∃ x : Option Nat, regLoop put (enc n) r (enc w) off = x.map (off + ·) ∧ Finds (w ++ r) n x := by
  have hself : w = n → Occurs (w ++ r) n 0 := fun e => ⟨[], r, by simp [e], rfl⟩
  induction r generalizing w off with
  | nil =>
    rw [regLoop]
    by_cases he : enc w = enc n
    · rw [if_pos he]
      exact ⟨some 0, rfl, Or.inl ⟨0, rfl, hself (hinj w n hw hn he), fun o h => absurd h (Nat.not_lt_zero o)⟩⟩
    · rw [if_neg he]
      refine ⟨none, rfl, Or.inr ⟨rfl, ?_⟩⟩
      rintro o ⟨x, y, h1, h2⟩
      have hl := congrArg List.length h1
      simp at hl
      have hx : x = [] := List.eq_nil_of_length_eq_zero (by omega)
      have hy : y = [] := List.eq_nil_of_length_eq_zero (by omega)
      subst hx hy
      simp at h1
      exact he (by rw [h1])
  | cons c r ih =>
    rw [regLoop]
    by_cases he : enc w = enc n
    · rw [if_pos he]
      exact ⟨some 0, rfl, Or.inl ⟨0, rfl, hself (hinj w n hw hn he), fun o h => absurd h (Nat.not_lt_zero o)⟩⟩
    · rw [if_neg he]
      cases w with
      | nil => simp at hw
      | cons a w =>
        have hwl : w.length = m := by simpa using hw
        have h0 : ¬ Occurs (a :: w ++ c :: r) n 0 := by
          rintro ⟨x, y, h1, h2⟩
          have hx : x = [] := List.eq_nil_of_length_eq_zero h2
          subst hx
          rw [List.nil_append] at h1
          have := List.append_inj_left h1 (by rw [hn, hw])
          exact he (by rw [this])
        rw [hput a w c hwl]
        obtain ⟨x, h1, h2⟩ := ih (w ++ [c]) (by simp [hwl]) (off + 1) (fun e => ⟨[], r, by simp [e], rfl⟩)
        refine ⟨x.map (1 + ·), by rw [h1]; cases x with | none => rfl | some v => simp; omega, ?_⟩
        have heq : a :: w ++ c :: r = a :: (w ++ [c] ++ r) := by simp
        rw [heq] at h0 ⊢
        rcases h2 with ⟨o, rfl, h3, h4⟩ | ⟨rfl, h3⟩
        · left
          refine ⟨o + 1, by simp [Nat.add_comm], (occurs_cons _ _ _ _).mpr h3, ?_⟩
          intro o' ho'
          cases o' with
          | zero => exact h0
          | succ o' => rw [occurs_cons]; exact h4 o' (by omega)
        · right
          refine ⟨rfl, ?_⟩
          intro o'
          cases o' with
          | zero => exact h0
          | succ o' => rw [occurs_cons]; exact h3 o'

/-- Bytes as a number. -/
def enc (k : Nat) (w : Bytes) : Nat := w.foldl (fun s c => s * 2 ^ 8 + c.toNat) 0 * 2 ^ k

theorem len2 {w : Bytes} (h : w.length = 2) : ∃ a b, w = [a, b] := by
  match w, h with
  | [a, b], _ => exact ⟨a, b, rfl⟩

theorem len3 {w : Bytes} (h : w.length = 3) : ∃ a b c, w = [a, b, c] := by
  match w, h with
  | [a, b, c], _ => exact ⟨a, b, c, rfl⟩

theorem len4 {w : Bytes} (h : w.length = 4) : ∃ a b c d, w = [a, b, c, d] := by
  match w, h with
  | [a, b, c, d], _ => exact ⟨a, b, c, d, rfl⟩

theorem byte_eq {a b : UInt8} (h : a.toNat = b.toNat) : a = b := UInt8.toNat_inj.mp h

theorem twobyte_ok (h n : Bytes) (hn : n.length = 2) (hh : 2 ≤ h.length) : ∃ x, twobyte h n = .ok x ∧ Finds h n x := by
  obtain ⟨n0, n1, rfl⟩ := len2 hn
  match h, hh with
  | h0 :: h1 :: r, _ =>
    have key := regLoop_ok (fun hw c => (hw * 2 ^ 8 + c.toNat) % 2 ^ 16) (enc 0) 1 [n0, n1] rfl
      (by
        intro a b ha hb he
        obtain ⟨a0, a1, rfl⟩ := len2 ha
        obtain ⟨b0, b1, rfl⟩ := len2 hb
        have := a0.toNat_lt; have := a1.toNat_lt; have := b0.toNat_lt; have := b1.toNat_lt
        simp only [enc, List.foldl] at he
        rw [byte_eq (show a0.toNat = b0.toNat by omega), byte_eq (show a1.toNat = b1.toNat by omega)])
      (by
        intro a w c hw
        match w, hw with
        | [b], _ =>
          have := a.toNat_lt; have := b.toNat_lt; have := c.toNat_lt
          simp only [enc, List.foldl, List.cons_append, List.nil_append]
          omega)
      r [h0, h1] rfl 0
    obtain ⟨x, hx, hf⟩ := key
    refine ⟨x, ?_, hf⟩
    rw [twobyte]
    have e : ∀ a b : UInt8, enc 0 [a, b] = a.toNat * 2 ^ 8 + b.toNat := by intro a b; simp only [enc, List.foldl]; omega
    rw [e, e] at hx
    rw [hx]
    cases x <;> simp

theorem threebyte_ok (h n : Bytes) (hn : n.length = 3) (hh : 3 ≤ h.length) : ∃ x, threebyte h n = .ok x ∧ Finds h n x := by
  obtain ⟨n0, n1, n2, rfl⟩ := len3 hn
  match h, hh with
  | h0 :: h1 :: h2 :: r, _ =>
    have key := regLoop_ok (fun hw c => (hw + c.toNat) * 2 ^ 8 % 2 ^ 32) (enc 8) 2 [n0, n1, n2] rfl
      (by
        intro a b ha hb he
        obtain ⟨a0, a1, a2, rfl⟩ := len3 ha
        obtain ⟨b0, b1, b2, rfl⟩ := len3 hb
        have := a0.toNat_lt; have := a1.toNat_lt; have := b0.toNat_lt; have := b1.toNat_lt
        have := a2.toNat_lt; have := b2.toNat_lt
        simp only [enc, List.foldl] at he
        rw [byte_eq (show a0.toNat = b0.toNat by omega), byte_eq (show a1.toNat = b1.toNat by omega), byte_eq (show a2.toNat = b2.toNat by omega)])
      (by
        intro a w c hw
        obtain ⟨b, d, rfl⟩ := len2 hw
        have := a.toNat_lt; have := b.toNat_lt; have := c.toNat_lt; have := d.toNat_lt
        simp only [enc, List.foldl, List.cons_append, List.nil_append]
        omega)
      r [h0, h1, h2] rfl 0
    obtain ⟨x, hx, hf⟩ := key
    refine ⟨x, ?_, hf⟩
    rw [threebyte]
    have e : ∀ a b c : UInt8, enc 8 [a, b, c] = a.toNat * 2 ^ 24 + b.toNat * 2 ^ 16 + c.toNat * 2 ^ 8 := by
      intro a b c; simp only [enc, List.foldl]; omega
    rw [e, e] at hx
    rw [hx]
    cases x <;> simp

theorem fourbyte_ok (h n : Bytes) (hn : n.length = 4) (hh : 4 ≤ h.length) : ∃ x, fourbyte h n = .ok x ∧ Finds h n x := by
  obtain ⟨n0, n1, n2, n3, rfl⟩ := len4 hn
  match h, hh with
  | h0 :: h1 :: h2 :: h3 :: r, _ =>
    have key := regLoop_ok (fun hw c => (hw * 2 ^ 8 + c.toNat) % 2 ^ 32) (enc 0) 3 [n0, n1, n2, n3] rfl
      (by
        intro a b ha hb he
        obtain ⟨a0, a1, a2, a3, rfl⟩ := len4 ha
        obtain ⟨b0, b1, b2, b3, rfl⟩ := len4 hb
        have := a0.toNat_lt; have := a1.toNat_lt; have := b0.toNat_lt; have := b1.toNat_lt
        have := a2.toNat_lt; have := b2.toNat_lt; have := a3.toNat_lt; have := b3.toNat_lt
        simp only [enc, List.foldl] at he
        rw [byte_eq (show a0.toNat = b0.toNat by omega), byte_eq (show a1.toNat = b1.toNat by omega), byte_eq (show a2.toNat = b2.toNat by omega),
          byte_eq (show a3.toNat = b3.toNat by omega)])
      (by
        intro a w c hw
        obtain ⟨b, d, e, rfl⟩ := len3 hw
        have := a.toNat_lt; have := b.toNat_lt; have := c.toNat_lt; have := d.toNat_lt; have := e.toNat_lt
        simp only [enc, List.foldl, List.cons_append, List.nil_append]
        omega)
      r [h0, h1, h2, h3] rfl 0
    obtain ⟨x, hx, hf⟩ := key
    refine ⟨x, ?_, hf⟩
    rw [fourbyte]
    have e : ∀ a b c d : UInt8, enc 0 [a, b, c, d] = a.toNat * 2 ^ 24 + b.toNat * 2 ^ 16 + c.toNat * 2 ^ 8 + d.toNat := by
      intro a b c d; simp only [enc, List.foldl]; omega
    rw [e, e] at hx
    rw [hx]
    cases x <;> simp

/-! ### Long needles -/

/-- The prefixes that `memcmp` compares. -/
theorem take_eq_iff (n : Bytes) (c p : Nat) (h : p + c ≤ n.length) :
    n.take c = (n.drop p).take c ↔ ∀ i, i < c → let' n i = let' n (i + p) := by
  constructor
  · intro he i hi
    have := congrArg (fun l => l[i]?) he
    simp only [List.getElem?_take_of_lt hi, List.getElem?_drop] at this
    rw [get_let n i (by omega), get_let n (p + i) (by omega)] at this
    rw [Nat.add_comm i p]
    exact Option.some.inj this
  · intro he
    apply List.ext_getElem?
    intro i
    by_cases hi : i < c
    · rw [List.getElem?_take_of_lt hi, List.getElem?_take_of_lt hi, List.getElem?_drop, get_let n i (by omega), get_let n (p + i) (by omega),
        he i hi, Nat.add_comm i p]
    · rw [List.getElem?_eq_none (by rw [List.length_take]; omega), List.getElem?_eq_none (by rw [List.length_take]; omega)]

/-- The maximal suffixes give what the search needs. -/
theorem period_fact {R : UInt8 → UInt8 → Prop} (hR : Order R) (n : Bytes) (c p c2 p2 : Nat) (hn : n.length < 2 ^ 64)
    (h : MaxSuf R (let' n) n.length c p) (h2 : MaxSuf (fun a b => R b a) (let' n) n.length c2 p2) (hc : c2 ≤ c) :
    ∃ q, period n c p = .ok q ∧ Fact n c q.1 q.2 := by
  have hle := h.le
  have hpos := h.pos
  rw [period, if_pos (by omega)]
  by_cases he : n.take c = (n.drop p).take c
  · rw [if_neg (fun hne => hne he)]
    refine ⟨_, rfl, ?_⟩
    rw [take_eq_iff n c p (by omega)] at he
    have hper : ∀ i, i + p < n.length → let' n i = let' n (i + p) := by
      intro i hi
      by_cases hic : i < c
      · exact he i hic
      · have := h.per (i - c) (by omega)
        rwa [show c + (i - c) = i by omega] at this
    have hloc : Local (let' n) n.length c p := by
      refine ⟨hpos, ?_⟩
      intro i h1 h3 h4 h5
      rw [hper (i - p) (by omega), show i - p + p = i by omega]
    refine ⟨by omega, hpos, by show p ≤ _; omega, ?_, Or.inr ⟨rfl, ?_, hper⟩⟩
    · intro s hs
      have hcr := critical hR h h2 hc s hs
      refine ⟨hcr.2, ?_⟩
      apply Classical.byContradiction
      intro hlt
      obtain ⟨e, e1, e2⟩ := h.least s hs.1 (by omega)
      exact e2 (hcr.2 (c + e) e1)
    · exact Nat.le_of_lt (critical hR h h2 hc p hloc).1
  · rw [if_pos he]
    refine ⟨_, rfl, ?_⟩
    have hc0 : c ≠ 0 := by
      rintro rfl
      exact he (by simp)
    rw [if_neg hc0]
    have hmod : (max (c - 1) (n.length - c) + 1) % 2 ^ 64 = max (c - 1) (n.length - c) + 1 := Nat.mod_eq_of_lt (by omega)
    dsimp only
    rw [hmod]
    refine ⟨by omega, by omega, by omega, ?_, Or.inl rfl⟩
    intro s hs
    have hcr := critical hR h h2 hc s hs
    refine ⟨hcr.2, ?_⟩
    apply Classical.byContradiction
    intro hlt
    apply he
    rw [take_eq_iff n c p (by omega)]
    exact periodic hR h h2 hc s hcr.1 hcr.2 (by omega)

theorem order_lt : Order (fun a b : UInt8 => (decide (a < b)) = true) :=
  ⟨fun a => by simp, fun a b c h1 h2 => by simp at *; exact UInt8.lt_trans h1 h2⟩

theorem core_init {R : UInt8 → UInt8 → Prop} (n : Bytes) (hn : 0 < n.length) : Core R (let' n) n.length 0 (0 + 1) 1 :=
  ⟨by omega, by omega, by omega, fun e he => by omega, fun a h => by omega, fun a h1 h2 => by omega⟩

theorem twoway_ok (h n : Bytes) (hn : 0 < n.length) (hl : n.length < 2 ^ 64) : ∃ x, twoway h n = .ok x ∧ Finds h n x := by
  obtain ⟨c1, p1, e1, m1⟩ := maxSuffix_ok (fun b a => decide (a < b)) order_lt
    (by
      intro a b hab hf
      simp at hf ⊢
      exact UInt8.lt_of_le_of_ne hf hab) n (2 * n.length + 2) 0 0 1 1 1 (by omega) (by omega) (by omega) (by omega)
    (core_init n hn) (by omega)
  obtain ⟨c2, p2, e2, m2⟩ := maxSuffix_ok (fun b a => decide (b < a)) order_lt.flip
    (by
      intro a b hab hf
      simp at hf ⊢
      exact UInt8.lt_of_le_of_ne hf hab.symm) n (2 * n.length + 2) 0 0 1 1 1 (by omega) (by omega) (by omega) (by omega)
    (core_init n hn) (by omega)
  have key : ∃ q, period n (if c2 > c1 then (c2, p2) else (c1, p1)).1 (if c2 > c1 then (c2, p2) else (c1, p1)).2 = .ok q ∧
      Fact n (if c2 > c1 then (c2, p2) else (c1, p1)).1 q.1 q.2 := by
    by_cases hgt : c2 > c1
    · rw [if_pos hgt]
      exact period_fact order_lt.flip n c2 p2 c1 p1 hl m2 m1 (by omega)
    · rw [if_neg hgt]
      exact period_fact order_lt n c1 p1 c2 p2 hl m1 m2 (by omega)
  obtain ⟨q, hq, hF⟩ := key
  have hs := search_ok h n _ q.1 q.2 hn hF (h.length + 1) 0 0 (by omega) (by omega) (fun o ho => absurd ho (Nat.not_lt_zero o)) (Or.inl rfl)
    (fun i hi => absurd hi (Nat.not_lt_zero i))
  have hr : twoway h n = search h n (table n 0 (fun _ => none)) (if c2 > c1 then (c2, p2) else (c1, p1)).1 q.1 q.2 (h.length + 1) 0 0 := by
    rw [twoway]
    rw [e1, Res.ok_bind, e2, Res.ok_bind]
    dsimp only
    rw [hq, Res.ok_bind]
  rw [hr]
  rcases hs with ⟨o, h1, h2, h3⟩ | ⟨h1, h2⟩
  · exact ⟨_, h1, Or.inl ⟨o, rfl, (occurs_iff _ _ _).mpr h2, fun o' ho' h => h3 o' ho' ((occurs_iff _ _ _).mp h)⟩⟩
  · exact ⟨_, h1, Or.inr ⟨rfl, fun o' h => h2 o' ((occurs_iff _ _ _).mp h)⟩⟩

/-! ### The property -/

/-- **C45.** A search ends, reads only the haystack and the needle, and finds the first place of the needle if there is one. -/
theorem memmem_first (h n : Bytes) (hn : n.length < 2 ^ 64) :
    ∃ r, memmem h n = .ok r ∧
      match r with
      | some i => Occurs h n i ∧ ∀ j, j < i → ¬ Occurs h n j
      | none => ∀ i, ¬ Occurs h n i := by
  suffices hs : ∃ r, memmem h n = .ok r ∧ Finds h n r by
    obtain ⟨r, h1, h2⟩ := hs
    refine ⟨r, h1, ?_⟩
    rcases h2 with ⟨o, rfl, h3, h4⟩ | ⟨rfl, h3⟩
    · exact ⟨h3, h4⟩
    · exact h3
  cases n with
  | nil => exact ⟨some 0, rfl, Or.inl ⟨0, rfl, ⟨[], h, by simp, rfl⟩, fun o ho => absurd ho (Nat.not_lt_zero o)⟩⟩
  | cons c r =>
    rw [memmem]
    have hlen : ∀ i, Occurs h (c :: r) i → i + (c :: r).length ≤ h.length := fun i hi => ((occurs_iff _ _ _).mp hi).1
    -- the first byte
    have hfirst : ∀ i, Occurs h (c :: r) i → h[i]? = some c := by
      rintro i ⟨a, b, rfl, rfl⟩
      simp
    by_cases hk : h.length < (c :: r).length
    · rw [if_pos hk]
      exact ⟨none, rfl, Or.inr ⟨rfl, fun i hi => by have := hlen i hi; omega⟩⟩
    · rw [if_neg hk]
      cases hf : h.findIdx? (· == c) with
      | none =>
        rw [List.findIdx?_eq_none_iff] at hf
        refine ⟨none, rfl, Or.inr ⟨rfl, fun i hi => ?_⟩⟩
        have := hf c (List.mem_of_getElem? (hfirst i hi))
        simp at this
      | some o =>
        rw [List.findIdx?_eq_some_iff_getElem] at hf
        obtain ⟨ho, hoc, hbefore⟩ := hf
        have hnot : ∀ i, i < o → ¬ Occurs h (c :: r) i := by
          intro i hi hocc
          have h1 := hfirst i hocc
          have h2 := hbefore i hi
          rw [List.getElem?_eq_getElem (by omega)] at h1
          rw [Option.some.inj h1] at h2
          simp at h2
        dsimp only
        by_cases hr : r = []
        · rw [if_pos hr]
          subst hr
          refine ⟨some o, rfl, Or.inl ⟨o, rfl, ?_, hnot⟩⟩
          rw [occurs_iff]
          refine ⟨by simp only [List.length_cons, List.length_nil]; omega, ?_⟩
          intro i hi
          have hi0 : i = 0 := by simp only [List.length_cons, List.length_nil] at hi; omega
          subst hi0
          have := get_let h o ho
          rw [List.getElem?_eq_getElem ho] at this
          simp at hoc
          rw [Nat.add_zero, ← Option.some.inj this, hoc]
          rfl
        · rw [if_neg hr]
          by_cases hk2 : (h.drop o).length < (c :: r).length
          · rw [if_pos hk2]
            rw [List.length_drop] at hk2
            refine ⟨none, rfl, Or.inr ⟨rfl, fun i hi => ?_⟩⟩
            have := hlen i hi
            exact hnot i (by omega) hi
          · rw [if_neg hk2]
            have key : ∃ x, (if (c :: r).length = 2 then twobyte (h.drop o) (c :: r)
                else if (c :: r).length = 3 then threebyte (h.drop o) (c :: r)
                else if (c :: r).length = 4 then fourbyte (h.drop o) (c :: r)
                else twoway (h.drop o) (c :: r)) = .ok x ∧ Finds (h.drop o) (c :: r) x := by
              by_cases l2 : (c :: r).length = 2
              · rw [if_pos l2]; exact twobyte_ok _ _ l2 (by omega)
              · rw [if_neg l2]
                by_cases l3 : (c :: r).length = 3
                · rw [if_pos l3]; exact threebyte_ok _ _ l3 (by omega)
                · rw [if_neg l3]
                  by_cases l4 : (c :: r).length = 4
                  · rw [if_pos l4]; exact fourbyte_ok _ _ l4 (by omega)
                  · rw [if_neg l4]; exact twoway_ok _ _ (by simp) hn
            obtain ⟨x, hx, hfx⟩ := key
            rw [hx, Res.ok_bind]
            refine ⟨_, rfl, ?_⟩
            rcases hfx with ⟨v, rfl, h1, h2⟩ | ⟨rfl, h1⟩
            · left
              refine ⟨o + v, rfl, (occurs_drop _ _ _ _ (by omega)).mpr h1, ?_⟩
              intro i hi
              by_cases hio : i < o
              · exact hnot i hio
              · have := h2 (i - o) (by omega)
                rw [← occurs_drop _ _ _ _ (by omega), show o + (i - o) = i by omega] at this
                exact this
            · right
              refine ⟨rfl, fun i => ?_⟩
              by_cases hio : i < o
              · exact hnot i hio
              · have := h1 (i - o)
                rw [← occurs_drop _ _ _ _ (by omega), show o + (i - o) = i by omega] at this
                exact this

/-- A haystack has a needle in it exactly if the search finds it. -/
theorem memmem_found (h n : Bytes) (hn : n.length < 2 ^ 64) : (∃ i, memmem h n = .ok (some i)) ↔ ∃ a b, h = a ++ n ++ b := by
  obtain ⟨r, h1, h2⟩ := memmem_first h n hn
  rw [h1]
  cases r with
  | none =>
    constructor
    · rintro ⟨i, hi⟩; cases hi
    · rintro ⟨a, b, hab⟩; exact absurd ⟨a, b, hab, rfl⟩ (h2 a.length)
  | some i =>
    constructor
    · intro _
      obtain ⟨a, b, hab, _⟩ := h2.1
      exact ⟨a, b, hab⟩
    · intro _; exact ⟨i, rfl⟩

/-- Searches with all of the loops: needles of one to six bytes; a periodic needle with a part remembered. -/
example : memmem (ascii "a needle in a haystack") (ascii "in") = .ok (some 9) ∧ memmem (ascii "aababc") (ascii "abc") = .ok (some 3) ∧
    memmem (ascii "abcabcabd") (ascii "abca") = .ok (some 0) ∧ memmem (ascii "xxabcabcabcabd") (ascii "abcabcabd") = .ok (some 5) ∧
    memmem (ascii "abaabaabbaabaabaaba") (ascii "aabaabaaba") = .ok (some 9) ∧ memmem (ascii "ababababa") (ascii "ababc") = .ok none ∧
    (ascii "abcabcabd").length < 2 ^ 64 := by decide +kernel

end Muon.Memmem
