import Verif.Tc.Spec
/-
Type checking: lemmas.
-/
namespace Muon.Tc
open Muon Muon.Tc.Spec

theorem and_twoPow_ne (x : Tag) (k : Nat) (hk : k < 64) : (BitVec.twoPow 64 k &&& x ≠ 0) ↔ x.getLsbD k = true := by
  rw [BitVec.and_comm, BitVec.and_twoPow]
  cases h : x.getLsbD k with
  | false => simp
  | true =>
    simp only [if_true, iff_true]
    intro e
    have := congrArg (fun y : Tag => y.getLsbD k) e
    simp [hk] at this

theorem got_eq : ∀ t : Fin 33, t.val ≠ 0 → ofObjType t.val &&& ~~~tagged = BitVec.twoPow 64 (t.val - 1) := by decide +kernel

theorem got_zero : ofObjType 0 &&& ~~~tagged = 0 := by decide

theorem keep_bit : ∀ k : Fin 59, (~~~(tagged ||| allowVoid)).getLsbD k.val = true := by decide +kernel
theorem disabler_bit : ∀ k : Fin 59, tcDisabler.getLsbD k.val = decide (k.val = 1) := by decide +kernel
theorem mask_low : ∀ k : Fin 59, mask.getLsbD k.val = false := by decide +kernel

theorem type_bit (tag : Tag) (k : Nat) (hk : k < 59) :
    ((tag ||| tcDisabler) &&& ~~~(tagged ||| allowVoid)).getLsbD k = (tag.getLsbD k || decide (k = 1)) := by
  rw [BitVec.getLsbD_and, BitVec.getLsbD_or, keep_bit ⟨k, hk⟩, disabler_bit ⟨k, hk⟩, Bool.and_true]

theorem type_mask (tag : Tag) (h0 : tag.getLsbD 60 = false) (h1 : tag.getLsbD 61 = false) (h2 : tag.getLsbD 62 = false) :
    ((tag ||| tcDisabler) &&& ~~~(tagged ||| allowVoid)) &&& mask = 0 := by
  apply BitVec.eq_of_getLsbD_eq
  intro i hi
  rw [BitVec.getLsbD_and]
  by_cases h : i < 59
  · rw [mask_low ⟨i, h⟩]; simp
  · have hc : i = 59 ∨ i = 60 ∨ i = 61 ∨ i = 62 ∨ i = 63 := by omega
    have d59 : (~~~(tagged ||| allowVoid)).getLsbD 59 = false := by decide
    have d63 : (~~~(tagged ||| allowVoid)).getLsbD 63 = false := by decide
    have e60 : tcDisabler.getLsbD 60 = false := by decide
    have e61 : tcDisabler.getLsbD 61 = false := by decide
    have e62 : tcDisabler.getLsbD 62 = false := by decide
    rw [BitVec.getLsbD_and, BitVec.getLsbD_or]
    rcases hc with rfl | rfl | rfl | rfl | rfl
    · rw [d59]; simp
    · rw [h0, e60]; simp
    · rw [h1, e61]; simp
    · rw [h2, e62]; simp
    · rw [d63]; simp

theorem mem_kinds {tag : Tag} {t : Nat} : t ∈ kinds tag ↔ 0 < t ∧ t ≤ 59 ∧ tag.getLsbD (t - 1) = true := by
  unfold kinds
  simp only [List.mem_map, List.mem_filter, List.mem_range]
  constructor
  · rintro ⟨i, ⟨h1, h2⟩, rfl⟩; exact ⟨by omega, by omega, by simpa using h2⟩
  · rintro ⟨h1, h2, h3⟩; exact ⟨t - 1, ⟨by omega, h3⟩, by omega⟩

theorem kinds_empty {tag : Tag} : (kinds tag).isEmpty = true ↔ tag &&& ~~~mask = 0 := by
  have hm : ∀ k : Fin 59, (~~~mask).getLsbD k.val = true := by decide +kernel
  have hh : ∀ k : Fin 64, 59 ≤ k.val → (~~~mask).getLsbD k.val = false := by decide +kernel
  rw [List.isEmpty_iff]
  constructor
  · intro h
    apply BitVec.eq_of_getLsbD_eq
    intro i hi
    rw [BitVec.getLsbD_and]
    by_cases hi' : i < 59
    · have : i + 1 ∉ kinds tag := by rw [h]; simp
      rw [mem_kinds] at this
      cases hb : tag.getLsbD i with
      | false => simp
      | true => exact absurd ⟨by omega, by omega, by simpa using hb⟩ this
    · rw [hh ⟨i, hi⟩ (by simp; omega)]; simp
  · intro h
    rw [List.eq_nil_iff_forall_not_mem]
    intro t ht
    obtain ⟨h1, h2, h3⟩ := mem_kinds.mp ht
    have := congrArg (fun y : Tag => y.getLsbD (t - 1)) h
    simp only [BitVec.getLsbD_and, h3, hm ⟨t - 1, by omega⟩] at this
    simp at this

theorem void_bit (tag : Tag) : tag &&& allowVoid ≠ 0 ↔ tag.getLsbD 59 = true := by
  rw [BitVec.and_comm]
  exact and_twoPow_ne tag 59 (by omega)

theorem complex_bit (tag : Tag) : tag &&& complex = 0 ↔ tag.getLsbD 60 = false := by
  rw [BitVec.and_comm]
  have := and_twoPow_ne tag 60 (by omega)
  cases h : tag.getLsbD 60 with
  | false =>
    simp only [iff_true]
    apply Classical.byContradiction
    intro hn
    rw [this.mp hn] at h; cases h
  | true =>
    simp only [Bool.true_eq_false, iff_false]
    exact this.mpr h

/-- The type check against a simple type. -/
theorem checkSimple_iff (t : Nat) (ht : t ≤ 32) (tag : Tag) (h0 : tag.getLsbD 60 = false)
    (h1 : tag.getLsbD 61 = false) (h2 : tag.getLsbD 62 = false) (hf : t ≠ 0 ∨ tag ≠ tcFunc) :
    ∃ b, checkSimple (ofObjType t) tag = .ok b ∧
      (b = true ↔ t ∈ kinds tag ∨ t = 2 ∨ (t = 0 ∧ (tag.getLsbD 59 || (kinds tag).isEmpty) = true)) := by
  unfold checkSimple
  dsimp only
  by_cases hz : t = 0
  · subst hz
    rw [got_zero]
    have h0k : 0 ∉ kinds tag := by rw [mem_kinds]; omega
    by_cases hv : tag &&& allowVoid ≠ 0 ∨ tag &&& ~~~mask = 0
    · rw [if_pos ⟨rfl, hv⟩]
      refine ⟨true, rfl, ?_⟩
      rw [void_bit, ← kinds_empty] at hv
      simpa using Or.inr hv
    · rw [if_neg (fun h => hv h.2)]
      have hf' : tag ≠ tcFunc := hf.resolve_left (fun h => h rfl)
      rw [if_neg (fun h => hf' h.2), if_neg (by simp), if_neg (by rw [type_mask tag h0 h1 h2]; simp)]
      refine ⟨_, rfl, ?_⟩
      have hne : (tag ||| tcDisabler) &&& ~~~(tagged ||| allowVoid) ≠ 0 := by
        intro e
        have := congrArg (fun y : Tag => y.getLsbD 1) e
        simp only [type_bit tag 1 (by omega)] at this
        simp at this
      rw [void_bit, ← kinds_empty] at hv
      constructor
      · intro h
        rcases of_decide_eq_true h with h | h
        · exact absurd h.2 hne
        · simp at h
      · rintro (h | h | ⟨_, h⟩)
        · exact absurd h h0k
        · omega
        · exact absurd (by simpa using h) hv
  · have hg := got_eq ⟨t, by omega⟩ hz
    simp only at hg
    rw [hg]
    have hne : BitVec.twoPow 64 (t - 1) ≠ 0 := by
      intro e
      have := congrArg (fun y : Tag => y.getLsbD (t - 1)) e
      simp [BitVec.getLsbD_twoPow] at this
      omega
    have hgm : BitVec.twoPow 64 (t - 1) &&& mask = 0 := by
      apply Classical.byContradiction
      intro h
      have h := (and_twoPow_ne mask (t - 1) (by omega)).mp h
      rw [mask_low ⟨t - 1, by omega⟩] at h; cases h
    rw [if_neg (fun h => hne h.1), if_neg (fun h => hne h.1), if_neg (by simp [hgm]),
      if_neg (by rw [type_mask tag h0 h1 h2]; simp)]
    refine ⟨_, rfl, ?_⟩
    rw [decide_eq_true_iff]
    constructor
    · rintro (h | h)
      · exact absurd h.1 hne
      · rw [and_twoPow_ne _ _ (by omega), type_bit _ _ (by omega)] at h
        simp only [Bool.or_eq_true, decide_eq_true_eq] at h
        rcases h with h | h
        · exact .inl (mem_kinds.mpr ⟨by omega, by omega, h⟩)
        · exact .inr (.inl (by omega))
    · intro h
      right
      rw [and_twoPow_ne _ _ (by omega), type_bit _ _ (by omega)]
      simp only [Bool.or_eq_true, decide_eq_true_eq]
      rcases h with h | h | h
      · exact .inl (mem_kinds.mp h).2.2
      · exact .inr (by omega)
      · exact absurd h.1 hz

/-! ### Complex tags -/

theorem complexTag_bit60 (i k : Nat) : (complexTag i k).getLsbD 60 = true := by
  unfold complexTag
  have : complex.getLsbD 60 = true := by decide
  simp only [BitVec.getLsbD_or, this]
  simp

theorem ofNat_high (i : Nat) (hi : i < 2 ^ 32) (j : Nat) (hj : 32 ≤ j) : (BitVec.ofNat 64 i).getLsbD j = false := by
  rw [BitVec.getLsbD_ofNat, Nat.testBit_lt_two_pow (Nat.lt_of_lt_of_le hi (Nat.pow_le_pow_right (by omega) hj))]
  simp

theorem complexTag_index (i k : Nat) (hi : i < 2 ^ 32) (hk : k = 0 ∨ k = 1) :
    (complexTag i k &&& 0xffffffff#64).toNat = i := by
  have : complexTag i k &&& 0xffffffff#64 = BitVec.ofNat 64 i := by
    apply BitVec.eq_of_getLsbD_eq
    intro j hj
    rw [BitVec.getLsbD_and]
    by_cases h : j < 32
    · have a : ∀ j : Fin 32, (0xffffffff#64).getLsbD j.val = true := by decide +kernel
      have b : ∀ j : Fin 32, complex.getLsbD j.val = false := by decide +kernel
      have c : ∀ j : Fin 32, tagged.getLsbD j.val = false := by decide +kernel
      have d : ∀ j : Fin 32, (BitVec.ofNat 64 k <<< 48).getLsbD j.val = false := by
        rcases hk with rfl | rfl <;> decide +kernel
      unfold complexTag
      simp only [BitVec.getLsbD_or, a ⟨j, h⟩, b ⟨j, h⟩, c ⟨j, h⟩, d ⟨j, h⟩]
      simp
    · have a : ∀ j : Fin 64, 32 ≤ j.val → (0xffffffff#64).getLsbD j.val = false := by decide +kernel
      rw [a ⟨j, hj⟩ (by simp; omega), ofNat_high i hi j (by omega)]
      simp
  rw [this]
  simp only [BitVec.toNat_ofNat]
  omega

theorem complexTag_kind (i k : Nat) (hi : i < 2 ^ 32) (hk : k = 0 ∨ k = 1) :
    ((complexTag i k >>> 48) &&& 0xff#64).toNat = k := by
  have : (complexTag i k >>> 48) &&& 0xff#64 = BitVec.ofNat 64 k := by
    apply BitVec.eq_of_getLsbD_eq
    intro j hj
    rw [BitVec.getLsbD_and]
    by_cases h : j < 8
    · have a : ∀ j : Fin 8, (0xff#64).getLsbD j.val = true := by decide +kernel
      have b : ∀ j : Fin 8, complex.getLsbD (48 + j.val) = false := by decide +kernel
      have c : ∀ j : Fin 8, tagged.getLsbD (48 + j.val) = false := by decide +kernel
      have d : ∀ j : Fin 8, (BitVec.ofNat 64 k <<< 48).getLsbD (48 + j.val) = (BitVec.ofNat 64 k).getLsbD j.val := by
        rcases hk with rfl | rfl <;> decide +kernel
      rw [BitVec.getLsbD_ushiftRight]
      unfold complexTag
      simp only [BitVec.getLsbD_or, a ⟨j, h⟩, b ⟨j, h⟩, c ⟨j, h⟩, d ⟨j, h⟩, ofNat_high i hi (48 + j) (by omega)]
      simp
    · have a : ∀ j : Fin 64, 8 ≤ j.val → (0xff#64).getLsbD j.val = false := by decide +kernel
      have b : ∀ j : Fin 64, 8 ≤ j.val → (BitVec.ofNat 64 k).getLsbD j.val = false := by
        rcases hk with rfl | rfl <;> decide +kernel
      rw [a ⟨j, hj⟩ (by simp; omega), b ⟨j, hj⟩ (by simp; omega)]
      simp
  rw [this]
  simp only [BitVec.toNat_ofNat]
  omega

/-! ### Values -/

mutual
theorem each_mono {p q : Nat → Prop} (h : ∀ t, p t → q t) : ∀ v : V, Each p v → Each q v
  | .obj t _, hp => by rw [Each] at hp ⊢; exact h t hp
  | .arr l, hp => by rw [Each] at hp ⊢; exact eachList_mono h l hp
  | .dict l, hp => by rw [Each] at hp ⊢; exact eachDict_mono h l hp
theorem eachList_mono {p q : Nat → Prop} (h : ∀ t, p t → q t) : ∀ l : List V, EachList p l → EachList q l
  | [], _ => by rw [EachList]; trivial
  | v :: l, hp => by rw [EachList] at hp ⊢; exact ⟨each_mono h v hp.1, eachList_mono h l hp.2⟩
theorem eachDict_mono {p q : Nat → Prop} (h : ∀ t, p t → q t) : ∀ l : List (Bytes × V), EachDict p l → EachDict q l
  | [], _ => by rw [EachDict]; trivial
  | e :: l, hp => by rw [EachDict] at hp ⊢; exact ⟨each_mono h e.2 hp.1, eachDict_mono h l hp.2⟩
end

theorem Plain.wf {v : V} (h : Plain v) : Wf v := each_mono (fun _ h => ⟨h.1, h.2.1, h.2.2.1⟩) v h

mutual
theorem flat_each {p : Nat → Prop} : ∀ v : V, Each p v → ∀ x ∈ flat v, Each p x
  | .obj t i, h, x, hx => by
    simp only [flat, List.mem_singleton] at hx
    subst hx; exact h
  | .arr l, h, x, hx => by
    rw [flat] at hx
    rw [Each] at h
    exact flatList_each l h x hx
  | .dict l, h, x, hx => by
    simp only [flat, List.mem_singleton] at hx
    subst hx; exact h
theorem flatList_each {p : Nat → Prop} : ∀ l : List V, EachList p l → ∀ x ∈ flatList l, Each p x
  | [], _, x, hx => by simp [flatList] at hx
  | v :: l, h, x, hx => by
    rw [flatList] at hx
    rw [EachList] at h
    rcases List.mem_append.mp hx with hx | hx
    · exact flat_each v h.1 x hx
    · exact flatList_each l h.2 x hx
end

theorem listOf_each {p : Nat → Prop} {v : V} (h : Each p v) : ∀ x ∈ listOf v, Each p x := by
  cases v with
  | obj t i => intro x hx; simp only [listOf, List.mem_singleton] at hx; subst hx; exact h
  | arr l => rw [Each] at h; exact flatList_each l h
  | dict l => intro x hx; simp only [listOf, List.mem_singleton] at hx; subst hx; exact h

theorem eachList_mem {p : Nat → Prop} {l : List V} (h : EachList p l) {x : V} (hx : x ∈ l) : Each p x := by
  induction l with
  | nil => cases hx
  | cons v l ih =>
    rw [EachList] at h
    rcases List.mem_cons.mp hx with rfl | hx
    · exact h.1
    · exact ih h.2 hx

theorem eachDict_mem {p : Nat → Prop} {l : List (Bytes × V)} (h : EachDict p l) {e : Bytes × V} (hx : e ∈ l) : Each p e.2 := by
  induction l with
  | nil => cases hx
  | cons v l ih =>
    rw [EachDict] at h
    rcases List.mem_cons.mp hx with rfl | hx
    · exact h.1
    · exact ih h.2 hx

theorem wf_type {v : V} (h : Wf v) : v.type ≤ 32 := by
  cases v with
  | obj t i => unfold Wf at h; rw [Each] at h; exact h.1
  | arr l => simp [V.type]
  | dict l => simp [V.type]

theorem plain_type {v : V} (h : Plain v) : v.type ≠ 0 ∧ v.type ≠ 2 := by
  cases v with
  | obj t i => unfold Plain at h; rw [Each] at h; exact h.2.2.2
  | arr l => simp [V.type]
  | dict l => simp [V.type]

/-! ### Lists of checks -/

theorem every_true {f : V → Res Bool} {P : V → Prop} : ∀ {l : List V}, (∀ x ∈ l, f x = .ok true → P x) →
    every f l = .ok true → ∀ x ∈ l, P x := by
  intro l
  induction l with
  | nil => intro _ _ x hx; cases hx
  | cons v l ih =>
    intro h he x hx
    rw [every] at he
    obtain ⟨b, h1, h2⟩ := Res.bind_eq_ok.mp he
    cases b with
    | false => simp at h2
    | true =>
      rcases List.mem_cons.mp hx with rfl | hx
      · exact h _ (by simp) h1
      · exact ih (fun y hy => h y (by simp [hy])) (by simpa using h2) x hx

theorem every_false {f : V → Res Bool} {P : V → Prop} : ∀ {l : List V}, (∀ x ∈ l, f x = .ok false → ¬ P x) →
    every f l = .ok false → ∃ x ∈ l, ¬ P x := by
  intro l
  induction l with
  | nil => intro _ he; cases he
  | cons v l ih =>
    intro h he
    rw [every] at he
    obtain ⟨b, h1, h2⟩ := Res.bind_eq_ok.mp he
    cases b with
    | false => exact ⟨v, by simp, h v (by simp) h1⟩
    | true =>
      obtain ⟨x, hx, hp⟩ := ih (fun y hy => h y (by simp [hy])) (by simpa using h2)
      exact ⟨x, by simp [hx], hp⟩

theorem every_total {f : V → Res Bool} : ∀ {l : List V}, (∀ x ∈ l, ∃ b, f x = .ok b) → ∃ b, every f l = .ok b := by
  intro l
  induction l with
  | nil => intro _; exact ⟨true, rfl⟩
  | cons v l ih =>
    intro h
    obtain ⟨b, hb⟩ := h v (by simp)
    rw [every, hb]
    cases b with
    | false => exact ⟨false, rfl⟩
    | true =>
      obtain ⟨c, hc⟩ := ih (fun y hy => h y (by simp [hy]))
      exact ⟨c, by simpa using hc⟩

end Muon.Tc
