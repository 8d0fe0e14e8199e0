import Verif.Hash.Spec
namespace Muon.Hash

set_option linter.unusedSectionVars false
open Muon

/-! Helper lemmas for `Verif.Hash.Props`. -/

variable {K V : Type} [DecidableEq K] [Inhabited V]

theorem small_facts : ∀ n : Fin 128, kFull (UInt8.ofNat n.val) = true ∧ UInt8.ofNat n.val ≠ kEmpty ∧
    UInt8.ofNat n.val ≠ kDeleted ∧ (UInt8.ofNat n.val) &&& 0x7f = UInt8.ofNat n.val := by decide

theorem h2_eq (hv : UInt64) : h2 hv = UInt8.ofNat (hv.toNat % 128) := by
  unfold h2
  apply UInt8.toNat_inj.1
  have : (0x7f : UInt64).toNat = 2 ^ 7 - 1 := rfl
  simp only [UInt64.toNat_toUInt8, UInt64.toNat_and, this, Nat.and_two_pow_sub_one_eq_mod]
  simp

theorem h2_facts (hv : UInt64) : kFull (h2 hv) = true ∧ h2 hv ≠ kEmpty ∧ h2 hv ≠ kDeleted ∧
    h2 hv &&& 0x7f = h2 hv := by
  rw [h2_eq]
  exact small_facts ⟨hv.toNat % 128, Nat.mod_lt _ (by decide)⟩

theorem not_full_empty : kFull kEmpty = false := by decide
theorem not_full_deleted : kFull kDeleted = false := by decide
theorem empty_ne_deleted : kEmpty ≠ kDeleted := by decide

/-! ### Counting non-empty slots -/

/-- Number of slots below `n` that are not empty. -/
def used (m : Nat → UInt8) : Nat → Nat
  | 0 => 0
  | n + 1 => used m n + if m n = kEmpty then 0 else 1

theorem used_le (m : Nat → UInt8) (n : Nat) : used m n ≤ n := by
  induction n with
  | zero => simp [used]
  | succ n ih => simp only [used]; split <;> omega

theorem exists_empty (m : Nat → UInt8) (n : Nat) (h : used m n < n) : ∃ i < n, m i = kEmpty := by
  induction n with
  | zero => omega
  | succ n ih =>
    simp only [used] at h
    by_cases he : m n = kEmpty
    · exact ⟨n, by omega, he⟩
    · simp [he] at h
      obtain ⟨i, hi, h'⟩ := ih h
      exact ⟨i, by omega, h'⟩

theorem used_congr (m m' : Nat → UInt8) (n : Nat) (h : ∀ i < n, (m i = kEmpty ↔ m' i = kEmpty)) :
    used m n = used m' n := by
  induction n with
  | zero => rfl
  | succ n ih =>
    simp only [used]
    rw [ih (fun i hi => h i (by omega))]
    by_cases he : m n = kEmpty
    · simp [he, (h n (by omega)).1 he]
    · have : ¬ m' n = kEmpty := fun h' => he ((h n (by omega)).2 h')
      simp [he, this]

theorem used_update_le (m : Nat → UInt8) (n i : Nat) (v : UInt8) :
    used (fun j => if j = i then v else m j) n ≤ used m n + 1 := by
  induction n with
  | zero => simp [used]
  | succ n ih =>
    simp only [used]
    by_cases hn : n = i
    · subst hn
      have : used (fun j => if j = n then v else m j) n = used m n := by
        apply used_congr
        intro j hj
        simp [Nat.ne_of_lt hj]
      rw [this]
      simp only [if_true]
      split <;> split <;> omega
    · simp only [hn, if_false]; omega

/-! ### The invariant -/

/-- Slot visited at distance `d` on the probe path of `hv`. -/
def pathSlot (cap : Nat) (hv : UInt64) (d : Nat) : Nat := (h1 hv + d) % cap

/-- Well-formedness of a table apart from load accounting. -/
structure WF (hash : K → UInt64) (h : Table K V) : Prop where
  cap_pos : 8 ≤ h.cap
  pow2 : ∃ k, h.cap = 2 ^ k
  capm_eq : h.capm = h.cap - 1
  maxLoad_eq : h.maxLoad = h.cap / 2
  /-- full slots hold a stored key and its `h2` -/
  full_ok : ∀ i < h.cap, kFull (h.ctrl i) = true →
    ∃ k, h.keys[(h.elem i).keyi]? = some k ∧ h.ctrl i = h2 (hash k)
  /-- no key is stored twice -/
  unique : ∀ i < h.cap, ∀ j < h.cap, kFull (h.ctrl i) = true → kFull (h.ctrl j) = true →
    h.keys[(h.elem i).keyi]? = h.keys[(h.elem j).keyi]? → i = j
  /-- no empty slot on the way to a stored key -/
  path : ∀ i < h.cap, kFull (h.ctrl i) = true → ∀ k, h.keys[(h.elem i).keyi]? = some k →
    ∃ d < h.cap, pathSlot h.cap (hash k) d = i ∧ ∀ d' < d, h.ctrl (pathSlot h.cap (hash k) d') ≠ kEmpty
  tri : ∀ i < h.cap, kFull (h.ctrl i) = true ∨ h.ctrl i = kEmpty ∨ h.ctrl i = kDeleted

/-- `k` is stored in slot `i`. -/
def At (h : Table K V) (i : Nat) (k : K) : Prop :=
  i < h.cap ∧ kFull (h.ctrl i) = true ∧ h.keys[(h.elem i).keyi]? = some k

/-- The table represents the map `m`. -/
def Rep (h : Table K V) (m : K → Option V) : Prop :=
  ∀ k v, m k = some v ↔ ∃ i, At h i k ∧ (h.elem i).val = v

theorem and_capm (h : Table K V) (hp : ∃ k, h.cap = 2 ^ k) (hc : h.capm = h.cap - 1) (x : Nat) :
    x &&& h.capm = x % h.cap := by
  obtain ⟨k, hk⟩ := hp
  rw [hc, hk, Nat.and_two_pow_sub_one_eq_mod]

theorem probeLoop_spec (hash : K → UInt64) (h : Table K V) (wf : WF hash h) (key : K) (n : Nat) :
    ∀ (d fuel : Nat), keepProbing h (pathSlot h.cap (hash key) (d + n)) (hash key) key = false →
      (∀ d' < n, keepProbing h (pathSlot h.cap (hash key) (d + d')) (hash key) key = true) →
      n < fuel →
      probeLoop h (hash key) key fuel (pathSlot h.cap (hash key) d)
        = some (pathSlot h.cap (hash key) (d + n)) := by
  induction n with
  | zero =>
    intro d fuel h1 _ h3
    cases fuel with
    | zero => omega
    | succ fuel => simp only [probeLoop, Nat.add_zero] at *; simp [h1]
  | succ n ih =>
    intro d fuel h1 h2 h3
    cases fuel with
    | zero => omega
    | succ fuel =>
      have h20 := h2 0 (by omega)
      simp only [Nat.add_zero] at h20
      simp only [probeLoop, h20, if_true]
      have e : (pathSlot h.cap (hash key) d + 1) &&& h.capm = pathSlot h.cap (hash key) (d + 1) := by
        rw [and_capm h wf.pow2 wf.capm_eq]
        simp only [pathSlot]
        rw [Nat.mod_add_mod, Nat.add_assoc]
      rw [e]
      have := ih (d + 1) fuel (by rw [show d + 1 + n = d + (n + 1) by omega]; exact h1)
        (by intro d' hd'
            rw [show d + 1 + d' = d + (d' + 1) by omega]
            exact h2 (d' + 1) (by omega)) (by omega)
      rw [this, show d + 1 + n = d + (n + 1) by omega]

theorem probe_of_first (hash : K → UInt64) (h : Table K V) (wf : WF hash h) (key : K) (n : Nat)
    (hn : n < h.cap)
    (h1' : keepProbing h (pathSlot h.cap (hash key) n) (hash key) key = false)
    (h2' : ∀ d' < n, keepProbing h (pathSlot h.cap (hash key) d') (hash key) key = true) :
    probe hash h key = some (pathSlot h.cap (hash key) n) := by
  have e0 : h1 (hash key) &&& h.capm = pathSlot h.cap (hash key) 0 := by
    rw [and_capm h wf.pow2 wf.capm_eq]; rfl
  unfold probe
  rw [e0]
  have := probeLoop_spec hash h wf key n 0 h.cap (by simpa using h1') (by simpa using h2') hn
  simpa using this

/-- Every slot is on every probe path, at a distance below `cap`. -/
theorem path_surj (cap : Nat) (hc : 0 < cap) (hv : UInt64) (i : Nat) (hi : i < cap) :
    ∃ d < cap, pathSlot cap hv d = i := by
  refine ⟨(i + (cap - h1 hv % cap)) % cap, Nat.mod_lt _ hc, ?_⟩
  simp only [pathSlot]
  have hlt := Nat.mod_lt (h1 hv) hc
  rw [Nat.add_mod_mod]
  have e : h1 hv + (i + (cap - h1 hv % cap)) = i + cap * (h1 hv / cap + 1) := by
    have := Nat.div_add_mod (h1 hv) cap
    rw [Nat.mul_add, Nat.mul_one]
    omega
  rw [e, Nat.add_mul_mod_self_left, Nat.mod_eq_of_lt hi]

theorem path_inj (cap : Nat) (hv : UInt64) (d d' : Nat) (hd : d < cap) (hd' : d' < cap)
    (h : pathSlot cap hv d = pathSlot cap hv d') : d = d' := by
  simp only [pathSlot] at h
  rcases Nat.lt_trichotomy d d' with hl | hl | hl
  · have := Nat.sub_mod_eq_zero_of_mod_eq h.symm
    rw [show h1 hv + d' - (h1 hv + d) = d' - d by omega, Nat.mod_eq_of_lt (by omega)] at this
    omega
  · exact hl
  · have := Nat.sub_mod_eq_zero_of_mod_eq h
    rw [show h1 hv + d - (h1 hv + d') = d - d' by omega, Nat.mod_eq_of_lt (by omega)] at this
    omega

/-- Least number satisfying a decidable predicate below a witness. -/
theorem least (P : Nat → Prop) [DecidablePred P] (n : Nat) (h : P n) :
    ∃ m ≤ n, P m ∧ ∀ j < m, ¬ P j := by
  induction n using Nat.strongRecOn with
  | _ n ih =>
    by_cases hx : ∃ j < n, P j
    · obtain ⟨j, hj, hp⟩ := hx
      obtain ⟨m, hm, h1, h2⟩ := ih j hj hp
      exact ⟨m, by omega, h1, h2⟩
    · exact ⟨n, Nat.le_refl _, h, fun j hj hp => hx ⟨j, hj, hp⟩⟩

theorem slotMatches_iff (hash : K → UInt64) (h : Table K V) (wf : WF hash h) (i : Nat) (hi : i < h.cap)
    (hf : kFull (h.ctrl i) = true) (key : K) :
    slotMatches h i (hash key) key = true ↔ At h i key := by
  constructor
  · intro hm
    simp only [slotMatches, Bool.and_eq_true, beq_iff_eq] at hm
    exact ⟨hi, hf, hm.2⟩
  · intro ha
    obtain ⟨k, hk, he⟩ := wf.full_ok i hi hf
    have : k = key := by have := ha.2.2; rw [hk] at this; simpa using this
    subst this
    simp only [slotMatches, Bool.and_eq_true, beq_iff_eq]
    exact ⟨by rw [he]; exact (h2_facts _).2.2.2, hk⟩

/-- Probing for a stored key stops at its slot. -/
theorem probe_present (hash : K → UInt64) (h : Table K V) (wf : WF hash h) (key : K) (i : Nat)
    (ha : At h i key) : probe hash h key = some i := by
  obtain ⟨d, hd, hpd, hpre⟩ := wf.path i ha.1 ha.2.1 key ha.2.2
  rw [← hpd]
  apply probe_of_first hash h wf key d hd
  · rw [hpd]
    have hm := (slotMatches_iff hash h wf i ha.1 ha.2.1 key).2 ha
    have hne : h.ctrl i ≠ kDeleted := by intro e; have := ha.2.1; rw [e] at this; exact absurd this (by decide)
    simp [keepProbing, hm, hne]
  · intro d' hd'
    have hlt : pathSlot h.cap (hash key) d' < h.cap := Nat.mod_lt _ (by have := wf.cap_pos; omega)
    rcases wf.tri _ hlt with hf | he | hdel
    · have hnm : slotMatches h (pathSlot h.cap (hash key) d') (hash key) key = false := by
        cases hb : slotMatches h (pathSlot h.cap (hash key) d') (hash key) key with
        | false => rfl
        | true =>
          have ha' := (slotMatches_iff hash h wf _ hlt hf key).1 hb
          have := wf.unique _ hlt _ ha.1 hf ha.2.1 (by rw [ha'.2.2, ha.2.2])
          rw [← hpd] at this
          have := path_inj h.cap (hash key) d' d (by omega) hd this
          omega
      simp [keepProbing, hf, hnm]
    · exact absurd he (hpre d' hd')
    · simp [keepProbing, hdel]

/-- Probing for an absent key stops at an empty slot with no empty slot before it. -/
theorem probe_absent (hash : K → UInt64) (h : Table K V) (wf : WF hash h) (hu : used h.ctrl h.cap < h.cap) (key : K)
    (habs : ∀ i, ¬ At h i key) :
    ∃ d < h.cap, probe hash h key = some (pathSlot h.cap (hash key) d) ∧
      h.ctrl (pathSlot h.cap (hash key) d) = kEmpty ∧
      ∀ d' < d, h.ctrl (pathSlot h.cap (hash key) d') ≠ kEmpty := by
  obtain ⟨i, hi, he⟩ := exists_empty _ _ hu
  obtain ⟨d0, hd0, hp0⟩ := path_surj h.cap (by have := wf.cap_pos; omega) (hash key) i hi
  obtain ⟨d, hd, hemp, hmin⟩ := least (fun d => h.ctrl (pathSlot h.cap (hash key) d) = kEmpty) d0 (by rw [hp0]; exact he)
  refine ⟨d, by omega, ?_, hemp, hmin⟩
  apply probe_of_first hash h wf key d (by omega)
  · simp [keepProbing, hemp, not_full_empty, empty_ne_deleted]
  · intro d' hd'
    have hlt : pathSlot h.cap (hash key) d' < h.cap := Nat.mod_lt _ (by have := wf.cap_pos; omega)
    rcases wf.tri _ hlt with hf | he | hdel
    · have hnm : slotMatches h (pathSlot h.cap (hash key) d') (hash key) key = false := by
        cases hb : slotMatches h (pathSlot h.cap (hash key) d') (hash key) key with
        | false => rfl
        | true => exact absurd ((slotMatches_iff hash h wf _ hlt hf key).1 hb) (habs _)
      simp [keepProbing, hf, hnm]
    · exact absurd he (hmin d' hd')
    · simp [keepProbing, hdel]

theorem at_unique (hash : K → UInt64) (h : Table K V) (wf : WF hash h) {i j : Nat} {key : K}
    (hi : At h i key) (hj : At h j key) : i = j :=
  wf.unique i hi.1 j hj.1 hi.2.1 hj.2.1 (by rw [hi.2.2, hj.2.2])

theorem get_eq (hash : K → UInt64) (h : Table K V) (wf : WF hash h) (hu : used h.ctrl h.cap < h.cap)
    (m : K → Option V) (hr : Rep h m) (key : K) : get hash h key = some (m key) := by
  cases hm : m key with
  | some v =>
    obtain ⟨i, ha, hv⟩ := (hr key v).1 hm
    simp [get, probe_present hash h wf key i ha, ha.2.1, hv]
  | none =>
    have habs : ∀ i, ¬ At h i key := by
      intro i ha
      have := (hr key (h.elem i).val).2 ⟨i, ha, rfl⟩
      rw [hm] at this; cases this
    obtain ⟨d, _, hp, he, _⟩ := probe_absent hash h wf hu key habs
    simp [get, hp, he, not_full_empty]

/-- Storing an element for an absent key in the slot found by probing. The element refers to key index `e.keyi`
of a key array `keys` extending the present one. -/
theorem place_absent (hash : K → UInt64) (h : Table K V) (wf : WF hash h) (key : K) (d : Nat) (hd : d < h.cap) (s : Nat)
    (hsdef : pathSlot h.cap (hash key) d = s)
    (habs : ∀ i, ¬ At h i key)
    (hemp : h.ctrl s = kEmpty)
    (hpre : ∀ d' < d, h.ctrl (pathSlot h.cap (hash key) d') ≠ kEmpty)
    (e : Elem V) (keys : Array K) (len load : Nat)
    (hext : ∀ (j : Nat) (k : K), h.keys[j]? = some k → keys[j]? = some k) (hkey : keys[e.keyi]? = some key) :
    let h' : Table K V := { setSlot h s (h2 (hash key)) e with
      keys := keys, len := len, load := load }
    WF hash h' ∧ (∀ i k, At h' i k ↔ (At h i k ∨ (i = s ∧ k = key))) ∧
      (∀ i, i ≠ s → h'.elem i = h.elem i) ∧
      h'.elem s = e := by
  intro h'
  have hs : s < h.cap := by rw [← hsdef]; exact Nat.mod_lt _ (by have := wf.cap_pos; omega)
  have hkeyfull : ∀ i < h.cap, kFull (h.ctrl i) = true →
      ∃ k, h.keys[(h.elem i).keyi]? = some k ∧ keys[(h.elem i).keyi]? = some k := by
    intro i hi hf
    obtain ⟨k, hk, _⟩ := wf.full_ok i hi hf
    exact ⟨k, hk, hext _ _ hk⟩
  have hctrl : ∀ i, h'.ctrl i = if i = s then h2 (hash key) else h.ctrl i := fun i => rfl
  have helem : ∀ i, h'.elem i = if i = s then e else h.elem i := fun i => rfl
  have hcap : h'.cap = h.cap := rfl
  have hkeys : h'.keys = keys := rfl
  have hAt : ∀ i k, At h' i k ↔ (At h i k ∨ (i = s ∧ k = key)) := by
    intro i k
    constructor
    · rintro ⟨hi, hf, hk⟩
      by_cases his : i = s
      · right; refine ⟨his, ?_⟩
        rw [hkeys, helem, if_pos his, hkey] at hk
        simpa using hk.symm
      · left
        rw [hctrl, if_neg his] at hf
        rw [hkeys, helem, if_neg his] at hk
        obtain ⟨k', hk', hk''⟩ := hkeyfull i hi hf
        rw [hk''] at hk
        refine ⟨hi, hf, ?_⟩
        rw [hk', hk]
    · rintro (⟨hi, hf, hk⟩ | ⟨his, hk⟩)
      · have his : i ≠ s := by
          intro e'; rw [e', hemp] at hf; exact absurd hf (by decide)
        refine ⟨hi, ?_, ?_⟩
        · rw [hctrl, if_neg his]; exact hf
        · rw [hkeys, helem, if_neg his]; exact hext _ _ hk
      · subst hk
        refine ⟨by rw [his]; exact hs, ?_, ?_⟩
        · rw [hctrl, if_pos his]; exact (h2_facts _).1
        · rw [hkeys, helem, if_pos his]; exact hkey
  refine ⟨?_, hAt, ?_, ?_⟩
  · constructor
    · exact wf.cap_pos
    · exact wf.pow2
    · exact wf.capm_eq
    · exact wf.maxLoad_eq
    · intro i hi hf
      by_cases his : i = s
      · refine ⟨key, ?_, ?_⟩
        · rw [hkeys, helem, if_pos his]; exact hkey
        · rw [hctrl, if_pos his]
      · rw [hctrl, if_neg his] at hf ⊢
        obtain ⟨k, hk, he⟩ := wf.full_ok i hi hf
        exact ⟨k, by rw [hkeys, helem, if_neg his]; exact hext _ _ hk, he⟩
    · intro i hi j hj hfi hfj heq
      obtain ⟨ki, hki⟩ : ∃ k, At h' i k := by
        by_cases his : i = s
        · exact ⟨key, (hAt i key).2 (Or.inr ⟨his, rfl⟩)⟩
        · rw [hctrl, if_neg his] at hfi
          obtain ⟨k, hk, _⟩ := wf.full_ok i hi hfi
          exact ⟨k, (hAt i k).2 (Or.inl ⟨hi, hfi, hk⟩)⟩
      have hkj : At h' j ki := ⟨hj, hfj, by rw [← heq]; exact hki.2.2⟩
      rcases (hAt i ki).1 hki with h1 | ⟨h1, h1'⟩ <;> rcases (hAt j ki).1 hkj with h2 | ⟨h2, h2'⟩
      · exact at_unique hash h wf h1 h2
      · subst h2'; exact absurd h1 (habs _)
      · subst h1'; exact absurd h2 (habs _)
      · rw [h1, h2]
    · intro i hi hf k hk
      rcases (hAt i k).1 ⟨hi, hf, hk⟩ with ⟨hi', hf', hk'⟩ | ⟨his, hkk⟩
      · obtain ⟨d0, hd0, hp, hne⟩ := wf.path i hi' hf' k hk'
        refine ⟨d0, hd0, hp, ?_⟩
        intro d' hd'
        rw [hctrl, hcap]
        split
        · exact (h2_facts _).2.1
        · exact hne d' hd'
      · subst hkk
        refine ⟨d, hd, ?_, ?_⟩
        · rw [hcap, hsdef, his]
        · intro d' hd'
          rw [hctrl, hcap]
          split
          · exact (h2_facts _).2.1
          · exact hpre d' hd'
    · intro i hi
      rw [hctrl]
      split
      · left; exact (h2_facts _).1
      · exact wf.tri i hi
  · intro i hi; rw [helem, if_neg hi]
  · rw [helem, if_pos rfl]

/-! ### Counting full slots -/

/-- Number of full slots below `n`. -/
def fulls (m : Nat → UInt8) : Nat → Nat
  | 0 => 0
  | n + 1 => fulls m n + if kFull (m n) then 1 else 0

theorem fulls_le_used (m : Nat → UInt8) (n : Nat) : fulls m n ≤ used m n := by
  induction n with
  | zero => simp [fulls, used]
  | succ n ih =>
    simp only [fulls, used]
    by_cases he : m n = kEmpty
    · simp [he, not_full_empty]; omega
    · simp only [he, if_false]; split <;> omega

theorem fulls_congr (m m' : Nat → UInt8) (n : Nat) (h : ∀ i < n, kFull (m i) = kFull (m' i)) :
    fulls m n = fulls m' n := by
  induction n with
  | zero => rfl
  | succ n ih =>
    simp only [fulls]
    rw [ih (fun i hi => h i (by omega)), h n (by omega)]

theorem fulls_update (m : Nat → UInt8) (n i : Nat) (hi : i < n) (v : UInt8) :
    fulls (fun j => if j = i then v else m j) n + (if kFull (m i) then 1 else 0)
      = fulls m n + (if kFull v then 1 else 0) := by
  induction n with
  | zero => omega
  | succ n ih =>
    simp only [fulls]
    by_cases hn : n = i
    · subst hn
      have : fulls (fun j => if j = n then v else m j) n = fulls m n := by
        apply fulls_congr
        intro j hj
        simp [Nat.ne_of_lt hj]
      rw [this]
      simp only [if_true]
      omega
    · have := ih (by omega)
      simp only [hn, if_false]; omega

theorem fulls_mono (m : Nat → UInt8) (a b : Nat) (h : a ≤ b) : fulls m a ≤ fulls m b := by
  induction b with
  | zero => have : a = 0 := by omega
            subst this; exact Nat.le_refl _
  | succ b ih =>
    by_cases hab : a = b + 1
    · rw [hab]; exact Nat.le_refl _
    · have := ih (by omega)
      simp only [fulls]; omega

/-! ### Rehashing -/

/-- State of the rehashing loop after the first `n` old slots. -/
structure ResizeInv (hash : K → UInt64) (old newh : Table K V) (newcap n : Nat) : Prop where
  wf : WF hash newh
  cap : newh.cap = newcap
  keys : newh.keys = old.keys
  len : newh.len = old.len
  load : newh.load = old.load
  usedLe : used newh.ctrl newh.cap ≤ fulls old.ctrl n
  fullsEq : fulls newh.ctrl newh.cap = fulls old.ctrl n
  rep : ∀ k v, (∃ j, At newh j k ∧ (newh.elem j).val = v) ↔ ∃ i < n, At old i k ∧ (old.elem i).val = v

theorem resize_step (hash : K → UInt64) (old newh : Table K V) (wf : WF hash old) (newcap n : Nat)
    (hn : n < old.cap) (hc : old.cap < newcap) (inv : ResizeInv hash old newh newcap n) :
    ∃ newh', resizeStep hash old (some newh) n = some newh' ∧ ResizeInv hash old newh' newcap (n + 1) := by
  by_cases hf : kFull (old.ctrl n) = true
  · obtain ⟨key, hk, hctl⟩ := wf.full_ok n hn hf
    have hat : At old n key := ⟨hn, hf, hk⟩
    have hfc : fulls old.ctrl n ≤ old.cap := by
      have h1 := fulls_le_used old.ctrl n
      have h2 := used_le old.ctrl n
      omega
    have habs : ∀ j, ¬ At newh j key := by
      intro j hj
      obtain ⟨i, hi, hai, _⟩ := (inv.rep key _).1 ⟨j, hj, rfl⟩
      have := at_unique hash old wf hai hat
      omega
    obtain ⟨d, hd, hp, hemp, hpre⟩ := probe_absent hash newh inv.wf (by have h1 := inv.usedLe; have h2 := inv.cap; omega) key habs
    have hs : pathSlot newh.cap (hash key) d < newh.cap := Nat.mod_lt _ (by have := inv.wf.cap_pos; omega)
    have hpl := place_absent hash newh inv.wf key d hd _ rfl habs hemp hpre (old.elem n) newh.keys newh.len newh.load
      (fun _ _ h => h) (by rw [inv.keys]; exact hk)
    obtain ⟨hwf', hAt', hel, hel'⟩ := hpl
    refine ⟨setSlot newh (pathSlot newh.cap (hash key) d) (h2 (hash key)) (old.elem n), ?_, ?_⟩
    · simp [resizeStep, hf, hk, hp, hemp, not_full_empty]
    · refine ⟨hwf', inv.cap, inv.keys, inv.len, inv.load, ?_, ?_, ?_⟩
      · have h1 := used_update_le newh.ctrl newh.cap (pathSlot newh.cap (hash key) d) (h2 (hash key))
        have h2 := inv.usedLe
        simp only [fulls, hf, if_true, setSlot]
        omega
      · have h1 := fulls_update newh.ctrl newh.cap _ hs (h2 (hash key))
        rw [hemp, not_full_empty, (h2_facts _).1, inv.fullsEq] at h1
        simp at h1
        simp only [fulls, hf, if_true, setSlot]
        omega
      · intro k v
        constructor
        · rintro ⟨j, hj, hv⟩
          rcases (hAt' j k).1 hj with h1 | ⟨h1, h1'⟩
          · have hne : j ≠ pathSlot newh.cap (hash key) d := by
              intro e; rw [e] at h1; have := h1.2.1; rw [hemp] at this; exact absurd this (by decide)
            obtain ⟨i, hi, ha, hv'⟩ := (inv.rep k v).1 ⟨j, h1, by rw [← hv]; exact congrArg Elem.val (hel j hne).symm⟩
            exact ⟨i, by omega, ha, hv'⟩
          · subst h1'
            refine ⟨n, by omega, hat, ?_⟩
            rw [← hv, h1]
            exact congrArg Elem.val hel'.symm
        · rintro ⟨i, hi, ha, hv⟩
          by_cases hin : i = n
          · subst hin
            have : k = key := by have := ha.2.2; rw [hk] at this; simpa using this.symm
            subst this
            exact ⟨_, (hAt' _ k).2 (Or.inr ⟨rfl, rfl⟩), by rw [← hv]; exact congrArg Elem.val hel'⟩
          · obtain ⟨j, hj, hv'⟩ := (inv.rep k v).2 ⟨i, by omega, ha, hv⟩
            have hne : j ≠ pathSlot newh.cap (hash key) d := by
              intro e; rw [e] at hj; have := hj.2.1; rw [hemp] at this; exact absurd this (by decide)
            exact ⟨j, (hAt' j k).2 (Or.inl hj), by rw [← hv']; exact congrArg Elem.val (hel j hne)⟩
  · refine ⟨newh, by simp [resizeStep, hf], ⟨inv.wf, inv.cap, inv.keys, inv.len, inv.load, ?_, ?_, ?_⟩⟩
    · simp only [fulls, hf]; exact inv.usedLe
    · simp only [fulls, hf]; exact inv.fullsEq
    · intro k v
      rw [inv.rep]
      constructor
      · rintro ⟨i, hi, h⟩; exact ⟨i, by omega, h⟩
      · rintro ⟨i, hi, h⟩
        refine ⟨i, ?_, h⟩
        have : i ≠ n := by intro e; subst e; exact hf h.1.2.1
        omega

theorem resize_loop (hash : K → UInt64) (old newh0 : Table K V) (wf : WF hash old) (newcap : Nat)
    (hc : old.cap < newcap) (inv0 : ResizeInv hash old newh0 newcap 0) (n : Nat) (hn : n ≤ old.cap) :
    ∃ newh, (List.range n).foldl (resizeStep hash old) (some newh0) = some newh ∧
      ResizeInv hash old newh newcap n := by
  induction n with
  | zero => exact ⟨newh0, rfl, inv0⟩
  | succ n ih =>
    obtain ⟨newh, he, inv⟩ := ih (by omega)
    rw [List.range_succ, List.foldl_append, he]
    exact resize_step hash old newh wf newcap n (by omega) hc inv

theorem used_empty (n : Nat) : used (fun _ => kEmpty) n = 0 := by
  induction n with
  | zero => rfl
  | succ n ih => simp [used, ih]

theorem fulls_empty (n : Nat) : fulls (fun _ => kEmpty) n = 0 := by
  induction n with
  | zero => rfl
  | succ n ih => simp [fulls, ih, not_full_empty]

theorem wf_empty (hash : K → UInt64) (h : Table K V) (cap_pos : 8 ≤ h.cap) (pow2 : ∃ k, h.cap = 2 ^ k)
    (capm_eq : h.capm = h.cap - 1) (maxLoad_eq : h.maxLoad = h.cap / 2) (he : ∀ i < h.cap, h.ctrl i = kEmpty) :
    WF hash h ∧ ∀ i k, ¬ At h i k := by
  have hne : ∀ i < h.cap, ¬ kFull (h.ctrl i) = true := by
    intro i hi hf; rw [he i hi] at hf; exact absurd hf (by decide)
  refine ⟨⟨cap_pos, pow2, capm_eq, maxLoad_eq, ?_, ?_, ?_, ?_⟩, ?_⟩
  · intro i hi hf; exact absurd hf (hne i hi)
  · intro i hi _ _ hf; exact absurd hf (hne i hi)
  · intro i hi hf; exact absurd hf (hne i hi)
  · intro i hi; right; left; exact he i hi
  · intro i k ha; exact hne i ha.1 ha.2.1

/-- The invariant kept by all operations. -/
structure Inv (hash : K → UInt64) (h : Table K V) (m : K → Option V) : Prop where
  wf : WF hash h
  rep : Rep h m
  usedLe : used h.ctrl h.cap ≤ h.load
  loadLe : h.load ≤ h.maxLoad + 1
  lenEq : h.len = fulls h.ctrl h.cap

theorem Inv.used_lt {hash : K → UInt64} {h : Table K V} {m : K → Option V} (inv : Inv hash h m) :
    used h.ctrl h.cap < h.cap := by
  have h1 := inv.usedLe
  have h2 := inv.loadLe
  have h3 := inv.wf.maxLoad_eq
  have h4 := inv.wf.cap_pos
  omega

theorem inv_init (hash : K → UInt64) (cap : Nat) (h8 : 8 ≤ cap) (hp : ∃ k, cap = 2 ^ k) :
    Inv hash (init cap : Table K V) (fun _ => none) := by
  obtain ⟨wf, hno⟩ := wf_empty hash (init cap : Table K V) h8 hp rfl rfl (fun _ _ => rfl)
  refine ⟨wf, ?_, ?_, ?_, ?_⟩
  · intro k v
    constructor
    · intro h; cases h
    · rintro ⟨i, h, _⟩; exact absurd h (hno i k)
  · simp [init, used_empty]
  · simp [init]
  · simp [init, fulls_empty]

theorem resize_ok (hash : K → UInt64) (h : Table K V) (m : K → Option V) (inv : Inv hash h m) :
    ∃ h', resize hash h (h.cap <<< 1) = some h' ∧ Inv hash h' m ∧ h'.load ≤ h'.maxLoad := by
  have hcap := inv.wf.cap_pos
  have e : h.cap <<< 1 = 2 * h.cap := by rw [Nat.shiftLeft_eq]; omega
  rw [e]
  have hlen : h.len ≤ 2 * h.cap := by
    have h1 := fulls_le_used h.ctrl h.cap
    have h2 := used_le h.ctrl h.cap
    rw [inv.lenEq]; omega
  unfold resize
  rw [if_pos hlen]
  obtain ⟨wf0, hno⟩ := wf_empty hash ({ cap := 2 * h.cap, capm := 2 * h.cap - 1, maxLoad := 2 * h.cap / 2, len := h.len, load := h.load, ctrl := fun _ => kEmpty, elem := fun _ => ⟨default, 0⟩, keys := h.keys } : Table K V)
    (by show 8 ≤ 2 * h.cap; omega)
    (by obtain ⟨k, hk⟩ := inv.wf.pow2; exact ⟨k + 1, by show 2 * h.cap = _; rw [hk, Nat.pow_succ]; omega⟩) rfl rfl (fun _ _ => rfl)
  obtain ⟨newh, he, rinv⟩ := resize_loop hash h _ inv.wf (2 * h.cap) (by omega)
    ⟨wf0, rfl, rfl, rfl, rfl, by simp [used_empty], by simp [fulls_empty, fulls], by
      intro k v
      constructor
      · rintro ⟨j, hj, _⟩; exact absurd hj (hno j k)
      · rintro ⟨i, hi, _⟩; omega⟩ h.cap (Nat.le_refl _)
  have hml : newh.maxLoad = h.cap := by rw [rinv.wf.maxLoad_eq, rinv.cap]; omega
  have hl := inv.loadLe
  have hm := inv.wf.maxLoad_eq
  have hfl := fulls_le_used h.ctrl h.cap
  have hul := inv.usedLe
  have hrul := rinv.usedLe
  refine ⟨newh, he, ⟨rinv.wf, ?_, ?_, ?_, ?_⟩, ?_⟩
  · intro k v
    rw [rinv.rep, inv.rep]
    constructor
    · rintro ⟨i, ha, hv⟩; exact ⟨i, ha.1, ha, hv⟩
    · rintro ⟨i, _, ha, hv⟩; exact ⟨i, ha, hv⟩
  · rw [rinv.load]; omega
  · rw [rinv.load, hml]; omega
  · rw [rinv.len, rinv.fullsEq, inv.lenEq]
  · rw [rinv.load, hml]; omega

/-- Overwriting the value of a stored key. -/
theorem poke_ok (hash : K → UInt64) (g : Table K V) (m : K → Option V) (ginv : Inv hash g m) (key : K) (val : V) (i : Nat) (ha : At g i key) :
    Inv hash (setSlot g i (g.ctrl i) { g.elem i with val := val }) (fun x => if x = key then some val else m x) := by
  have hctrl : ∀ j, (setSlot g i (g.ctrl i) { g.elem i with val := val }).ctrl j = g.ctrl j := by
    intro j; simp only [setSlot]; split
    · next e => rw [e]
    · rfl
  have hctrl' : (setSlot g i (g.ctrl i) { g.elem i with val := val }).ctrl = g.ctrl := funext hctrl
  have hkeyi : ∀ j, ((setSlot g i (g.ctrl i) { g.elem i with val := val }).elem j).keyi = (g.elem j).keyi := by
    intro j; simp only [setSlot]; split
    · next e => rw [e]
    · rfl
  have hAt : ∀ j k, At (setSlot g i (g.ctrl i) { g.elem i with val := val }) j k ↔ At g j k := by
    intro j k
    unfold At
    rw [hctrl, hkeyi]
    exact Iff.rfl
  have hval : ∀ j, ((setSlot g i (g.ctrl i) { g.elem i with val := val }).elem j).val = if j = i then val else (g.elem j).val := by
    intro j; simp only [setSlot]; split <;> rfl
  refine ⟨⟨ginv.wf.cap_pos, ginv.wf.pow2, ginv.wf.capm_eq, ginv.wf.maxLoad_eq, ?_, ?_, ?_, ?_⟩, ?_, ?_, ?_, ?_⟩
  · intro j hj; rw [hctrl, hkeyi]; exact ginv.wf.full_ok j hj
  · intro j hj l hl; rw [hctrl, hctrl, hkeyi, hkeyi]; exact ginv.wf.unique j hj l hl
  · intro j hj; rw [hctrl, hkeyi]; simp only [hctrl]; exact ginv.wf.path j hj
  · intro j hj; rw [hctrl]; exact ginv.wf.tri j hj
  · intro k v
    simp only [hAt, hval]
    by_cases hk : k = key
    · subst hk
      simp only [if_true, Option.some.injEq]
      constructor
      · intro e; exact ⟨i, ha, by simp [e]⟩
      · rintro ⟨j, hj, hv⟩
        rw [if_pos (at_unique hash g ginv.wf hj ha)] at hv; exact hv
    · simp only [hk, if_false]
      rw [ginv.rep]
      constructor
      · rintro ⟨j, hj, hv⟩
        refine ⟨j, hj, ?_⟩
        have : j ≠ i := by
          intro e; subst e
          have h1 := hj.2.2; rw [ha.2.2] at h1; exact hk (by simpa using h1.symm)
        rw [if_neg this]; exact hv
      · rintro ⟨j, hj, hv⟩
        refine ⟨j, hj, ?_⟩
        have : j ≠ i := by
          intro e; subst e
          have h1 := hj.2.2; rw [ha.2.2] at h1; exact hk (by simpa using h1.symm)
        rw [if_neg this] at hv; exact hv
  · rw [hctrl']; exact ginv.usedLe
  · exact ginv.loadLe
  · rw [hctrl']; exact ginv.lenEq

theorem set_ok (hash : K → UInt64) (h : Table K V) (m : K → Option V) (inv : Inv hash h m) (key : K) (val : V) :
    ∃ h', set hash h key val = some h' ∧ Inv hash h' (fun x => if x = key then some val else m x) := by
  obtain ⟨g, hg, ginv, gload⟩ : ∃ g, (if h.load > h.maxLoad then resize hash h (h.cap <<< 1) else some h) = some g ∧
      Inv hash g m ∧ g.load ≤ g.maxLoad := by
    by_cases hl : h.load > h.maxLoad
    · rw [if_pos hl]; exact resize_ok hash h m inv
    · rw [if_neg hl]; exact ⟨h, rfl, inv, by omega⟩
  unfold set
  rw [hg]
  simp only [Option.bind_some]
  by_cases hex : ∃ i, At g i key
  · obtain ⟨i, ha⟩ := hex
    rw [probe_present hash g ginv.wf key i ha]
    simp only [Option.map_some, ha.2.1, if_true]
    refine ⟨_, rfl, ?_⟩
    exact poke_ok hash g m ginv key val i ha
  · have habs : ∀ i, ¬ At g i key := fun i ha => hex ⟨i, ha⟩
    obtain ⟨d, hd, hp, hemp, hpre⟩ := probe_absent hash g ginv.wf ginv.used_lt key habs
    rw [hp]
    simp only [Option.map_some, hemp, not_full_empty]
    refine ⟨_, rfl, ?_⟩
    have hs : pathSlot g.cap (hash key) d < g.cap := Nat.mod_lt _ (by have := ginv.wf.cap_pos; omega)
    obtain ⟨wf', hAt, hel, hel'⟩ := place_absent hash g ginv.wf key d hd _ rfl habs hemp hpre ⟨val, g.keys.size⟩ (g.keys.push key)
      (g.len + 1) (g.load + 1)
      (by intro j k hj
          have hlt : j < g.keys.size := by
            by_cases h : j < g.keys.size
            · exact h
            · rw [Array.getElem?_eq_none (by omega)] at hj; cases hj
          rw [Array.getElem?_push, if_neg (by omega)]; exact hj)
      (by simp)
    refine ⟨wf', ?_, ?_, ?_, ?_⟩
    · intro k v
      constructor
      · intro hm
        by_cases hk : k = key
        · subst hk
          simp only [if_true, Option.some.injEq] at hm
          exact ⟨_, (hAt _ k).2 (Or.inr ⟨rfl, rfl⟩), by rw [← hm]; exact congrArg Elem.val hel'⟩
        · simp only [hk, if_false] at hm
          obtain ⟨j, hj, hv⟩ := (ginv.rep k v).1 hm
          have hne : j ≠ pathSlot g.cap (hash key) d := by
            intro e; rw [e] at hj; have := hj.2.1; rw [hemp] at this; exact absurd this (by decide)
          exact ⟨j, (hAt j k).2 (Or.inl hj), by rw [← hv]; exact congrArg Elem.val (hel j hne)⟩
      · rintro ⟨j, hj, hv⟩
        rcases (hAt j k).1 hj with h1 | ⟨h1, h1'⟩
        · have hk : k ≠ key := by intro e; subst e; exact habs j h1
          simp only [hk, if_false]
          have hne : j ≠ pathSlot g.cap (hash key) d := by
            intro e; rw [e] at h1; have := h1.2.1; rw [hemp] at this; exact absurd this (by decide)
          exact (ginv.rep k v).2 ⟨j, h1, by rw [← hv]; exact congrArg Elem.val (hel j hne).symm⟩
        · subst h1'
          simp only [if_true, Option.some.injEq]
          rw [← hv, h1]; exact congrArg Elem.val hel'.symm
    · have h1 := used_update_le g.ctrl g.cap (pathSlot g.cap (hash key) d) (h2 (hash key))
      have h2 := ginv.usedLe
      show used (fun j => if j = _ then _ else g.ctrl j) g.cap ≤ g.load + 1
      omega
    · show g.load + 1 ≤ g.maxLoad + 1
      omega
    · have h1 := fulls_update g.ctrl g.cap _ hs (h2 (hash key))
      rw [hemp, not_full_empty, (h2_facts _).1] at h1
      have h2 := ginv.lenEq
      show g.len + 1 = fulls (fun j => if j = _ then _ else g.ctrl j) g.cap
      simp at h1
      omega

theorem foldl_keys (hash : K → UInt64) (old : Table K V) : ∀ (is : List Nat) (t t' : Table K V),
    is.foldl (resizeStep hash old) (some t) = some t' → t'.keys = t.keys ∧ t'.len = t.len := by
  intro is
  induction is with
  | nil => intro t t' h; cases h; exact ⟨rfl, rfl⟩
  | cons i is ih =>
    intro t t' h
    rw [List.foldl_cons] at h
    cases hs : resizeStep hash old (some t) i with
    | none =>
      rw [hs] at h
      exfalso
      clear ih hs
      induction is with
      | nil => cases h
      | cons j is ih => rw [List.foldl_cons] at h; exact ih h
    | some t1 =>
      rw [hs] at h
      obtain ⟨h1, h2⟩ := ih t1 t' h
      have : t1.keys = t.keys ∧ t1.len = t.len := by
        simp only [resizeStep, Option.bind_some] at hs
        repeat' split at hs
        all_goals first | (cases hs; exact ⟨rfl, rfl⟩) | cases hs
      exact ⟨h1.trans this.1, h2.trans this.2⟩

theorem resize_keys (hash : K → UInt64) (h h' : Table K V) (n : Nat) (he : resize hash h n = some h') : h'.keys = h.keys ∧ h'.len = h.len := by
  unfold resize at he
  split at he
  · have := foldl_keys hash h _ _ _ he
    exact this
  · cases he

/-- A new key is added at the end of the key array; otherwise the key array does not change. -/
theorem set_keys (hash : K → UInt64) (h h' : Table K V) (m : K → Option V) (inv : Inv hash h m) (key : K) (val : V)
    (he : set hash h key val = some h') :
    h'.keys = (if (m key).isSome then h.keys else h.keys.push key) ∧ h'.len = if (m key).isSome then h.len else h.len + 1 := by
  obtain ⟨g, hg, ginv, gk⟩ : ∃ g, (if h.load > h.maxLoad then resize hash h (h.cap <<< 1) else some h) = some g ∧
      Inv hash g m ∧ g.keys = h.keys ∧ g.len = h.len := by
    by_cases hl : h.load > h.maxLoad
    · rw [if_pos hl]
      obtain ⟨g, e, i, _⟩ := resize_ok hash h m inv
      exact ⟨g, e, i, resize_keys hash h g _ e⟩
    · rw [if_neg hl]; exact ⟨h, rfl, inv, rfl, rfl⟩
  unfold set at he
  rw [hg] at he
  simp only [Option.bind_some] at he
  by_cases hex : ∃ i, At g i key
  · obtain ⟨i, ha⟩ := hex
    rw [probe_present hash g ginv.wf key i ha] at he
    simp only [Option.map_some, ha.2.1, if_true, Option.some.injEq] at he
    have : (m key).isSome = true := by rw [(ginv.rep key _).2 ⟨i, ha, rfl⟩]; rfl
    rw [this, ← he, if_pos rfl, if_pos rfl, ← gk.1, ← gk.2]
    exact ⟨rfl, rfl⟩
  · have habs : ∀ i, ¬ At g i key := fun i ha => hex ⟨i, ha⟩
    obtain ⟨d, hd, hp, hemp, hpre⟩ := probe_absent hash g ginv.wf ginv.used_lt key habs
    rw [hp] at he
    simp only [Option.map_some, hemp, not_full_empty, Bool.false_eq_true, if_false, Option.some.injEq] at he
    have : (m key).isSome = false := by
      cases hm : m key with
      | none => rfl
      | some v => obtain ⟨i, ha, _⟩ := (ginv.rep key v).1 hm; exact absurd ha (habs i)
    rw [this, ← he]
    simp [gk.1, gk.2]

theorem unset_ok (hash : K → UInt64) (h : Table K V) (m : K → Option V) (inv : Inv hash h m) (key : K) :
    ∃ h', unset hash h key = some h' ∧ Inv hash h' (fun x => if x = key then none else m x) := by
  unfold unset
  by_cases hex : ∃ i, At h i key
  · obtain ⟨i, ha⟩ := hex
    rw [probe_present hash h inv.wf key i ha]
    simp only [Option.bind_some, ha.2.1, if_true]
    generalize hdef : ({ setSlot h i kDeleted (h.elem i) with len := h.len - 1 } : Table K V) = h'
    have hcap : h'.cap = h.cap := by rw [← hdef]; rfl
    have hkeys : h'.keys = h.keys := by rw [← hdef]; rfl
    have hctrl : ∀ j, h'.ctrl j = if j = i then kDeleted else h.ctrl j := by intro j; rw [← hdef]; rfl
    have helem : ∀ j, h'.elem j = h.elem j := by
      intro j; rw [← hdef]; simp only [setSlot]; split
      · next e => rw [e]
      · rfl
    have hAt : ∀ j k, At h' j k ↔ (At h j k ∧ j ≠ i) := by
      intro j k
      unfold At
      rw [hctrl, helem, hkeys, hcap]
      by_cases hj : j = i
      · simp [hj, not_full_deleted]
      · simp [hj]
    have hfull : ∀ j, kFull (h'.ctrl j) = true → kFull (h.ctrl j) = true ∧ j ≠ i := by
      intro j hf
      rw [hctrl] at hf
      by_cases hj : j = i
      · rw [if_pos hj] at hf; exact absurd hf (by decide)
      · rw [if_neg hj] at hf; exact ⟨hf, hj⟩
    have hinv : Inv hash h' (fun x => if x = key then none else m x) := by
      refine ⟨⟨?_, ?_, ?_, ?_, ?_, ?_, ?_, ?_⟩, ?_, ?_, ?_, ?_⟩
      · rw [hcap]; exact inv.wf.cap_pos
      · rw [hcap]; exact inv.wf.pow2
      · rw [hcap, ← inv.wf.capm_eq, ← hdef]; rfl
      · rw [hcap, ← inv.wf.maxLoad_eq, ← hdef]; rfl
      · intro j hj hf
        obtain ⟨hf', hne⟩ := hfull j hf
        rw [hctrl, if_neg hne, helem, hkeys]
        exact inv.wf.full_ok j (by omega) hf'
      · intro j hj l hl hfj hfl he
        rw [helem, helem, hkeys] at he
        exact inv.wf.unique j (by omega) l (by omega) (hfull j hfj).1 (hfull l hfl).1 he
      · intro j hj hf k hk
        rw [helem, hkeys] at hk
        obtain ⟨d, hd, hp, hne⟩ := inv.wf.path j (by omega) (hfull j hf).1 k hk
        rw [hcap]
        refine ⟨d, hd, hp, ?_⟩
        intro d' hd'
        rw [hctrl]
        split
        · decide
        · exact hne d' hd'
      · intro j hj
        rw [hctrl]
        split
        · right; right; rfl
        · exact inv.wf.tri j (by omega)
      · intro k v
        simp only [hAt, helem]
        by_cases hk : k = key
        · subst hk
          simp only [if_true]
          constructor
          · intro e; cases e
          · rintro ⟨j, ⟨hj, hne⟩, _⟩; exact absurd (at_unique hash h inv.wf hj ha) hne
        · simp only [hk, if_false]
          rw [inv.rep]
          constructor
          · rintro ⟨j, hj, hv⟩
            refine ⟨j, ⟨hj, ?_⟩, hv⟩
            intro e; subst e
            have h1 := hj.2.2; rw [ha.2.2] at h1; exact hk (by simpa using h1.symm)
          · rintro ⟨j, ⟨hj, _⟩, hv⟩; exact ⟨j, hj, hv⟩
      · have hu : used h'.ctrl h'.cap = used h.ctrl h.cap := by
          rw [hcap]
          apply used_congr
          intro j hj
          rw [hctrl]
          by_cases hji : j = i
          · rw [if_pos hji, hji]
            constructor
            · intro e; exact absurd e (by decide)
            · intro e; have := ha.2.1; rw [e] at this; exact absurd this (by decide)
          · rw [if_neg hji]
        rw [hu]
        have : h'.load = h.load := by rw [← hdef]; rfl
        rw [this]; exact inv.usedLe
      · have e1 : h'.load = h.load := by rw [← hdef]; rfl
        have e2 : h'.maxLoad = h.maxLoad := by rw [← hdef]; rfl
        rw [e1, e2]; exact inv.loadLe
      · have h1 := fulls_update h.ctrl h.cap i ha.1 kDeleted
        rw [not_full_deleted, ha.2.1] at h1
        have e1 : h'.len = h.len - 1 := by rw [← hdef]
        have e2 : h'.ctrl = (fun j => if j = i then kDeleted else h.ctrl j) := funext hctrl
        have h2 := inv.lenEq
        rw [e1, e2, hcap]
        simp at h1
        omega
    have hget := get_eq hash h' hinv.wf hinv.used_lt _ hinv.rep key
    simp only [if_true] at hget
    rw [hget]
    exact ⟨h', rfl, hinv⟩
  · have habs : ∀ i, ¬ At h i key := fun i ha => hex ⟨i, ha⟩
    obtain ⟨d, hd, hp, hemp, hpre⟩ := probe_absent hash h inv.wf inv.used_lt key habs
    have hnone : m key = none := by
      cases hm : m key with
      | none => rfl
      | some v => obtain ⟨i, hi, _⟩ := (inv.rep key v).1 hm; exact absurd hi (habs i)
    have hget := get_eq hash h inv.wf inv.used_lt _ inv.rep key
    rw [hnone] at hget
    rw [hp]
    simp only [Option.bind_some, hemp, not_full_empty]
    simp only [Bool.false_eq_true, if_false, hget]
    refine ⟨h, rfl, ⟨inv.wf, ?_, inv.usedLe, inv.loadLe, inv.lenEq⟩⟩
    have : (fun x => if x = key then none else m x) = m := by
      funext x
      by_cases hx : x = key
      · simp [hx, hnone]
      · simp [hx]
    rw [this]; exact inv.rep

theorem clear_ok (hash : K → UInt64) (h : Table K V) (m : K → Option V) (inv : Inv hash h m) :
    Inv hash (clear h) (fun _ => none) := by
  have he : ∀ i < (clear h).cap, (clear h).ctrl i = kEmpty := by
    intro i hi
    have : i < h.cap := hi
    simp [clear, this]
  obtain ⟨wf, hno⟩ := wf_empty hash (clear h) inv.wf.cap_pos inv.wf.pow2 inv.wf.capm_eq inv.wf.maxLoad_eq he
  refine ⟨wf, ?_, ?_, ?_, ?_⟩
  · intro k v
    constructor
    · intro h; cases h
    · rintro ⟨i, h, _⟩; exact absurd h (hno i k)
  · have := used_congr (clear h).ctrl (fun _ => kEmpty) (clear h).cap (by intro i hi; simp [he i hi])
    rw [this, used_empty]; exact Nat.zero_le _
  · show 0 ≤ _; exact Nat.zero_le _
  · have := fulls_congr (clear h).ctrl (fun _ => kEmpty) (clear h).cap (by intro i hi; simp [he i hi])
    rw [this, fulls_empty]; rfl

theorem run_ok (hash : K → UInt64) (ops : List (Op K V)) (h : Table K V) (m : K → Option V) (inv : Inv hash h m) :
    ∃ h', run hash h ops = some h' ∧ Inv hash h' (ops.foldl Spec.apply m) := by
  induction ops generalizing h m with
  | nil => exact ⟨h, rfl, inv⟩
  | cons op ops ih =>
    obtain ⟨h1, he, inv1⟩ : ∃ h1, step hash h op = some h1 ∧ Inv hash h1 (Spec.apply m op) := by
      cases op with
      | set k v => exact set_ok hash h m inv k v
      | unset k => exact unset_ok hash h m inv k
      | clear => exact ⟨_, rfl, clear_ok hash h m inv⟩
    obtain ⟨h2, he2, inv2⟩ := ih h1 _ inv1
    exact ⟨h2, by simp [run, he, he2], inv2⟩

/-! ### Iteration -/

theorem forEach_length (hash : K → UInt64) (h : Table K V) (wf : WF hash h) (n : Nat) (hn : n ≤ h.cap) :
    ((List.range n).filterMap (visit h)).length = fulls h.ctrl n := by
  induction n with
  | zero => rfl
  | succ n ih =>
    rw [List.range_succ, List.filterMap_append, List.length_append, ih (by omega)]
    simp only [fulls]
    by_cases hf : kFull (h.ctrl n) = true
    · obtain ⟨k, hk, _⟩ := wf.full_ok n (by omega) hf
      simp [visit, hf, hk]
    · simp [visit, hf]

theorem visit_some (h : Table K V) (i : Nat) (hi : i < h.cap) (k : K) (v : V) :
    visit h i = some (k, v) ↔ At h i k ∧ (h.elem i).val = v := by
  unfold visit At
  by_cases hf : kFull (h.ctrl i) = true
  · simp only [hf, if_true, hi, true_and]
    cases hk : h.keys[(h.elem i).keyi]? with
    | none => simp
    | some k' => simp
  · simp [hf]

theorem mem_forEach (h : Table K V) (m : K → Option V) (rep : Rep h m) (k : K) (v : V) :
    (k, v) ∈ forEach h ↔ m k = some v := by
  unfold forEach
  rw [List.mem_filterMap, rep]
  constructor
  · rintro ⟨i, hi, hv⟩
    exact ⟨i, (visit_some h i (List.mem_range.1 hi) k v).1 hv⟩
  · rintro ⟨i, ha, hv⟩
    exact ⟨i, List.mem_range.2 ha.1, (visit_some h i ha.1 k v).2 ⟨ha, hv⟩⟩

theorem forEach_keys_nodup (hash : K → UInt64) (h : Table K V) (wf : WF hash h) (n : Nat) (hn : n ≤ h.cap) :
    (((List.range n).filterMap (visit h)).map Prod.fst).Nodup := by
  induction n with
  | zero => simp
  | succ n ih =>
    rw [List.range_succ, List.filterMap_append, List.map_append, List.nodup_append]
    refine ⟨ih (by omega), ?_, ?_⟩
    · cases hv : visit h n with
      | none => simp [hv]
      | some kv => simp [hv]
    · intro a ha b hb hab
      subst hab
      simp only [List.mem_map, List.mem_filterMap, List.mem_range, List.mem_singleton] at ha hb
      obtain ⟨⟨k1, v1⟩, ⟨i, hi, h1⟩, rfl⟩ := ha
      obtain ⟨⟨k2, v2⟩, ⟨j, hj, h2⟩, he⟩ := hb
      have : j = n := hj
      subst this
      have a1 := (visit_some h i (by omega) _ _).1 h1
      have a2 := (visit_some h j (by omega) _ _).1 h2
      have he' : k2 = k1 := he
      rw [he'] at a2
      have := at_unique hash h wf a1.1 a2.1
      omega

/-! ### String keys and their hash -/

theorem strncmpEq_iff (a b : Bytes) (hl : a.length = b.length) (h0 : ∀ x ∈ a, x ≠ 0) :
    strKeyEq.strncmpEq a b = true ↔ a = b := by
  induction a generalizing b with
  | nil => cases b with
    | nil => simp [strKeyEq.strncmpEq]
    | cons => simp at hl
  | cons x xs ih =>
    cases b with
    | nil => simp at hl
    | cons y ys =>
      have hx : x ≠ 0 := h0 x (by simp)
      have := ih ys (by simpa using hl) (fun z hz => h0 z (by simp [hz]))
      simp [strKeyEq.strncmpEq, hx, this]

theorem fnvLoop_some (len : Nat) (hl : len < 65536) (str : Nat → UInt8) (n : Nat) :
    ∀ (i : UInt16) (h : UInt64), i.toNat + n = len → ∃ r, fnvLoop len str (n + 1) i h = some r := by
  induction n with
  | zero => intro i h hi; exact ⟨h, by simp [fnvLoop]; omega⟩
  | succ n ih =>
    intro i h hi
    rw [fnvLoop]
    rw [if_pos (by omega)]
    apply ih
    rw [UInt16.toNat_add]
    have : (1 : UInt16).toNat = 1 := rfl
    omega

theorem fnvLoop_none (len : Nat) (hl : 65536 ≤ len) (str : Nat → UInt8) (fuel : Nat) :
    ∀ (i : UInt16) (h : UInt64), fnvLoop len str fuel i h = none := by
  induction fuel with
  | zero => intro i h; rfl
  | succ n ih =>
    intro i h
    rw [fnvLoop, if_pos (by have := i.toNat_lt; omega)]
    exact ih _ _

end Muon.Hash
