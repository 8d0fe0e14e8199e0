import Verif.Str.Model
import Verif.Str.Spec
namespace Muon.Str
open Muon

/-! Helper lemmas for `Verif.Str.Props`. -/

theorem startswith_iff' (ss pre : Bytes) : startswith ss pre = true ↔ pre <+: ss := by
  unfold startswith
  rw [List.prefix_iff_eq_take]
  split
  · rename_i h
    constructor
    · intro h'; cases h'
    · intro h'
      have := congrArg List.length h'
      simp at this; omega
  · simp only [beq_iff_eq]
    exact eq_comm

theorem slice_full (s : Bytes) (a : Nat) : slice s a (s.length - a) = s.drop a := by
  unfold slice
  rw [List.take_of_length_le]
  simp

theorem drop_eq_slice_append (s : Bytes) (a b : Nat) (h : a ≤ b) : s.drop a = slice s a (b - a) ++ s.drop b := by
  unfold slice
  have := (List.take_append_drop (b - a) (s.drop a)).symm
  rw [List.drop_drop] at this
  rw [show a + (b - a) = b by omega] at this
  exact this

theorem slice_length (s : Bytes) (a b : Nat) (h : a ≤ b) (hb : b ≤ s.length) : (slice s a (b - a)).length = b - a := by
  unfold slice; simp; omega

/-! ### split and replace -/

open Spec (FirstSplit)

theorem firstSplit_last (s sep : Bytes) (hsep : sep ≠ []) (start i : Nat) (hi : i ≤ s.length) (hil : s.length ≤ i)
    (hsi : start ≤ i) (hno : ∀ j, start ≤ j → j < i → ¬ sep <+: s.drop j) : FirstSplit sep (s.drop start) [s.drop start] := by
  apply FirstSplit.last
  rintro ⟨p, q, h⟩
  have hpos : 0 < sep.length := List.length_pos_iff.2 hsep
  have hl := congrArg List.length h
  simp at hl
  refine hno (start + p.length) (by omega) (by omega) ⟨q, ?_⟩
  rw [← List.drop_drop, ← h, List.append_assoc, List.drop_left]

theorem firstSplit_cons (s sep : Bytes) (start i : Nat) (hi : i < s.length) (hsi : start ≤ i)
    (hno : ∀ j, start ≤ j → j < i → ¬ sep <+: s.drop j) (hm : sep <+: s.drop i) (ps : List Bytes)
    (hps : FirstSplit sep (s.drop (i + sep.length)) ps) :
    FirstSplit sep (s.drop start) (slice s start (i - start) :: ps) := by
  obtain ⟨rest, hr⟩ := hm
  have hrest : rest = s.drop (i + sep.length) := by
    rw [← List.drop_drop, ← hr, List.drop_left]
  have e : s.drop start = slice s start (i - start) ++ sep ++ rest := by
    rw [List.append_assoc, hr]; exact drop_eq_slice_append s start i hsi
  rw [e]
  apply FirstSplit.cons
  · intro p q h
    rw [slice_length s start i hsi (by omega)]
    by_cases hlt : p.length < i - start
    · exfalso
      refine hno (start + p.length) (by omega) (by omega) ⟨q, ?_⟩
      rw [← List.drop_drop, e, h, List.append_assoc, List.drop_left]
    · omega
  · rw [hrest]; exact hps

theorem split_loop (s sep : Bytes) (hsep : sep ≠ []) (n : Nat) : ∀ (i start : Nat) (res : List Bytes),
    s.length - i ≤ n → i ≤ s.length → start ≤ i → (∀ j, start ≤ j → j < i → ¬ sep <+: s.drop j) →
    ∃ r, Loop (splitStep s sep) ⟨i, start, res⟩ (res ++ r) ∧ FirstSplit sep (s.drop start) r := by
  have hpos : 0 < sep.length := List.length_pos_iff.2 hsep
  induction n with
  | zero =>
    intro i start res hn hi hsi hno
    have hil : i = s.length := by omega
    refine ⟨[s.drop start], .done ?_, firstSplit_last s sep hsep start i hi (by omega) hsi hno⟩
    simp only [splitStep, hil, Nat.lt_irrefl, if_false]
    rw [slice_full]
  | succ n ih =>
    intro i start res hn hi hsi hno
    by_cases hlt : i < s.length
    · by_cases hm : sep <+: s.drop i
      · have hle : i + sep.length ≤ s.length := by
          have := hm.length_le; simp at this; omega
        obtain ⟨r, hloop, hsp⟩ := ih (i + sep.length) (i + sep.length) (res ++ [slice s start (i - start)])
          (by omega) hle (Nat.le_refl _) (by intro j h1 h2; omega)
        refine ⟨slice s start (i - start) :: r, .next (s' := ⟨i + sep.length, i + sep.length, res ++ [slice s start (i - start)]⟩) ?_ ?_,
          firstSplit_cons s sep start i hlt hsi hno hm r hsp⟩
        · simp only [splitStep, hlt, if_true, (startswith_iff' _ _).2 hm]
        · simpa using hloop
      · obtain ⟨r, hloop, hsp⟩ := ih (i + 1) start res (by omega) (by omega) (by omega) (by
          intro j h1 h2
          by_cases hj : j = i
          · subst hj; exact hm
          · exact hno j h1 (by omega))
        refine ⟨r, .next ?_ hloop, hsp⟩
        have : startswith (s.drop i) sep = false := by
          cases hb : startswith (s.drop i) sep with
          | false => rfl
          | true => exact absurd ((startswith_iff' _ _).1 hb) hm
        simp only [splitStep, hlt, if_true, this]
        rfl
    · have hil : i = s.length := by omega
      refine ⟨[s.drop start], .done ?_, firstSplit_last s sep hsep start i hi (by omega) hsi hno⟩
      simp only [splitStep, hil, Nat.lt_irrefl, if_false]
      rw [slice_full]

theorem firstSplit_ne_nil {sep s : Bytes} {r : List Bytes} (h : FirstSplit sep s r) : r ≠ [] := by
  cases h <;> simp

theorem firstSplit_join {sep s : Bytes} {r : List Bytes} (h : FirstSplit sep s r) : Spec.join sep r = s := by
  induction h with
  | last => rfl
  | cons pre rest ps _ hps ih =>
    cases ps with
    | nil => exact absurd rfl (firstSplit_ne_nil hps)
    | cons p ps => simp only [Spec.join]; rw [ih]

theorem firstSplit_no_sep {sep s : Bytes} (hsep : sep ≠ []) {r : List Bytes} (h : FirstSplit sep s r) : ∀ p ∈ r, ¬ sep <:+: p := by
  induction h with
  | last s h => intro p hp; simp at hp; subst hp; exact h
  | cons pre rest ps hmin _ ih =>
    intro p hp
    simp only [List.mem_cons] at hp
    rcases hp with rfl | hp
    · rintro ⟨a, b, hab⟩
      have := hmin a (b ++ sep ++ rest) (by rw [← hab]; simp)
      have hl := congrArg List.length hab
      have hpos : 0 < sep.length := List.length_pos_iff.2 hsep
      simp at hl
      omega
    · exact ih p hp

theorem replace_loop (s find repl : Bytes) (hf : find ≠ []) (n : Nat) : ∀ (i start : Nat) (res : Bytes),
    s.length - i ≤ n → i ≤ s.length → start ≤ i → (∀ j, start ≤ j → j < i → ¬ find <+: s.drop j) →
    ∃ ps, Loop (replStep s find repl) ⟨i, start, i - start, res⟩ (res ++ Spec.join repl ps) ∧
      FirstSplit find (s.drop start) ps := by
  have hpos : 0 < find.length := List.length_pos_iff.2 hf
  induction n with
  | zero =>
    intro i start res hn hi hsi hno
    have hil : i = s.length := by omega
    refine ⟨[s.drop start], .done ?_, firstSplit_last s find hf start i hi (by omega) hsi hno⟩
    simp only [replStep, hil, Nat.lt_irrefl, if_false, Spec.join]
    rw [slice_full]
  | succ n ih =>
    intro i start res hn hi hsi hno
    by_cases hlt : i < s.length
    · by_cases hm : find <+: s.drop i
      · have hle : i + find.length ≤ s.length := by
          have := hm.length_le; simp at this; omega
        obtain ⟨r, hloop, hsp⟩ := ih (i + find.length) (i + find.length) (res ++ slice s start (i - start) ++ repl)
          (by omega) hle (Nat.le_refl _) (by intro j h1 h2; omega)
        refine ⟨slice s start (i - start) :: r, .next (s' := ⟨i + find.length, i + find.length, 0, res ++ slice s start (i - start) ++ repl⟩) ?_ ?_,
          firstSplit_cons s find start i hlt hsi hno hm r hsp⟩
        · simp only [replStep, hlt, if_true, (startswith_iff' _ _).2 hm]
        · cases r with
          | nil => exact absurd rfl (firstSplit_ne_nil hsp)
          | cons y ys => simpa [Spec.join] using hloop
      · obtain ⟨r, hloop, hsp⟩ := ih (i + 1) start res (by omega) (by omega) (by omega) (by
          intro j h1 h2
          by_cases hj : j = i
          · subst hj; exact hm
          · exact hno j h1 (by omega))
        refine ⟨r, .next ?_ hloop, hsp⟩
        have : startswith (s.drop i) find = false := by
          cases hb : startswith (s.drop i) find with
          | false => rfl
          | true => exact absurd ((startswith_iff' _ _).1 hb) hm
        simp only [replStep, hlt, if_true, this]
        rw [show i + 1 - start = i - start + 1 by omega]
        rfl
    · have hil : i = s.length := by omega
      refine ⟨[s.drop start], .done ?_, firstSplit_last s find hf start i hi (by omega) hsi hno⟩
      simp only [replStep, hil, Nat.lt_irrefl, if_false, Spec.join]
      rw [slice_full]

theorem joinFrom_eq (sep : Bytes) (l : List Bytes) : ∀ (len i : Nat) (res : Bytes), i + l.length = len →
    joinFrom sep len i l res = res ++ Spec.join sep l := by
  induction l with
  | nil => intro len i res _; simp [joinFrom, Spec.join]
  | cons v vs ih =>
    intro len i res h
    simp only [List.length_cons] at h
    rw [joinFrom, ih len (i + 1) _ (by omega)]
    cases vs with
    | nil =>
      have : ¬ i < len - 1 := by simp at h; omega
      simp [this, Spec.join]
    | cons y ys =>
      have : i < len - 1 := by simp at h; omega
      simp [this, Spec.join]

theorem join_eq (sep : Bytes) (l : List Bytes) : join sep l = Spec.join sep l := by
  unfold join
  rw [joinFrom_eq sep l l.length 0 [] (by omega)]; rfl

/-! ### white space split -/

theorem skipWhile_spec (s : Bytes) (p : UInt8 → Bool) (n : Nat) : ∀ i, s.length - i = n → i ≤ s.length →
    i ≤ skipWhile s p i ∧ skipWhile s p i ≤ s.length ∧
    (∀ c ∈ slice s i (skipWhile s p i - i), p c = true) ∧
    (∀ c, (s.drop (skipWhile s p i)).head? = some c → p c = false) := by
  induction n with
  | zero =>
    intro i hn hi
    have hil : i = s.length := by omega
    unfold skipWhile
    simp [hil, slice]
  | succ n ih =>
    intro i hn hi
    have hlt : i < s.length := by omega
    unfold skipWhile
    simp only [hlt, dif_pos]
    by_cases hp : p s[i] = true
    · simp only [hp, if_true]
      obtain ⟨h1, h2, h3, h4⟩ := ih (i + 1) (by omega) (by omega)
      refine ⟨by omega, h2, ?_, h4⟩
      intro c hc
      unfold slice at hc
      rw [List.drop_eq_getElem_cons hlt, show skipWhile s p (i + 1) - i = (skipWhile s p (i + 1) - (i + 1)) + 1 by omega,
        List.take_succ_cons, List.mem_cons] at hc
      rcases hc with rfl | hc
      · exact hp
      · exact h3 c hc
    · simp only [hp]
      refine ⟨Nat.le_refl _, hi, by simp [slice], ?_⟩
      intro c hc
      simp [List.getElem?_eq_getElem hlt] at hc
      subst hc
      simpa using hp

theorem words_nil {ws : UInt8 → Bool} {s : Bytes} {r : List Bytes} (h : Spec.Words ws s r) (hs : s = []) : r = [] := by
  cases h with
  | nil => rfl
  | cons blank w rest r _ hw => simp at hs; exact absurd hs.2.1 hw

theorem splitWs_loop (s : Bytes) (n : Nat) : ∀ (i start : Nat) (res : List Bytes), s.length - i ≤ n → i ≤ s.length →
    ∃ r, Loop (splitWsStep s) ⟨i, start, res⟩ (res ++ r) ∧ Spec.Words isSplitWs (s.drop i) r := by
  induction n with
  | zero =>
    intro i start res hn hi
    have hil : i = s.length := by omega
    refine ⟨[], .done (by simp [splitWsStep, hil]), ?_⟩
    rw [hil]; simp; exact .nil _ (by simp)
  | succ n ih =>
    intro i start res hn hi
    by_cases hlt : i < s.length
    · obtain ⟨h1, h2, h3, h4⟩ := skipWhile_spec s isSplitWs _ i rfl hi
      generalize hst : skipWhile s isSplitWs i = st at *
      obtain ⟨g1, g2, g3, g4⟩ := skipWhile_spec s (fun c => !isSplitWs c) _ st rfl h2
      generalize hen : skipWhile s (fun c => !isSplitWs c) st = en at *
      have hstep : splitWsStep s ⟨i, start, res⟩ = .inl ⟨en, st, if en > st then res ++ [slice s st (en - st)] else res⟩ := by
        simp only [splitWsStep, hlt, if_true, hst, hen]
      have hprog : i < en := by
        by_cases hst' : i < st
        · omega
        · have : st = i := by omega
          subst this
          by_cases he : en = st
          · exfalso
            rw [he] at g4
            have hc1 := h4 s[st] (by simp [List.getElem?_eq_getElem hlt])
            have hc2 := g4 s[st] (by simp [List.getElem?_eq_getElem hlt])
            simp [hc1] at hc2
          · omega
      obtain ⟨r, hl, hw⟩ := ih en st (if en > st then res ++ [slice s st (en - st)] else res) (by omega) g2
      by_cases hne : en > st
      · refine ⟨slice s st (en - st) :: r, .next hstep ?_, ?_⟩
        · simpa [hne] using hl
        · have e : s.drop i = slice s i (st - i) ++ slice s st (en - st) ++ s.drop en := by
            rw [List.append_assoc, ← drop_eq_slice_append s st en g1, ← drop_eq_slice_append s i st h1]
          rw [e]
          apply Spec.Words.cons
          · exact h3
          · intro hnil
            have := slice_length s st en g1 g2
            rw [hnil] at this; simp at this; omega
          · intro c hc; simpa using g3 c hc
          · intro c hc; simpa using g4 c hc
          · exact hw
      · have : en = st := by omega
        refine ⟨r, .next hstep (by simpa [hne] using hl), ?_⟩
        -- no word was found: the rest is blank, hence `en = s.length`
        have hend : s.drop en = [] := by
          cases hd : s.drop en with
          | nil => rfl
          | cons c t =>
            exfalso
            have hc1 := h4 c (by rw [← this, hd]; rfl)
            have hc2 := g4 c (by rw [hd]; rfl)
            simp [hc1] at hc2
        rw [hend] at hw
        rw [words_nil hw rfl]
        apply Spec.Words.nil
        intro c hc
        rw [drop_eq_slice_append s i st h1, ← this, hend, this] at hc
        simp at hc
        exact h3 c hc
    · have hil : i = s.length := by omega
      refine ⟨[], .done (by simp [splitWsStep, hil]), ?_⟩
      rw [hil]; simp; exact .nil _ (by simp)

/-! ### contains, endswith -/

theorem containsFrom_iff (s t : Bytes) (n : Nat) : ∀ i, s.length - i = n →
    (containsFrom s t i = true ↔ ∃ j, i ≤ j ∧ j < s.length ∧ t <+: s.drop j) := by
  induction n with
  | zero =>
    intro i hn
    unfold containsFrom
    have : ¬ i < s.length := by omega
    simp only [this, if_false]
    constructor
    · intro h; cases h
    · rintro ⟨j, h1, h2, _⟩; omega
  | succ n ih =>
    intro i hn
    unfold containsFrom
    have hlt : i < s.length := by omega
    simp only [hlt, if_true]
    by_cases hm : startswith (s.drop i) t = true
    · simp only [hm, if_true, true_iff]
      exact ⟨i, Nat.le_refl _, hlt, (startswith_iff' _ _).1 hm⟩
    · simp only [hm]
      rw [if_neg (by simp), ih (i + 1) (by omega)]
      constructor
      · rintro ⟨j, h1, h2⟩; exact ⟨j, by omega, h2⟩
      · rintro ⟨j, h1, h2, h3⟩
        refine ⟨j, ?_, h2, h3⟩
        have : j ≠ i := by intro e; subst e; exact hm ((startswith_iff' _ _).2 h3)
        omega

theorem infix_iff_drop (s t : Bytes) : t <:+: s ↔ ∃ j ≤ s.length, t <+: s.drop j := by
  constructor
  · rintro ⟨a, b, h⟩
    refine ⟨a.length, ?_, b, ?_⟩
    · have := congrArg List.length h; simp at this; omega
    · rw [← h, List.append_assoc, List.drop_left]
  · rintro ⟨j, hj, b, h⟩
    exact ⟨s.take j, b, by rw [List.append_assoc, h, List.take_append_drop]⟩

theorem endswith_iff' (s t : Bytes) : endswith s t = true ↔ t <:+ s := by
  unfold endswith
  rw [List.suffix_iff_eq_drop]
  split
  · rename_i h
    constructor
    · intro h'; cases h'
    · intro h'
      have := congrArg List.length h'
      simp at this; omega
  · rename_i h
    simp only [beq_iff_eq]
    rw [List.take_of_length_le (by simp; omega)]
    exact eq_comm

/-! ### strip -/

theorem at'_eq (s : Bytes) (i : Nat) (h : i < s.length) : at' s i = s[i] := by
  simp [at', List.getD_eq_getElem?_getD, List.getElem?_eq_getElem h]

theorem stripI_spec (s st : Bytes) (n : Nat) : ∀ i, s.length - i = n → i ≤ s.length →
    i ≤ stripI s st i ∧ stripI s st i ≤ s.length ∧ (∀ c ∈ slice s i (stripI s st i - i), c ∈ st) ∧
    (∀ h : stripI s st i < s.length, s[stripI s st i] ∉ st) := by
  induction n with
  | zero =>
    intro i hn hi
    have hil : i = s.length := by omega
    unfold stripI
    simp [hil, slice]
  | succ n ih =>
    intro i hn hi
    have hlt : i < s.length := by omega
    by_cases hp : at' s i ∈ st
    · have e : stripI s st i = stripI s st (i + 1) := by
        rw [stripI]; simp [hlt, hp]
      rw [e]
      obtain ⟨h1, h2, h3, h4⟩ := ih (i + 1) (by omega) (by omega)
      refine ⟨by omega, h2, ?_, h4⟩
      intro c hc
      unfold slice at hc
      rw [List.drop_eq_getElem_cons hlt, show stripI s st (i + 1) - i = (stripI s st (i + 1) - (i + 1)) + 1 by omega,
        List.take_succ_cons, List.mem_cons] at hc
      rcases hc with rfl | hc
      · rw [← at'_eq s i hlt]; exact hp
      · exact h3 c hc
    · have e : stripI s st i = i := by
        rw [stripI]; simp [hlt, hp]
      simp only [e]
      refine ⟨Nat.le_refl _, hi, by simp [slice], ?_⟩
      intro h
      rw [← at'_eq s i hlt]; exact hp

theorem stripLen_spec (s st : Bytes) (i : Nat) (hi : i ≤ s.length) : ∀ n, i ≤ n → n ≤ s.length →
    i ≤ stripLen s st i n ∧ stripLen s st i n ≤ n ∧ (∀ c ∈ slice s (stripLen s st i n) (n - stripLen s st i n), c ∈ st) ∧
    (i < stripLen s st i n → ∀ h : stripLen s st i n - 1 < s.length, s[stripLen s st i n - 1] ∉ st) := by
  intro n
  induction n with
  | zero => intro h1 h2; simp [stripLen, slice]; omega
  | succ n ih =>
    intro h1 h2
    by_cases hni : n < i
    · have e : stripLen s st i (n + 1) = n + 1 := by simp [stripLen, hni]
      simp only [e]
      refine ⟨h1, Nat.le_refl _, by simp [slice], by intro h; omega⟩
    · by_cases hp : at' s n ∈ st
      · have e : stripLen s st i (n + 1) = stripLen s st i n := by simp [stripLen, hni, hp]
        simp only [e]
        obtain ⟨g1, g2, g3, g4⟩ := ih (by omega) (by omega)
        refine ⟨g1, by omega, ?_, g4⟩
        intro c hc
        unfold slice at hc g3
        rw [show n + 1 - stripLen s st i n = (n - stripLen s st i n) + 1 by omega, List.take_add_one] at hc
        simp only [List.mem_append] at hc
        rcases hc with hc | hc
        · exact g3 c hc
        · rw [List.getElem?_drop, show stripLen s st i n + (n - stripLen s st i n) = n by omega,
            List.getElem?_eq_getElem (by omega)] at hc
          simp at hc
          rw [hc, ← at'_eq s n (by omega)]; exact hp
      · have e : stripLen s st i (n + 1) = n + 1 := by simp [stripLen, hni, hp]
        simp only [e]
        refine ⟨h1, Nat.le_refl _, by simp [slice], ?_⟩
        intro _ h
        simp only [Nat.add_sub_cancel]
        rw [← at'_eq s n (by omega)]; exact hp

theorem strip_spec' (s : Bytes) (set : Option Bytes) :
    ∃ mid, strip s set = .ok mid ∧ Spec.Stripped (set.getD [32, 10, 9]) s mid := by
  obtain ⟨h1, h2, h3, h4⟩ := stripI_spec s (set.getD [32, 10, 9]) _ 0 rfl (Nat.zero_le _)
  unfold strip
  generalize set.getD [32, 10, 9] = st at *
  simp only []
  generalize stripI s st 0 = i at *
  obtain ⟨g1, g2, g3, g4⟩ := stripLen_spec s st i h2 s.length h2 (Nat.le_refl _)
  generalize stripLen s st i s.length = len at *
  rw [if_pos g1]
  refine ⟨_, rfl, slice s 0 i, s.drop len, ?_, ?_, ?_, ?_, ?_⟩
  · have e1 := drop_eq_slice_append s 0 i (Nat.zero_le _)
    have e2 := drop_eq_slice_append s i len g1
    simp only [List.drop_zero, Nat.sub_zero] at e1
    rw [List.append_assoc, ← e2, ← e1]
  · simpa using h3
  · rw [slice_full] at g3; exact g3
  · intro c hc
    by_cases hlt : i < len
    · have : slice s i (len - i) = s[i] :: slice s (i + 1) (len - (i + 1)) := by
        unfold slice
        rw [List.drop_eq_getElem_cons (show i < s.length by omega), show len - i = len - (i + 1) + 1 by omega, List.take_succ_cons]
      rw [this] at hc
      simp at hc
      subst hc
      exact h4 (by omega)
    · rw [show len - i = 0 by omega] at hc; simp [slice] at hc
  · intro c hc
    by_cases hlt : i < len
    · have hl : (slice s i (len - i)).length = len - i := slice_length s i len g1 g2
      rw [List.getLast?_eq_getElem?, hl] at hc
      unfold slice at hc
      rw [List.getElem?_take, if_pos (by omega), List.getElem?_drop, show i + (len - i - 1) = len - 1 by omega,
        List.getElem?_eq_getElem (by omega)] at hc
      simp at hc
      subst hc
      exact g4 hlt (by omega)
    · rw [show len - i = 0 by omega] at hc; simp [slice] at hc

/-! ### Numbers -/

theorem takeWhile_append_stop {p : UInt8 → Bool} (k rest : Bytes) (h : ∀ c, rest.head? = some c → p c = false) :
    (k ++ rest).takeWhile p = k.takeWhile p := by
  induction k with
  | nil =>
    cases rest with
    | nil => rfl
    | cons c r => simp [h c rfl]
  | cons x xs ih =>
    simp only [List.cons_append, List.takeWhile_cons]
    split
    · rw [ih]
    · rfl

theorem takeWhile_all {p : UInt8 → Bool} (k : Bytes) (h : ∀ c ∈ k, p c = true) : k.takeWhile p = k := by
  induction k with
  | nil => rfl
  | cons x xs ih => rw [List.takeWhile_cons, if_pos (h x (by simp)), ih (fun c hc => h c (by simp [hc]))]

theorem takeWhile_none {p : UInt8 → Bool} (k : Bytes) (h : ∀ c, k.head? = some c → p c = false) : k.takeWhile p = [] := by
  cases k with
  | nil => rfl
  | cons x xs => rw [List.takeWhile_cons, if_neg (by simp [h x rfl])]

theorem digit_facts : ∀ n : Fin 10, (isDigit (UInt8.ofNat (48 + n.val)) = true ∧ (UInt8.ofNat (48 + n.val)).toNat = 48 + n.val) := by
  decide

theorem natDigits_spec (n : Nat) : natDigits n ≠ [] ∧ (∀ c ∈ natDigits n, isDigit c = true) ∧ digitsVal (natDigits n) = n := by
  induction n using Nat.strongRecOn with
  | _ n ih =>
    unfold natDigits
    split
    · rename_i h
      have := digit_facts ⟨n, h⟩
      refine ⟨by simp, by simpa using this.1, ?_⟩
      simp only [digitsVal, List.foldl_cons, List.foldl_nil]
      rw [this.2]; simp
    · rename_i h
      have := digit_facts ⟨n % 10, Nat.mod_lt _ (by omega)⟩
      obtain ⟨_, h2, h3⟩ := ih (n / 10) (by omega)
      refine ⟨by simp, ?_, ?_⟩
      · intro c hc
        simp only [List.mem_append, List.mem_singleton] at hc
        rcases hc with hc | rfl
        · exact h2 c hc
        · exact this.1
      · unfold digitsVal at *
        rw [List.foldl_append, h3]
        simp only [List.foldl_cons, List.foldl_nil]
        rw [this.2]; simp; omega

theorem digit_not : ∀ c : UInt8, isDigit c = true → isSpace c = false ∧ isWhitespace c = false ∧ c ≠ 45 ∧ c ≠ 43 ∧ c ≠ 64 :=
  forall_byte (by decide +kernel)

theorem signOf_digit (ds : Bytes) (h1 : ds ≠ []) (h2 : ∀ c ∈ ds, isDigit c = true) : signOf ds = (false, 0) := by
  cases ds with
  | nil => exact absurd rfl h1
  | cons c r =>
    have := digit_not c (h2 c (by simp))
    unfold signOf
    split
    · next heq => cases heq; exact absurd rfl this.2.2.1
    · next heq => cases heq; exact absurd rfl this.2.2.2.1
    · rfl

theorem head_digit {ds : Bytes} (h1 : ds ≠ []) (h2 : ∀ c ∈ ds, isDigit c = true) :
    ∃ c r, ds = c :: r ∧ isDigit c = true := by
  cases ds with
  | nil => exact absurd rfl h1
  | cons c r => exact ⟨c, r, rfl, h2 c (by simp)⟩

/-- `strtol` on an optionally signed decimal number followed by something that is not a digit. -/
theorem strtol_digits (neg : Bool) (ds rest : Bytes) (h1 : ds ≠ []) (h2 : ∀ c ∈ ds, isDigit c = true)
    (h3 : ∀ c, rest.head? = some c → isDigit c = false) :
    strtol ((if neg then [45] else []) ++ ds ++ rest) =
      (max int64Min (min int64Max (if neg then -(digitsVal ds : Int) else digitsVal ds)),
        (if neg then 1 else 0) + ds.length) := by
  obtain ⟨c, r, he, hc⟩ := head_digit h1 h2
  have hcn := digit_not c hc
  have htw : (ds ++ rest).takeWhile isDigit = ds := by
    rw [takeWhile_append_stop ds rest h3, takeWhile_all ds h2]
  cases neg with
  | false =>
    have hsp : (ds ++ rest).takeWhile isSpace = [] := by
      apply takeWhile_none; rw [he]; simp [hcn.1]
    have hsg : signOf (ds ++ rest) = (false, 0) := by
      rw [he]
      unfold signOf
      split
      · next heq => cases heq; exact absurd rfl hcn.2.2.1
      · next heq => cases heq; exact absurd rfl hcn.2.2.2.1
      · rfl
    simp only [Bool.false_eq_true, if_false, List.nil_append]
    unfold strtol
    simp [hsp, hsg, htw, h1]
  | true =>
    have hsp : (45 :: (ds ++ rest)).takeWhile isSpace = [] := by
      apply takeWhile_none; simp; decide
    simp only [if_true, List.cons_append, List.nil_append]
    unfold strtol
    simp only [hsp, List.length_nil, List.drop_zero]
    have hsg : signOf (45 :: (ds ++ rest)) = (true, 1) := rfl
    rw [hsg]
    simp [htw, h1]

theorem toInt_numToString (n : Int) (h1 : int64Min ≤ n) (h2 : n ≤ int64Max) : toInt (numToString n) = some n := by
  obtain ⟨d1, d2, d3⟩ := natDigits_spec n.natAbs
  obtain ⟨c, r, he, hc⟩ := head_digit d1 d2
  have hform : numToString n = (if decide (n < 0) then [45] else []) ++ natDigits n.natAbs := by
    unfold numToString
    by_cases h : n < 0 <;> simp [h]
  have hs := strtol_digits (decide (n < 0)) (natDigits n.natAbs) [] d1 d2 (by simp)
  rw [List.append_nil, ← hform, d3] at hs
  have hlen : (numToString n).length = (if decide (n < 0) = true then 1 else 0) + (natDigits n.natAbs).length := by
    rw [hform]; split <;> simp; omega
  have hws : (numToString n).takeWhile isWhitespace = [] := by
    apply takeWhile_none
    intro c' hc'
    rw [hform] at hc'
    split at hc'
    · simp at hc'; subst hc'; decide
    · rw [he] at hc'; simp at hc'; subst hc'; exact (digit_not _ hc).2.1
  unfold toInt strToI
  simp only [if_true, hws, List.length_nil, List.drop_zero, Nat.zero_add, hs]
  rw [← hlen]
  simp only [List.drop_length, List.takeWhile_nil, List.length_nil, Nat.add_zero, if_true]
  congr 1
  unfold int64Min int64Max at *
  simp only [decide_eq_true_eq]
  split <;> omega

end Muon.Str
