import Verif.Version.Model
import Verif.Version.Spec
namespace Muon.Version
open Muon Spec Std

/-! Helper lemmas for `Verif.Version.Props`. -/

theorem item_oriented (a b : Item) : Item.cmp a b = (Item.cmp b a).swap := by
  cases a <;> cases b <;> simp [Item.cmp]
  · exact OrientedCmp.eq_swap
  · exact OrientedCmp.eq_swap

instance : OrientedCmp Item.cmp := ⟨fun {a b} => item_oriented a b⟩

instance : TransCmp Item.cmp where
  isLE_trans {a b c} := by
    cases a <;> cases b <;> cases c <;> simp [Item.cmp]
    · exact TransCmp.isLE_trans
    · exact TransCmp.isLE_trans

theorem sign_swap (o : Ordering) : sign o.swap = - sign o := by cases o <;> rfl

theorem sign_le (o : Ordering) : sign o ≤ 0 ↔ o.isLE = true := by cases o <;> simp [sign]

theorem decimal_acc (l : Bytes) (acc : Nat) :
    l.foldl (fun acc c => acc * 10 + (c.toNat - 48)) acc = acc * 10 ^ l.length + decimal l := by
  induction l generalizing acc with
  | nil => simp [decimal]
  | cons c cs ih =>
    simp only [List.foldl_cons, decimal, List.length_cons, Nat.pow_succ]
    rw [ih, ih (0 * 10 + (c.toNat - 48))]
    simp only [Nat.zero_mul, Nat.zero_add, Nat.add_mul]
    rw [Nat.mul_assoc, Nat.mul_comm 10, Nat.add_assoc]

theorem decimal_cons (c : UInt8) (cs : Bytes) :
    decimal (c :: cs) = (c.toNat - 48) * 10 ^ cs.length + decimal cs := by
  have := decimal_acc cs (c.toNat - 48)
  simpa [decimal] using this

theorem isDigit_iff (c : UInt8) : isDigit c = true ↔ 48 ≤ c.toNat ∧ c.toNat ≤ 57 := by
  simp [isDigit, UInt8.le_iff_toNat_le]

theorem decimal_lt (l : Bytes) (h : ∀ c ∈ l, isDigit c = true) : decimal l < 10 ^ l.length := by
  induction l with
  | nil => simp [decimal]
  | cons c cs ih =>
    rw [decimal_cons]
    have h1 := ih (fun x hx => h x (List.mem_cons_of_mem _ hx))
    have h2 := (isDigit_iff c).1 (h c (List.mem_cons_self ..))
    have : (c.toNat - 48) * 10 ^ cs.length ≤ 9 * 10 ^ cs.length := Nat.mul_le_mul_right _ (by omega)
    simp only [List.length_cons, Nat.pow_succ]
    omega

theorem decimal_dropZeros (l : Bytes) : decimal (l.dropWhile (· == 48)) = decimal l := by
  induction l with
  | nil => rfl
  | cons c cs ih =>
    simp only [List.dropWhile_cons]
    split
    · rename_i h
      have : c = 48 := by simpa using h
      rw [ih, decimal_cons]; simp [this]
    · rfl

/-- numbers of equal digit count compare as byte strings -/
theorem cmp_digits_eqlen (a b : Bytes) (ha : ∀ c ∈ a, isDigit c = true) (hb : ∀ c ∈ b, isDigit c = true)
    (hl : a.length = b.length) : List.compareLex compare a b = compare (decimal a) (decimal b) := by
  induction a generalizing b with
  | nil => cases b <;> simp_all [decimal, List.compareLex]
  | cons x xs ih =>
    cases b with
    | nil => simp at hl
    | cons y ys =>
      simp only [List.length_cons, Nat.add_right_cancel_iff] at hl
      have hx := (isDigit_iff x).1 (ha x (List.mem_cons_self ..))
      have hy := (isDigit_iff y).1 (hb y (List.mem_cons_self ..))
      have ha' : ∀ c ∈ xs, isDigit c = true := fun c hc => ha c (List.mem_cons_of_mem _ hc)
      have hb' : ∀ c ∈ ys, isDigit c = true := fun c hc => hb c (List.mem_cons_of_mem _ hc)
      have ih' := ih ys ha' hb' hl
      have lx := decimal_lt xs ha'
      have ly := decimal_lt ys hb'
      rw [List.compareLex_cons_cons, ih', decimal_cons, decimal_cons, ← hl]
      rw [← hl] at ly
      generalize decimal xs = dx at *
      generalize decimal ys = dy at *
      generalize 10 ^ xs.length = T at *
      rcases Nat.lt_trichotomy x.toNat y.toNat with h | h | h
      · have hc : compare x y = .lt := by
          rw [compare_eq_lt]; exact UInt8.lt_iff_toNat_lt.2 h
        rw [hc]
        have : (x.toNat - 48 + 1) * T ≤ (y.toNat - 48) * T := Nat.mul_le_mul_right _ (by omega)
        rw [Nat.add_mul] at this
        simp only [Ordering.then]
        symm; rw [Nat.compare_eq_lt]; omega
      · have : x = y := UInt8.toNat_inj.1 h
        subst this
        simp only [ReflCmp.compare_self, Ordering.then]
        rcases Nat.lt_trichotomy dx dy with h' | h' | h'
        · rw [Nat.compare_eq_lt.2 h']; symm; rw [Nat.compare_eq_lt]; omega
        · subst h'; simp
        · rw [Nat.compare_eq_gt.2 h']; symm; rw [Nat.compare_eq_gt]; omega
      · have hc : compare x y = .gt := by
          rw [compare_eq_gt]; exact UInt8.lt_iff_toNat_lt.2 h
        rw [hc]
        have : (y.toNat - 48 + 1) * T ≤ (x.toNat - 48) * T := Nat.mul_le_mul_right _ (by omega)
        rw [Nat.add_mul] at this
        simp only [Ordering.then]
        symm; rw [Nat.compare_eq_gt]; omega

/-- `memcmp` on the common length followed by the length test is the byte-string order. -/
theorem memcmp_lex (a b : Bytes) :
    (if memcmp a b ≠ 0 then (if memcmp a b < 1 then (-1 : Int) else 1)
     else if a.length ≠ b.length then (if a.length > b.length then 1 else -1) else 0)
      = sign (List.compareLex compare a b) := by
  induction a generalizing b with
  | nil => cases b <;> simp [memcmp, sign, List.compareLex]
  | cons x xs ih =>
    cases b with
    | nil => simp [memcmp, sign, List.compareLex]
    | cons y ys =>
      rw [List.compareLex_cons_cons]
      simp only [memcmp, List.length_cons]
      rcases Nat.lt_trichotomy x.toNat y.toNat with h | h | h
      · have hlt : x < y := UInt8.lt_iff_toNat_lt.2 h
        have hc : compare x y = .lt := by rw [compare_eq_lt]; exact hlt
        simp [hlt, hc, sign, Ordering.then]
      · have : x = y := UInt8.toNat_inj.1 h
        subst this
        have hn : ¬ x < x := UInt8.lt_irrefl x
        have := ih ys
        simp only [hn, if_false, ReflCmp.compare_self, Ordering.then]
        rw [← this]
        simp
      · have hlt : y < x := UInt8.lt_iff_toNat_lt.2 h
        have hn : ¬ x < y := UInt8.lt_asymm hlt
        have hc : compare x y = .gt := by rw [compare_eq_gt]; exact hlt
        simp [hlt, hn, hc, sign, Ordering.then]

theorem segCmp_word (a b : Bytes) : segCmp false a b = sign (List.compareLex compare a b) := by
  rw [← memcmp_lex]; simp [segCmp]

theorem mem_dropWhile {p : UInt8 → Bool} {l : Bytes} {c : UInt8} (h : c ∈ l.dropWhile p) : c ∈ l :=
  (List.dropWhile_suffix p).subset h

theorem decimal_ge_of_noLeadingZero (l : Bytes) (h : ∀ c ∈ l, isDigit c = true)
    (hz : l.head? ≠ some 48) (hne : l ≠ []) : 10 ^ (l.length - 1) ≤ decimal l := by
  cases l with
  | nil => exact absurd rfl hne
  | cons c cs =>
    rw [decimal_cons]
    have h2 := (isDigit_iff c).1 (h c (List.mem_cons_self ..))
    have h3 : c.toNat ≠ 48 := by
      intro h4; apply hz; simp only [List.head?_cons, Option.some.injEq]
      exact UInt8.toNat_inj.1 h4
    have : 1 * 10 ^ cs.length ≤ (c.toNat - 48) * 10 ^ cs.length := Nat.mul_le_mul_right _ (by omega)
    simp only [List.length_cons, Nat.add_sub_cancel]
    omega

theorem decimal_lt_of_shorter (a b : Bytes) (ha : ∀ c ∈ a, isDigit c = true)
    (hb : ∀ c ∈ b, isDigit c = true) (hz : b.head? ≠ some 48) (hl : a.length < b.length) :
    decimal a < decimal b := by
  have h1 := decimal_lt a ha
  have hne : b ≠ [] := by intro h; subst h; simp at hl
  have h2 := decimal_ge_of_noLeadingZero b hb hz hne
  have h3 : 10 ^ a.length ≤ 10 ^ (b.length - 1) := Nat.pow_le_pow_right (by decide) (by omega)
  omega

theorem head_dropZeros (l : Bytes) : (l.dropWhile (· == 48)).head? ≠ some 48 := by
  have := List.head?_dropWhile_not (· == (48 : UInt8)) l
  intro h
  rw [h] at this
  simp at this

theorem segCmp_num (a b : Bytes) (ha : ∀ c ∈ a, isDigit c = true) (hb : ∀ c ∈ b, isDigit c = true) :
    segCmp true a b = sign (compare (decimal a) (decimal b)) := by
  have ha' : ∀ c ∈ a.dropWhile (· == 48), isDigit c = true := fun c hc => ha c (mem_dropWhile hc)
  have hb' : ∀ c ∈ b.dropWhile (· == 48), isDigit c = true := fun c hc => hb c (mem_dropWhile hc)
  have za := head_dropZeros a
  have zb := head_dropZeros b
  rw [← decimal_dropZeros a, ← decimal_dropZeros b]
  simp only [segCmp, if_true, true_and]
  generalize a.dropWhile (· == 48) = x at *
  generalize b.dropWhile (· == 48) = y at *
  by_cases h1 : x.length > y.length
  · have := decimal_lt_of_shorter y x hb' ha' za h1
    rw [Nat.compare_eq_gt.2 this]; simp [h1, sign]
  · by_cases h2 : y.length > x.length
    · have := decimal_lt_of_shorter x y ha' hb' zb h2
      rw [Nat.compare_eq_lt.2 this]; simp [h1, h2, sign]
    · have hl : x.length = y.length := by omega
      rw [← cmp_digits_eqlen x y ha' hb' hl, ← memcmp_lex]
      simp [h1, h2]

theorem itemsAux_fuel (s : Bytes) : ∀ (n m : Nat), s.length ≤ n → s.length ≤ m →
    itemsAux n s = itemsAux m s := by
  intro n
  induction n generalizing s with
  | zero =>
    intro m h1 h2
    have : s = [] := List.length_eq_zero_iff.1 (by omega)
    subst this
    cases m <;> simp [itemsAux]
  | succ n ih =>
    intro m h1 h2
    cases m with
    | zero =>
      have : s = [] := List.length_eq_zero_iff.1 (by omega)
      subst this; simp [itemsAux]
    | succ m =>
      simp only [itemsAux]
      split
      · rfl
      · cases hd : s.dropWhile (fun c => !isAlnum c) with
        | nil => rfl
        | cons c r =>
          have hl := length_dropWhile_le (fun c => !isAlnum c) s
          have hc : isAlnum c = true := by
            have := List.head?_dropWhile_not (fun c => !isAlnum c) s
            rw [hd] at this; simpa using this
          rw [hd] at hl
          simp only [List.length_cons] at hl
          by_cases hdig : isDigit c = true
          · have h3 := length_dropWhile_le isDigit r
            have e : (c :: r).dropWhile isDigit = r.dropWhile isDigit := by simp [hdig]
            simp only [hdig, if_true, e]
            rw [ih (r.dropWhile isDigit) m (by omega) (by omega)]
          · have ha : isAlpha c = true := by simpa [isAlnum, hdig] using hc
            have h3 := length_dropWhile_le isAlpha r
            have e : (c :: r).dropWhile isAlpha = r.dropWhile isAlpha := by simp [ha]
            simp only [hdig, e, Bool.false_eq_true, if_false]
            rw [ih (r.dropWhile isAlpha) m (by omega) (by omega)]

theorem items_nil : items [] = [] := rfl

theorem items_seps (s : Bytes) (hne : s ≠ []) (h : s.dropWhile (fun c => !isAlnum c) = []) :
    items s = [.trailingSeparators] := by
  cases s with
  | nil => exact absurd rfl hne
  | cons c r => simp [items, itemsAux, h]

theorem items_cons (s : Bytes) (c : UInt8) (r : Bytes) (h : s.dropWhile (fun c => !isAlnum c) = c :: r) :
    items s = if isDigit c then
        .num (decimal ((c :: r).takeWhile isDigit)) :: items ((c :: r).dropWhile isDigit)
      else .word ((c :: r).takeWhile isAlpha) :: items ((c :: r).dropWhile isAlpha) := by
  have hl := length_dropWhile_le (fun c => !isAlnum c) s
  have hc : isAlnum c = true := by
    have := List.head?_dropWhile_not (fun c => !isAlnum c) s
    rw [h] at this; simpa using this
  rw [h] at hl
  simp only [List.length_cons] at hl
  have hne : s ≠ [] := by intro e; subst e; simp at h
  obtain ⟨n, hn⟩ : ∃ n, s.length = n + 1 := ⟨s.length - 1, by omega⟩
  simp only [items, hn, itemsAux, hne, if_false, h]
  by_cases hdig : isDigit c = true
  · have h3 := length_dropWhile_le isDigit r
    have e : (c :: r).dropWhile isDigit = r.dropWhile isDigit := by simp [hdig]
    simp only [hdig, if_true, e]
    rw [itemsAux_fuel _ n _ (by omega) (Nat.le_refl _)]
  · have ha : isAlpha c = true := by simpa [isAlnum, hdig] using hc
    have h3 := length_dropWhile_le isAlpha r
    have e : (c :: r).dropWhile isAlpha = r.dropWhile isAlpha := by simp [ha]
    simp only [hdig, e, Bool.false_eq_true, if_false]
    rw [itemsAux_fuel _ n _ (by omega) (Nat.le_refl _)]

theorem digit_not_alpha {c : UInt8} (h : isDigit c = true) : isAlpha c = false := by
  have h := (isDigit_iff c).1 h
  simp only [isAlpha, isUpper, isLower, UInt8.le_iff_toNat_le, Bool.or_eq_false_iff,
    Bool.and_eq_false_iff, decide_eq_false_iff_not]
  constructor
  · left; have : (65 : UInt8).toNat = 65 := rfl
    omega
  · left; have : (97 : UInt8).toNat = 97 := rfl
    omega

theorem loop_eq (n : Nat) : ∀ (a b : Bytes), a.length ≤ n → loop a b = sign (cmp a b) := by
  induction n with
  | zero =>
    intro a b h
    have : a = [] := List.length_eq_zero_iff.1 (by omega)
    subst this
    unfold loop
    simp only [true_or, if_true]
    cases b with
    | nil => rfl
    | cons y ys =>
      have hx : items (y :: ys) ≠ [] := by
        cases hd : (y :: ys).dropWhile (fun c => !isAlnum c) with
        | nil => rw [items_seps _ (by simp) hd]; simp
        | cons c r => rw [items_cons _ c r hd]; split <;> simp
      simp only [atEnd, cmp, items_nil]
      cases hi : items (y :: ys) with
      | nil => exact absurd hi hx
      | cons i is => simp [List.compareLex, sign]
  | succ n ih =>
    intro a b hlen
    have hitems : ∀ s : Bytes, s ≠ [] → items s ≠ [] := by
      intro s hs
      cases hd : s.dropWhile (fun c => !isAlnum c) with
      | nil => rw [items_seps _ hs hd]; simp
      | cons c r => rw [items_cons _ c r hd]; split <;> simp
    unfold loop
    by_cases ha : a = []
    · subst ha
      simp only [true_or, if_true]
      by_cases hb : b = []
      · subst hb; rfl
      · cases hi : items b with
        | nil => exact absurd hi (hitems b hb)
        | cons i is => simp [atEnd, hb, cmp, items_nil, hi, List.compareLex, sign]
    · by_cases hb : b = []
      · subst hb
        cases hi : items a with
        | nil => exact absurd hi (hitems a ha)
        | cons i is => simp [atEnd, ha, cmp, items_nil, hi, List.compareLex, sign]
      · simp only [ha, hb, or_self, if_false]
        split
        · rename_i h1
          simp only [cmp, items_seps a ha h1]
          cases h2 : b.dropWhile (fun c => !isAlnum c) with
          | nil => simp [items_seps b hb h2, atEnd, List.compareLex, Item.cmp, sign]
          | cons c r =>
            rw [items_cons b c r h2]
            by_cases hdig : isDigit c = true <;>
              simp [hdig, atEnd, List.compareLex, Item.cmp, sign]
        · rename_i h2 h1
          simp only [cmp, items_seps b hb h2]
          cases h1' : a.dropWhile (fun c => !isAlnum c) with
          | nil => exact absurd h1' h1
          | cons c r =>
            rw [items_cons a c r h1']
            by_cases hdig : isDigit c = true <;>
              simp [hdig, atEnd, List.compareLex, Item.cmp, sign]
        · rename_i ca ra cb rb h1 h2
          have hla := length_dropWhile_le (fun c => !isAlnum c) a
          rw [h1] at hla
          simp only [List.length_cons] at hla
          have hca : isAlnum ca = true := by
            have := List.head?_dropWhile_not (fun c => !isAlnum c) a
            rw [h1] at this; simpa using this
          have hcb : isAlnum cb = true := by
            have := List.head?_dropWhile_not (fun c => !isAlnum c) b
            rw [h2] at this; simpa using this
          rw [cmp, items_cons a ca ra h1, items_cons b cb rb h2]
          by_cases hda : isDigit ca = true
          · by_cases hdb : isDigit cb = true
            · simp only [hda, hdb, segPred, if_true]
              rw [segCmp_num _ _ (fun c hc => List.all_eq_true.1 List.all_takeWhile c hc)
                (fun c hc => List.all_eq_true.1 List.all_takeWhile c hc)]
              rw [if_neg (by simp [hdb])]
              rw [ih _ _ (by have := length_dropWhile_le isDigit ra; simp [hda]; omega)]
              rw [List.compareLex_cons_cons]
              simp only [Item.cmp]
              generalize compare (decimal _) (decimal _) = o
              cases o <;> simp [sign, Ordering.then, cmp]
            · have hab : isAlpha cb = true := by simpa [isAlnum, hdb] using hcb
              simp [hda, hdb, segPred, Item.cmp, List.compareLex, sign]
          · have haa : isAlpha ca = true := by simpa [isAlnum, hda] using hca
            by_cases hdb : isDigit cb = true
            · have hab := digit_not_alpha hdb
              simp [hda, hdb, hab, segPred, Item.cmp, List.compareLex, sign]
            · have hab : isAlpha cb = true := by simpa [isAlnum, hdb] using hcb
              have hda' : isDigit ca = false := by simpa using hda
              have hdb' : isDigit cb = false := by simpa using hdb
              simp only [hda', hdb', segPred, Bool.false_eq_true, if_false]
              rw [segCmp_word]
              rw [if_neg (by simp [hab])]
              rw [ih _ _ (by have := length_dropWhile_le isAlpha ra; simp [haa]; omega)]
              rw [List.compareLex_cons_cons]
              simp only [Item.cmp]
              generalize List.compareLex (compare : UInt8 → UInt8 → Ordering) _ _ = o
              cases o <;> simp [sign, Ordering.then, cmp]

theorem rpmvercmp_eq (a b : Bytes) : rpmvercmp a b = sign (cmp a b) := by
  unfold rpmvercmp
  split
  · rename_i h; subst h; simp [cmp, ReflCmp.compare_self, sign]
  · exact loop_eq a.length a b (Nat.le_refl _)

end Muon.Version
