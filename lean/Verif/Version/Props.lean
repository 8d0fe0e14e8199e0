import Verif.Version.Lemmas
/-
Property theorems for C01 and C02.
-/
namespace Muon.Version
open Muon Std

/-! ## C01: the version order -/

/-- The C comparison loop computes exactly the order of the specification: lexicographic comparison of the items
(numbers, words, trailing separators) of the two strings, each read on its own. -/
theorem rpmvercmp_eq_spec (a b : Bytes) : rpmvercmp a b = Spec.sign (Spec.cmp a b) := rpmvercmp_eq a b

/-- The result is -1, 0 or 1. -/
theorem rpmvercmp_range (a b : Bytes) : rpmvercmp a b = -1 ∨ rpmvercmp a b = 0 ∨ rpmvercmp a b = 1 := by
  rw [rpmvercmp_eq]; cases Spec.cmp a b <;> simp [Spec.sign]

theorem rpmvercmp_refl (a : Bytes) : rpmvercmp a a = 0 := by simp [rpmvercmp]

/-- Swapping the arguments negates the result. -/
theorem rpmvercmp_antisymm (a b : Bytes) : rpmvercmp a b = - rpmvercmp b a := by
  rw [rpmvercmp_eq, rpmvercmp_eq, ← sign_swap, Spec.cmp, Spec.cmp, ← OrientedCmp.eq_swap]

/-- `≤` is transitive. -/
theorem rpmvercmp_trans (a b c : Bytes) (h1 : rpmvercmp a b ≤ 0) (h2 : rpmvercmp b c ≤ 0) :
    rpmvercmp a c ≤ 0 := by
  rw [rpmvercmp_eq, sign_le] at *
  unfold Spec.cmp at *
  exact TransCmp.isLE_trans h1 h2

/-- `<` is transitive (together with `rpmvercmp_trans` this covers mixed chains). -/
theorem rpmvercmp_lt_trans (a b c : Bytes) (h1 : rpmvercmp a b = -1) (h2 : rpmvercmp b c ≤ 0) :
    rpmvercmp a c = -1 := by
  have hac : rpmvercmp a c ≤ 0 := rpmvercmp_trans a b c (by omega) h2
  rcases rpmvercmp_range a c with h | h | h
  · exact h
  · exfalso
    have hca : rpmvercmp c a ≤ 0 := by rw [rpmvercmp_antisymm]; omega
    have := rpmvercmp_trans b c a h2 hca
    rw [rpmvercmp_antisymm b a] at this
    omega
  · omega

/-- Versions that compare equal are interchangeable in every comparison. -/
theorem rpmvercmp_congr (a b c : Bytes) (h : rpmvercmp a b = 0) : rpmvercmp a c = rpmvercmp b c := by
  have hba : rpmvercmp b a = 0 := by rw [rpmvercmp_antisymm]; omega
  rcases rpmvercmp_range b c with h' | h' | h'
  · rw [h']
    rcases rpmvercmp_range a c with h2 | h2 | h2
    · exact h2
    · have := rpmvercmp_lt_trans b c a h' (by rw [rpmvercmp_antisymm]; omega); omega
    · have := rpmvercmp_lt_trans b c a h' (by rw [rpmvercmp_antisymm]; omega); omega
  · have h1 := rpmvercmp_trans a b c (by omega) (by omega)
    have h2 := rpmvercmp_trans c b a (by rw [rpmvercmp_antisymm]; omega) (by omega)
    rw [rpmvercmp_antisymm c a] at h2
    omega
  · rw [h']
    rcases rpmvercmp_range a c with h2 | h2 | h2
    · have := rpmvercmp_trans b a c (by omega) (by omega); omega
    · have := rpmvercmp_trans b a c (by omega) (by omega); omega
    · exact h2

-- hypotheses are satisfiable: 1.2 < 1.10 < 1.10a
example : rpmvercmp (ascii "1.2") (ascii "1.10") = -1 ∧ rpmvercmp (ascii "1.10") (ascii "1.10a") ≤ 0 := by
  constructor <;> (rw [rpmvercmp_eq]; decide)
example : rpmvercmp (ascii "1.02") (ascii "1..2") = 0 := by rw [rpmvercmp_eq]; decide

/-! ## C02: version_compare operators -/

/-- What each operator means in terms of the version order of the specification. -/
def opMeaning (op : Op) (o : Ordering) : Prop :=
  match op with
  | .ge => o ≠ .lt
  | .gt => o = .gt
  | .eq => o = .eq
  | .ne => o ≠ .eq
  | .le => o ≠ .gt
  | .lt => o = .lt

/-- The concrete syntax of the operators. -/
def opSyntax (op : Op) : Bytes :=
  match op with
  | .ge => ascii ">="
  | .gt => ascii ">"
  | .eq => ascii "=="
  | .ne => ascii "!="
  | .le => ascii "<="
  | .lt => ascii "<"

theorem opHolds_sign (op : Op) (o : Ordering) : opHolds op (Spec.sign o) = true ↔ opMeaning op o := by
  cases op <;> cases o <;> simp [opHolds, Spec.sign, opMeaning]

/-- For each operator, `v.version_compare(op + c)` is true exactly when the order between `v` and `c` satisfies
the operator. For the one-character operators `>` and `<` the operand must not start with `=`
(otherwise the text spells the operator `>=` / `<=`, see `version_compare_longest_match`). -/
theorem version_compare_op (v c : Bytes) (op : Op)
    (hc : (op = .gt ∨ op = .lt) → c.head? ≠ some 61) :
    versionCompare1 v (opSyntax op ++ c) = true ↔ opMeaning op (Spec.cmp v c) := by
  have hsplit : splitOp (opSyntax op ++ c) = (op, c) := by
    cases op <;> simp [splitOp, opTable, opSyntax, ascii, List.find?, List.isPrefixOf]
    · cases c with
      | nil => rfl
      | cons x xs =>
        have : x ≠ 61 := by simpa using hc (Or.inl rfl)
        have : (61 == x) = false := by simpa using fun h => this h.symm
        simp [this, List.isPrefixOf]
    · cases c with
      | nil => rfl
      | cons x xs =>
        have : x ≠ 61 := by simpa using hc (Or.inr rfl)
        have : (61 == x) = false := by simpa using fun h => this h.symm
        simp [this, List.isPrefixOf]
  unfold versionCompare1
  rw [hsplit]
  simp only
  rw [rpmvercmp_eq, opHolds_sign]

/-- `>=` is always read as one operator, never as `>` followed by `=...`; same for `<=`. -/
theorem version_compare_longest_match (c : Bytes) :
    splitOp (ascii ">=" ++ c) = (.ge, c) ∧ splitOp (ascii "<=" ++ c) = (.le, c) := by
  constructor <;> simp [splitOp, opTable, ascii, List.find?, List.isPrefixOf]

/-- A single `=` means equality. -/
theorem version_compare_single_eq (v c : Bytes) (hc : c.head? ≠ some 61) :
    versionCompare1 v (ascii "=" ++ c) = true ↔ Spec.cmp v c = .eq := by
  have hsplit : splitOp (ascii "=" ++ c) = (.eq, c) := by
    simp [splitOp, opTable, ascii, List.find?, List.isPrefixOf]
    cases c with
    | nil => rfl
    | cons x xs =>
      have : x ≠ 61 := by simpa using hc
      have : (61 == x) = false := by simpa using fun h => this h.symm
      simp [this, List.isPrefixOf]
  unfold versionCompare1
  rw [hsplit]
  simp only
  rw [rpmvercmp_eq, opHolds_sign, opMeaning]

/-- Without an operator the comparison is equality. -/
theorem version_compare_no_op (v c : Bytes) (hc : ∀ x, c.head? = some x → x ∉ [60, 61, 62, 33]) :
    versionCompare1 v c = true ↔ Spec.cmp v c = .eq := by
  have hsplit : splitOp c = (.eq, c) := by
    cases c with
    | nil => decide
    | cons x xs =>
      have h := hc x rfl
      simp only [List.mem_cons, List.not_mem_nil, or_false, not_or] at h
      obtain ⟨h1, h2, h3, h4⟩ := h
      have e1 : (60 == x) = false := by simpa using fun h => h1 h.symm
      have e2 : (61 == x) = false := by simpa using fun h => h2 h.symm
      have e3 : (62 == x) = false := by simpa using fun h => h3 h.symm
      have e4 : (33 == x) = false := by simpa using fun h => h4 h.symm
      simp [splitOp, opTable, ascii, List.find?, List.isPrefixOf, e1, e2, e3, e4]
  unfold versionCompare1
  rw [hsplit]
  simp only
  rw [rpmvercmp_eq, opHolds_sign, opMeaning]

/-- A list of constraints holds iff it is non-empty and each constraint holds. (For an empty list the C code
leaves the zero-initialised `false` in place.) -/
theorem version_compare_all (v : Bytes) (cs : List Bytes) :
    versionCompare v cs = true ↔ cs ≠ [] ∧ ∀ c ∈ cs, versionCompare1 v c = true := by
  have key : ∀ (cs : List Bytes) (r : Bool),
      versionCompare.go v r cs = true ↔ ((cs = [] → r = true) ∧ ∀ c ∈ cs, versionCompare1 v c = true) := by
    intro cs
    induction cs with
    | nil => intro r; simp [versionCompare.go]
    | cons c cs ih =>
      intro r
      simp only [versionCompare.go]
      by_cases h : versionCompare1 v c = true
      · simp [h, ih]
      · simp [h]
  rw [versionCompare, key]
  cases cs <;> simp

example : versionCompare (ascii "1.2.3") [ascii ">=1.2", ascii "<2", ascii "!=1.2.4"] = true := by
  rw [version_compare_all]
  refine ⟨by simp, ?_⟩
  intro c hc
  simp only [List.mem_cons, List.not_mem_nil, or_false] at hc
  rcases hc with rfl | rfl | rfl
  · exact (version_compare_op (ascii "1.2.3") (ascii "1.2") .ge (by simp)).2 (by show _ ≠ _; decide)
  · exact (version_compare_op (ascii "1.2.3") (ascii "2") .lt (by intro _; decide)).2 (by show _ = _; decide)
  · exact (version_compare_op (ascii "1.2.3") (ascii "1.2.4") .ne (by simp)).2 (by show _ ≠ _; decide)

end Muon.Version
