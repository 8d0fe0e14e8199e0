import Verif.Lines.Model
namespace Muon.Lines
open Muon

theorem toLines_line (l r : Bytes) (h : 10 ∉ l) : toLines (l ++ 10 :: r) = l :: toLines r := by
  induction l with
  | nil => simp [toLines]
  | cons c l ih =>
    simp only [List.mem_cons, not_or] at h
    simp only [List.cons_append, toLines]
    rw [if_neg (fun e => h.1 e.symm), ih h.2]

theorem toLines_last (l : Bytes) (h : 10 ∉ l) (hn : l ≠ []) : toLines l = [l] := by
  induction l with
  | nil => exact absurd rfl hn
  | cons c l ih =>
    simp only [List.mem_cons, not_or] at h
    simp only [toLines]
    rw [if_neg (fun e => h.1 e.symm)]
    by_cases hl : l = []
    · subst hl; rfl
    · rw [ih h.2 hl]

theorem takeWhile_no0 (l : Bytes) (h : 0 ∉ l) : l.takeWhile (· ≠ 0) = l := by
  induction l with
  | nil => rfl
  | cons c l ih =>
    simp only [List.mem_cons, not_or] at h
    rw [List.takeWhile_cons_of_pos (by simpa using fun e => h.1 e.symm), ih h.2]

theorem run_append {σ : Type} (cb : σ → Bytes → σ × Bool) (a b : List Bytes) (s : σ) (h : ∀ s l, l ∈ a → (cb s l).2 = true) :
    run cb (a ++ b) s = run cb b (run cb a s) := by
  induction a generalizing s with
  | nil => rfl
  | cons l ls ih =>
    have := h s l (by simp)
    simp only [List.cons_append, run]
    cases hc : cb s l with
    | mk s' k =>
      rw [hc] at this
      simp only at this
      subst this
      exact ih s' (fun s l hl => h s l (by simp [hl]))

/-- No line holds a line end. -/
theorem toLines_mem (t l : Bytes) (h : l ∈ toLines t) : 10 ∉ l := by
  induction t generalizing l with
  | nil => simp [toLines] at h
  | cons c t ih =>
    simp only [toLines] at h
    split at h
    · rcases List.mem_cons.1 h with h | h
      · subst h; simp
      · exact ih l h
    · next hc =>
      cases ht : toLines t with
      | nil =>
        rw [ht] at h
        simp only [List.mem_singleton] at h
        subst h
        simpa using fun e => hc e.symm
      | cons l' ls =>
        rw [ht] at h ih
        rcases List.mem_cons.1 h with h | h
        · subst h
          have := ih l' (by simp)
          simp only [List.mem_cons, not_or]
          exact ⟨fun e => hc e.symm, this⟩
        · exact ih l (by simp [h])

end Muon.Lines
