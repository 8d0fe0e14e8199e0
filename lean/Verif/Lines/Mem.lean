import Verif.Lines.Lemmas
/-
`each_line`, src/formats/lines.c, on a buffer that need not end in a NUL byte.
-/
namespace Muon.Lines
open Muon

/-- `strchr(line, '\n')` where `p` is the buffer from `line` on: the text before, and what comes after the line end, `none`
if there is a NUL byte first. Reading on after the end of the buffer is `bad`. -/
def findEol : Bytes → Res (Bytes × Option Bytes)
  | [] => .bad
  | c :: p =>
    if c = 10 then .ok ([], some p)
    else if c = 0 then .ok ([], none)
    else findEol p >>= fun r => .ok (c :: r.1, r.2)

/-- `each_line`, src/formats/lines.c:12-35, from a position in the buffer (`p` is the rest of it). `tail` is the number of
bytes of the buffer after `len`. The callback gets whether the line is at the start of the buffer, and returns whether to
go on; `n` bounds the number of iterations. -/
def eachLineMem {σ : Type} (cb : Bool → σ → Bytes → Res (σ × Bool)) (tail : Nat) : Nat → Bool → Bytes → σ → Res σ
  | 0, _, _, _ => .bad
  | n + 1, first, p, s =>
    findEol p >>= fun r =>
    match r.2 with
    | some q =>
      cb first s r.1 >>= fun sk =>
      if sk.2 = false then .ok sk.1
      else if q.length ≤ tail then .ok sk.1
      else eachLineMem cb tail n false q sk.1
    | none => if r.1 = [] then .ok s else cb first s r.1 >>= fun sk => .ok sk.1

/-- Calling the callback for a list of lines. -/
def runMem {σ : Type} (cb : Bool → σ → Bytes → Res (σ × Bool)) : Bool → List Bytes → σ → Res σ
  | _, [], s => .ok s
  | first, l :: ls, s => cb first s l >>= fun sk => if sk.2 = false then .ok sk.1 else runMem cb false ls sk.1

/-- The buffer has an end that is found: a NUL byte, or the line end at `len`. -/
def Ended (tail : Nat) (p : Bytes) : Prop := tail ≤ 1 ∧ (0 ∈ p ∨ (p.getLast? = some 10 ∧ tail = 0))

theorem findEol_cases (p : Bytes) (tail : Nat) (h : Ended tail p) :
    (∃ l q, findEol p = .ok (l, some q) ∧ p = l ++ 10 :: q ∧ 10 ∉ l ∧ 0 ∉ l) ∨
      (∃ l q, findEol p = .ok (l, none) ∧ p = l ++ 0 :: q ∧ 10 ∉ l ∧ 0 ∉ l) := by
  induction p with
  | nil => rcases h.2 with h | h <;> simp at h
  | cons c p ih =>
    rw [findEol]
    by_cases h10 : c = 10
    · subst h10; exact .inl ⟨[], p, by rw [if_pos rfl], rfl, by simp, by simp⟩
    · rw [if_neg h10]
      by_cases h0 : c = 0
      · subst h0; exact .inr ⟨[], p, by rw [if_pos rfl], rfl, by simp, by simp⟩
      · rw [if_neg h0]
        have h' : Ended tail p := by
          refine ⟨h.1, ?_⟩
          rcases h.2 with h | h
          · rcases List.mem_cons.mp h with h | h
            · exact absurd h.symm h0
            · exact .inl h
          · refine .inr ⟨?_, h.2⟩
            cases p with
            | nil => simp at h; exact absurd h.1 h10
            | cons d p => simpa using h.1
        rcases ih h' with ⟨l, q, e, hp, a, b⟩ | ⟨l, q, e, hp, a, b⟩
        · refine .inl ⟨c :: l, q, by rw [e]; rfl, by rw [hp]; rfl, ?_, ?_⟩
          · simp only [List.mem_cons, not_or]; exact ⟨fun e => h10 e.symm, a⟩
          · simp only [List.mem_cons, not_or]; exact ⟨fun e => h0 e.symm, b⟩
        · refine .inr ⟨c :: l, q, by rw [e]; rfl, by rw [hp]; rfl, ?_, ?_⟩
          · simp only [List.mem_cons, not_or]; exact ⟨fun e => h10 e.symm, a⟩
          · simp only [List.mem_cons, not_or]; exact ⟨fun e => h0 e.symm, b⟩

theorem takeWhile_stop0 (l q : Bytes) (h : 0 ∉ l) : (l ++ 0 :: q).takeWhile (· ≠ 0) = l := by
  induction l with
  | nil => rw [List.nil_append, List.takeWhile_cons, if_neg (by simp)]
  | cons c l ih =>
    simp only [List.mem_cons, not_or] at h
    rw [List.cons_append, List.takeWhile_cons_of_pos (by simpa using fun e => h.1 e.symm), ih h.2]

theorem takeWhile_over (l q : Bytes) (h : 0 ∉ l) : (l ++ 10 :: q).takeWhile (· ≠ 0) = l ++ 10 :: q.takeWhile (· ≠ 0) := by
  induction l with
  | nil => rw [List.nil_append, List.takeWhile_cons_of_pos (by decide)]; rfl
  | cons c l ih =>
    simp only [List.mem_cons, not_or] at h
    rw [List.cons_append, List.takeWhile_cons_of_pos (by simpa using fun e => h.1 e.symm), ih h.2]; rfl

/-- On a buffer whose end is found, `each_line` calls the callback for each line of the text before the first NUL byte. -/
theorem eachLineMem_eq {σ : Type} (cb : Bool → σ → Bytes → Res (σ × Bool)) (tail n : Nat) (first : Bool) (p : Bytes) (s : σ)
    (hn : p.length < n) (h : Ended tail p) :
    eachLineMem cb tail n first p s = runMem cb first (toLines (p.takeWhile (· ≠ 0))) s := by
  induction n generalizing first p s with
  | zero => omega
  | succ n ih =>
    rw [eachLineMem]
    rcases findEol_cases p tail h with ⟨l, q, e, rfl, a, b⟩ | ⟨l, q, e, rfl, a, b⟩
    · rw [e, Res.ok_bind, takeWhile_over l q b, toLines_line _ _ a, runMem]
      dsimp only
      have step : ∀ sk : σ × Bool,
          (if sk.2 = false then Res.ok sk.1 else if q.length ≤ tail then Res.ok sk.1 else eachLineMem cb tail n false q sk.1) =
          (if sk.2 = false then Res.ok sk.1 else runMem cb false (toLines (q.takeWhile (· ≠ 0))) sk.1) := by
        intro sk
        by_cases hk : sk.2 = false
        · rw [if_pos hk, if_pos hk]
        · rw [if_neg hk, if_neg hk]
          by_cases hq : q.length ≤ tail
          · rw [if_pos hq]
            have : q.takeWhile (· ≠ 0) = [] := by
              rcases h.2 with h0 | ⟨-, ht⟩
              · have h0' : 0 ∈ q := by
                  rcases List.mem_append.mp h0 with h0 | h0
                  · exact absurd h0 b
                  · rcases List.mem_cons.mp h0 with h0 | h0
                    · cases h0
                    · exact h0
                have hl : q.length ≤ 1 := Nat.le_trans hq h.1
                cases q with
                | nil => rfl
                | cons d q =>
                  cases q with
                  | nil =>
                    simp only [List.mem_cons, List.not_mem_nil, or_false] at h0'
                    subst h0'; rfl
                  | cons d' q => simp only [List.length_cons] at hl; omega
              · rw [ht] at hq
                rw [List.eq_nil_of_length_eq_zero (Nat.le_zero.mp hq)]; rfl
            rw [this]; rfl
          · rw [if_neg hq]
            apply ih
            · simp only [List.length_append, List.length_cons] at hn; omega
            · refine ⟨h.1, ?_⟩
              rcases h.2 with h0 | ⟨h0, ht⟩
              · left
                rcases List.mem_append.mp h0 with h0 | h0
                · exact absurd h0 b
                · rcases List.mem_cons.mp h0 with h0 | h0
                  · cases h0
                  · exact h0
              · right
                refine ⟨?_, ht⟩
                rw [List.getLast?_append] at h0
                cases q with
                | nil => exact absurd (Nat.zero_le _) hq
                | cons d q => simpa [List.getLast?_cons] using h0
      simp only [step]
    · rw [e, Res.ok_bind, takeWhile_stop0 l q b]
      dsimp only
      by_cases hl : l = []
      · rw [if_pos hl, hl]; rfl
      · rw [if_neg hl, toLines_last l a hl]
        unfold runMem runMem
        cases cb first s l with
        | ok sk => simp only [Res.ok_bind]; split <;> rfl
        | error => rfl
        | bad => rfl

end Muon.Lines
