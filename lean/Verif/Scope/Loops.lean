import Verif.Scope.Calls
/-
C109: loops.
-/
namespace Muon.Scope
open Muon

theorem after_norm (st : St) : (after st).2.ctl = .norm := by
  unfold after
  split
  · rfl
  · rfl
  · rename_i h; exact h

theorem loop_norm : ∀ (n : Nat) (x : Bytes) (p : Stmt) (a : Int) (k : Nat) (st st' : St), st.ctl = .norm → loop n x p a k st = .ok st' → st'.ctl = .norm
  | 0, _, _, _, _, _, _, _, h => by rw [loop] at h; cases h
  | n + 1, x, p, a, 0, st, st', hc, h => by rw [loop] at h; cases h; exact hc
  | n + 1, x, p, a, k + 1, st, st', hc, h => by
    rw [loop] at h
    split at h
    · cases h; exact hc
    · cases he : exec n p (st.on st.cur (putLocal x (.num a))) with
      | ok s =>
        rw [he] at h
        replace h : (if (after s).1 then loop n x p (a + 1) k (after s).2 else .ok (after s).2) = .ok st' := h
        split at h
        · exact loop_norm n x p (a + 1) k _ st' (after_norm s) h
        · cases h; exact after_norm s
      | error => rw [he] at h; cases h
      | bad => rw [he] at h; cases h
      | fuel => rw [he] at h; cases h

/-- C109: `break` and `continue` end with the loop they are in: what follows a loop is run, unless the loop returned from a function. -/
theorem loop_ends (n : Nat) (x : Bytes) (k : Nat) (p : Stmt) (st st' : St) (hs : st.skipping = false) (h : exec n (.rep x k p) st = .ok st') : st'.ctl = .norm := by
  cases n with
  | zero => rw [exec] at h; cases h
  | succ n =>
    rw [exec, if_neg (by simp [hs])] at h
    exact loop_norm n x p 0 k _ st' rfl h

theorem here_put (st : St) (x : Bytes) (v : Val) (s : Scope) (l : List Scope) (hh : st.here = s :: l) : (st.on st.cur (putLocal x v)).here = put s x v :: l := by
  have hl : st.cur < st.stacks.length := by
    apply Decidable.byContradiction
    intro hc
    rw [St.here, List.getD_eq_getElem?_getD, List.getElem?_eq_none (Nat.le_of_not_lt hc)] at hh
    cases hh
  simp only [St.here] at hh ⊢
  simp [St.on, hl]
  rw [List.getD_eq_getElem?_getD, List.getElem?_eq_getElem hl] at hh
  simp at hh
  rw [hh]; rfl

theorem body_step (n : Nat) (x y : Bytes) (v : Val) (st st' : St) (s : Scope) (l : List Scope) (hs : st.skipping = false) (hh : st.here = put s x v :: l)
    (h : exec n (.assign y (.var x)) st = .ok st') : st' = st.on st.cur (putLocal y v) := by
  match n with
  | 0 => rw [exec] at h; cases h
  | 1 =>
    rw [exec, if_neg (by simp [hs])] at h
    rw [eval] at h
    cases h
  | n + 2 =>
    rw [exec, if_neg (by simp [hs])] at h
    rw [eval, if_neg (by simp [hs])] at h
    have e : getVar x false .void st = .ok (v, st) := by simp [getVar, hh, lookup, put]
    rw [e] at h
    replace h : assignTo y v st = .ok st' := h
    unfold assignTo at h
    split at h
    · cases h
    · cases h; rfl

theorem loop_counts (x y : Bytes) : ∀ (k n : Nat) (a : Int) (st st' : St), st.skipping = false → st.here ≠ [] →
    loop n x (.assign y (.var x)) a (k + 1) st = .ok st' → lookup y st'.here = some (.num (a + k)) := by
  intro k
  induction k with
  | zero =>
    intro n a st st' hs hh h
    obtain ⟨s, l, hh⟩ := List.exists_cons_of_ne_nil hh
    have hp := here_put st x (.num a) s l hh
    have hs1 : (st.on st.cur (putLocal x (.num a))).skipping = false := hs
    cases n with
    | zero => rw [loop] at h; cases h
    | succ n =>
      rw [loop, if_neg (by simp [Stmt.isSkip])] at h
      cases he : exec n (.assign y (.var x)) (st.on st.cur (putLocal x (.num a))) with
      | ok s2 =>
        have e2 := body_step n x y _ _ s2 s l hs1 hp he
        have hc : s2.ctl = .norm := by rw [e2]; simp [St.skipping] at hs; exact hs.1
        have ha : after s2 = (true, s2) := by simp [after, hc]
        rw [he] at h
        replace h : (if (after s2).1 then loop n x (.assign y (.var x)) (a + 1) 0 (after s2).2 else .ok (after s2).2) = .ok st' := h
        rw [ha, if_pos rfl] at h
        cases n with
        | zero => rw [loop] at h; cases h
        | succ n =>
          rw [loop] at h
          cases h
          rw [e2, here_put _ y _ _ _ hp]
          simp [lookup, put]
      | error => rw [he] at h; cases h
      | bad => rw [he] at h; cases h
      | fuel => rw [he] at h; cases h
  | succ k ih =>
    intro n a st st' hs hh h
    obtain ⟨s, l, hh⟩ := List.exists_cons_of_ne_nil hh
    have hp := here_put st x (.num a) s l hh
    have hs1 : (st.on st.cur (putLocal x (.num a))).skipping = false := hs
    cases n with
    | zero => rw [loop] at h; cases h
    | succ n =>
      rw [loop, if_neg (by simp [Stmt.isSkip])] at h
      cases he : exec n (.assign y (.var x)) (st.on st.cur (putLocal x (.num a))) with
      | ok s2 =>
        have e2 := body_step n x y _ _ s2 s l hs1 hp he
        have hc : s2.ctl = .norm := by rw [e2]; simp [St.skipping] at hs; exact hs.1
        have ha : after s2 = (true, s2) := by simp [after, hc]
        rw [he] at h
        replace h : (if (after s2).1 then loop n x (.assign y (.var x)) (a + 1) (k + 1) (after s2).2 else .ok (after s2).2) = .ok st' := h
        rw [ha, if_pos rfl] at h
        have := ih n (a + 1) s2 st' (by rw [e2]; exact hs) (by rw [e2, here_put _ y _ _ _ hp]; simp) h
        rw [this]
        congr 2
        push_cast
        omega
      | error => rw [he] at h; cases h
      | bad => rw [he] at h; cases h
      | fuel => rw [he] at h; cases h

/-- C109: the variable of a loop has the values of the range, one after another: after `foreach x : range(k + 1)` with `y = x`, `y` is `k`. -/
theorem loop_last (n k : Nat) (x y : Bytes) (st st' : St) (hs : st.skipping = false) (hh : st.here ≠ [])
    (h : exec n (.rep x (k + 1) (.assign y (.var x))) st = .ok st') : lookup y st'.here = some (.num k) := by
  cases n with
  | zero => rw [exec] at h; cases h
  | succ n =>
    rw [exec, if_neg (by simp [hs])] at h
    have := loop_counts x y k n 0 { st with ctl := .norm } st' (by simp [St.skipping] at hs ⊢; exact hs.2) hh h
    simpa using this

example : (match exec 9 (.seq (.rep (ascii "x") 3 (.seq (.assign (ascii "y") (.var (ascii "x"))) .brk)) (.assign (ascii "z") (.num 5))) St.init with
    | .ok st => (lookup (ascii "y") st.here, lookup (ascii "z") st.here)
    | _ => (none, none)) = (some (.num 0), some (.num 5)) := by decide +kernel

end Muon.Scope
