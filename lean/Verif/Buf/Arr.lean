import Verif.Buf.Model
/-
Arrays hold what was put into them.
-/
namespace Muon.Buf
open Muon

theorem write_ok {α : Type} (mem : List α) (off : Nat) (data : List α) (h : off + data.length ≤ mem.length) :
    write mem off data = .ok (mem.take off ++ data ++ mem.drop (off + data.length)) := if_pos h

theorem write_length {α : Type} (mem : List α) (off : Nat) (data : List α) (h : off + data.length ≤ mem.length) :
    (mem.take off ++ data ++ mem.drop (off + data.length)).length = mem.length := by
  simp only [List.length_append, List.length_take, List.length_drop]; omega

/-- The array holds `xs`. -/
structure Holds {α : Type} (a : A α) (xs : List α) : Prop where
  len : a.len = xs.length
  mem : a.mem.take a.len = xs.map some
  room : a.mem.length = a.cap
  le : a.len ≤ a.cap
  cap : 0 < a.cap
  isz : 0 < a.isz

theorem cells_eq (n isz : Nat) (h : 0 < isz) (hb : n * isz < 2 ^ 64) : cells n isz = n := by
  unfold cells
  rw [Nat.mod_eq_of_lt hb, Nat.mul_div_cancel _ h]

theorem realloc_take {α : Type} (mem : List (Option α)) (n k : Nat) (h1 : k ≤ mem.length) (h2 : mem.length ≤ n) :
    (realloc mem n).take k = mem.take k ∧ (realloc mem n).length = n := by
  unfold realloc
  rw [List.take_of_length_le h2]
  refine ⟨by rw [List.take_append_of_le_length h1], by simp; omega⟩

theorem arrGrow_ok {α : Type} (a : A α) (xs : List α) (h : Holds a xs) (k : Nat) (hb : 2 * (xs.length + k) * a.isz < 2 ^ 64) :
    ∃ a', arrGrow a (a.len + k) = .ok a' ∧ a'.len = a.len + k ∧ a'.isz = a.isz ∧ a'.mem.take xs.length = xs.map some ∧
      a'.mem.length = a'.cap ∧ a'.len ≤ a'.cap ∧ 0 < a'.cap ∧ (a'.cap = a.cap ∨ a'.cap ≤ 2 * (xs.length + k)) := by
  have hl := h.len
  unfold arrGrow
  by_cases hg : a.len + k > a.cap
  · have h0 : a.cap ≠ 0 := by have := h.cap; omega
    rw [if_pos hg, if_neg h0]
    dsimp only
    have hn : (if a.cap * 2 < a.len + k then (a.len + k) * 2 else a.cap * 2) ≤ 2 * (xs.length + k) ∧
        a.len + k ≤ (if a.cap * 2 < a.len + k then (a.len + k) * 2 else a.cap * 2) ∧
        a.cap ≤ (if a.cap * 2 < a.len + k then (a.len + k) * 2 else a.cap * 2) := by
      split <;> omega
    generalize (if a.cap * 2 < a.len + k then (a.len + k) * 2 else a.cap * 2) = n at hn
    have hc : cells n a.isz = n := cells_eq n a.isz h.isz (Nat.lt_of_le_of_lt (Nat.mul_le_mul_right _ hn.1) hb)
    rw [hc]
    have hr := realloc_take a.mem n xs.length (by rw [h.room]; have := h.le; omega) (by rw [h.room]; exact hn.2.2)
    have := h.cap
    refine ⟨_, rfl, rfl, rfl, ?_, hr.2, hn.2.1, by dsimp only; omega, .inr hn.1⟩
    rw [hr.1, ← hl, h.mem]
  · rw [if_neg hg]
    refine ⟨_, rfl, rfl, rfl, ?_, h.room, by dsimp only; omega, h.cap, .inl rfl⟩
    dsimp only
    rw [← hl, h.mem]

theorem take_write {α : Type} (mem : List α) (off : Nat) (data : List α) (h : off + data.length ≤ mem.length) :
    (mem.take off ++ data ++ mem.drop (off + data.length)).take (off + data.length) = mem.take off ++ data := by
  apply List.take_left'
  simp only [List.length_append, List.length_take]; omega

/-- Adding several items (`arr_grow_by`), and one (`arr_push`). -/
theorem arrExtend_ok {α : Type} (a : A α) (xs ys : List α) (h : Holds a xs) (hb : 2 * (xs.length + ys.length) * a.isz < 2 ^ 64) :
    ∃ a', arrExtend a ys = .ok a' ∧ Holds a' (xs ++ ys) ∧ a'.isz = a.isz ∧ (a'.cap = a.cap ∨ a'.cap ≤ 2 * (xs.length + ys.length)) := by
  obtain ⟨a', e, h1, h2, h3, h4, h5, h6, h7⟩ := arrGrow_ok a xs h ys.length hb
  unfold arrExtend
  rw [e, Res.ok_bind]
  have hl := h.len
  have hw : a.len + (ys.map some).length ≤ a'.mem.length := by rw [List.length_map, h4]; omega
  rw [write_ok _ _ _ hw, Res.ok_bind]
  refine ⟨_, rfl, ⟨?_, ?_, ?_, h5, h6, ?_⟩, h2, h7⟩
  · dsimp only; rw [h1, hl, List.length_append]
  · dsimp only
    rw [h1]
    have := take_write a'.mem a.len (ys.map some) hw
    rw [List.length_map] at this ⊢
    rw [this, hl, h3, List.map_append]
  · rw [← h4]; exact write_length _ _ _ hw
  · show 0 < a'.isz
    rw [h2]; exact h.isz

theorem arrPush_ok {α : Type} (a : A α) (xs : List α) (x : α) (h : Holds a xs) (hb : 2 * (xs.length + 1) * a.isz < 2 ^ 64) :
    ∃ a', arrPush a x = .ok a' ∧ Holds a' (xs ++ [x]) ∧ a'.isz = a.isz ∧ (a'.cap = a.cap ∨ a'.cap ≤ 2 * (xs.length + 1)) := by
  have : arrPush a x = arrExtend a [x] := by
    obtain ⟨a', e, h1, -⟩ := arrGrow_ok a xs h 1 hb
    unfold arrPush arrExtend
    rw [show ([x] : List α).length = 1 from rfl, e, Res.ok_bind, Res.ok_bind, h1, Nat.add_sub_cancel]; rfl
  rw [this]
  exact arrExtend_ok a xs [x] h hb

theorem holds_get {α : Type} (a : A α) (xs : List α) (h : Holds a xs) (i : Nat) (hi : i < xs.length) : a.mem[i]? = some (some xs[i]) := by
  have h1 : (a.mem.take a.len)[i]? = some (some xs[i]) := by
    rw [h.mem, List.getElem?_map, List.getElem?_eq_getElem hi]; rfl
  rwa [List.getElem?_take_of_lt (by rw [h.len]; exact hi)] at h1

/-- Reading an item; any other index fails the assertion. -/
theorem arrGet_ok {α : Type} (a : A α) (xs : List α) (h : Holds a xs) (i : Nat) :
    arrGet a i = match xs[i]? with | some x => .ok x | none => .bad := by
  unfold arrGet
  by_cases hi : i < xs.length
  · rw [if_pos (by rw [h.len]; exact hi), holds_get a xs h i hi, List.getElem?_eq_getElem hi]
  · rw [if_neg (by rw [h.len]; exact hi), List.getElem?_eq_none (by omega)]

/-- What is left after an item was removed: the last one takes its place. -/
def removed {α : Type} (xs : List α) (i : Nat) : List α :=
  match xs.getLast? with
  | some l => (xs.set i l).dropLast
  | none => []

theorem removed_length {α : Type} (xs : List α) (i : Nat) (h : i < xs.length) : (removed xs i).length = xs.length - 1 := by
  unfold removed
  cases e : xs.getLast? with
  | none => rw [List.getLast?_eq_none_iff] at e; subst e; simp at h
  | some l => simp

theorem arrDel_ok {α : Type} (a : A α) (xs : List α) (h : Holds a xs) (i : Nat) (hi : i < xs.length) :
    ∃ a', arrDel a i = .ok a' ∧ Holds a' (removed xs i) ∧ a'.isz = a.isz ∧ a'.cap = a.cap := by
  have hl := h.len
  have hle := h.le
  unfold arrDel
  rw [if_pos (by omega)]
  dsimp only
  have hlast : xs.getLast? = some (xs[xs.length - 1]'(by omega)) := by
    rw [List.getLast?_eq_getElem?, List.getElem?_eq_getElem]
  have hrem : removed xs i = (xs.set i (xs[xs.length - 1]'(by omega))).take (xs.length - 1) := by
    unfold removed; rw [hlast]; dsimp only; rw [List.dropLast_eq_take, List.length_set]
  by_cases hc : a.len - 1 > 0 ∧ a.len - 1 ≠ i
  · rw [if_pos hc, hl, holds_get a xs h (xs.length - 1) (by omega)]
    dsimp only
    have hw : i + [some (xs[xs.length - 1]'(by omega))].length ≤ a.mem.length := by rw [h.room]; simp; omega
    rw [write_ok _ _ _ hw, Res.ok_bind]
    refine ⟨_, rfl, ⟨?_, ?_, ?_, ?_, h.cap, h.isz⟩, rfl, rfl⟩
    · rw [removed_length xs i hi]
    · dsimp only
      rw [hrem]
      have e1 : a.mem.take i ++ [some (xs[xs.length - 1]'(by omega))] ++ a.mem.drop (i + 1) = a.mem.set i (some (xs[xs.length - 1]'(by omega))) := by
        rw [List.set_eq_take_append_cons_drop, if_pos (by rw [h.room]; omega)]; simp
      rw [List.length_singleton, e1, List.map_take, List.map_set, ← h.mem, ← List.take_set, List.take_take, hl, Nat.min_eq_left (by omega)]
    · exact (write_length _ _ _ hw).trans h.room
    · dsimp only; omega
  · rw [if_neg hc]
    refine ⟨_, rfl, ⟨?_, ?_, h.room, by dsimp only; omega, h.cap, h.isz⟩, rfl, rfl⟩
    · dsimp only; rw [removed_length xs i hi]; omega
    · dsimp only
      rw [hrem]
      have hi' : i = xs.length - 1 := by omega
      rw [List.take_set_of_le (show xs.length - 1 ≤ i by omega), List.map_take, ← h.mem, List.take_take, hl, Nat.min_eq_left (by omega)]

theorem arrClear_ok {α : Type} (a : A α) (xs : List α) (h : Holds a xs) : Holds (arrClear a) [] :=
  ⟨rfl, by simp [arrClear], h.room, Nat.zero_le _, h.cap, h.isz⟩

theorem arrInit_ok {α : Type} (initial isz : Nat) (h1 : 0 < initial) (h2 : 0 < isz) (hb : initial * isz < 2 ^ 64) :
    ∃ a : A α, arrInit initial isz = .ok a ∧ Holds a [] ∧ a.isz = isz ∧ a.cap = initial := by
  unfold arrInit
  rw [if_neg, cells_eq _ _ h2 hb]
  · exact ⟨_, rfl, ⟨rfl, by simp, by simp, by simp, h1, h2⟩, rfl, rfl⟩
  · rw [Nat.mod_eq_of_lt hb]
    have := Nat.mul_pos h1 h2
    omega

/-- Operations on an array. -/
inductive ArrOp (α : Type)
  | push (x : α)
  | extend (xs : List α)
  | del (i : Nat)
  | clear

/-- What they do to the array. -/
def arrStep {α : Type} (a : A α) : ArrOp α → Res (A α)
  | .push x => arrPush a x
  | .extend xs => arrExtend a xs
  | .del i => arrDel a i
  | .clear => .ok (arrClear a)

def arrRun {α : Type} (a : A α) : List (ArrOp α) → Res (A α)
  | [] => .ok a
  | o :: os => arrStep a o >>= fun a => arrRun a os

/-- What they do to the list of the items; removing an item that is not there is not allowed. -/
def listStep {α : Type} (xs : List α) : ArrOp α → Option (List α)
  | .push x => some (xs ++ [x])
  | .extend ys => some (xs ++ ys)
  | .del i => if i < xs.length then some (removed xs i) else none
  | .clear => some []

def listRun {α : Type} (xs : List α) : List (ArrOp α) → Option (List α)
  | [] => some xs
  | o :: os => (listStep xs o).bind fun xs => listRun xs os

/-- How many items are added. -/
def added {α : Type} : List (ArrOp α) → Nat
  | [] => 0
  | .push _ :: os => 1 + added os
  | .extend xs :: os => xs.length + added os
  | .del _ :: os => added os
  | .clear :: os => added os

theorem arrRun_holds {α : Type} (ops : List (ArrOp α)) (a : A α) (xs ys : List α) (h : Holds a xs)
    (hb : 2 * (xs.length + added ops) * a.isz < 2 ^ 64) (hy : listRun xs ops = some ys) :
    ∃ a', arrRun a ops = .ok a' ∧ Holds a' ys := by
  induction ops generalizing a xs with
  | nil => cases hy; exact ⟨a, rfl, h⟩
  | cons o ops ih =>
    have mono : ∀ n m : Nat, n ≤ m → 2 * m * a.isz < 2 ^ 64 → 2 * n * a.isz < 2 ^ 64 := by
      intro n m hnm hm
      exact Nat.lt_of_le_of_lt (Nat.mul_le_mul_right _ (by omega)) hm
    simp only [listRun] at hy
    obtain ⟨zs, hz, hy⟩ := Option.bind_eq_some_iff.mp hy
    rw [arrRun]
    cases o with
    | push x =>
      cases hz
      simp only [added] at hb
      obtain ⟨a', e, h', hi, -⟩ := arrPush_ok a xs x h (mono _ _ (by omega) hb)
      simp only [arrStep, e, Res.ok_bind]
      exact ih a' _ h' (by rw [hi]; exact mono _ _ (by simp; omega) hb) hy
    | extend us =>
      cases hz
      simp only [added] at hb
      obtain ⟨a', e, h', hi, -⟩ := arrExtend_ok a xs us h (mono _ _ (by omega) hb)
      simp only [arrStep, e, Res.ok_bind]
      exact ih a' _ h' (by rw [hi]; exact mono _ _ (by simp; omega) hb) hy
    | del i =>
      simp only [listStep] at hz
      by_cases hil : i < xs.length
      · rw [if_pos hil] at hz
        cases hz
        simp only [added] at hb
        obtain ⟨a', e, h', hi, -⟩ := arrDel_ok a xs h i hil
        simp only [arrStep, e, Res.ok_bind]
        exact ih a' _ h' (by rw [hi, removed_length xs i hil]; exact mono _ _ (by omega) hb) hy
      · rw [if_neg hil] at hz; cases hz
    | clear =>
      cases hz
      simp only [added] at hb
      simp only [arrStep, Res.ok_bind]
      exact ih _ _ (arrClear_ok a xs h) (mono _ _ (by simp) hb) hy

end Muon.Buf
