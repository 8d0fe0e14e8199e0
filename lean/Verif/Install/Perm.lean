import Verif.Base
/-
C88: permission strings (`install_mode`).
-/
namespace Muon.Install
open Muon

/-- `S_ISUID`, `S_ISGID`, `S_ISVTX` of sys/stat.h; the lower nine bits are 0400, 0200, … 1. -/
def S_ISUID : Nat := 2048
def S_ISGID : Nat := 1024
def S_ISVTX : Nat := 512

/-- The loop over the characters from index `i` on, src/install.c:29-77. -/
def rwxLoop : Bytes → Nat → Nat → Nat → Option Nat
  | [], _, _, perm => some perm
  | c :: s, i, bit, perm =>
    let special : Option Nat :=
      if c = 45 then some perm
      else if c = 116 ∨ c = 84 then if i ≠ 8 then none else some (perm ||| S_ISVTX)
      else if c = 115 ∨ c = 83 then if i ≠ 2 ∧ i ≠ 5 then none else some (perm ||| (if i = 2 then S_ISUID else S_ISGID))
      else if c = 114 then if i ≠ 0 ∧ i ≠ 3 ∧ i ≠ 6 then none else some perm
      else if c = 119 then if i ≠ 1 ∧ i ≠ 4 ∧ i ≠ 7 then none else some perm
      else if c = 120 then if i ≠ 2 ∧ i ≠ 5 ∧ i ≠ 8 then none else some perm
      else none
    match special with
    | none => none
    | some perm => rwxLoop s (i + 1) (bit >>> 1) (if c ≠ 45 ∧ c ≠ 83 ∧ c ≠ 84 then perm ||| bit else perm)

/-- `rwx_to_perm`, src/install.c:21-80: the permissions for a string; it is read as a C string. `*perm` is 0 before, since objects are made of zeroes
(src/datastructures/bucket_arr.c:16-20). -/
def rwxToPerm (s : Bytes) : Option Nat :=
  let s := s.takeWhile (· ≠ 0)
  if s.length ≠ 9 then none else rwxLoop s 0 256 0

/-- The elements of `install_mode`, include/lang/typecheck.h:94. -/
inductive ModeVal
  | bool (b : Bool)
  | num (n : Int)
  | str (s : Bytes)
  deriving DecidableEq

/-- The part of `push_install_target` for `install_mode`, src/install.c:87-115: the permissions that are asked for. User and group are ignored. `obj_array_index` of an empty array is a failed
assertion (src/lang/object.c:657-664), otherwise the null object is used. -/
def pushMode : Option (List ModeVal) → Res (Option Nat)
  | none => .ok none
  | some l =>
    if l.length > 3 then .error
    else match l with
      | [] => .bad
      | .bool _ :: _ => .ok none
      | .str s :: _ => match rwxToPerm s with
        | none => .error
        | some p => .ok (some p)
      | .num _ :: _ => .error

namespace Spec

/-- The permissions of one class (owner, group, others): read, write, execute, and the special bit (set user, set group, sticky). -/
structure Class where
  r : Bool
  w : Bool
  x : Bool
  s : Bool
  deriving DecidableEq

/-- The three characters of a class as `ls -l` writes them; `c` and `C` are the letters for the special bit with and without execute. -/
def Class.text (c C : Char) (k : Class) : Bytes :=
  ascii ((if k.r then "r" else "-") ++ (if k.w then "w" else "-")) ++
  [UInt8.ofNat (if k.s then (if k.x then c else C) else (if k.x then 'x' else '-')).toNat]

/-- What `ls -l` writes (POSIX, ls, file mode string, without the type). -/
def ls (u g o : Class) : Bytes := u.text 's' 'S' ++ g.text 's' 'S' ++ o.text 't' 'T'

/-- The value of a class in octal. -/
def Class.octal (k : Class) : Nat := (if k.r then 4 else 0) + (if k.w then 2 else 0) + (if k.x then 1 else 0)

/-- The mode as `chmod` takes it: an octal number of the special bits and the three classes. -/
def mode (u g o : Class) : Nat :=
  ((if u.s then 4 else 0) + (if g.s then 2 else 0) + (if o.s then 1 else 0)) * 8 ^ 3 + u.octal * 8 ^ 2 + g.octal * 8 + o.octal

end Spec

/-! ### Proofs -/

open Spec

theorem rwx_nine (a b c d e f g h i : UInt8) (r : Nat) (hr : rwxLoop [a, b, c, d, e, f, g, h, i] 0 256 0 = some r) :
    (a = 45 ∨ a = 114) ∧ (b = 45 ∨ b = 119) ∧ (c = 45 ∨ c = 120 ∨ c = 115 ∨ c = 83) ∧ (d = 45 ∨ d = 114) ∧ (e = 45 ∨ e = 119) ∧
    (f = 45 ∨ f = 120 ∨ f = 115 ∨ f = 83) ∧ (g = 45 ∨ g = 114) ∧ (h = 45 ∨ h = 119) ∧ (i = 45 ∨ i = 120 ∨ i = 116 ∨ i = 84) := by
  have step : ∀ (c : UInt8) (s : Bytes) (i bit perm : Nat), rwxLoop (c :: s) i bit perm = some r →
      (∃ bit' perm', rwxLoop s (i + 1) bit' perm' = some r) ∧ (c = 45 ∨ ((c = 116 ∨ c = 84) ∧ i = 8) ∨ ((c = 115 ∨ c = 83) ∧ (i = 2 ∨ i = 5)) ∨
        (c = 114 ∧ (i = 0 ∨ i = 3 ∨ i = 6)) ∨ (c = 119 ∧ (i = 1 ∨ i = 4 ∨ i = 7)) ∨ (c = 120 ∧ (i = 2 ∨ i = 5 ∨ i = 8))) := by
    intro c s i bit perm h
    unfold rwxLoop at h
    dsimp only at h
    split at h
    · cases h
    · rename_i perm' hp
      refine ⟨⟨_, _, h⟩, ?_⟩
      split at hp
      · exact Or.inl ‹_›
      · split at hp
        · split at hp
          · cases hp
          · exact Or.inr (Or.inl ⟨‹_›, by omega⟩)
        · split at hp
          · split at hp
            · cases hp
            · exact Or.inr (Or.inr (Or.inl ⟨‹_›, by omega⟩))
          · split at hp
            · split at hp
              · cases hp
              · exact Or.inr (Or.inr (Or.inr (Or.inl ⟨‹_›, by omega⟩)))
            · split at hp
              · split at hp
                · cases hp
                · exact Or.inr (Or.inr (Or.inr (Or.inr (Or.inl ⟨‹_›, by omega⟩))))
              · split at hp
                · split at hp
                  · cases hp
                  · exact Or.inr (Or.inr (Or.inr (Or.inr (Or.inr ⟨‹_›, by omega⟩))))
                · cases hp
  obtain ⟨⟨_, _, h1⟩, k0⟩ := step _ _ _ _ _ hr
  obtain ⟨⟨_, _, h2⟩, k1⟩ := step _ _ _ _ _ h1
  obtain ⟨⟨_, _, h3⟩, k2⟩ := step _ _ _ _ _ h2
  obtain ⟨⟨_, _, h4⟩, k3⟩ := step _ _ _ _ _ h3
  obtain ⟨⟨_, _, h5⟩, k4⟩ := step _ _ _ _ _ h4
  obtain ⟨⟨_, _, h6⟩, k5⟩ := step _ _ _ _ _ h5
  obtain ⟨⟨_, _, h7⟩, k6⟩ := step _ _ _ _ _ h6
  obtain ⟨⟨_, _, h8⟩, k7⟩ := step _ _ _ _ _ h7
  obtain ⟨⟨_, _, -⟩, k8⟩ := step _ _ _ _ _ h8
  simp at k0 k1 k2 k3 k4 k5 k6 k7 k8
  refine ⟨k0, k1, ?_, k3, k4, ?_, k6, k7, ?_⟩
  · rcases k2 with h | (h | h) | h <;> simp [h]
  · rcases k5 with h | (h | h) | h <;> simp [h]
  · rcases k8 with h | (h | h) | h <;> simp [h]

/-- The class whose text is three given characters. -/
def classOf (a b c : UInt8) : Class := ⟨a != 45, b != 45, c == 120 || c == 115 || c == 116, c == 115 || c == 83 || c == 116 || c == 84⟩

theorem text_u (a b c : UInt8) (ha : a = 45 ∨ a = 114) (hb : b = 45 ∨ b = 119) (hc : c = 45 ∨ c = 120 ∨ c = 115 ∨ c = 83) : [a, b, c] = (classOf a b c).text 's' 'S' := by
  rcases ha with rfl | rfl <;> rcases hb with rfl | rfl <;> rcases hc with rfl | rfl | rfl | rfl <;> decide +kernel

theorem text_o (a b c : UInt8) (ha : a = 45 ∨ a = 114) (hb : b = 45 ∨ b = 119) (hc : c = 45 ∨ c = 120 ∨ c = 116 ∨ c = 84) : [a, b, c] = (classOf a b c).text 't' 'T' := by
  rcases ha with rfl | rfl <;> rcases hb with rfl | rfl <;> rcases hc with rfl | rfl | rfl | rfl <;> decide +kernel

theorem ls_perm : ∀ (u g o : Class), rwxToPerm (ls u g o) = some (mode u g o) ∧ (ls u g o).length = 9 ∧ 0 ∉ ls u g o := by
  have key : ∀ a b c d e f g h i j k l : Bool, rwxToPerm (ls ⟨a, b, c, d⟩ ⟨e, f, g, h⟩ ⟨i, j, k, l⟩) = some (mode ⟨a, b, c, d⟩ ⟨e, f, g, h⟩ ⟨i, j, k, l⟩) ∧
      (ls ⟨a, b, c, d⟩ ⟨e, f, g, h⟩ ⟨i, j, k, l⟩).length = 9 ∧ 0 ∉ ls ⟨a, b, c, d⟩ ⟨e, f, g, h⟩ ⟨i, j, k, l⟩ := by decide +kernel
  rintro ⟨a, b, c, d⟩ ⟨e, f, g, h⟩ ⟨i, j, k, l⟩
  exact key a b c d e f g h i j k l

/-- C88: a string (without NUL) is accepted if and only if it is what `ls -l` writes for some permissions, and then these are the permissions. -/
theorem perm_iff_partial (s : Bytes) (h0 : 0 ∉ s) (m : Nat) : rwxToPerm s = some m ↔ ∃ u g o, s = ls u g o ∧ m = mode u g o := by
  constructor
  · intro h
    have ht : s.takeWhile (· ≠ 0) = s := by
      clear h
      induction s with
      | nil => rfl
      | cons c s ih =>
        simp only [List.mem_cons, not_or] at h0
        rw [List.takeWhile_cons, if_pos (by simpa using Ne.symm h0.1), ih h0.2]
    have h' := h
    unfold rwxToPerm at h'
    simp only [ht] at h'
    split at h'
    · cases h'
    · rename_i hl
      have hl : s.length = 9 := by omega
      match s, hl, h', h with
      | [a, b, c, d, e, f, g, p, i], _, h', h =>
        obtain ⟨k0, k1, k2, k3, k4, k5, k6, k7, k8⟩ := rwx_nine _ _ _ _ _ _ _ _ _ _ h'
        have hs : [a, b, c, d, e, f, g, p, i] = ls (classOf a b c) (classOf d e f) (classOf g p i) := by
          rw [ls, ← text_u a b c k0 k1 k2, ← text_u d e f k3 k4 k5, ← text_o g p i k6 k7 k8]; rfl
        refine ⟨_, _, _, hs, ?_⟩
        rw [hs, (ls_perm _ _ _).1] at h
        exact (Option.some.inj h).symm
  · rintro ⟨u, g, o, rfl, rfl⟩
    exact (ls_perm u g o).1

/-- Different permissions have different strings and different numbers. -/
theorem perm_inj (u g o u' g' o' : Class) : (ls u g o = ls u' g' o' ↔ u = u' ∧ g = g' ∧ o = o') ∧ (mode u g o = mode u' g' o' ↔ u = u' ∧ g = g' ∧ o = o') := by
  have hm : mode u g o = mode u' g' o' → u = u' ∧ g = g' ∧ o = o' := by
    intro h
    have oct : ∀ k : Class, k.octal < 8 := by rintro ⟨a, b, c, d⟩; cases a <;> cases b <;> cases c <;> simp [Class.octal]
    have o1 := oct u; have o2 := oct g; have o3 := oct o; have o4 := oct u'; have o5 := oct g'; have o6 := oct o'
    unfold mode at h
    have e1 : ((if u.s then 4 else 0) + (if g.s then 2 else 0) + (if o.s then 1 else 0) : Nat) = (if u'.s then 4 else 0) + (if g'.s then 2 else 0) + (if o'.s then 1 else 0) ∧
        u.octal = u'.octal ∧ g.octal = g'.octal ∧ o.octal = o'.octal := by omega
    obtain ⟨e1, e2, e3, e4⟩ := e1
    have inj : ∀ (k k' : Class), k.octal = k'.octal → k.s = k'.s → k = k' := by
      rintro ⟨a, b, c, d⟩ ⟨a', b', c', d'⟩ h h'
      revert a b c d a' b' c' d'; decide
    have hs : u.s = u'.s ∧ g.s = g'.s ∧ o.s = o'.s := by
      revert e1
      cases u.s <;> cases g.s <;> cases o.s <;> cases u'.s <;> cases g'.s <;> cases o'.s <;> simp
    exact ⟨inj _ _ e2 hs.1, inj _ _ e3 hs.2.1, inj _ _ e4 hs.2.2⟩
  refine ⟨⟨fun h => hm ?_, fun ⟨a, b, c⟩ => by rw [a, b, c]⟩, ⟨hm, fun ⟨a, b, c⟩ => by rw [a, b, c]⟩⟩
  have h1 := (ls_perm u g o).1
  rw [h, (ls_perm u' g' o').1] at h1
  exact (Option.some.inj h1).symm

/-- C88: what `install_mode` asks for: nothing if it is not given or its first element is a boolean, otherwise the permissions of its first element, which must be such a string. -/
theorem install_mode_spec (l : List ModeVal) (v : ModeVal) (p : Option Nat) :
    pushMode none = .ok none ∧
    (pushMode (some (v :: l)) = .ok p ↔ l.length ≤ 2 ∧ ((∃ b, v = .bool b ∧ p = none) ∨ ∃ s m, v = .str s ∧ rwxToPerm s = some m ∧ p = some m)) := by
  refine ⟨rfl, ?_⟩
  by_cases hl : l.length ≤ 2
  · have h3 : ¬ (v :: l).length > 3 := by simp; omega
    simp only [pushMode, if_neg h3, hl, true_and]
    cases v with
    | bool b => simp [eq_comm]
    | num n => simp
    | str s =>
      simp only
      cases h : rwxToPerm s with
      | none => simp [h]
      | some m => simp [h, eq_comm]
  · have h3 : (v :: l).length > 3 := by simp; omega
    simp only [pushMode, if_pos h3, hl, false_and]
    simp

/-- `rwxr-sr-t` is 03755. -/
example : rwxToPerm (ascii "rwxr-sr-t") = some 0o3755 ∧ ls ⟨true, true, true, false⟩ ⟨true, false, true, true⟩ ⟨true, false, true, true⟩ = ascii "rwxr-sr-t" := by decide +kernel
example : 0 ∉ ascii "rwxr-sr-t" := by decide +kernel

/-- What is after a NUL is not looked at. -/
theorem perm_nul_counterexample : rwxToPerm (ascii "rw-r--r--" ++ [0] ++ ascii "xyz") = some 0o644 := by decide +kernel

/-- `install_mode: []` is a failed assertion, or the use of the null object. -/
theorem install_mode_empty_counterexample : pushMode (some []) = .bad := rfl

end Muon.Install
