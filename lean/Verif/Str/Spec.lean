import Verif.Base
/-
Specifications for the string methods (C05-C13, C59), independent of the model.
-/
namespace Muon.Str.Spec
open Muon

/-- Joining strings with a separator. -/
def join (sep : Bytes) : List Bytes → Bytes
  | [] => []
  | [x] => x
  | x :: y :: r => x ++ sep ++ join sep (y :: r)

/-- `FirstSplit sep s ps`: `ps` are the pieces of `s` obtained by cutting at the leftmost occurrence of `sep`, then at
the leftmost occurrence in what follows it, and so on until there is none. -/
inductive FirstSplit (sep : Bytes) : Bytes → List Bytes → Prop
  | last (s : Bytes) : ¬ sep <:+: s → FirstSplit sep s [s]
  | cons (pre rest : Bytes) (ps : List Bytes) :
      (∀ p q, pre ++ sep ++ rest = p ++ sep ++ q → pre.length ≤ p.length) →
      FirstSplit sep rest ps → FirstSplit sep (pre ++ sep ++ rest) (pre :: ps)

/-- `Words ws s r`: `r` are the maximal non-empty runs of non-blank bytes of `s`, in order. -/
inductive Words (ws : UInt8 → Bool) : Bytes → List Bytes → Prop
  | nil (s : Bytes) : (∀ c ∈ s, ws c = true) → Words ws s []
  | cons (blank w rest : Bytes) (r : List Bytes) : (∀ c ∈ blank, ws c = true) → w ≠ [] → (∀ c ∈ w, ws c = false) →
      (∀ c, rest.head? = some c → ws c = true) → Words ws rest r → Words ws (blank ++ w ++ rest) (w :: r)

/-- `mid` is what remains of `s` after removing all leading and trailing bytes of `set`. -/
def Stripped (set s mid : Bytes) : Prop :=
  ∃ pre post, s = pre ++ mid ++ post ∧ (∀ c ∈ pre, c ∈ set) ∧ (∀ c ∈ post, c ∈ set) ∧
    (∀ c, mid.head? = some c → c ∉ set) ∧ (∀ c, mid.getLast? = some c → c ∉ set)

/-- Position denoted by a possibly negative index into something of length `n`, clamped to `0..n`. -/
def clampPos (n : Nat) (i : Int) : Nat :=
  let j := if i < 0 then i + n else i
  (max 0 (min j n)).toNat

/-- The slice from position `a` up to position `b`. -/
def slice (s : Bytes) (a b : Int) : Bytes :=
  (s.take (clampPos s.length b)).drop (clampPos s.length a)

/-- Value of a string of decimal digits. -/
def natVal (ds : Bytes) : Nat := ds.foldl (fun n c => 10 * n + (c.toNat - 48)) 0

/-! ### format -/

/-- Pieces of a format template. -/
inductive Seg
  | char (c : UInt8)
  | ref (n : Int)

/-- Splits at the first `@` if there is no `\@` before it: the text before it and after it. -/
def closing : Bytes → Option (Bytes × Bytes)
  | [] => none
  | 92 :: 64 :: _ => none
  | 64 :: r => some ([], r)
  | c :: r => (closing r).map fun (k, r') => (c :: k, r')

theorem closing_length : ∀ {s k r : Bytes}, closing s = some (k, r) → r.length < s.length
  | [], _, _, h => by simp [closing] at h
  | c :: s, k, r, h => by
    unfold closing at h
    split at h
    · cases h
    · cases h
    · rename_i heq; cases h; cases heq; simp
    · simp only [Option.map_eq_some_iff] at h
      rename_i c' r' _ _ heq
      obtain ⟨⟨k', r''⟩, hc, he⟩ := h
      cases he
      cases heq
      have := closing_length hc
      simp; omega

/-- The segments of a template: `\@` stands for `@`; `@key@` is a reference if `idx key` is an index; every other byte
stands for itself. -/
def segs (idx : Bytes → Option Int) : Bytes → List Seg
  | [] => []
  | 92 :: 64 :: r => .char 64 :: segs idx r
  | 64 :: r =>
    match _h : closing r with
    | some (k, r') => match idx k with
      | some n => .ref n :: segs idx r'
      | none => .char 64 :: segs idx r
    | none => .char 64 :: segs idx r
  | c :: r => .char c :: segs idx r
termination_by s => s.length
decreasing_by
  all_goals simp_wf
  · omega
  · have := closing_length _h; omega

/-- Replacing references by the arguments; `none` if some reference has no argument. -/
def subst (arg : Int → Option Bytes) : List Seg → Option Bytes
  | [] => some []
  | .char c :: r => (subst arg r).map (c :: ·)
  | .ref n :: r => (arg n).bind fun v => (subst arg r).map (v ++ ·)

/-- The template has an unescaped `@` opening a possible reference that is interrupted by `\@`. -/
def interrupted (idx : Bytes → Option Int) : Bytes → Bool
  | [] => false
  | 92 :: 64 :: r => interrupted idx r
  | 64 :: r =>
    match _h : closing r with
    | some (k, r') => match idx k with
      | some _ => interrupted idx r'
      | none => interrupted idx r
    | none => hasEsc r
  | _ :: r => interrupted idx r
termination_by s => s.length
decreasing_by
  all_goals simp_wf
  · omega
  · have := closing_length _h; omega
where
  hasEsc : Bytes → Bool
    | 92 :: 64 :: _ => true
    | _ :: r => hasEsc r
    | [] => false

/-- Strict reference syntax: a non-empty run of digits. -/
def decimal (k : Bytes) : Option Int := if k ≠ [] ∧ k.all isDigit then some (natVal k) else none

/-- A key that C's `strtol` reads completely as a number although it is not a run of digits, because of leading white
space or a sign. -/
def oddKey (k : Bytes) : Bool :=
  let t := k.dropWhile isSpace
  let d := t.drop (if t.head? = some 43 ∨ t.head? = some 45 then 1 else 0)
  d ≠ [] && d.all isDigit && !k.all isDigit

/-- Some text between two consecutive `@` is an odd key. -/
def hasOddKey : Bytes → Bool
  | [] => false
  | c :: r => (c == 64 && (r.takeWhile (· ≠ 64)).length < r.length && oddKey (r.takeWhile (· ≠ 64))) || hasOddKey r

/-! ### Wildcards -/

/-- `Matches p s`: `s` is matched by pattern `p`, where `*` stands for any byte string. -/
inductive Matches : Bytes → Bytes → Prop
  | nil : Matches [] []
  | char (c : UInt8) (p s : Bytes) : c ≠ 42 → Matches p s → Matches (c :: p) (c :: s)
  | star (p s t : Bytes) : Matches p t → Matches (42 :: p) (s ++ t)

end Muon.Str.Spec
