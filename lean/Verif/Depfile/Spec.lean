import Verif.Base
/-
Specification for C85: what compilers write to a dependency file.
-/
namespace Muon.Depfile.Spec
open Muon

/-- How GCC writes a file name, `munge` in libcpp/mkdeps.cc: `k` backslashes have been written just before. Blanks and `#` get a backslash, before blanks other
backslashes are doubled, `$` is doubled. -/
def munge : Nat → Bytes → Bytes
  | _, [] => []
  | k, c :: s =>
    if c = 92 then 92 :: munge (k + 1) s
    else if c = 32 ∨ c = 9 then List.replicate (k + 1) 92 ++ c :: munge 0 s
    else if c = 35 then 92 :: 35 :: munge 0 s
    else if c = 36 then 36 :: 36 :: munge 0 s
    else c :: munge 0 s

/-- The bytes of the names for which the claim is made: letters, digits, `+,-./@_`, and the ones that are escaped. -/
def NameByte (c : UInt8) : Prop :=
  (48 ≤ c ∧ c ≤ 57) ∨ (65 ≤ c ∧ c ≤ 90) ∨ (97 ≤ c ∧ c ≤ 122) ∨ c ∈ ascii "+,-./@_" ∨ c ∈ ascii "\\ \t#$"

/-- Names for which the claim is made: there are some bytes, and no backslash at the end. -/
structure Name (s : Bytes) : Prop where
  ne : s ≠ []
  bytes : ∀ c ∈ s, NameByte c
  last : s.getLast? ≠ some 92

/-- Names of dependencies: the first character is not escaped, and not a backslash. -/
structure Dep (s : Bytes) : Prop extends Name s where
  first : s.head? ≠ some 92 ∧ s.head? ≠ some 35 ∧ s.head? ≠ some 32 ∧ s.head? ≠ some 9

/-- Blanks and continued lines. -/
inductive Gap : Bytes → Prop
  | nil : Gap []
  | blank (c : UInt8) (hc : c = 32 ∨ c = 9) {g : Bytes} (h : Gap g) : Gap (c :: g)
  | cont {g : Bytes} (h : Gap g) : Gap (92 :: 10 :: g)

/-- A list of dependencies, each after a gap, which may be empty before the first only, and a gap at the end. -/
inductive Deps : Bool → List Bytes → Bytes → Prop
  | nil (first : Bool) {g : Bytes} (h : Gap g) : Deps first [] g
  | cons (first : Bool) {g : Bytes} (h : Gap g) (hg : first = true ∨ g ≠ []) (d : Bytes) (hd : Dep d) {ds : List Bytes} {t : Bytes} (ht : Deps false ds t) :
      Deps first (d :: ds) (g ++ (munge 0 d ++ t))

/-- One or more rules for the same output, and the dependencies in all of them. If there are several rules, the first character of the output is not escaped. -/
inductive Rules (out : Bytes) : List Bytes → Bytes → Prop
  /-- The last rule, with or without the newlines. -/
  | last (ds : List Bytes) {bl t : Bytes} (hb : ∀ c ∈ bl, c = 32 ∨ c = 9) (ht : Deps true ds t) (n : Nat) : Rules out ds (munge 0 out ++ (bl ++ 58 :: (t ++ List.replicate n 10)))
  | more (ho : Dep out) (ds : List Bytes) {bl t : Bytes} (hb : ∀ c ∈ bl, c = 32 ∨ c = 9) (ht : Deps true ds t) (n : Nat) {ds' : List Bytes} {t' : Bytes} (h : Rules out ds' t') :
      Rules out (ds ++ ds') (munge 0 out ++ (bl ++ 58 :: (t ++ (List.replicate (n + 1) 10 ++ t'))))

/-- The same text, with some of the newlines written as `\r\n`. -/
inductive Dos : Bytes → Bytes → Prop
  | nil : Dos [] []
  | same (c : UInt8) {s t : Bytes} (h : Dos s t) : Dos (c :: s) (c :: t)
  | crlf {s t : Bytes} (h : Dos s t) : Dos (13 :: 10 :: s) (10 :: t)

end Muon.Depfile.Spec
