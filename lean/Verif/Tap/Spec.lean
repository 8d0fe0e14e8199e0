import Verif.Tap.Model
import Verif.Str.Spec
/-
What a TAP stream says.
-/
namespace Muon.Tap.Spec
open Muon Muon.Tap

/-- What a line can be. -/
inductive Kind
  | plan (n : Nat)
  | pass
  | skip
  | fail
  | other
  deriving DecidableEq, Repr

/-- A positive decimal number, after white space and an optional `+`; numbers that do not fit into 64 bits are the largest
one that does. -/
def Number (d : Bytes) (n : Nat) : Prop :=
  ∃ ws sign ds, d = ws ++ sign ++ ds ∧ (∀ c ∈ ws, isSpace c = true) ∧ (sign = [] ∨ sign = [43]) ∧ ds ≠ [] ∧
    (∀ c ∈ ds, isDigit c = true) ∧ n = min (2 ^ 63 - 1) (Str.Spec.natVal ds) ∧ 0 < n

/-- A letter in lower case. -/
def lower (c : UInt8) : UInt8 := if 65 ≤ c ∧ c ≤ 90 then c + 32 else c

/-- The rest of a test line has the directive `w` (in any case) after the first ` # `. -/
def Has (rest w : Bytes) : Prop :=
  ∃ a b c, rest = a ++ ascii " # " ++ b ++ c ∧ b.map lower = w ∧ ∀ a' r, rest = a' ++ ascii " # " ++ r → a.length ≤ a'.length

/-- What a line is. -/
inductive Is : Bytes → Kind → Prop
  | plan {d : Bytes} {n : Nat} : Number d n → Is (ascii "1.." ++ d) (.plan n)
  | pass {r : Bytes} : ¬ Has r (ascii "skip") → Is (ascii "ok" ++ r) .pass
  | okSkip {r : Bytes} : Has r (ascii "skip") → Is (ascii "ok" ++ r) .skip
  | skip {r : Bytes} : Has r (ascii "skip") ∨ Has r (ascii "todo") → Is (ascii "not ok" ++ r) .skip
  | fail {r : Bytes} : ¬ Has r (ascii "skip") → ¬ Has r (ascii "todo") → Is (ascii "not ok" ++ r) .fail
  | other {l : Bytes} : (∀ d n, Number d n → l ≠ ascii "1.." ++ d) → ¬ ascii "ok" <+: l → ¬ ascii "not ok" <+: l → Is l .other

/-- What each line of a stream is. -/
inductive Stream : List Bytes → List Kind → Prop
  | nil : Stream [] []
  | cons {l : Bytes} {k : Kind} {ls : List Bytes} {ks : List Kind} : Is l k → Stream ls ks → Stream (l :: ls) (k :: ks)

/-- The number of the last plan. -/
def lastPlan : List Kind → Option Nat
  | [] => none
  | k :: ks =>
    match lastPlan ks with
    | some n => some n
    | none =>
      match k with
      | .plan n => some n
      | _ => none

/-- The verdict as TAP has it: no test fails, and there are as many tests as planned (if there is a plan). -/
def Good (ks : List Kind) : Prop :=
  ks.count .fail = 0 ∧ ∀ n, lastPlan ks = some n → n = ks.count .pass + ks.count .skip + ks.count .fail

end Muon.Tap.Spec
