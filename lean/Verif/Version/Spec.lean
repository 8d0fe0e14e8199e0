import Verif.Base
import Std
/-
Independent specification of the version order (property C01): a version string is read, on its own, as a
sequence of items, and versions are ordered lexicographically by their items.
-/
namespace Muon.Version.Spec
open Muon

/-- What a version consists of: numbers, words, and possibly separators after the last number or word. -/
inductive Item
  | trailingSeparators
  | word (s : Bytes)
  | num (n : Nat)
  deriving DecidableEq, Repr

/-- Decimal value of a digit string. -/
def decimal (s : Bytes) : Nat := s.foldl (fun acc c => acc * 10 + (c.toNat - 48)) 0

/-- Separators sort before words, words before numbers; words compare as byte strings, numbers by value. -/
def Item.cmp : Item → Item → Ordering
  | .trailingSeparators, .trailingSeparators => .eq
  | .trailingSeparators, _ => .lt
  | _, .trailingSeparators => .gt
  | .word a, .word b => List.compareLex compare a b
  | .word _, .num _ => .lt
  | .num _, .word _ => .gt
  | .num a, .num b => compare a b

/-- The items of a version string: maximal digit runs and maximal letter runs, in order. `fuel` is any number
at least the length of the string. -/
def itemsAux : Nat → Bytes → List Item
  | 0, _ => []
  | fuel + 1, s =>
    if s = [] then [] else
    match s.dropWhile (fun c => !isAlnum c) with
    | [] => [.trailingSeparators]
    | c :: r =>
      if isDigit c then
        .num (decimal ((c :: r).takeWhile isDigit)) :: itemsAux fuel ((c :: r).dropWhile isDigit)
      else
        .word ((c :: r).takeWhile isAlpha) :: itemsAux fuel ((c :: r).dropWhile isAlpha)

/-- The items of a version string. -/
def items (s : Bytes) : List Item := itemsAux s.length s

/-- Lexicographic order on versions. -/
def cmp (a b : Bytes) : Ordering := List.compareLex Item.cmp (items a) (items b)

/-- -1, 0, 1. -/
def sign : Ordering → Int
  | .lt => -1
  | .eq => 0
  | .gt => 1

end Muon.Version.Spec
