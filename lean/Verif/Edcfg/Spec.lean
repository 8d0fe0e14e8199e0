import Verif.Edcfg.Model
/-
What sections of `.editorconfig` files mean here.
-/
namespace Muon.Edcfg.Spec
open Muon

/-- A part of a section: a byte, a byte after `\`, `?`, or `{a,b}`. -/
inductive Item
  | lit (c : UInt8)
  | esc (c : UInt8)
  | any
  | alt (ps : List Bytes)
deriving DecidableEq, Repr

/-- Texts with commas between them. -/
def commas : List Bytes → Bytes
  | [] => []
  | [p] => p
  | p :: q :: l => p ++ 44 :: commas (q :: l)

/-- How a part is written. -/
def Item.text : Item → Bytes
  | .lit c => [c]
  | .esc c => [92, c]
  | .any => [63]
  | .alt ps => 123 :: (commas ps ++ [125])

/-- How parts are written. -/
def text (l : List Item) : Bytes := l.flatMap Item.text

/-- The parts are written in a way that has the usual meaning: no special byte stands for itself, alternatives have no comma or
closing brace in them, and after alternatives there are no commas and there is no `..`. -/
def Good : List Item → Prop
  | [] => True
  | .lit c :: l => c ∉ [(0 : UInt8), 92, 42, 91, 123, 63] ∧ Good l
  | .esc c :: l => c ≠ 0 ∧ Good l
  | .any :: l => Good l
  | .alt ps :: l => ps ≠ [] ∧ (∀ p ∈ ps, 0 ∉ p ∧ 44 ∉ p ∧ 125 ∉ p) ∧ ¬[46, 46] <:+: commas ps ++ 125 :: text l ∧ 44 ∉ text l ∧ Good l

/-- What is left of a text after a part; nothing if it does not begin with the part. Of the alternatives, the first one counts. -/
def eat : Item → Bytes → Option Bytes
  | .lit c, q => if q.head? = some c then some q.tail else none
  | .esc c, q => if q.head? = some c then some q.tail else none
  | .any, q => if q = [] then none else some q.tail
  | .alt ps, q => (ps.find? fun p => p.isPrefixOf q).map fun p => q.drop p.length

/-- The whole text is eaten by the first parts, as few as possible: the parts that are left. -/
def run : List Item → Bytes → Option (List Item)
  | [], _ => none
  | i :: l, q => match eat i q with
    | none => none
    | some [] => some l
    | some q' => run l q'

/-- The longest end of the path that is eaten leaves the parts. -/
def Longest (l : List Item) (path : Bytes) (rest : List Item) : Prop :=
  ∃ q, q ≠ [] ∧ q <:+ path ∧ run l q = some rest ∧ ∀ r, r ≠ [] → r <:+ path → (run l r).isSome → r.length ≤ q.length

/-- No part can be a `/`. -/
def NoSlash (l : List Item) : Prop := ∀ i ∈ l, match i with
  | .lit c => c ≠ 47
  | .esc c => c ≠ 47
  | .any => False
  | .alt ps => ∀ p ∈ ps, 47 ∉ p

/-- Bytes that mean nothing special in a section. -/
def Plain (s : Bytes) : Prop := ∀ c ∈ s, c ∉ [(0 : UInt8), 92, 42, 91, 123, 63]

/-- All directories above, from the nearest to the root. -/
def ups (cs : List Bytes) : List (List Bytes) := (List.range (cs.length + 1)).reverse.map fun k => cs.take k

/-- The pair is in a section that applies. -/
def Applies (m : Pair → Bool) (p : Pair) : Bool := p.sect.isSome && m p

/-- The last value of a key in the sections of a file that apply. -/
def lastVal (m : Pair → Bool) (key : Bytes) (ps : List Pair) : Option Bytes :=
  (ps.filter fun p => Applies m p && p.key = key).getLast?.map Pair.val

/-- The file says, before its first section, that it is the last one. -/
def isRoot (ps : List Pair) : Bool := ps.any fun p => p.sect = none && p.key = ascii "root" && p.val = ascii "true"

/-- The files up to the first one that says so. -/
def upTo : List (List Pair) → List (List Pair)
  | [] => []
  | ps :: l => if isRoot ps then [ps] else ps :: upTo l

/-- The value of a key: of the nearest file that has one. -/
def setting (m : Pair → Bool) (key : Bytes) (files : List (List Pair)) : Option Bytes := (upTo files).findSome? (lastVal m key)

end Muon.Edcfg.Spec
