import Verif.Sset.Model
/-
Which sources and dependencies a source set selects.
-/
namespace Muon.Sset.Spec
open Muon Muon.Sset

/-- A configuration value that counts as true. -/
def truthy : CVal → Bool
  | .bool b => b
  | .str s => s ≠ []
  | .num n => 0 < n
  | .other => false

/-- A condition that holds in a configuration. -/
def holds (found : Nat → Bool) (conf : Bytes → Option CVal) : Cond → Bool
  | .dep d => found d
  | .key k => match conf k with
    | some v => truthy v
    | none => false

/-- All conditions hold. -/
def all (found : Nat → Bool) (conf : Bytes → Option CVal) (w : List Cond) : Bool := w.all (holds found conf)

/-- The dependencies among the conditions have been found. -/
def depsFound (found : Nat → Bool) (w : List Cond) : Bool := w.all fun
  | .dep d => found d
  | .key _ => true

/-- The dependencies among conditions. -/
def depsOf (w : List Cond) : List Item := w.filterMap fun
  | .dep d => some (.dep d)
  | .key _ => none

/-- What a rule contributes: if `yes` says so, its `if_true` preceded by the dependencies among its conditions; if
`no` says so, its `if_false`. -/
def chosen (yes no : List Cond → Bool) (r : Rule) : List Item :=
  (match r.ifTrue with
    | some t => if yes (r.when.getD []) then depsOf (r.when.getD []) ++ t else []
    | none => []) ++
  (if no (r.when.getD []) then r.ifFalse.getD [] else [])

/-- The sources and dependencies that a list of sources, dependencies and source sets stands for: a source set stands
for what its rules contribute, in order. -/
inductive Leaves (rules : Nat → List Rule) (yes no : List Cond → Bool) : List Item → List Leaf → Prop
  | nil : Leaves rules yes no [] []
  | src {s l out} : Leaves rules yes no l out → Leaves rules yes no (.src s :: l) (.src s :: out)
  | dep {d l out} : Leaves rules yes no l out → Leaves rules yes no (.dep d :: l) (.dep d :: out)
  | set {i l out out'} : Leaves rules yes no ((rules i).flatMap (chosen yes no)) out → Leaves rules yes no l out' →
      Leaves rules yes no (.set i :: l) (out ++ out')

/-- The sources in a list. -/
def sources (l : List Leaf) : List Nat := l.filterMap fun
  | .src s => some s
  | .dep _ => none

/-- The dependencies in a list. -/
def dependencies (l : List Leaf) : List Nat := l.filterMap fun
  | .src _ => none
  | .dep d => some d

/-- `l'` is `l` with only the first of equal elements. -/
def Firsts (l l' : List Nat) : Prop := l'.Nodup ∧ l'.Sublist l ∧ (∀ x ∈ l, x ∈ l') ∧
  ∀ a b pre, pre ++ [a] <+: l' → b ∈ l.takeWhile (· ≠ a) → b ∈ pre

/-- A set contains another one, directly or through others. -/
inductive Contains (rules : Nat → List Rule) : Nat → Nat → Prop
  | direct {i j : Nat} {r : Rule} {t : List Item} : r ∈ rules i → r.ifTrue = some t → Item.set j ∈ t → Contains rules i j
  | trans {i j k : Nat} : Contains rules i j → Contains rules j k → Contains rules i k

/-- A condition that is evaluated has no value in the configuration. -/
def Missing (found : Nat → Bool) (conf : Bytes → Option CVal) (w : List Cond) : Prop :=
  ∃ pre k post, w = pre ++ .key k :: post ∧ (∀ c ∈ pre, holds found conf c = true) ∧ conf k = none

/-- No operation puts a set into itself. -/
def NoSelf : Op → Prop
  | .addAll i pos _ t => i ∉ pos ∧ i ∉ t.getD []
  | _ => True

end Muon.Sset.Spec
