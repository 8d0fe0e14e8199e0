import Verif.Tc.Model
/-
Types and the values that have them.
-/
namespace Muon.Tc.Spec
open Muon Muon.Tc

/-- A type: one of several kinds of objects, possibly also nothing; a union; an array or dictionary with elements of a
type. -/
inductive Ty
  | simple (kinds : List Nat) (void : Bool)
  | or (a b : Ty)
  | list (t : Ty)
  | dict (t : Ty)

/-- A value has a type. Disablers have every type that is not an array or dictionary of something. -/
def Has : Ty → V → Prop
  | .simple ks void, v => v.type ∈ ks ∨ v.type = 2 ∨ (v.type = 0 ∧ void = true)
  | .or a b, v => Has a v ∨ Has b v
  | .list t, v => ∃ l, v = .arr l ∧ ∀ x ∈ l, Has t x
  | .dict t, v => ∃ l, v = .dict l ∧ ∀ e ∈ l, Has t e.2

/-- The kinds of objects in a type tag: those whose bits are set. -/
def kinds (tag : Tag) : List Nat := ((List.range 59).filter fun i => tag.getLsbD i).map (· + 1)

/-- A type tag stands for a type. -/
inductive Means (ti : Infos) : Tag → Ty → Prop
  | simple {tag : Tag} : tag.getLsbD 63 = true → tag.getLsbD 60 = false → tag.getLsbD 61 = false → tag.getLsbD 62 = false →
      Means ti tag (.simple (kinds tag) (tag.getLsbD 59 || (kinds tag).isEmpty))
  | or {i : Nat} {a b : Tag} {A B : Ty} : i < 2 ^ 32 → ti[i]? = some (a, b) → Means ti a A → Means ti b B →
      Means ti (complexTag i 0) (.or A B)
  | list {i : Nat} {b : Tag} {B : Ty} : i < 2 ^ 32 → ti[i]? = some (tcArray, b) → Means ti b B →
      Means ti (complexTag i 1) (.list B)
  | dict {i : Nat} {b : Tag} {B : Ty} : i < 2 ^ 32 → ti[i]? = some (tcDict, b) → Means ti b B →
      Means ti (complexTag i 1) (.dict B)

/-- An array of one file may stand for the file. -/
def FileOf (v w : V) : Prop := v = .arr [w] ∧ w.type = 5

mutual
/-- All objects in a value other than arrays and dictionaries are of certain kinds. -/
def Each (p : Nat → Prop) : V → Prop
  | .obj t _ => p t
  | .arr l => EachList p l
  | .dict l => EachDict p l
/-- `Each` for the elements of an array. -/
def EachList (p : Nat → Prop) : List V → Prop
  | [] => True
  | v :: l => Each p v ∧ EachList p l
/-- `Each` for the elements of a dictionary. -/
def EachDict (p : Nat → Prop) : List (Bytes × V) → Prop
  | [] => True
  | e :: l => Each p e.2 ∧ EachDict p l
end

/-- The objects are of the kinds there are. -/
def Wf (v : V) : Prop := Each (fun t => t ≤ 32 ∧ t ≠ 9 ∧ t ≠ 10) v

/-- As `Wf`, and none of the objects is a disabler or nothing. -/
def Plain (v : V) : Prop := Each (fun t => t ≤ 32 ∧ t ≠ 9 ∧ t ≠ 10 ∧ t ≠ 0 ∧ t ≠ 2) v

end Muon.Tc.Spec
