import Verif.Incdir.Model
import Verif.Path.Spec
/-
C115: which directories are searched for headers.
-/
namespace Muon.Incdir.Spec
open Muon Path.Spec

/-- An absolute path without NUL bytes and `..`. -/
def Plain (p : Bytes) : Prop := isAbs p = true ∧ 0 ∉ p ∧ ascii ".." ∉ comps p

/-- The path is the directory the string stands for: from the directory of the build file, unless it is absolute. -/
def Stands (E : World) (s p : Bytes) : Prop := isAbs p = true ∧ comps p = if isAbs s then comps s else comps E.cwd ++ comps s

/-- What an argument brings: the directory, and before it, if it is `x` in the source directory, `x` in the build directory. -/
inductive Brings (E : World) (sys : Bool) : Item → List (Bytes × Bool) → Prop
  | made (p : Bytes) (b : Bool) : Brings E sys (.made p b) [(p, b)]
  | inside {s p q : Bytes} (x : List Bytes) (h : Stands E s p) (e : E.ex p = true) (hs : comps p = comps E.source ++ x) (hq : isAbs q = true ∧ comps q = comps E.build ++ x) :
      Brings E sys (.str s) [(q, sys), (p, sys)]
  | outside {s p : Bytes} (h : Stands E s p) (e : E.ex p = true) (hs : ¬ comps E.source <+: comps p) : Brings E sys (.str s) [(p, sys)]

/-- All arguments, in their order. -/
inductive AllBring (E : World) (sys : Bool) : List Item → List (Bytes × Bool) → Prop
  | nil : AllBring E sys [] []
  | cons {i : Item} {is : List Item} {a b : List (Bytes × Bool)} (h : Brings E sys i a) (r : AllBring E sys is b) : AllBring E sys (i :: is) (a ++ b)

end Muon.Incdir.Spec
