import Verif.Path.Spec
/-
What paths mean to the module `fs`.
-/
namespace Muon.Fsmod.Spec
open Muon Path.Spec

/-- The canonical path a text means in a directory: absolute texts as they are, others below the directory; `x/..` is left out. -/
def canonIn (dir s : Bytes) : Bytes :=
  if isAbs s then render true (cancel (comps s)) else render (isAbs dir) (cancel (comps dir ++ comps s))

/-- A text that can be a path. -/
def Ok (s : Bytes) : Prop := s ≠ [] ∧ 0 ∉ s

/-- The path has this parent and this last component. -/
def Last (s : Bytes) (l : List Bytes) (c : Bytes) : Prop := comps s = l ++ [c] ∧ c ≠ dotdot

end Muon.Fsmod.Spec
