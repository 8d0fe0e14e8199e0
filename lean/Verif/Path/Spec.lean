import Verif.Base
/-
Specification of path manipulation (C14-C18), independent of the model: a path is a flag (absolute or relative) and a
list of components.
-/
namespace Muon.Path.Spec
open Muon

/-- The pieces of a byte string between slashes (at least one piece). -/
def pieces : Bytes → List Bytes
  | [] => [[]]
  | c :: s =>
    if c = 47 then [] :: pieces s
    else match pieces s with
      | [] => [[c]]
      | p :: ps => (c :: p) :: ps

/-- The components of a path: the pieces that are not empty and not `.`. -/
def comps (s : Bytes) : List Bytes := (pieces s).filter fun p => p ≠ [] && p ≠ [46]

/-- A path is absolute if it begins with a slash. -/
def isAbs (s : Bytes) : Bool := s.head? == some 47

/-- `..` -/
def dotdot : Bytes := [46, 46]

/-- Where a list of components leads, starting in the directory whose path from the root is `start` (symbolic links
not considered; `..` in the root stays there). -/
def walk (start : List Bytes) (cs : List Bytes) : List Bytes :=
  cs.foldl (fun st c => if c = dotdot then st.dropLast else st ++ [c]) start

/-- Components separated by single slashes. -/
def sepJoin : List Bytes → Bytes
  | [] => []
  | [c] => c
  | c :: d :: r => c ++ [47] ++ sepJoin (d :: r)

/-- The canonical text of a path. -/
def render (abs : Bool) (cs : List Bytes) : Bytes :=
  if abs then 47 :: sepJoin cs else if cs = [] then [46] else sepJoin cs

/-- Removing every `x/..`: a `..` cancels the component before it, unless that is a `..` or there is none. -/
def cancel (cs : List Bytes) : List Bytes :=
  cs.foldl (fun acc c => if c = dotdot ∧ acc ≠ [] ∧ acc.getLast? ≠ some dotdot then acc.dropLast else acc ++ [c]) []

/-- The canonical form of a path. -/
def canon (optimize : Bool) (s : Bytes) : Bytes :=
  if s = [] then [] else render (isAbs s) (if optimize then cancel (comps s) else comps s)

end Muon.Path.Spec
