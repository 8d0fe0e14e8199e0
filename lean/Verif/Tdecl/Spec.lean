import Verif.Tdecl.Model
/-
What declarations of tests mean.
-/
namespace Muon.Tdecl.Spec
open Muon Muon.Tdecl

/-- The words an argument stands for: a string, a path, the outputs of a custom target, the name of a run target. Programs stand for none. -/
def words : Obj → List Bytes
  | .str s => [s]
  | .file p => [p]
  | .target _ _ p => [p]
  | .both _ _ p => [p]
  | .custom _ (some outs) => outs
  | .custom n none => [n]
  | .prog _ _ => []
  | .python _ _ => []

/-- The files that must be built for it. -/
def needed : Obj → List Bytes
  | .target _ _ p => [p]
  | .both _ _ p => [p]
  | .custom _ (some outs) => outs
  | _ => []

/-- The arguments a program comes with. -/
def own : Obj → List Bytes
  | .prog _ (_ :: l) => l
  | .python _ (_ :: l) => l
  | _ => []

/-- Strings `key=value`: a key ends at the first equals sign. -/
def Pairs (l : List Bytes) (ps : List (Bytes × Bytes)) : Prop := ps.map (fun e => e.1 ++ 61 :: e.2) = l ∧ ∀ e ∈ ps, 61 ∉ e.1

/-- The last of several values. -/
def last (k : Bytes) (l : List (Bytes × Bytes)) : Option Bytes := ((l.filter fun e => e.1 = k).map (·.2)).getLast?

/-- The variables every command gets. -/
def given (E : World) (k : Bytes) : Option Bytes :=
  if k = ascii "MUON_PATH" then some E.argv0
  else if k = ascii "MESON_BUILD_ROOT" then some E.build
  else if k = ascii "MESON_SOURCE_ROOT" then some E.source
  else none

/-- The variables of a command, without `MESON_SUBDIR`: those every command gets, then those it is given. -/
def value (E : World) (more : Bytes → Option Bytes) (k : Bytes) : Option Bytes := match given E k with
  | some v => some v
  | none => more k

/-- The strings of `env:`. -/
def strings : EnvArg → Option (List Bytes)
  | .none => some []
  | .str s => some [s]
  | .arr l => some l
  | .var _ => none

end Muon.Tdecl.Spec
