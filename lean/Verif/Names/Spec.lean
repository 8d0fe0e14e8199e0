import Verif.Names.Model
import Verif.Path.Spec
/-
What is meant by the names of built files. Paths are compared by their components (Verif/Path/Spec.lean).
-/
namespace Muon.Names.Spec
open Muon Path.Spec

/-- The path of a file or directory other than the root, as muon keeps it: absolute and without `..`. -/
def Place (p : Bytes) : Prop := isAbs p = true ∧ 0 ∉ p ∧ dotdot ∉ comps p ∧ comps p ≠ []

/-- `s` is something in the directory `d`, at any depth. -/
def In (d s : Bytes) : Prop := ∃ x, x ≠ [] ∧ comps s = comps d ++ x

/-- The directory the name of the object of a source is taken relative to, if any: the private directory of the target,
its build directory, its source directory, or the source root, whichever is the first that has the source in it. -/
inductive From (d : Dirs) (s : Bytes) : Option Bytes → Prop
  | priv : In d.priv s → From d s (some d.priv)
  | build : ¬ In d.priv s → In d.build s → From d s (some d.build)
  | cwd : ¬ In d.priv s → ¬ In d.build s → In d.cwd s → From d s (some d.cwd)
  | source : ¬ In d.priv s → ¬ In d.build s → ¬ In d.cwd s → In d.source s → From d s (some d.source)
  | outside : ¬ In d.priv s → ¬ In d.build s → ¬ In d.cwd s → ¬ In d.source s → From d s none

/-- The directories of a target are places, and a source is none of them. -/
structure Source (d : Dirs) (s : Bytes) : Prop where
  priv : Place d.priv
  build : Place d.build
  cwd : Place d.cwd
  source : Place d.source
  place : Place s
  file : comps s ≠ comps d.priv ∧ comps s ≠ comps d.build ∧ comps s ≠ comps d.cwd ∧ comps s ≠ comps d.source

/-- The extensions of objects: `.o` and `.obj`. -/
def Ext (ext : Option Bytes → Bytes) : Prop := ∀ e, ext e = [46, 111] ∨ ext e = [46, 111, 98, 106]

/-- A text that can be the name of a file in a directory. -/
def FileName (c : Bytes) : Prop := c ≠ [] ∧ c ≠ [46] ∧ c ≠ dotdot ∧ 47 ∉ c ∧ 0 ∉ c

/-- Following links in a directory from the name `a` ends at the name `b`, which is not a link. -/
inductive Leads (links : List (Bytes × Bytes)) (dir : Bytes) : Bytes → Bytes → Prop
  | here {a p} : comps p = comps dir ++ [a] → (∀ l ∈ links, comps l.1 ≠ comps p) → Leads links dir a a
  | link {a b c p} : (p, b) ∈ links → comps p = comps dir ++ [a] → Leads links dir b c → Leads links dir a c

end Muon.Names.Spec
