import Verif.Script.Model
import Verif.Cmdline.Spec
/-
What command lines of scripts mean.
-/
namespace Muon.Script.Spec
open Muon
open Muon.Tdecl (Obj World)
open Muon.Cmdline.Spec (Leads)

/-- The words an argument stands for: a string is itself, a target a path that leads to its file from the build directory and is not looked for in `PATH`, a program its
command. -/
def Words (E : World) : Obj → List Bytes → Prop
  | .str s, w => w = [s]
  | .file p, w => w = [p]
  | .target d n _, w => ∃ x, w = [x] ∧ Leads E.build x (Path.join d n) ∧ 47 ∈ x
  | .custom _ (some outs), w => w = outs
  | .prog found cmd, w => found = true ∧ w = cmd
  | .python found cmd, w => found = true ∧ w = cmd
  | _, _ => False

/-- The words the program stands for: a string is the path of a file, from the directory of the build file if it is relative. -/
def First (E : World) (cwd : Bytes) : Obj → List Bytes → Prop
  | .str s, w => w = [if s.head? = some 47 then s else Path.join cwd s]
  | o, w => Words E o w

/-- All words of the arguments. -/
inductive Rest (E : World) : List Obj → List Bytes → Prop
  | nil : Rest E [] []
  | cons {o : Obj} {os : List Obj} {w ws : List Bytes} : Words E o w → Rest E os ws → Rest E (o :: os) (w ++ ws)

/-- A program with arguments of its own. -/
def wordy : Obj → Prop
  | .prog _ cmd => 2 ≤ cmd.length
  | .python _ cmd => 2 ≤ cmd.length
  | _ => False

/-- Is it made by the build? -/
def made : Obj → Bool
  | .target _ _ _ => true
  | .custom _ _ => true
  | _ => false

end Muon.Script.Spec
