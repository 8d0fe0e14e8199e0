import Verif.Python.Model
/-
C117: installations of Python.
-/
namespace Muon.Python.Spec
open Muon

/-- The installation can be used: there is such a command, and it can import all modules that were asked for. -/
def Good (W : World) (cmd : Bytes) (mods : List Bytes) : Prop :=
  (W.find cmd).1 = true ∧ ∀ m ∈ mods, ∃ out, W.run [(W.find cmd).2, ascii "-c", ascii "import " ++ m] = some (0, out)

/-- The first line of a text: up to the first newline. -/
inductive FirstLine : Bytes → Option Bytes → Prop
  | line (l rest : Bytes) (h : 10 ∉ l) (h0 : 0 ∉ l) : FirstLine (l ++ 10 :: rest) (some l)
  | none (l : Bytes) (h : 10 ∉ l) : FirstLine l none

/-- What the command says about itself: the version is the first line it prints, paths and variables are what it prints as JSON. -/
structure Says (W : World) (path : Bytes) (v : Option Bytes) (ps vs : List (Bytes × Bytes)) : Prop where
  version : ∃ o, W.run [path, ascii "-c", srcVersion] = some (0, o) ∧ FirstLine o v
  paths : ∃ o, W.run [path, ascii "-c", srcPaths] = some (0, o) ∧ W.json o = some ps
  vars : ∃ o, W.run [path, ascii "-c", srcVars] = some (0, o) ∧ W.json o = some vs

/-- The outcome of `find_installation()` for a command that, if it is there, says what it is. -/
inductive Outcome (W : World) (cmd : Bytes) (mods : List Bytes) (r : Feature.Req) (dis : Bool) : Res Val → Prop
  | found (i : Inst) (h : r ≠ .skip) (g : Good W cmd mods) (f : i.found = true) (c : i.cmd = (W.find cmd).2) (s : Says W i.cmd i.version i.paths i.vars) :
      Outcome W cmd mods r dis (.ok (.inst i))
  | error (h : r = .required) (g : ¬ Good W cmd mods) : Outcome W cmd mods r dis .error
  | disabler (h : r = .skip ∨ r = .auto ∧ ¬ Good W cmd mods) (d : dis = true) : Outcome W cmd mods r dis (.ok .disabler)
  | absent (i : Inst) (h : r = .skip ∨ r = .auto ∧ ¬ Good W cmd mods) (d : dis = false) (f : i.found = false) : Outcome W cmd mods r dis (.ok (.inst i))

end Muon.Python.Spec
