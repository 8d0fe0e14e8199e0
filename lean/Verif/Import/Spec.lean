import Verif.Import.Model
/-
C116: which modules there are.
-/
namespace Muon.Import.Spec
open Muon

/-- The module can be used: it is a script that gives its functions, or one of those that are part of muon. -/
inductive Usable (S : Scripts) (n : Bytes) : Prop
  | script (fs : List Bytes) (h : S n = some (some fs))
  | own (h : S n = none) (m : n ∈ ["fs", "keyval", "pkgconfig", "python", "python3", "sourceset"].map ascii)

/-- Modules of Meson that muon knows only by name. -/
def OnlyName (S : Scripts) (n : Bytes) : Prop := S n = none ∧ n ∈ unimplemented

/-- The outcome of `import()`: the module if it is wanted and can be used; otherwise an error if it is required, and else a disabler or a module that is not there. -/
inductive Outcome (S : Scripts) (n : Bytes) (r : Feature.Req) (dis : Bool) : Res Val → Prop
  | found (m : Mod) (h : r ≠ .skip) (u : Usable S n) (f : m.found = true) (own : ∀ fs, S n = some (some fs) → m.exports = some fs)
      (nm : S n = none → m.name = n ∧ m.exports = none) : Outcome S n r dis (.ok (.module_ m))
  | error (h : r = .required) (u : ¬ Usable S n) : Outcome S n r dis .error
  | disabler (h : r = .skip ∨ r = .auto ∧ ¬ Usable S n) (d : dis = true) : Outcome S n r dis (.ok .disabler)
  | absent (m : Mod) (h : r = .skip ∨ r = .auto ∧ ¬ Usable S n) (d : dis = false) (f : m.found = false) (e : m.exports = none) : Outcome S n r dis (.ok (.module_ m))

end Muon.Import.Spec
