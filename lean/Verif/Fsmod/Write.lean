import Verif.Fsmod.Props
/-
C102: what `fs.write` and `fs.exists` do that is not said in Props.
-/
namespace Muon.Fsmod
open Muon Muon.Fsmod.Spec
open Muon.Path.Spec

/-- C102: `fs.exists('~')` looks at the home directory. -/
theorem lookup_home (E : Env) (probe : Bytes → Bool) (h : Bytes) (hh : E.home = some h) (ho : Ok h) :
    lookup E probe (.str [126]) = .ok (probe (render (isAbs h) (cancel (comps h)))) := by
  have := expanduser_home E h hh ho
  unfold expanduser at this
  unfold lookup
  rw [this]
  rfl

/-- C102: `fs.write` fails exactly if the file cannot be written. -/
theorem write_iff_partial (E : Env) (ok : Bytes → Bool) (files : Bytes → Option Bytes) (a : Arg) (data : Bytes) (ha : Ok a.text) (hc : Ok E.cwd)
    (ta : a.text.head? ≠ some 126) :
    (write E ok files a data = .error ↔ ok (canonIn E.cwd a.text) = false) ∧ write E ok files a data ≠ .bad := by
  unfold write
  rw [fixPath_spec E _ a (.inl rfl) ha hc rfl (fun _ => ta), Res.ok_bind]
  cases ok (canonIn E.cwd a.text) <;> simp

end Muon.Fsmod
