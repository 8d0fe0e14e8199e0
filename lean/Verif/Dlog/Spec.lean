import Verif.Dlog.Model
/-
What the dependency log is for: remembering, for each output, the dependencies found when it was last built.
-/
namespace Muon.Dlog.Spec
open Muon Muon.Dlog

/-- An output, its dependencies and its time stamp when it was built. -/
structure Op where
  out : Bytes
  deps : List Bytes
  mtime : Int
deriving DecidableEq, Repr

/-- A path that can be written: not empty and without NUL. -/
def GoodPath (p : Bytes) : Prop := p ≠ [] ∧ 0 ∉ p

instance (p : Bytes) : Decidable (GoodPath p) := by unfold GoodPath; infer_instance

/-- A record that can be written. -/
def Good (o : Op) : Prop := GoodPath o.out ∧ (∀ d ∈ o.deps, GoodPath d) ∧ -2 ^ 63 ≤ o.mtime ∧ o.mtime < 2 ^ 63

instance (o : Op) : Decidable (Good o) := by unfold Good; infer_instance

/-- The dependencies and the time stamp in the last record of an output; none and 0 if it has no record. -/
def latest (rs : List Op) (p : Bytes) : List Bytes × Int :=
  match rs.reverse.find? (fun o => o.out == p) with
  | some o => (o.deps, o.mtime)
  | none => ([], 0)

/-- Recording builds, one after another. -/
def writeAll (w : W) : List Op → Res W
  | [] => .ok w
  | o :: rs => record w o.out o.deps o.mtime >>= fun w => writeAll w rs

/-- What the entries read from a log say of an output. -/
def recovered (E : List Entry) (p : Bytes) : List Bytes × Int :=
  match E.find? (fun e => e.node == p) with
  | some e => (e.deps, e.mtime)
  | none => ([], 0)

end Muon.Dlog.Spec
