import Verif.Nlog.Model
/-
What the log is for: remembering, for each output, the last time stamp and command hash recorded.
-/
namespace Muon.Nlog.Spec
open Muon Muon.Nlog

/-- A record: an output, its time stamp and the hash of its command. -/
abbrev Entry := Bytes × Rec

/-- A record that can be written: the values fit 64 bits and the path has no tab, no line end and no NUL. -/
def Good (e : Entry) : Prop :=
  9 ∉ e.1 ∧ 10 ∉ e.1 ∧ 0 ∉ e.1 ∧ -2 ^ 63 ≤ e.2.mtime ∧ e.2.mtime < 2 ^ 63 ∧ e.2.hash < 2 ^ 64

instance (e : Entry) : Decidable (Good e) := by unfold Good; infer_instance

/-- What is known of an output after some records: the last of its records, or nothing if it has none. -/
def latest (rs : List Entry) (p : Bytes) : Rec :=
  match rs.reverse.find? (fun e => e.1 == p) with
  | some e => e.2
  | none => ⟨2, 0⟩

/-- The contents of a log to which records were written. -/
def written (rs : List Entry) : Bytes := header ++ rs.flatMap fun e => logrecord e.1 e.2

/-- `n` is the number of records that are complete in the first `k` bytes of a log. -/
def Complete (rs : List Entry) (k n : Nat) : Prop :=
  n ≤ rs.length ∧ (written (rs.take n)).length ≤ k ∧ (n < rs.length → k < (written (rs.take (n + 1))).length)

end Muon.Nlog.Spec
