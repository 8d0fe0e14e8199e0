import Verif.Arr.Lemmas
/-
Property C32: arrays.
-/
namespace Muon.Arr
open Muon

/-- For every sequence of operations, what a client sees of each variable (iterating, the length, indexing) is what it
would see if the variables held sequences; and no operation fails or hangs. This excludes deleting the first of two
elements. -/
theorem arrays_partial (ops : List Op) (ls : List (List Nat)) (hs : Spec.run [] ops = some ls) (ha : Spec.Avoids [] ops) :
    ∃ st, run {} ops = some st ∧ st.vars.length = ls.length ∧ ∀ (x a : Nat) (l : List Nat), st.vars[x]? = some a → ls[x]? = some l →
      contents st.heap a = some l ∧ (st.heap.cell a).len = l.length ∧ ∀ i, i < l.length → index st.heap a i = l[i]? := by
  obtain ⟨st, h1, h2, F, h3, _⟩ := run_spec ops (st := {}) ⟨rfl, fun _ => [], by simp, by simp⟩ hs ha
  exact ⟨st, h1, h2, fun x a l hx hl => ⟨contents_spec (h3 x a l hx hl), (h3 x a l hx hl).len, fun i hi => index_spec (h3 x a l hx hl) hi⟩⟩

/-- Popping returns the last element. -/
theorem pop_last (ops : List Op) (ls : List (List Nat)) (hs : Spec.run [] ops = some ls) (ha : Spec.Avoids [] ops) :
    ∃ st, run {} ops = some st ∧ ∀ (x a : Nat) (l : List Nat), st.vars[x]? = some a → ls[x]? = some l → l ≠ [] → ∃ h', (pop st.heap a) = (l.getLast?).map fun v => (v, h') := by
  obtain ⟨st, h1, h2, F, h3, _⟩ := run_spec ops (st := {}) ⟨rfl, fun _ => [], by simp, by simp⟩ hs ha
  refine ⟨st, h1, fun x a l hx hl hne => ?_⟩
  obtain ⟨h', _, v, e1, e2, _⟩ := pop_spec (h3 x a l hx hl) hne
  exact ⟨h', by rw [e1, e2]; rfl⟩

example : Spec.run [] [.new, .push 0 5, .push 0 6, .prepend 0 4, .dup 0, .extend 0 1, .extend 1 1, .set 1 0 9, .del 0 0, .pop 1, .slice 0 1 2] =
    some [[5, 6, 4, 5, 6], [9, 5, 6, 4, 5], [6, 4]] := by decide
example : Spec.Avoids [] [.new, .push 0 5, .push 0 6, .prepend 0 4, .del 0 0] := by
  simp [Spec.Avoids, Spec.deletesFirstOfTwo, Spec.step]

/-- After deleting the first of two elements, pushing has no effect on what iterating shows, although the length grows. -/
theorem arrays_del_counterexample :
    Spec.run [] [.new, .push 0 5, .push 0 6, .del 0 0, .push 0 7] = some [[6, 7]] ∧
    (run {} [.new, .push 0 5, .push 0 6, .del 0 0, .push 0 7]).map (fun st => (contents st.heap 0, (st.heap.cell 0).len, index st.heap 0 1)) =
      some (some [6], 2, some 0) := by decide +kernel

/-- The tail of an array with several elements has the length of the array. -/
theorem arrays_tail_counterexample :
    (run {} [.new, .push 0 5, .push 0 6]).map (fun st => (contents (tail st.heap 0).2 (tail st.heap 0).1, ((tail st.heap 0).2.cell (tail st.heap 0).1).len)) =
      some (some [6], 2) := by decide +kernel

/-- Extending without a copy makes two arrays share storage: pushing to the first then shows in the second. -/
theorem arrays_extend_nodup_counterexample :
    ((run {} [.new, .push 0 5, .new, .push 1 6]).bind fun st => (extendNodup st.heap 0 1).bind fun h => (push h 0 7).map fun h => contents h 1) =
      some (some [6, 7]) := by decide +kernel

end Muon.Arr
