import Verif.Val.Lemmas
import Verif.Hash.Props
/-
C34, C35: equality of objects, and de-duplication.
-/
namespace Muon.Val
open Muon Spec

theorem equal_ge {h : Heap} {a b : Nat} {va vb : Val} (ha : Holds h a va) (hb : Holds h b vb) :
    ∃ f, ∀ g ≥ f, ∃ r, equal h g a b = some r ∧ (r = true ↔ Same va vb) := by
  obtain ⟨f, hf⟩ := ha
  obtain ⟨f', hf'⟩ := hb
  exact ⟨max f f', fun g hg => equal_spec h g a b va vb (valOf_mono (by omega) hf) (valOf_mono (by omega) hf')⟩

/-- C34: comparing objects that hold values ends and says whether the values are equal. -/
theorem equal_values (h : Heap) (a b : Nat) (va vb : Val) (ha : Holds h a va) (hb : Holds h b vb) :
    ∃ r, (∃ f, ∀ g ≥ f, equal h g a b = some r) ∧ (r = true ↔ Same va vb) := by
  obtain ⟨f, H⟩ := equal_ge ha hb
  obtain ⟨r, _, hs⟩ := H f (Nat.le_refl f)
  refine ⟨r, ⟨f, fun g hg => ?_⟩, hs⟩
  obtain ⟨r', hr', hs'⟩ := H g hg
  have : r' = r := by
    cases r <;> cases r' <;> simp_all
  rw [hr', this]

/-- C34: equality of values is an equivalence relation; so comparing objects is. -/
theorem equal_equivalence (h : Heap) :
    (∀ a v, Holds h a v → ∃ f, ∀ g ≥ f, equal h g a a = some true) ∧
    (∀ a b v w, Holds h a v → Holds h b w → ∃ f, ∀ g ≥ f, equal h g a b = equal h g b a) ∧
    (∀ a b c u v w, Holds h a u → Holds h b v → Holds h c w →
      ∃ f, ∀ g ≥ f, equal h g a b = some true → equal h g b c = some true → equal h g a c = some true) := by
  refine ⟨fun a v hv => ?_, fun a b v w hv hw => ?_, fun a b c u v w hu hv hw => ?_⟩
  · obtain ⟨f, H⟩ := equal_ge hv hv
    refine ⟨f, fun g hg => ?_⟩
    obtain ⟨r, hr, hs⟩ := H g hg
    rw [hr, hs.2 (same_refl v)]
  · obtain ⟨f, H⟩ := equal_ge hv hw
    obtain ⟨f', H'⟩ := equal_ge hw hv
    refine ⟨max f f', fun g hg => ?_⟩
    obtain ⟨r, hr, hs⟩ := H g (by omega)
    obtain ⟨r', hr', hs'⟩ := H' g (by omega)
    rw [hr, hr']
    congr 1
    have : r = true ↔ r' = true := hs.trans (⟨same_symm, same_symm⟩ : Same v w ↔ Same w v) |>.trans hs'.symm
    cases r <;> cases r' <;> simp_all
  · obtain ⟨f1, H1⟩ := equal_ge hu hv
    obtain ⟨f2, H2⟩ := equal_ge hv hw
    obtain ⟨f3, H3⟩ := equal_ge hu hw
    refine ⟨max f1 (max f2 f3), fun g hg h1 h2 => ?_⟩
    obtain ⟨r1, hr1, hs1⟩ := H1 g (by omega)
    obtain ⟨r2, hr2, hs2⟩ := H2 g (by omega)
    obtain ⟨r3, hr3, hs3⟩ := H3 g (by omega)
    rw [h1] at hr1
    rw [h2] at hr2
    have e1 := hs1.1 (Option.some.inj hr1).symm
    have e2 := hs2.1 (Option.some.inj hr2).symm
    rw [hr3, hs3.2 (same_trans e1 e2)]

/-- C34: `in` for an array says whether it has an element with an equal value. -/
theorem in_array (h : Heap) (v a : Nat) (l : List Nat) (val : Val) (vals : List Val) (ha : h.obj a = .arr l) (hv : Holds h v val) (hl : Holds h a (.arr vals)) :
    ∃ r, (∃ f, ∀ g ≥ f, arrayIn h g l v = some r) ∧ (r = true ↔ ∃ w ∈ vals, Same val w) := by
  obtain ⟨f, hf⟩ := hv
  obtain ⟨f', hf'⟩ := hl
  have H : ∀ g ≥ max f f', ∃ r, arrayIn h g l v = some r ∧ (r = true ↔ ∃ w ∈ vals, Same val w) := by
    intro g hg
    have h1 := valOf_mono (show f' ≤ g + 1 by omega) hf'
    unfold valOf at h1
    rw [ha] at h1
    dsimp only at h1
    cases hm : l.mapM (valOf h g) with
    | none => rw [hm] at h1; cases h1
    | some vs =>
      rw [hm] at h1
      cases h1
      obtain ⟨hm1, hm2⟩ := mapM_some.1 hm
      have hr : ∀ x ∈ l, ∃ w ∈ vals, valOf h g x = some w := by
        intro x hx
        obtain ⟨i, hi, rfl⟩ := List.getElem_of_mem hx
        have hi' : i < vals.length := by omega
        exact ⟨vals[i], List.getElem_mem hi', by rw [hm2 i _ (List.getElem?_eq_getElem hi), List.getElem?_eq_getElem hi']⟩
      obtain ⟨r, hr1, hr2⟩ := arrayIn_spec h g v val (valOf_mono (by omega) hf) l fun x hx => by
        obtain ⟨w, _, hw⟩ := hr x hx; exact ⟨w, hw⟩
      refine ⟨r, hr1, hr2.trans ⟨?_, ?_⟩⟩
      · rintro ⟨x, hx, w, hw, hs⟩
        obtain ⟨w', hw', e⟩ := hr x hx
        rw [hw] at e; cases e
        exact ⟨w, hw', hs⟩
      · rintro ⟨w, hw, hs⟩
        obtain ⟨i, hi, rfl⟩ := List.getElem_of_mem hw
        have hi' : i < l.length := by omega
        exact ⟨l[i], List.getElem_mem hi', vals[i], by rw [hm2 i _ (List.getElem?_eq_getElem hi'), List.getElem?_eq_getElem hi], hs⟩
  obtain ⟨r, _, hs⟩ := H _ (Nat.le_refl _)
  refine ⟨r, ⟨max f f', fun g hg => ?_⟩, hs⟩
  obtain ⟨r', hr', hs'⟩ := H g hg
  have : r' = r := Bool.eq_iff_iff.2 (hs'.trans hs.symm)
  rw [hr', this]

/-- C35: de-duplication keeps exactly the elements whose value is not equal to that of an earlier one, in order; whatever the table of seen objects was used for
before, and whatever the hash function. -/
theorem dedup_firsts (hash : Nat → UInt64) (ops : List (Hash.Op Nat Nat)) (t : Hash.Table Nat Nat) (ht : Hash.run hash (Hash.init 128) ops = some t)
    (h : Heap) (l : List Nat) (vals : List Val) (hl : ∃ f, l.mapM (valOf h f) = some vals) :
    ∃ f, ∀ g ≥ f, dedup hash h g t l = some ((firsts vals).filterMap (l[·]?)) := by
  obtain ⟨f, hf⟩ := hl
  refine ⟨f, fun g hg => ?_⟩
  obtain ⟨t', ht', I⟩ := Hash.run_ok hash ops (Hash.init 128) _ (Hash.inv_init hash 128 (by decide) ⟨7, rfl⟩)
  rw [ht] at ht'
  cases ht'
  have := dedupLoop_spec hash h g l [] vals [] (Hash.clear t) (fun _ => none) [] (Hash.clear_ok hash t _ I) (by simp) rfl
    (mapM_mono (fun x v hx => valOf_mono hg hx) hf) (by simp [firsts])
  simpa [dedup] using this

/-- C34 fails for objects that contain themselves (which `a += [a]` creates): comparing two of them never ends. -/
theorem equal_cyclic_counterexample : ∃ (h : Heap) (a b : Nat), a ≠ b ∧ h.obj a = .arr [a] ∧ h.obj b = .arr [b] ∧ ∀ f, equal h f a b = none := by
  refine ⟨⟨fun i => .arr [i], 6⟩, 4, 5, by decide, rfl, rfl, fun f => ?_⟩
  induction f with
  | zero => rfl
  | succ f ih =>
    show (if (4 : Nat) = 5 then some true else if ([4] : List Nat).length = ([5] : List Nat).length then equalArr (equal ⟨fun i => .arr [i], 6⟩ f) [5] [4] 0 else some false) = none
    rw [if_neg (by decide), if_pos (by decide)]
    show (match equal ⟨fun i => .arr [i], 6⟩ f 4 5 with | some true => _ | res => res) = none
    rw [ih]

/-! Examples -/

/-- Objects 6 and 9 are dictionaries with the same entries in different order; their values are arrays with equal elements. -/
def exHeap : Heap where
  obj i := ([.other 0, .other 1, .num 1, .num 1, .arr [2, 3], .arr [3, 2], .dict [(ascii "a", 4), (ascii "b", 2)], .dict [(ascii "b", 3), (ascii "a", 5)], .str (ascii "x")] : List Obj).getD i (.other 0)
  next := 9

example : Holds exHeap 6 (.dict [(ascii "a", .arr [.num 1, .num 1]), (ascii "b", .num 1)]) := ⟨4, rfl⟩
example : Holds exHeap 7 (.dict [(ascii "b", .num 1), (ascii "a", .arr [.num 1, .num 1])]) := ⟨4, rfl⟩
example : equal exHeap 4 6 7 = some true := by decide +kernel
example : equal exHeap 4 4 2 = some false := by decide +kernel
example : ∃ f, ([2, 3, 4, 8, 5, 6, 7, 2] : List Nat).mapM (valOf exHeap f) = some [.num 1, .num 1, .arr [.num 1, .num 1], .str (ascii "x"), .arr [.num 1, .num 1],
    .dict [(ascii "a", .arr [.num 1, .num 1]), (ascii "b", .num 1)], .dict [(ascii "b", .num 1), (ascii "a", .arr [.num 1, .num 1])], .num 1] := ⟨4, rfl⟩
example : dedup (fun n => n.toUInt64) exHeap 4 (Hash.init 128) [2, 3, 4, 8, 5, 6, 7, 2] = some [2, 4, 8, 6] := by decide +kernel

end Muon.Val
