import Verif.Htab.Lemmas
namespace Muon.Htab
open Muon

/-- Creating nodes for any paths, in any order and with any hash function, ends; two paths get the same node exactly
if they are equal. -/
theorem same_node_iff_same_path (hash : Bytes → UInt64) (ps : List Bytes) :
    ∃ h n vs, mknodes hash ps init 0 = some (h, n, vs) ∧ vs.length = ps.length ∧
      ∀ i j, i < ps.length → j < ps.length → (vs[i]? = vs[j]? ↔ ps[i]? = ps[j]?) := by
  obtain ⟨h, n, vs, nodes, e, hn, hl, hg, _, _⟩ := mknodes_ok (hash := hash) ps nodes_init
  refine ⟨h, n, vs, e, hl, ?_⟩
  intro i j hi hj
  rw [← hg i hi, ← hg j hj, List.getElem?_eq_getElem hi, List.getElem?_eq_getElem hj]
  constructor
  · intro he
    have hv : nodes ps[i] = some (vs[i]'(by omega)) := by rw [hg i hi, List.getElem?_eq_getElem]
    rw [hn.inj _ _ _ hv (he ▸ hv)]
  · intro he
    rw [Option.some.inj he]

/-- Afterwards a lookup ends and finds the node of a path, and finds nothing for a path that has no node. -/
theorem lookup_finds (hash : Bytes → UInt64) (ps : List Bytes) (h : Table) (n : Nat) (vs : List Nat)
    (hm : mknodes hash ps init 0 = some (h, n, vs)) :
    (∀ i, i < ps.length → nodeget hash h (ps.getD i []) = some vs[i]?) ∧ ∀ p, p ∉ ps → nodeget hash h p = some none := by
  obtain ⟨h', n', vs', nodes, e, hn, hl, hg, _, ho⟩ := mknodes_ok (hash := hash) ps nodes_init
  rw [e] at hm
  cases hm
  have key : ∀ p, nodeget hash h p = some (nodes p) := by
    intro p
    unfold nodeget
    rw [get_ok hn.inv]
    cases nodes p <;> rfl
  refine ⟨?_, ?_⟩
  · intro i hi
    rw [key, List.getD_eq_getElem?_getD, List.getElem?_eq_getElem hi, Option.getD_some, hg i hi]
  · intro p hp
    rw [key, ho p hp]

example : ∃ h n vs, mknodes (fun _ => 0) [ascii "a.o", ascii "b.o", ascii "a.o"] init 0 = some (h, n, vs) ∧ vs[0]? = vs[2]? ∧ vs[0]? ≠ vs[1]? := by
  obtain ⟨h, n, vs, e, _, hi⟩ := same_node_iff_same_path (fun _ => 0) [ascii "a.o", ascii "b.o", ascii "a.o"]
  refine ⟨h, n, vs, e, (hi 0 2 (by decide) (by decide)).2 (by decide), ?_⟩
  rw [ne_eq, hi 0 1 (by decide) (by decide)]
  decide

/-- A node that exists is never replaced: creating nodes for further paths gives the same numbers for the first ones. -/
theorem nodes_stable (hash : Bytes → UInt64) (ps qs : List Bytes) :
    ∃ h n vs h' n' ws, mknodes hash ps init 0 = some (h, n, vs) ∧ mknodes hash (ps ++ qs) init 0 = some (h', n', vs ++ ws) := by
  obtain ⟨h, n, vs, nodes, e, hn, _⟩ := mknodes_ok (hash := hash) ps nodes_init
  obtain ⟨h', n', ws, _, e', _⟩ := mknodes_ok (hash := hash) qs hn
  refine ⟨h, n, vs, h', n', ws, e, ?_⟩
  have happ : ∀ (ps : List Bytes) (t : Table) (k : Nat) {h n vs}, mknodes hash ps t k = some (h, n, vs) →
      mknodes hash qs h n = some (h', n', ws) → mknodes hash (ps ++ qs) t k = some (h', n', vs ++ ws) := by
    intro ps
    induction ps with
    | nil => intro t k h n vs h1 h2; cases h1; exact h2
    | cons p ps ih =>
      intro t k h n vs h1 h2
      simp only [mknodes, List.cons_append, Option.bind_eq_bind] at h1 ⊢
      cases hk : mknode hash t k p with
      | none => rw [hk] at h1; cases h1
      | some x =>
        obtain ⟨t1, n1, v⟩ := x
        rw [hk] at h1
        simp only [Option.bind_some] at h1 ⊢
        cases hr : mknodes hash ps t1 n1 with
        | none => rw [hr] at h1; cases h1
        | some y =>
          obtain ⟨t2, n2, v2⟩ := y
          rw [hr] at h1
          cases h1
          rw [ih t1 n1 hr h2]
          rfl
  exact happ ps init 0 e e'

end Muon.Htab
