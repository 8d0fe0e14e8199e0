import Verif.Hash.Lemmas
/-!
C03 (the hash table is a finite map) and C04 (probing terminates), for every hash function, every initial capacity
accepted by `ASSERT_VALID_CAP` (a power of two that is at least 8), and every history of operations.
-/
namespace Muon.Hash
open Muon
variable {K V : Type} [DecidableEq K] [Inhabited V]

/-- C03/C04: every history of `set`/`unset`/`clear` runs to completion (no probe loops forever, no assertion fails),
and afterwards looking up any key terminates and gives exactly what the finite map specified by the history gives. -/
theorem hash_refines_map (hash : K → UInt64) (cap : Nat) (h8 : 8 ≤ cap) (hp : ∃ k, cap = 2 ^ k)
    (ops : List (Op K V)) :
    ∃ h, run hash (init cap) ops = some h ∧ ∀ k, get hash h k = some (Spec.after ops k) := by
  obtain ⟨h, he, inv⟩ := run_ok hash ops (init cap) _ (inv_init hash cap h8 hp)
  exact ⟨h, he, get_eq hash h inv.wf inv.used_lt _ inv.rep⟩

/-- C03: iterating visits exactly the entries of the map, each key once, and `len` is their number. -/
theorem hash_forEach (hash : K → UInt64) (cap : Nat) (h8 : 8 ≤ cap) (hp : ∃ k, cap = 2 ^ k)
    (ops : List (Op K V)) :
    ∃ h, run hash (init cap) ops = some h ∧
      (∀ k v, (k, v) ∈ forEach h ↔ Spec.after ops k = some v) ∧
      ((forEach h).map Prod.fst).Nodup ∧ h.len = (forEach h).length := by
  obtain ⟨h, he, inv⟩ := run_ok hash ops (init cap) _ (inv_init hash cap h8 hp)
  refine ⟨h, he, fun k v => mem_forEach h _ inv.rep k v, forEach_keys_nodup hash h inv.wf _ (Nat.le_refl _), ?_⟩
  rw [inv.lenEq]
  exact (forEach_length hash h inv.wf _ (Nat.le_refl _)).symm

/-- C04: after any history there is always an empty slot, so that the probe sequence of *any* key, present or not,
stops after at most `cap` steps. -/
theorem hash_probe_terminates (hash : K → UInt64) (cap : Nat) (h8 : 8 ≤ cap) (hp : ∃ k, cap = 2 ^ k)
    (ops : List (Op K V)) (k : K) :
    ∃ h, run hash (init cap) ops = some h ∧ (∃ i < h.cap, h.ctrl i = kEmpty) ∧ ∃ i, probe hash h k = some i := by
  obtain ⟨h, he, inv⟩ := run_ok hash ops (init cap) _ (inv_init hash cap h8 hp)
  refine ⟨h, he, exists_empty _ _ inv.used_lt, ?_⟩
  have := get_eq hash h inv.wf inv.used_lt _ inv.rep k
  unfold get at this
  cases hpr : probe hash h k with
  | none => rw [hpr] at this; cases this
  | some i => exact ⟨i, rfl⟩

/-- The hypotheses are met by the initial capacity muon uses for its string tables (src/lang/workspace.c), and the
history below overwrites, deletes and re-inserts under a hash function with only collisions. -/
example : ∃ h, run (fun (_ : Nat) => 0) (init 16)
      [.set 1 10, .set 2 20, .set 1 11, .unset 2, .set 3 30, .unset 1, .set 2 22] = some h ∧
    get (fun _ => 0) h 2 = some (some 22) ∧ get (fun _ => 0) h 1 = some (none : Option Nat) := by
  obtain ⟨h, he, hg⟩ := hash_refines_map (K := Nat) (V := Nat) (fun _ => 0) 16 (by decide) ⟨4, rfl⟩
    [.set 1 10, .set 2 20, .set 1 11, .unset 2, .set 3 30, .unset 1, .set 2 22]
  exact ⟨h, he, hg 2, hg 1⟩

/-- C03 for string tables: `keycmp` is equality of strings that contain no NUL byte. -/
theorem strKeyEq_iff_partial (a b : Bytes) (h0 : ∀ x ∈ a, x ≠ 0) : strKeyEq a b = true ↔ a = b := by
  unfold strKeyEq
  constructor
  · intro h
    simp only [Bool.and_eq_true, beq_iff_eq] at h
    exact (strncmpEq_iff a b h.1 h0).1 h.2
  · rintro rfl
    simp only [Bool.and_eq_true, beq_iff_eq, true_and]
    exact (strncmpEq_iff a a rfl h0).2 rfl

example : strKeyEq (ascii "cc") (ascii "cc") = true ∧ strKeyEq (ascii "cc") (ascii "cd") = false := by decide

/-- With NUL bytes the claim is false: two different string keys can be identified. -/
theorem strKeyEq_nul_counterexample : ∃ a b : Bytes, a ≠ b ∧ strKeyEq a b = true :=
  ⟨[97, 0, 98], [97, 0, 99], by decide, by decide⟩

/-- C04: hashing a string key shorter than 65536 bytes terminates. -/
theorem fnv_terminates_partial (str : Nat → UInt8) (len : Nat) (hl : len < 65536) (seed : UInt64) :
    ∃ fuel r, fnvLoop len str fuel 0 seed = some r :=
  ⟨len + 1, fnvLoop_some len hl str len 0 seed (by simp)⟩

/-- C04 is false of string keys of 65536 bytes or more: the 16-bit counter wraps and hashing never ends, whatever the
number of iterations allowed. -/
theorem fnv_diverges (str : Nat → UInt8) (len : Nat) (hl : 65536 ≤ len) (seed : UInt64) :
    ∀ fuel, fnvLoop len str fuel 0 seed = none :=
  fun fuel => fnvLoop_none len hl str fuel 0 seed

end Muon.Hash
