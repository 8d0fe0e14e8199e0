import Verif.Tree.Lemmas
namespace Muon.Tree
open Muon
variable {V : Type}

theorem lastValue_snoc (l : List (Bytes × V)) (k : Bytes) (v : V) (k' : Bytes) :
    lastValue (l ++ [(k, v)]) k' = if k' = k then some v else lastValue l k' := by
  unfold lastValue
  rw [List.filter_append]
  by_cases h : k' = k
  · subst h; simp
  · have : (k == k') = false := by simpa using fun e => h e.symm
    simp [this, h]

theorem insertAll_append (t : Tree V) (l m : List (Bytes × V)) : insertAll t (l ++ m) = (insertAll t l >>= fun t => insertAll t m) := by
  induction l generalizing t with
  | nil => rfl
  | cons p l ih =>
    obtain ⟨k, v⟩ := p
    simp only [List.cons_append, insertAll]
    cases insert t k v with
    | ok q => obtain ⟨t', _⟩ := q; exact ih t'
    | error => rfl
    | bad => rfl

/-- The invariant of trees built by insertion. -/
theorem insertAll_inv (l : List (Bytes × V)) (hl : l.length < 2 ^ 64) : ∃ t, insertAll .nil l = .ok t ∧ Bal t ∧ Sorted (entries t) ∧
    (entries t).length ≤ l.length ∧ ∀ k, find k t = lastValue l k := by
  obtain ⟨r, rfl⟩ : ∃ r : List (Bytes × V), l = r.reverse := ⟨l.reverse, by simp⟩
  induction r with
  | nil => exact ⟨.nil, rfl, trivial, List.Pairwise.nil, by simp [entries], fun _ => rfl⟩
  | cons p r ih =>
    obtain ⟨k, v⟩ := p
    rw [List.reverse_cons] at hl ⊢
    rw [List.length_append, List.length_singleton] at hl
    obtain ⟨t, e, b, s, n, f⟩ := ih (by omega)
    obtain ⟨t', go, ei, b', _⟩ := ins_bal k v t b
    obtain ⟨s', f', n'⟩ := ins_spec s ei
    refine ⟨t', ?_, b', s', ?_, ?_⟩
    · rw [insertAll_append, e]
      simp only [Res.ok_bind, insertAll, insert_eq k v t (bal_maxH b (by omega)), ei]
    · rw [n', List.length_append, List.length_singleton]
      split <;> omega
    · intro k'
      rw [f', f, lastValue_snoc]

/-- After any sequence of insertions into an empty table, looking up a key gives the last value inserted for it, and
nothing for a key that was not inserted. No insertion fails or writes outside the array of ancestors (in a computer with 64 bit
addresses, the number of insertions is less than 2^64). -/
theorem find_last (l : List (Bytes × V)) (hl : l.length < 2 ^ 64) :
    ∃ t, insertAll .nil l = .ok t ∧ ∀ k, find k t = lastValue l k := by
  obtain ⟨t, e, _, _, _, f⟩ := insertAll_inv l hl
  exact ⟨t, e, f⟩

example : ∃ t, insertAll .nil [(ascii "cc", 1), (ascii "flags", 2), (ascii "cc", 3)] = .ok t ∧ find (ascii "cc") t = some 3 ∧
    find (ascii "flags") t = some 2 ∧ find (ascii "c") t = none := by
  obtain ⟨t, e, f⟩ := find_last [(ascii "cc", 1), (ascii "flags", 2), (ascii "cc", 3)] (by decide)
  exact ⟨t, e, by rw [f]; decide, by rw [f]; decide, by rw [f]; decide⟩

/-- An insertion returns the value that the key had before. -/
theorem insert_returns_old (l : List (Bytes × V)) (hl : l.length < 2 ^ 64) (k : Bytes) (v : V) :
    ∃ t t', insertAll .nil l = .ok t ∧ insert t k v = .ok (t', lastValue l k) := by
  obtain ⟨t, e, b, s, n, f⟩ := insertAll_inv l hl
  obtain ⟨t', go, ei, _⟩ := ins_bal k v t b
  exact ⟨t, t', e, by rw [insert_eq k v t (bal_maxH b (by omega)), ei, f]⟩

/-- The table is shallow: a tree made by `n` insertions has depth at most 2 log2 (n + 1). -/
theorem depth_log (l : List (Bytes × V)) (hl : l.length < 2 ^ 64) (t : Tree V) (h : insertAll .nil l = .ok t) :
    2 ^ (depth t / 2) ≤ l.length + 1 := by
  obtain ⟨t', e, b, _, n, _⟩ := insertAll_inv l hl
  rw [e] at h
  cases h
  rw [b.depth]
  have h1 := b.least
  have h2 := least_exp (height t)
  omega

/-- The array of ancestors, which has 96 entries, has one entry more than there are nodes on the way down; it never
overflows. -/
theorem no_overflow (l : List (Bytes × V)) (hl : l.length < 2 ^ 64) (t : Tree V) (h : insertAll .nil l = .ok t) :
    depth t + 1 ≤ maxH := by
  obtain ⟨t', e, b, _, n, _⟩ := insertAll_inv l hl
  rw [e] at h
  cases h
  exact bal_maxH b (by omega)

example : ∃ t, insertAll .nil ((List.range 40).map (fun i => ([UInt8.ofNat i], i))) = .ok t ∧ depth t = 6 := by
  obtain ⟨t, e, _⟩ := find_last ((List.range 40).map (fun i => ([UInt8.ofNat i], i))) (by decide)
  refine ⟨t, e, ?_⟩
  have : (match insertAll .nil ((List.range 40).map (fun i => ([UInt8.ofNat i], i))) with | .ok t => depth t == 6 | _ => false) = true := by
    decide +kernel
  rw [e] at this
  simpa using this

end Muon.Tree
