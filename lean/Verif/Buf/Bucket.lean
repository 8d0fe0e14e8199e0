import Verif.Buf.Arr
/-
Bucket arrays: regions once handed out keep their place and content.
-/
namespace Muon.Buf
open Muon

/-- A bucket of the right size with nothing but zeros behind its items. -/
structure BkOk {α : Type} (zero : α) (size : Nat) (k : Bk α) : Prop where
  mem : k.mem.length = size
  le : k.len ≤ size
  clean : ∀ j, k.len ≤ j → j < size → k.mem[j]? = some zero

structure Inv {α : Type} (zero : α) (b : B α) : Prop where
  pos : 0 < b.size
  tail : b.tail < b.buckets.length
  ok : ∀ k ∈ b.buckets, BkOk zero b.size k
  after : ∀ j k, b.tail < j → b.buckets[j]? = some k → k.len = 0
  len : b.len = (b.buckets.map Bk.len).sum

/-- What was in `b` is in `b'` at the same places. -/
structure Ext {α : Type} (b b' : B α) : Prop where
  size : b'.size = b.size
  tail : b.tail ≤ b'.tail
  keep : ∀ j k, b.buckets[j]? = some k → ∃ k', b'.buckets[j]? = some k' ∧ k.len ≤ k'.len ∧ k'.mem.take k.len = k.mem.take k.len ∧
    (j < b.tail → k' = k)

theorem Ext.refl {α : Type} (b : B α) : Ext b b := ⟨rfl, Nat.le_refl _, fun _ k h => ⟨k, h, Nat.le_refl _, rfl, fun _ => rfl⟩⟩

theorem Ext.trans {α : Type} {a b d : B α} (h1 : Ext a b) (h2 : Ext b d) : Ext a d := by
  refine ⟨h2.size.trans h1.size, Nat.le_trans h1.tail h2.tail, ?_⟩
  intro j k hk
  obtain ⟨k1, e1, l1, t1, f1⟩ := h1.keep j k hk
  obtain ⟨k2, e2, l2, t2, f2⟩ := h2.keep j k1 e1
  refine ⟨k2, e2, Nat.le_trans l1 l2, ?_, ?_⟩
  · have : (k2.mem.take k1.len).take k.len = (k1.mem.take k1.len).take k.len := by rw [t2]
    rw [List.take_take, List.take_take, Nat.min_eq_left l1] at this
    rw [this, t1]
  · intro hj
    rw [f2 (Nat.lt_of_lt_of_le hj h1.tail), f1 hj]

/-- The items at a place. -/
def region {α : Type} (b : B α) (p : Nat × Nat) (n : Nat) : Option (List α) :=
  (b.buckets[p.1]?).map fun k => (k.mem.drop p.2).take n

/-- A place that was handed out. -/
def Within {α : Type} (b : B α) (p : Nat × Nat) (n : Nat) : Prop := ∃ k, b.buckets[p.1]? = some k ∧ p.2 + n ≤ k.len

theorem region_ext {α : Type} {b b' : B α} (h : Ext b b') (p : Nat × Nat) (n : Nat) (hw : Within b p n) :
    region b' p n = region b p n ∧ Within b' p n := by
  obtain ⟨k, hk, hn⟩ := hw
  obtain ⟨k', hk', hl, ht, -⟩ := h.keep _ k hk
  refine ⟨?_, k', hk', by omega⟩
  unfold region
  rw [hk, hk']
  have e : ∀ m : List α, (m.drop p.2).take n = ((m.take k.len).drop p.2).take n := by
    intro m
    rw [List.drop_take, List.take_take, Nat.min_eq_left (by omega)]
  simp only [Option.map_some]
  rw [e k'.mem, e k.mem, ht]

theorem newBk_ok {α : Type} (zero : α) (size : Nat) : BkOk zero size (newBk zero size) := by
  refine ⟨by simp [newBk], Nat.zero_le _, ?_⟩
  intro j _ hj
  simp only [newBk]
  rw [List.getElem?_replicate, if_pos hj]

theorem inv_init {α : Type} (zero : α) (size : Nat) (h : 0 < size) : Inv zero (bInit zero size) := by
  refine ⟨h, by simp [bInit], ?_, ?_, rfl⟩
  · intro k hk
    simp only [bInit, List.mem_singleton] at hk
    rw [hk]; exact newBk_ok zero size
  · intro j k hj hk
    simp only [bInit] at hj hk
    rw [List.getElem?_eq_none (by simp; omega)] at hk; cases hk

/-- Making room. -/
theorem bRoom_ok {α : Type} (zero : α) (b : B α) (h : Inv zero b) (reserve : Nat) (hr : reserve < b.size) :
    ∃ b' k, bRoom zero b reserve = .ok b' ∧ Inv zero b' ∧ Ext b b' ∧ b'.buckets[b'.tail]? = some k ∧ k.len + reserve ≤ b'.size ∧
      (∀ k0, b.buckets[b'.tail]? = some k0 → k0 = k) ∧
      ((b' = b) ∨ (b'.tail = b.tail + 1 ∧ k.len = 0 ∧ ∃ k0, b.buckets[b.tail]? = some k0 ∧ k0.len + reserve > b.size)) := by
  obtain ⟨k, hk⟩ : ∃ k, b.buckets[b.tail]? = some k := ⟨_, List.getElem?_eq_getElem h.tail⟩
  unfold bRoom
  rw [hk]
  dsimp only
  by_cases hc : k.len + reserve > b.size
  · rw [if_pos hc]
    by_cases ht : b.tail ≥ b.buckets.length - 1
    · rw [if_pos ht]
      have htl := h.tail
      have hl : b.tail + 1 = b.buckets.length := by omega
      refine ⟨_, newBk zero b.size, rfl, ⟨h.pos, ?_, ?_, ?_, ?_⟩, ⟨rfl, Nat.le_succ _, ?_⟩, ?_, ?_, ?_, .inr ⟨rfl, rfl, k, rfl, hc⟩⟩
      · simp only [List.length_append, List.length_singleton]; omega
      · intro k' hk'
        simp only [List.mem_append, List.mem_singleton] at hk'
        rcases hk' with hk' | rfl
        · exact h.ok k' hk'
        · exact newBk_ok zero b.size
      · intro j k' hj hk'
        dsimp only at hj hk'
        rw [List.getElem?_eq_none (by simp; omega)] at hk'; cases hk'
      · simp only [List.map_append, List.sum_append, List.map_cons, List.map_nil, newBk]
        rw [h.len]; simp
      · intro j k' hk'
        refine ⟨k', ?_, Nat.le_refl _, rfl, fun _ => rfl⟩
        dsimp only
        rw [List.getElem?_append_left (List.getElem?_eq_some_iff.mp hk').1, hk']
      · dsimp only; rw [hl, List.getElem?_append_right (Nat.le_refl _)]; simp
      · simp only [newBk]; omega
      · intro k0 hk0
        dsimp only at hk0
        rw [List.getElem?_eq_none (by omega)] at hk0; cases hk0
    · rw [if_neg ht]
      have hl : b.tail + 1 < b.buckets.length := by omega
      obtain ⟨k', hk'⟩ : ∃ k', b.buckets[b.tail + 1]? = some k' := ⟨_, List.getElem?_eq_getElem hl⟩
      have h0 := h.after _ k' (Nat.lt_succ_self _) hk'
      rw [hk']
      dsimp only
      rw [if_pos h0]
      refine ⟨_, k', rfl, ⟨h.pos, hl, h.ok, ?_, h.len⟩, ⟨rfl, Nat.le_succ _, ?_⟩, hk', ?_, ?_, .inr ⟨rfl, h0, k, rfl, hc⟩⟩
      · intro j k2 hj hk2; exact h.after j k2 (by dsimp only at hj; omega) hk2
      · intro j k2 hk2
        exact ⟨k2, hk2, Nat.le_refl _, rfl, fun _ => rfl⟩
      · dsimp only; omega
      · intro k0 hk0
        dsimp only at hk0
        rw [hk'] at hk0; cases hk0; rfl
  · rw [if_neg hc]
    refine ⟨b, k, rfl, h, Ext.refl b, hk, by omega, ?_, .inl rfl⟩
    intro k0 hk0
    rw [hk] at hk0; cases hk0; rfl

theorem sum_set (l : List Nat) (i x y : Nat) (h : l[i]? = some x) (hxy : x ≤ y) : (l.set i y).sum = l.sum + (y - x) := by
  induction l generalizing i with
  | nil => cases h
  | cons a l ih =>
    cases i with
    | zero => cases h; simp; omega
    | succ i => simp only [List.set_cons_succ, List.sum_cons]; rw [ih i (by simpa using h)]; omega

/-- A request is given a place of its own, which holds the data and zeros behind it; everything else stays as it was. -/
theorem pushn_ok {α : Type} (zero : α) (b : B α) (h : Inv zero b) (data : List α) (reserve : Nat) (h1 : data.length ≤ reserve)
    (h2 : reserve < b.size) :
    ∃ b' p, pushn zero b data reserve = .ok (b', p) ∧ Inv zero b' ∧ Ext b b' ∧
      region b' p reserve = some (data ++ List.replicate (reserve - data.length) zero) ∧ Within b' p reserve ∧
      (∀ k, b.buckets[p.1]? = some k → k.len ≤ p.2) ∧ b'.len = b.len + reserve ∧
      ((p.1 = b.tail ∧ ∃ k0, b.buckets[b.tail]? = some k0 ∧ p.2 = k0.len ∧ k0.len + reserve ≤ b.size) ∨
       (p.1 = b.tail + 1 ∧ p.2 = 0 ∧ ∃ k0, b.buckets[b.tail]? = some k0 ∧ k0.len + reserve > b.size)) ∧ b'.tail = p.1 ∧
      ∃ k', b'.buckets[p.1]? = some k' ∧ k'.len = p.2 + reserve := by
  obtain ⟨b1, k, e, hi, hx, hk, hroom, hsame, hwhere⟩ := bRoom_ok zero b h reserve h2
  have hkok := hi.ok k (List.mem_of_getElem? hk)
  unfold pushn
  rw [if_pos ⟨h1, h2⟩, e, Res.ok_bind, hk]
  dsimp only
  have hw : k.len + data.length ≤ k.mem.length := by rw [hkok.mem]; omega
  rw [write_ok _ _ _ hw, Res.ok_bind]
  have hlen1 : b1.len = b.len := by
    rcases hwhere with rfl | ⟨-, -, -⟩
    · rfl
    · unfold bRoom at e
      revert e
      repeat' split
      all_goals intro e
      all_goals first | (cases e; done) | (cases e; rfl)
  generalize hmem : k.mem.take k.len ++ data ++ k.mem.drop (k.len + data.length) = mem'
  have hmlen : mem'.length = b1.size := by rw [← hmem, write_length _ _ _ hw, hkok.mem]
  have hml : mem'.take k.len = k.mem.take k.len := by
    rw [← hmem, List.append_assoc, List.take_append_of_le_length (by simp; omega), List.take_take, Nat.min_self]
  have htl : b1.tail < b1.buckets.length := hi.tail
  have hnew : (b1.buckets.set b1.tail ⟨mem', k.len + reserve⟩)[b1.tail]? = some ⟨mem', k.len + reserve⟩ :=
    List.getElem?_set_self htl
  have hgetm : ∀ j, k.len + data.length ≤ j → mem'[j]? = k.mem[j]? := by
    intro j hj
    rw [← hmem, List.getElem?_append_right (by simp; omega), List.getElem?_drop]
    congr 1
    simp only [List.length_append, List.length_take]; omega
  refine ⟨_, _, rfl, ⟨hi.pos, ?_, ?_, ?_, ?_⟩, hx.trans ⟨rfl, Nat.le_refl _, ?_⟩, ?_, ⟨_, hnew, Nat.le_refl _⟩, ?_, ?_, ?_, rfl, _, hnew, rfl⟩
  · dsimp only; rw [List.length_set]; exact htl
  · intro k2 hk2
    dsimp only at hk2 ⊢
    rcases List.mem_or_eq_of_mem_set hk2 with hk2 | rfl
    · exact hi.ok k2 hk2
    · refine ⟨hmlen, hroom, ?_⟩
      intro j hj hj2
      dsimp only at hj ⊢
      rw [hgetm j (by omega)]
      exact hkok.clean j (by omega) hj2
  · intro j k2 hj hk2
    dsimp only at hj hk2
    rw [List.getElem?_set_ne (by omega)] at hk2
    exact hi.after j k2 hj hk2
  · dsimp only
    rw [List.map_set, sum_set _ _ k.len _ (by rw [List.getElem?_map, hk]; rfl) (by simp), ← hi.len]
    dsimp only; omega
  · intro j k2 hk2
    dsimp only
    by_cases hj : j = b1.tail
    · subst hj
      rw [hk] at hk2; cases hk2
      exact ⟨_, hnew, by dsimp only; omega, hml, fun hj => absurd hj (Nat.lt_irrefl _)⟩
    · rw [List.getElem?_set_ne (Ne.symm hj), hk2]
      exact ⟨k2, rfl, Nat.le_refl _, rfl, fun _ => rfl⟩
  · unfold region
    dsimp only
    rw [hnew, Option.map_some]
    dsimp only
    congr 1
    apply List.ext_getElem?
    intro j
    by_cases hj : j < reserve
    · rw [List.getElem?_take_of_lt hj, List.getElem?_drop]
      by_cases hd : j < data.length
      · rw [List.getElem?_append_left hd, ← hmem, List.append_assoc, List.getElem?_append_right (by simp; omega)]
        rw [List.length_take, Nat.min_eq_left (by omega), Nat.add_sub_cancel_left, List.getElem?_append_left hd]
      · rw [hgetm _ (by omega), hkok.clean _ (by omega) (by omega), List.getElem?_append_right (by omega), List.getElem?_replicate,
          if_pos (by omega)]
    · rw [List.getElem?_eq_none (by simp; omega), List.getElem?_eq_none (by simp; omega)]
  · intro k0 hk0
    dsimp only at hk0 ⊢
    rw [hsame k0 hk0]; exact Nat.le_refl _
  · dsimp only; rw [hlen1]
  · dsimp only
    rcases hwhere with rfl | ⟨ht, h0, k0, hk0, hc⟩
    · exact .inl ⟨rfl, k, hk, rfl, hroom⟩
    · exact .inr ⟨ht, h0, k0, hk0, hc⟩

/-! ### Marks -/

theorem map_sum_zero {α : Type} (l : List (Bk α)) (h : ∀ k ∈ l, k.len = 0) : (l.map Bk.len).sum = 0 := by
  induction l with
  | nil => rfl
  | cons k l ih =>
    rw [List.map_cons, List.sum_cons, h k (by simp), ih (fun k hk => h k (by simp [hk]))]

theorem split_sum {α : Type} (l : List (Bk α)) (t : Nat) (k : Bk α) (h : l[t]? = some k) :
    (l.map Bk.len).sum = ((l.take t).map Bk.len).sum + k.len + ((l.drop (t + 1)).map Bk.len).sum := by
  induction l generalizing t with
  | nil => cases h
  | cons a l ih =>
    cases t with
    | zero => cases h; simp
    | succ t => simp only [List.take_succ_cons, List.drop_succ_cons, List.map_cons, List.sum_cons]; rw [ih t (by simpa using h)]; omega

theorem emptied_ok {α : Type} (zero : α) (size : Nat) (k : Bk α) (h : BkOk zero size k) : BkOk zero size (emptied zero k) := by
  have hm := h.mem
  have hl := h.le
  refine ⟨?_, Nat.zero_le _, ?_⟩
  · simp only [emptied, List.length_append, List.length_replicate, List.length_drop]; omega
  · intro j _ hj
    simp only [emptied]
    by_cases hjl : j < k.len
    · rw [List.getElem?_append_left (by simp; omega), List.getElem?_replicate, if_pos (by omega)]
    · rw [List.getElem?_append_right (by simp; omega), List.getElem?_drop]
      have : k.len + (j - (List.replicate (min k.len k.mem.length) zero).length) = j := by simp; omega
      rw [this]; exact h.clean j (by omega) hj

/-- Going back to a mark gives back what was there when it was set. -/
theorem restore_ok {α : Type} (zero : α) (b b' : B α) (hb : Inv zero b) (hb' : Inv zero b') (h : Ext b b') :
    ∃ s b'', save b = .ok s ∧ restore zero b' s = .ok b'' ∧ Inv zero b'' ∧ b''.size = b.size ∧ b''.tail = b.tail ∧ b''.len = b.len ∧
      b''.buckets.take (b.tail + 1) = b.buckets.take (b.tail + 1) := by
  obtain ⟨k, hk⟩ : ∃ k, b.buckets[b.tail]? = some k := ⟨_, List.getElem?_eq_getElem hb.tail⟩
  obtain ⟨k', hk', hl, ht, -⟩ := h.keep _ k hk
  have hs : save b = .ok (b.tail, k.len) := by unfold save; rw [hk]
  have hkok := hb.ok k (List.mem_of_getElem? hk)
  have hkok' := hb'.ok k' (List.mem_of_getElem? hk')
  rw [h.size] at hkok'
  have hpre : b'.buckets.take b.tail = b.buckets.take b.tail := by
    apply List.ext_getElem?
    intro j
    by_cases hj : j < b.tail
    · rw [List.getElem?_take_of_lt hj, List.getElem?_take_of_lt hj]
      have hjl : j < b.buckets.length := Nat.lt_trans hj hb.tail
      obtain ⟨k2, hk2, -, -, hf⟩ := h.keep j _ (List.getElem?_eq_getElem hjl)
      rw [hk2, hf hj, List.getElem?_eq_getElem hjl]
    · have : ∀ l : List (Bk α), (l.take b.tail)[j]? = none := fun l => List.getElem?_eq_none (by simp; omega)
      rw [this, this]
  have hlt : b.tail < b'.buckets.length := (List.getElem?_eq_some_iff.mp hk').1
  have hkeq : (⟨k'.mem.take k.len ++ List.replicate (b'.size - k.len) zero, k.len⟩ : Bk α) = k := by
    have hm : k'.mem.take k.len ++ List.replicate (b'.size - k.len) zero = k.mem := by
      rw [ht, h.size]
      apply List.ext_getElem?
      intro j
      by_cases hj : j < k.len
      · rw [List.getElem?_append_left (by rw [List.length_take, hkok.mem]; have := hkok.le; omega), List.getElem?_take_of_lt hj]
      · rw [List.getElem?_append_right (by rw [List.length_take]; omega), List.getElem?_replicate]
        have hlk : (k.mem.take k.len).length = k.len := by rw [List.length_take, hkok.mem]; exact Nat.min_eq_left hkok.le
        rw [hlk]
        by_cases hj2 : j < b.size
        · rw [if_pos (by omega), hkok.clean j (by omega) hj2]
        · rw [if_neg (by omega), List.getElem?_eq_none (by rw [hkok.mem]; omega)]
    rw [hm]
  have hr : restore zero b' (b.tail, k.len) = .ok { b' with
      buckets := b.buckets.take b.tail ++ k :: (b'.buckets.drop (b.tail + 1)).map (emptied zero)
      len := b'.len - (k'.len - k.len) - ((b'.buckets.drop (b.tail + 1)).map Bk.len).sum
      tail := b.tail } := by
    unfold restore
    dsimp only
    rw [hk']
    dsimp only
    rw [if_pos hl, hkeq, hpre]
  have htk : (b.buckets.take b.tail).length = b.tail := by rw [List.length_take]; exact Nat.min_eq_left (Nat.le_of_lt hb.tail)
  have hlen : b'.len - (k'.len - k.len) - ((b'.buckets.drop (b.tail + 1)).map Bk.len).sum = b.len := by
    rw [hb'.len, hb.len, split_sum _ _ _ hk', split_sum _ _ _ hk, hpre]
    have : ((b.buckets.drop (b.tail + 1)).map Bk.len).sum = 0 := by
      apply map_sum_zero
      intro k2 hk2
      obtain ⟨j, hj⟩ := List.mem_iff_getElem?.mp hk2
      rw [List.getElem?_drop] at hj
      exact hb.after _ k2 (by omega) hj
    omega
  have hz : ∀ l : List (Bk α), (l.map (emptied zero)).map Bk.len = (l.map (fun _ => 0)) := by
    intro l; rw [List.map_map]; rfl
  refine ⟨_, _, hs, hr, ⟨?_, ?_, ?_, ?_, ?_⟩, h.size, rfl, hlen, ?_⟩
  · exact hb'.pos
  · dsimp only; rw [List.length_append, htk]; simp
  · intro k2 hk2
    dsimp only at hk2 ⊢
    rw [h.size]
    simp only [List.mem_append, List.mem_cons, List.mem_map] at hk2
    rcases hk2 with hk2 | rfl | ⟨k3, hk3, rfl⟩
    · exact hb.ok k2 (List.mem_of_mem_take hk2)
    · exact hkok
    · exact emptied_ok zero _ k3 (by rw [← h.size]; exact hb'.ok k3 (List.mem_of_mem_drop hk3))
  · intro j k2 hj hk2
    dsimp only at hj hk2
    rw [List.getElem?_append_right (by omega), htk] at hk2
    obtain ⟨i, rfl⟩ : ∃ i, j = b.tail + 1 + i := ⟨j - (b.tail + 1), by omega⟩
    rw [show b.tail + 1 + i - b.tail = i + 1 by omega, List.getElem?_cons_succ, List.getElem?_map] at hk2
    obtain ⟨k3, -, rfl⟩ := Option.map_eq_some_iff.mp hk2
    rfl
  · dsimp only
    rw [hlen, hb.len, split_sum _ _ _ hk, List.map_append, List.sum_append, List.map_cons, List.sum_cons]
    have e1 : ((b.buckets.drop (b.tail + 1)).map Bk.len).sum = 0 := by
      apply map_sum_zero
      intro k2 hk2
      obtain ⟨j, hj⟩ := List.mem_iff_getElem?.mp hk2
      rw [List.getElem?_drop] at hj
      exact hb.after _ k2 (by omega) hj
    have e2 : (((b'.buckets.drop (b.tail + 1)).map (emptied zero)).map Bk.len).sum = 0 := by
      have : ∀ l : List (Bk α), ((l.map (emptied zero)).map Bk.len).sum = 0 := by
        intro l
        apply map_sum_zero
        intro k2 hk2
        obtain ⟨k3, -, rfl⟩ := List.mem_map.mp hk2
        rfl
      exact this _
    omega
  · dsimp only
    rw [show b.tail + 1 = (b.buckets.take b.tail).length + 1 by omega, List.take_length_add_append]
    simp only [List.take_succ_cons, List.take_zero]
    rw [htk, List.take_add_one, hk]; rfl

end Muon.Buf
