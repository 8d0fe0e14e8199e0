import Verif.Buf.Bucket
import Verif.Buf.Sbuf
/-
Property C57.
-/
namespace Muon.Buf
open Muon

/-! ### Arrays -/

/-- After any operations an array holds exactly the items it should, and reading gives them; nothing outside of its memory
is read or written. (As long as twice the items ever added fit into the address space.) -/
theorem arr_holds {α : Type} (initial isz : Nat) (h1 : 0 < initial) (h2 : 0 < isz) (ops : List (ArrOp α)) (ys : List α)
    (hb : 2 * (initial + added ops) * isz < 2 ^ 64) (hy : listRun [] ops = some ys) :
    ∃ a, (arrInit initial isz >>= fun a => arrRun a ops) = .ok a ∧ a.len = ys.length ∧
      ∀ i, arrGet a i = match ys[i]? with | some x => .ok x | none => .bad := by
  have hb1 : initial * isz < 2 ^ 64 :=
    Nat.lt_of_le_of_lt (Nat.mul_le_mul_right _ (show initial ≤ 2 * (initial + added ops) by omega)) hb
  obtain ⟨a, e, h, hi, -⟩ := arrInit_ok (α := α) initial isz h1 h2 hb1
  have hb2 : 2 * (([] : List α).length + added ops) * a.isz < 2 ^ 64 := by
    rw [hi]
    exact Nat.lt_of_le_of_lt (Nat.mul_le_mul_right _ (by simp; omega)) hb
  obtain ⟨a', e', h'⟩ := arrRun_holds ops a [] ys h hb2 hy
  exact ⟨a', by rw [e, Res.ok_bind, e'], h'.len, arrGet_ok a' ys h'⟩

example : listRun [] [.push 1, .push 2, .push 3, .del 0, .extend [7, 8]] = some [3, 2, 7, 8] ∧
    (arrInit 1 4 >>= fun a => arrRun a [.push 1, .push 2, .push 3, .del 0, .extend [7, 8]]) =
      .ok (⟨4, 4, 4, [some 3, some 2, some 7, some 8]⟩ : A Nat) := by decide +kernel

/-! ### Bucket arrays -/

/-- Several requests one after the other. -/
def pushAll {α : Type} (zero : α) (b : B α) : List (List α × Nat) → Res (B α × List (Nat × Nat))
  | [] => .ok (b, [])
  | r :: rs => pushn zero b r.1 r.2 >>= fun x => pushAll zero x.1 rs >>= fun y => .ok (y.1, x.2 :: y.2)

/-- Two regions have no item in common. -/
def Apart (p : Nat × Nat) (n : Nat) (q : Nat × Nat) (m : Nat) : Prop := p.1 ≠ q.1 ∨ p.2 + n ≤ q.2 ∨ q.2 + m ≤ p.2

theorem pushAll_ok {α : Type} (zero : α) (rs : List (List α × Nat)) (b : B α) (h : Inv zero b)
    (hr : ∀ r ∈ rs, r.1.length ≤ r.2 ∧ r.2 < b.size) :
    ∃ b' ps, pushAll zero b rs = .ok (b', ps) ∧ Inv zero b' ∧ Ext b b' ∧ ps.length = rs.length ∧
      (∀ (i : Nat) (p : Nat × Nat) (r : List α × Nat), ps[i]? = some p → rs[i]? = some r →
        region b' p r.2 = some (r.1 ++ List.replicate (r.2 - r.1.length) zero) ∧ Within b' p r.2 ∧
        ∀ k, b.buckets[p.1]? = some k → k.len ≤ p.2) ∧
      (∀ (i j : Nat) (p q : Nat × Nat) (r s : List α × Nat), i < j → ps[i]? = some p → ps[j]? = some q → rs[i]? = some r → rs[j]? = some s →
        Apart p r.2 q s.2) := by
  induction rs generalizing b with
  | nil =>
    refine ⟨b, [], rfl, h, Ext.refl b, rfl, ?_, ?_⟩
    · intro i p r hp; simp at hp
    · intro i j p q r s _ hp; simp at hp
  | cons r rs ih =>
    obtain ⟨b1, p1, e1, hi1, hx1, hreg, hwi, hfresh, -, -, -, -⟩ := pushn_ok zero b h r.1 r.2 (hr r (by simp)).1 (hr r (by simp)).2
    obtain ⟨b', ps, e2, hi2, hx2, hl, hall, hap⟩ := ih b1 hi1 (by
      intro r' hr'; rw [hx1.size]; exact hr r' (by simp [hr']))
    refine ⟨b', p1 :: ps, ?_, hi2, hx1.trans hx2, by simp [hl], ?_, ?_⟩
    · rw [pushAll, e1, Res.ok_bind]; dsimp only; rw [e2, Res.ok_bind]
    · intro i p r' hp hr'
      cases i with
      | zero =>
        cases hp; cases hr'
        have := region_ext hx2 p1 r.2 hwi
        exact ⟨by rw [this.1, hreg], this.2, hfresh⟩
      | succ i =>
        have hp' : ps[i]? = some p := by simpa using hp
        obtain ⟨h1, h2, h3⟩ := hall i p r' hp' (by simpa using hr')
        refine ⟨h1, h2, ?_⟩
        intro k hk
        obtain ⟨k1, hk1, hle, -⟩ := hx1.keep _ k hk
        exact Nat.le_trans hle (h3 k1 hk1)
    · intro i j p q r' s' hij hp hq hr' hs'
      cases j with
      | zero => omega
      | succ j =>
        have hq' : ps[j]? = some q := by simpa using hq
        cases i with
        | zero =>
          cases hp; cases hr'
          obtain ⟨-, -, h3⟩ := hall j q s' hq' (by simpa using hs')
          obtain ⟨k, hk, hkl⟩ := hwi
          by_cases hb : p1.1 = q.1
          · right; left
            rw [hb] at hk
            exact Nat.le_trans hkl (h3 k hk)
          · exact .inl hb
        | succ i => exact hap i j p q r' s' (by omega) (by simpa using hp) hq' (by simpa using hr') (by simpa using hs')

/-- All regions that were handed out are inside of their buckets, have nothing in common, and still hold what was put there
first, with zeros behind it. -/
theorem regions_kept {α : Type} (zero : α) (size : Nat) (hs : 0 < size) (rs : List (List α × Nat))
    (hr : ∀ r ∈ rs, r.1.length ≤ r.2 ∧ r.2 < size) :
    ∃ b ps, pushAll zero (bInit zero size) rs = .ok (b, ps) ∧ ps.length = rs.length ∧
      (∀ (i : Nat) (p : Nat × Nat) (r : List α × Nat), ps[i]? = some p → rs[i]? = some r →
        p.2 + r.2 ≤ size ∧ region b p r.2 = some (r.1 ++ List.replicate (r.2 - r.1.length) zero)) ∧
      (∀ (i j : Nat) (p q : Nat × Nat) (r s : List α × Nat), i < j → ps[i]? = some p → ps[j]? = some q → rs[i]? = some r → rs[j]? = some s →
        Apart p r.2 q s.2) := by
  obtain ⟨b, ps, e, hi, hx, hl, h1, h2⟩ := pushAll_ok zero rs (bInit zero size) (inv_init zero size hs) hr
  refine ⟨b, ps, e, hl, ?_, h2⟩
  intro i p r hp hr'
  obtain ⟨hreg, ⟨k, hk, hkl⟩, -⟩ := h1 i p r hp hr'
  have := (hi.ok k (List.mem_of_getElem? hk)).le
  rw [hx.size] at this
  exact ⟨Nat.le_trans hkl this, hreg⟩

example : pushAll 0 (bInit 0 4) [([1, 2], 2), ([3], 3), ([], 1)] = .ok (⟨4, [⟨[1, 2, 0, 0], 2⟩, ⟨[3, 0, 0, 0], 4⟩], 6, 1⟩, [(0, 0), (1, 0), (1, 3)]) := by
  decide +kernel

/-- Single items: the position counts them. -/
structure Seq {α : Type} (zero : α) (b : B α) (xs : List α) : Prop where
  inv : Inv zero b
  full : ∀ j k, j < b.tail → b.buckets[j]? = some k → k.len = b.size
  count : ∀ k, b.buckets[b.tail]? = some k → b.tail * b.size + k.len = xs.length
  get : ∀ i, i < xs.length → ∃ x, xs[i]? = some x ∧ bGet b i = .ok x

theorem bGet_ext {α : Type} {b b' : B α} (h : Ext b b') (i : Nat) (x : α) (hx : bGet b i = .ok x) : bGet b' i = .ok x := by
  unfold bGet at hx ⊢
  rw [h.size]
  cases hk : b.buckets[i / b.size]? with
  | none => rw [hk] at hx; cases hx
  | some k =>
    rw [hk] at hx
    dsimp only at hx
    obtain ⟨k', hk', hl, ht, -⟩ := h.keep _ k hk
    rw [hk']
    dsimp only
    by_cases hi : i % b.size < k.len
    · rw [if_pos hi] at hx
      rw [if_pos (by omega)]
      have : k'.mem[i % b.size]? = k.mem[i % b.size]? := by
        rw [← List.getElem?_take_of_lt hi, ht, List.getElem?_take_of_lt hi]
      rw [this]; exact hx
    · rw [if_neg hi] at hx; cases hx

theorem seq_push {α : Type} (zero : α) (b : B α) (xs : List α) (x : α) (h : Seq zero b xs) (hs : 1 < b.size) :
    ∃ b' p, pushn zero b [x] 1 = .ok (b', p) ∧ Seq zero b' (xs ++ [x]) ∧ Ext b b' ∧ b'.len = b.len + 1 := by
  obtain ⟨b', p, e, hi, hx, hreg, hwi, -, hlen, hwhere, htail, k', hk', hkl⟩ := pushn_ok zero b h.inv [x] 1 (by simp) hs
  have hpos := h.inv.pos
  -- the position
  have hp : p.1 * b.size + p.2 = xs.length ∧ p.2 < b.size ∧ (∀ j k, j < p.1 → b'.buckets[j]? = some k → k.len = b.size) := by
    rcases hwhere with ⟨h1, k0, hk0, h2, h3⟩ | ⟨h1, h2, k0, hk0, h3⟩
    · refine ⟨by rw [h1, h2]; exact h.count k0 hk0, by omega, ?_⟩
      intro j k hj hk
      rw [h1] at hj
      obtain ⟨k2, hk2, -, -, hf⟩ := hx.keep j _ (List.getElem?_eq_getElem (Nat.lt_trans hj h.inv.tail))
      rw [hk2] at hk; cases hk
      rw [hf hj]
      exact h.full j _ hj (List.getElem?_eq_getElem (Nat.lt_trans hj h.inv.tail))
    · have hk0ok := (h.inv.ok k0 (List.mem_of_getElem? hk0)).le
      have hfull : k0.len = b.size := by omega
      have hc := h.count k0 hk0
      refine ⟨by rw [h1, h2, Nat.add_mul]; omega, by omega, ?_⟩
      intro j k hj hk
      by_cases hjt : j < b.tail
      · obtain ⟨k2, hk2, -, -, hf⟩ := hx.keep j _ (List.getElem?_eq_getElem (Nat.lt_trans hjt h.inv.tail))
        rw [hk2] at hk; cases hk
        rw [hf hjt]
        exact h.full j _ hjt (List.getElem?_eq_getElem (Nat.lt_trans hjt h.inv.tail))
      · have : j = b.tail := by omega
        subst this
        obtain ⟨k2, hk2, hle, -, -⟩ := hx.keep _ k0 hk0
        rw [hk2] at hk; cases hk
        have := (hi.ok k (List.mem_of_getElem? hk2)).le
        rw [hx.size] at this
        omega
  obtain ⟨hp1, hp2, hp3⟩ := hp
  refine ⟨b', p, e, ⟨hi, ?_, ?_, ?_⟩, hx, hlen⟩
  · intro j k hj hk
    rw [hx.size]
    exact hp3 j k (by omega) hk
  · intro k hk
    rw [htail] at hk
    rw [hk'] at hk; cases hk
    rw [htail, hx.size, hkl, List.length_append, List.length_singleton]; omega
  · intro i hil
    rw [List.length_append, List.length_singleton] at hil
    by_cases hi2 : i < xs.length
    · obtain ⟨y, hy, hg⟩ := h.get i hi2
      exact ⟨y, by rw [List.getElem?_append_left hi2, hy], bGet_ext hx i y hg⟩
    · have : i = xs.length := by omega
      subst this
      refine ⟨x, by simp, ?_⟩
      unfold bGet
      rw [hx.size]
      have hd : xs.length / b.size = p.1 := by
        rw [← hp1, Nat.mul_comm, Nat.mul_add_div hpos, Nat.div_eq_of_lt hp2, Nat.add_zero]
      have hm : xs.length % b.size = p.2 := by
        rw [← hp1, Nat.mul_comm, Nat.mul_add_mod, Nat.mod_eq_of_lt hp2]
      rw [hd, hm, hk']
      dsimp only
      rw [if_pos (by omega)]
      unfold region at hreg
      rw [hk', Option.map_some] at hreg
      have h0 := congrArg (fun l => l[0]?) (Option.some.inj hreg)
      rw [List.getElem?_take_of_lt (by omega), List.getElem?_drop, Nat.add_zero] at h0
      rw [h0]; rfl

/-- Items put into a bucket array one at a time are found at their index, however many there are. -/
theorem bucket_get {α : Type} (zero : α) (size : Nat) (hs : 1 < size) (xs : List α) :
    ∃ b ps, pushAll zero (bInit zero size) (xs.map fun x => ([x], 1)) = .ok (b, ps) ∧ b.len = xs.length ∧
      ∀ i, i < xs.length → ∃ x, xs[i]? = some x ∧ bGet b i = .ok x := by
  have key : ∀ (xs : List α) (b : B α) (ys : List α), Seq zero b ys → 1 < b.size → b.len = ys.length →
      ∃ b' ps, pushAll zero b (xs.map fun x => ([x], 1)) = .ok (b', ps) ∧ Seq zero b' (ys ++ xs) ∧ b'.len = (ys ++ xs).length := by
    intro xs
    induction xs with
    | nil => intro b ys h _ hl; exact ⟨b, [], rfl, by rwa [List.append_nil], by rwa [List.append_nil]⟩
    | cons x xs ih =>
      intro b ys h hs hl
      obtain ⟨b1, p, e, h1, hx, hl1⟩ := seq_push zero b ys x h hs
      obtain ⟨b', ps, e', h', hl'⟩ := ih b1 (ys ++ [x]) h1 (by rw [hx.size]; exact hs) (by rw [hl1, hl]; simp)
      rw [List.append_assoc] at h' hl'
      refine ⟨b', p :: ps, ?_, h', hl'⟩
      rw [List.map_cons, pushAll]
      rw [e, Res.ok_bind]; dsimp only; rw [e', Res.ok_bind]
  have h0 : Seq zero (bInit zero size) ([] : List α) := by
    refine ⟨inv_init zero size (by omega), ?_, ?_, ?_⟩
    · intro j k hj; simp [bInit] at hj
    · intro k hk
      simp only [bInit, List.getElem?_cons_zero, Option.some.injEq] at hk
      subst hk; simp [bInit, newBk]
    · intro i hi; simp at hi
  obtain ⟨b, ps, e, h, hl⟩ := key xs (bInit zero size) [] h0 hs rfl
  rw [List.nil_append] at h hl
  exact ⟨b, ps, e, hl, h.get⟩

/-- Going back to a mark: after any further requests the bucket array is as it was when the mark was set, up to buckets that
are empty. -/
theorem mark_restored {α : Type} (zero : α) (size : Nat) (hs : 0 < size) (rs rs' : List (List α × Nat))
    (h1 : ∀ r ∈ rs, r.1.length ≤ r.2 ∧ r.2 < size) (h2 : ∀ r ∈ rs', r.1.length ≤ r.2 ∧ r.2 < size) :
    ∃ b ps s b' ps' b'', pushAll zero (bInit zero size) rs = .ok (b, ps) ∧ save b = .ok s ∧ pushAll zero b rs' = .ok (b', ps') ∧
      restore zero b' s = .ok b'' ∧ b''.tail = b.tail ∧ b''.len = b.len ∧
      b''.buckets.take (b.tail + 1) = b.buckets.take (b.tail + 1) ∧ ∀ k ∈ b''.buckets.drop (b.tail + 1), k = newBk zero size := by
  obtain ⟨b, ps, e, hi, hx, -⟩ := pushAll_ok zero rs (bInit zero size) (inv_init zero size hs) h1
  obtain ⟨b', ps', e', hi', hx', -⟩ := pushAll_ok zero rs' b hi (by rw [hx.size]; exact h2)
  obtain ⟨s, b'', es, er, hi'', hsz, ht, hl, htk⟩ := restore_ok zero b b' hi hi' hx'
  refine ⟨b, ps, s, b', ps', b'', e, es, e', er, ht, hl, htk, ?_⟩
  intro k hk
  have hok := hi''.ok k (List.mem_of_mem_drop hk)
  obtain ⟨j, hj⟩ := List.mem_iff_getElem?.mp hk
  rw [List.getElem?_drop] at hj
  have h0 := hi''.after _ k (by rw [ht]; omega) hj
  have hsize : b''.size = size := hsz.trans hx.size
  have hm : k.mem = List.replicate size zero := by
    apply List.ext_getElem?
    intro i
    rw [List.getElem?_replicate]
    by_cases hil : i < size
    · rw [if_pos hil]; exact hok.clean i (by omega) (by omega)
    · rw [if_neg hil, List.getElem?_eq_none (by rw [hok.mem]; omega)]
  cases k with
  | mk m l => dsimp only at hm h0; rw [hm, h0]; rfl

/-- Clearing forgets all buckets but the first, not where the last was: if there was more than one, the next request fails an
assertion. (`muon` only clears bucket arrays with one bucket.) -/
theorem clear_counterexample : (pushAll 0 (bInit 0 4) [([1, 2], 2), ([3], 3)] >>= fun x => pushn 0 (bClear x.1) [1] 1) = .bad := by
  decide +kernel

/-! ### String buffers -/

/-- After any operations (fewer than 2^30 bytes) a string buffer holds the text it should, followed by a NUL byte; nothing
outside of its memory is read or written. `buf` is the buffer it begins with, `alloc` says where it grows. -/
theorem sbuf_text (junk : Nat → UInt8) (buf : Bytes) (alloc : Bool) (ops : List SbOp) (hb : (ops.map opSize).sum + 1 < 2 ^ 30)
    (hbuf : buf.length ≤ 2048) :
    ∃ sb, sbRun junk (sbInit buf (some alloc)) ops = .ok sb ∧ sb.len = (textRun [] ops).length ∧
      sb.mem.take sb.len = textRun [] ops ∧ (buf ≠ [] ∨ textRun [] ops ≠ [] → sb.mem[sb.len]? = some 0) := by
  obtain ⟨sb, e, h, -, hp⟩ := sbRun_ok junk ops (sbInit buf (some alloc)) [] ((ops.map opSize).sum + 1) (sbInit_has buf _)
    (by simp [sbInit]) (by simp) hb (by simp only [sbInit]; omega)
  refine ⟨sb, e, h.len, h.mem, ?_⟩
  intro hne
  rcases h.nul with h0 | h1
  · exfalso
    rcases hne with hne | hne
    · have := hp (List.length_pos_iff.mpr hne)
      omega
    · have := h.le
      have hl := h.len
      exact hne (List.eq_nil_of_length_eq_zero (by omega))
  · exact h1.2

/-- The string made of it has that text, if it has no NUL bytes and not exactly 4095 bytes. -/
theorem into_str_partial (junk : Nat → UInt8) (buf : Bytes) (alloc : Bool) (ops : List SbOp) (hb : (ops.map opSize).sum + 1 < 2 ^ 30)
    (hbuf : buf.length ≤ 2048) (hn : 0 ∉ textRun [] ops) (hl : (textRun [] ops).length ≠ 4095) :
    (sbRun junk (sbInit buf (some alloc)) ops >>= intoStr) = .ok (textRun [] ops) := by
  obtain ⟨sb, e, h, -, -⟩ := sbRun_ok junk ops (sbInit buf (some alloc)) [] ((ops.map opSize).sum + 1) (sbInit_has buf _)
    (by simp [sbInit]) (by simp) hb (by simp only [sbInit]; omega)
  have h1 := h.len
  have h2 := h.mem
  rw [e, Res.ok_bind]
  have hother : (if sb.len = 0 then Res.ok [] else makeStr (sb.mem.take sb.len)) = .ok (textRun [] ops) := by
    by_cases h0 : sb.len = 0
    · rw [if_pos h0, List.eq_nil_of_length_eq_zero (h1.symm.trans h0)]
    · rw [if_neg h0, h2, makeStr, if_neg (by omega)]
  unfold intoStr
  cases hm : sb.mode with
  | initial o => exact hother
  | heap => exact hother
  | str =>
    dsimp only
    have hpos := h.str hm
    have hnul : sb.mem[sb.len]? = some 0 := by
      rcases h.nul with h0 | h0
      · omega
      · exact h0.2
    have hsplit : sb.mem = textRun [] ops ++ 0 :: sb.mem.drop (sb.len + 1) := by
      obtain ⟨hlt, hget⟩ := List.getElem?_eq_some_iff.mp hnul
      have : sb.mem.drop sb.len = 0 :: sb.mem.drop (sb.len + 1) := by
        rw [List.drop_eq_getElem_cons hlt, hget]
      rw [← this, ← h2, List.take_append_drop]
    have htw : sb.mem.takeWhile (· ≠ 0) = textRun [] ops := by
      rw [hsplit]
      generalize textRun [] ops = t at hn
      generalize sb.mem.drop (sb.len + 1) = r
      induction t with
      | nil => rfl
      | cons c t ih =>
        have hc : c ≠ 0 := fun e => hn (by simp [e])
        rw [List.cons_append, List.takeWhile_cons_of_pos (by simpa using hc), ih (fun h => hn (by simp [h]))]
    rw [htw, if_pos h1.symm, h2]

/-- Formatted output is added as it should be, unless the capacity grows to exactly the new length. -/
theorem sbuf_pushf_partial (junk : Nat → UInt8) (sb : Sb) (s d : Bytes) (h : Has sb s) (hmode : sb.mode ≠ .initial none)
    (hb : s.length + d.length < 2 ^ 30) (hcap : sb.cap < 2 ^ 31)
    (hm : s.length + d.length ≥ sb.cap → growCap sb.cap (s.length + d.length) ≠ some (s.length + d.length)) :
    ∃ sb', sbPushf junk sb d = .ok sb' ∧ Has sb' (s ++ d) := by
  obtain ⟨sb1, e, hr, hm1, hcp⟩ := sbGrow_ok junk sb s h d.length (by omega) hcap hmode
  unfold sbPushf
  rw [e, Res.ok_bind]
  have hr' : Room sb sb1 s (d.length + 1) := by
    refine ⟨hr.len, hr.mem, hr.room, ?_, hr.pos, hr.mode⟩
    have := hr.enough
    rcases hcp with ⟨h1, rfl⟩ | ⟨h1, h2⟩
    · omega
    · have h3 : sb1.cap ≠ s.length + d.length := fun e => hm h1 (by rw [h2, e])
      omega
  obtain ⟨sb', e', h', -, -⟩ := sbPut_ok sb sb1 s d hr'
  exact ⟨sb', e', h'⟩

/-- For a buffer on the heap (or that grows there) and that length, one byte is always written beyond its memory. -/
theorem sbuf_pushf_overflow (junk : Nat → UInt8) (sb : Sb) (s d : Bytes) (h : Has sb s) (hmode : sb.mode = .initial (some true))
    (hb : s.length + d.length < 2 ^ 30) (hg : s.length + d.length ≥ sb.cap)
    (hm : growCap sb.cap (s.length + d.length) = some (s.length + d.length)) : sbPushf junk sb d = .bad := by
  have hms : sb.mem.take s.length = s := by rw [← h.len]; exact h.mem
  have hw : 0 + s.length ≤ (List.replicate (s.length + d.length) (0 : UInt8)).length := by rw [List.length_replicate]; omega
  have e : sbGrow junk sb d.length = .ok ⟨(List.replicate (s.length + d.length) (0 : UInt8)).take 0 ++ s ++
      (List.replicate (s.length + d.length) (0 : UInt8)).drop (0 + s.length), s.length + d.length, s.length, .heap⟩ := by
    unfold sbGrow
    dsimp only
    rw [h.len, Nat.mod_eq_of_lt (by omega), if_neg (by omega), hm]
    dsimp only
    rw [hmode]
    dsimp only
    rw [hms, write_ok _ _ _ hw, Res.ok_bind]
  unfold sbPushf
  rw [e, Res.ok_bind]
  unfold sbPut
  dsimp only
  unfold write
  rw [if_neg]
  · rfl
  · rw [write_length _ _ _ hw, List.length_replicate, List.length_append, List.length_singleton]; omega

/-- Such buffers: 1024 bytes on the stack, 1000 of them in use, and 1048 more. -/
theorem sbuf_pushf_counterexample (junk : Nat → UInt8) (buf s d : Bytes) (hbuf : buf.length = 1024) (hs : s.length = 1000) (hd : d.length = 1048) :
    (sbPushn junk (sbInit buf (some true)) s >>= fun sb => sbPushf junk sb d) = .bad := by
  have hne : s ≠ [] := by intro e; rw [e] at hs; simp at hs
  obtain ⟨sb, e, h, -, -⟩ := sbRun_ok junk [.pushn s] (sbInit buf (some true)) [] 2000 (sbInit_has buf _) (by simp [sbInit])
    (by simp [opSize, hs]) (by omega) (by simp only [sbInit]; omega)
  have e' : sbPushn junk (sbInit buf (some true)) s = .ok sb := by
    rw [sbRun] at e
    obtain ⟨sb1, e1, e2⟩ := (Res.bind_eq_ok).mp e
    cases e2; exact e1
  rw [e', Res.ok_bind]
  have hnog : sb.cap = 1024 ∧ sb.mode = .initial (some true) := by
    unfold sbPushn at e'
    rw [if_neg hne] at e'
    have eg : sbGrow junk (sbInit buf (some true)) (s.length + 1) = .ok (sbInit buf (some true)) := by
      unfold sbGrow
      dsimp only
      rw [if_pos (by simp only [sbInit]; omega)]
    rw [eg, Res.ok_bind] at e'
    unfold sbPut at e'
    obtain ⟨mem, -, e2⟩ := (Res.bind_eq_ok).mp e'
    cases e2
    exact ⟨hbuf, rfl⟩
  simp only [textRun, textStep, List.nil_append] at h
  apply sbuf_pushf_overflow junk sb s d h hnog.2
  · omega
  · omega
  · rw [hs, hd, hnog.1]; decide

/-- A NUL byte in a text that grew into a string object ends the program: the assertion on `strlen` fails. -/
theorem into_str_nul_counterexample (junk : Nat → UInt8) :
    (sbRun junk (sbInit [7, 7] (some false)) [.pushn [65, 0, 66]] >>= intoStr) = .bad := by rfl

/-- A string of 4095 bytes ends the program: the assertion of `bucket_arr_pushn` fails. -/
theorem make_str_counterexample (s : Bytes) (h : s.length = 4095) : makeStr s = .bad := by
  unfold makeStr; rw [if_pos (by omega)]

/-- Such a string is a request of 4096 items of buckets with 4096 items. -/
theorem make_str_pushn (zero : UInt8) (b : B UInt8) (h : b.size = 4096) : pushn zero b [] 4096 = .bad := by
  unfold pushn; rw [if_neg (by rw [h]; omega)]

end Muon.Buf
