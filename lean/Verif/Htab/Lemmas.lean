import Verif.Htab.Model
namespace Muon.Htab
open Muon

variable {hash : Bytes → UInt64}

theorem keyEqual_iff (a b : Bytes) : keyEqual hash a b = true ↔ a = b := by
  unfold keyEqual
  split
  · rename_i h
    constructor
    · intro h; cases h
    · rintro rfl; simp at h
  · simp

/-- The `d`-th slot that is probed for a key. -/
def pos (hash : Bytes → UInt64) (cap : Nat) (k : Bytes) (d : Nat) : Nat := ((hash k).toNat + d) % cap

theorem pos_lt {cap : Nat} (hc : 0 < cap) (k : Bytes) (d : Nat) : pos hash cap k d < cap := Nat.mod_lt _ hc

theorem pos_surj {cap : Nat} (hc : 0 < cap) (k : Bytes) (i : Nat) (hi : i < cap) : ∃ d < cap, pos hash cap k d = i := by
  unfold pos
  generalize (hash k).toNat = H
  refine ⟨(i + (cap - H % cap)) % cap, Nat.mod_lt _ hc, ?_⟩
  have h1 : H % cap < cap := Nat.mod_lt _ hc
  rw [Nat.add_mod, Nat.mod_mod, ← Nat.add_mod, Nat.add_mod, Nat.add_mod i]
  rw [← Nat.add_mod i, ← Nat.add_mod]
  have : H + (i + (cap - H % cap)) = i + cap * (H / cap + 1) := by
    have := Nat.div_add_mod H cap
    rw [Nat.mul_add, Nat.mul_one]
    omega
  rw [this, Nat.add_mul_mod_self_left, Nat.mod_eq_of_lt hi]

/-- Number of used slots below `n`. -/
def used (s : Nat → Option (Bytes × Option Nat)) : Nat → Nat
  | 0 => 0
  | n + 1 => used s n + (if (s n).isSome then 1 else 0)

theorem used_le (s : Nat → Option (Bytes × Option Nat)) (n : Nat) : used s n ≤ n := by
  induction n with
  | zero => simp [used]
  | succ n ih => simp only [used]; split <;> omega

theorem exists_free (s : Nat → Option (Bytes × Option Nat)) (n : Nat) (h : used s n < n) : ∃ i < n, s i = none := by
  induction n with
  | zero => omega
  | succ n ih =>
    simp only [used] at h
    cases hs : s n with
    | none => exact ⟨n, by omega, hs⟩
    | some x =>
      rw [hs] at h
      simp only [Option.isSome_some, if_true] at h
      obtain ⟨i, hi, h⟩ := ih (by omega)
      exact ⟨i, by omega, h⟩

theorem used_set (s : Nat → Option (Bytes × Option Nat)) (i : Nat) (x : Bytes × Option Nat) (n : Nat) :
    used (fun j => if j = i then some x else s j) n = used s n + (if i < n ∧ s i = none then 1 else 0) := by
  induction n with
  | zero => simp [used]
  | succ n ih =>
    simp only [used, ih]
    by_cases hin : n = i
    · subst hin
      have h2 : ¬ n < n := by omega
      have h3 : n < n + 1 := by omega
      by_cases hs : s n = none
      · simp [hs]
      · have : (s n).isSome = true := by cases h : s n with | none => exact absurd h hs | some _ => rfl
        simp [hs, this]
    · simp only [hin, if_false]
      by_cases hlt : i < n
      · have : i < n + 1 := by omega
        simp only [hlt, this, true_and]; omega
      · have : ¬ i < n + 1 := by omega
        simp only [hlt, this, false_and, if_false]; omega

/-- The slots are well-formed: an entry is found by probing. -/
structure WF (hash : Bytes → UInt64) (h : Table) : Prop where
  pow : ∃ p, h.cap = 2 ^ p
  pos : 4 ≤ h.cap
  range : ∀ i, h.cap ≤ i → h.slot i = none
  chain : ∀ i k v, h.slot i = some (k, v) → ∃ d < h.cap, i = Htab.pos hash h.cap k d ∧
    ∀ e < d, ∃ k' v', h.slot (Htab.pos hash h.cap k e) = some (k', v') ∧ k' ≠ k
  free : used h.slot h.cap < h.cap

theorem WF.mask {h : Table} (wf : WF hash h) (x : Nat) : x &&& (h.cap - 1) = x % h.cap := by
  obtain ⟨p, hp⟩ := wf.pow
  rw [hp, Nat.and_two_pow_sub_one_eq_mod]

/-- Probing stops at the first slot that is free or has the key. -/
theorem keyindex_first {h : Table} (wf : WF hash h) (k : Bytes) (d : Nat) (hd : d < h.cap)
    (hstop : ∀ k' v', h.slot (pos hash h.cap k d) = some (k', v') → k' = k)
    (hbefore : ∀ e < d, ∃ k' v', h.slot (pos hash h.cap k e) = some (k', v') ∧ k' ≠ k) :
    keyindex hash h k = some (pos hash h.cap k d) := by
  have key : ∀ n e, e + n = d → ∀ f, n < f → keyindexLoop hash h k f (pos hash h.cap k e) = some (pos hash h.cap k d) := by
    intro n
    induction n with
    | zero =>
      intro e he f hf
      cases f with
      | zero => omega
      | succ f =>
        have : e = d := by omega
        subst this
        unfold keyindexLoop
        cases hs : h.slot (pos hash h.cap k e) with
        | none => rfl
        | some x =>
          obtain ⟨k', v'⟩ := x
          dsimp only
          rw [if_pos ((keyEqual_iff k' k).2 (hstop k' v' hs))]
    | succ n ih =>
      intro e he f hf
      cases f with
      | zero => omega
      | succ f =>
        obtain ⟨k', v', hs, hne⟩ := hbefore e (by omega)
        unfold keyindexLoop
        rw [hs]
        dsimp only
        rw [if_neg (fun h => hne ((keyEqual_iff k' k).1 h)), wf.mask]
        have : (pos hash h.cap k e + 1) % h.cap = pos hash h.cap k (e + 1) := by
          unfold pos
          rw [Nat.mod_add_mod]; rfl
        rw [this]
        exact ih (e + 1) (by omega) f (by omega)
  unfold keyindex
  rw [wf.mask]
  exact key d 0 (by omega) h.cap hd

/-- A key that is present is found. -/
theorem keyindex_present {h : Table} (wf : WF hash h) {k : Bytes} {v : Option Nat} {i : Nat} (hs : h.slot i = some (k, v)) :
    keyindex hash h k = some i := by
  obtain ⟨d, hd, hi, hb⟩ := wf.chain i k v hs
  rw [hi]
  refine keyindex_first wf k d hd ?_ hb
  intro k' v' h'
  rw [← hi, hs] at h'
  cases h'; rfl

theorem unique {h : Table} (wf : WF hash h) {k : Bytes} {v v' : Option Nat} {i j : Nat} (hi : h.slot i = some (k, v))
    (hj : h.slot j = some (k, v')) : i = j := by
  have h1 := keyindex_present wf hi
  have h2 := keyindex_present wf hj
  rw [h1] at h2; cases h2; rfl

theorem least_of (P : Nat → Prop) (n : Nat) (h : P n) : ∃ m ≤ n, P m ∧ ∀ e < m, ¬ P e := by
  induction n using Nat.strongRecOn with
  | _ n ih =>
    rcases Classical.em (∃ e < n, P e) with ⟨e, he, hp⟩ | hn
    · obtain ⟨m, hm, h1, h2⟩ := ih e he hp
      exact ⟨m, by omega, h1, h2⟩
    · exact ⟨n, Nat.le_refl _, h, fun e he hp => hn ⟨e, he, hp⟩⟩

/-- A key that is absent gets a free slot. -/
theorem keyindex_absent {h : Table} (wf : WF hash h) (k : Bytes) (ha : ∀ i v, h.slot i ≠ some (k, v)) :
    ∃ d < h.cap, keyindex hash h k = some (pos hash h.cap k d) ∧ h.slot (pos hash h.cap k d) = none ∧
      ∀ e < d, ∃ k' v', h.slot (pos hash h.cap k e) = some (k', v') ∧ k' ≠ k := by
  have hc : 0 < h.cap := by have := wf.pos; omega
  obtain ⟨i, hi, hf⟩ := exists_free _ _ wf.free
  obtain ⟨d, hd, hp⟩ := pos_surj (hash := hash) hc k i hi
  obtain ⟨m, hm, h1, h2⟩ := least_of (fun d => h.slot (pos hash h.cap k d) = none) d (by rw [hp]; exact hf)
  have hb : ∀ e < m, ∃ k' v', h.slot (pos hash h.cap k e) = some (k', v') ∧ k' ≠ k := by
    intro e he
    cases hs : h.slot (pos hash h.cap k e) with
    | none => exact absurd hs (h2 e he)
    | some x =>
      obtain ⟨k', v'⟩ := x
      refine ⟨k', v', rfl, ?_⟩
      rintro rfl
      exact ha _ _ hs
  refine ⟨m, by omega, keyindex_first wf k m (by omega) (fun k' v' h' => ?_) hb, h1, hb⟩
  rw [h1] at h'; cases h'

/-- The entries of the table as a map. -/
def Rep (h : Table) (m : Bytes → Option (Option Nat)) : Prop := ∀ k v, m k = some v ↔ ∃ i, h.slot i = some (k, v)

theorem Rep.absent {h : Table} {m : Bytes → Option (Option Nat)} (r : Rep h m) {k : Bytes} (hm : m k = none) : ∀ i v, h.slot i ≠ some (k, v) := by
  intro i v hs
  rw [(r k v).2 ⟨i, hs⟩] at hm
  cases hm

/-- Placing an absent key. -/
theorem place {h : Table} {m : Bytes → Option (Option Nat)} (wf : WF hash h) (r : Rep h m) {k : Bytes} (hm : m k = none) (v : Option Nat)
    (hfree : used h.slot h.cap + 1 < h.cap) :
    ∃ i, keyindex hash h k = some i ∧ h.slot i = none ∧ WF hash (setSlot h i (k, v)) ∧
      Rep (setSlot h i (k, v)) (fun k' => if k' = k then some v else m k') ∧
      used (setSlot h i (k, v)).slot h.cap = used h.slot h.cap + 1 := by
  have hc : 0 < h.cap := by have := wf.pos; omega
  obtain ⟨d, hd, hk, hn, hb⟩ := keyindex_absent wf k (r.absent hm)
  have hlt := pos_lt (hash := hash) hc k d
  have hu : used (setSlot h (pos hash h.cap k d) (k, v)).slot h.cap = used h.slot h.cap + 1 := by
    simp only [setSlot, used_set]
    rw [if_pos ⟨hlt, hn⟩]
  refine ⟨_, hk, hn, ⟨wf.pow, wf.pos, ?_, ?_, ?_⟩, ?_, hu⟩
  · intro i hi
    simp only [setSlot] at hi ⊢
    rw [if_neg (by omega)]
    exact wf.range i hi
  · intro i k' v' hs
    simp only [setSlot] at hs ⊢
    by_cases hi : i = pos hash h.cap k d
    · rw [if_pos hi] at hs
      cases hs
      refine ⟨d, hd, hi, ?_⟩
      intro e he
      obtain ⟨k2, v2, h2, hne⟩ := hb e he
      refine ⟨k2, v2, ?_, hne⟩
      rw [if_neg (fun e => by rw [e, hn] at h2; cases h2)]
      exact h2
    · rw [if_neg hi] at hs
      have hkk : k' ≠ k := by rintro rfl; exact r.absent hm i v' hs
      obtain ⟨d', hd', hi', hb'⟩ := wf.chain i k' v' hs
      refine ⟨d', hd', hi', ?_⟩
      intro e he
      by_cases hp : pos hash h.cap k' e = pos hash h.cap k d
      · rw [if_pos hp]; exact ⟨k, v, rfl, hkk.symm⟩
      · rw [if_neg hp]; exact hb' e he
  · show used (setSlot h (pos hash h.cap k d) (k, v)).slot h.cap < h.cap
    rw [hu]
    exact hfree
  · intro k' v'
    simp only [setSlot]
    by_cases hkk : k' = k
    · subst hkk
      rw [if_pos rfl]
      constructor
      · intro h; cases h; exact ⟨_, if_pos rfl⟩
      · rintro ⟨i, hi⟩
        split at hi
        · cases hi; rfl
        · exact absurd hi (r.absent hm i v')
    · rw [if_neg hkk, r]
      constructor
      · rintro ⟨i, hi⟩
        exact ⟨i, by rw [if_neg (fun e => by rw [e, hn] at hi; cases hi)]; exact hi⟩
      · rintro ⟨i, hi⟩
        split at hi
        · cases hi; exact absurd rfl hkk
        · exact ⟨i, hi⟩

/-- The entries in the slots below `n`. -/
def below (h : Table) (n : Nat) (k : Bytes) (v : Option Nat) : Prop := ∃ i < n, h.slot i = some (k, v)

open Classical in
theorem move_ok {h : Table} {c : Nat} (wf : WF hash h) (hc : c = h.cap * 2) (l : Nat) : ∀ n ≤ h.cap,
    ∃ t m, move hash h ⟨l, c, fun _ => none⟩ n = some t ∧ WF hash t ∧ Rep t m ∧ t.cap = c ∧ t.len = l ∧ used t.slot c = used h.slot n ∧
      ∀ k v, m k = some v ↔ below h n k v := by
  intro n
  induction n with
  | zero =>
    intro _
    have hu : ∀ n, used (fun _ => none) n = 0 := by
      intro n; induction n with
      | zero => rfl
      | succ n ih => simp [used, ih]
    refine ⟨⟨l, c, fun _ => none⟩, fun _ => none, rfl, ⟨?_, ?_, ?_, ?_, ?_⟩, ?_, rfl, rfl, hu _, ?_⟩
    · obtain ⟨p, hp⟩ := wf.pow; exact ⟨p + 1, by rw [hc, hp, Nat.pow_succ]⟩
    · have := wf.pos; show 4 ≤ c; omega
    · intro i _; rfl
    · intro i k v h; cases h
    · rw [hu]; have := wf.pos; show 0 < c; omega
    · intro k v; simp
    · intro k v; simp [below]
  | succ n ih =>
    intro hn
    obtain ⟨t, m, hmv, wft, rt, hcap, hlen, hu, hm⟩ := ih (by omega)
    unfold move
    simp only [hmv, Option.bind_eq_bind, Option.bind_some]
    have hused := used_le h.slot n
    have hpos := wf.pos
    cases hs : h.slot n with
    | none =>
      refine ⟨t, m, rfl, wft, rt, hcap, hlen, ?_, ?_⟩
      · simp [used, hs, hu]
      · intro k v
        rw [hm]
        constructor
        · rintro ⟨i, hi, h⟩; exact ⟨i, by omega, h⟩
        · rintro ⟨i, hi, h⟩
          refine ⟨i, ?_, h⟩
          rcases Nat.lt_or_ge i n with h1 | h1
          · exact h1
          · have : i = n := by omega
            subst this; rw [hs] at h; cases h
    | some x =>
      obtain ⟨k, v⟩ := x
      have hmk : m k = none := by
        cases hmk : m k with
        | none => rfl
        | some v' =>
          obtain ⟨i, hi, h'⟩ := (hm k v').1 hmk
          have := unique wf h' hs
          omega
      obtain ⟨i, h1, h2, h3, h4, h5⟩ := place wft rt hmk v (by rw [hcap, hu]; omega)
      refine ⟨setSlot t i (k, v), fun k' => if k' = k then some v else m k', ?_, h3, h4, hcap, hlen, ?_, ?_⟩
      · simp only [h1, Option.bind_some]; rfl
      · rw [hcap] at h5
        rw [h5, hu]; simp [used, hs]
      · intro k' v'
        dsimp only
        by_cases hkk : k' = k
        · subst hkk
          rw [if_pos rfl]
          constructor
          · intro h; cases h; exact ⟨n, by omega, hs⟩
          · rintro ⟨i, hi, h⟩
            have := unique wf h hs
            subst this
            rw [hs] at h; cases h; rfl
        · rw [if_neg hkk, hm]
          constructor
          · rintro ⟨i, hi, h⟩; exact ⟨i, by omega, h⟩
          · rintro ⟨i, hi, h⟩
            refine ⟨i, ?_, h⟩
            rcases Nat.lt_or_ge i n with h1 | h1
            · exact h1
            · have : i = n := by omega
              subst this; rw [hs] at h; cases h; exact absurd rfl hkk

/-- The invariant of the table. -/
structure Inv (hash : Bytes → UInt64) (h : Table) (m : Bytes → Option (Option Nat)) : Prop where
  wf : WF hash h
  rep : Rep h m
  len : h.len = used h.slot h.cap
  room : h.len ≤ h.cap / 2 + 1

theorem grow_ok {h : Table} {m : Bytes → Option (Option Nat)} (inv : Inv hash h m) :
    ∃ t, grow hash h = some t ∧ WF hash t ∧ Rep t m ∧ t.len = used t.slot t.cap ∧ t.len ≤ t.cap / 2 := by
  unfold grow
  have hp := inv.wf.pos
  split
  · obtain ⟨t, m', h1, wf, r, hc, hl, hu, hm⟩ := move_ok inv.wf rfl h.len h.cap (Nat.le_refl _)
    refine ⟨t, h1, wf, ?_, ?_, ?_⟩
    · have : m' = m := by
        funext k
        have hk : ∀ v, m' k = some v ↔ m k = some v := by
          intro v
          rw [hm, inv.rep]
          constructor
          · rintro ⟨i, _, h⟩; exact ⟨i, h⟩
          · rintro ⟨i, h'⟩
            refine ⟨i, ?_, h'⟩
            rcases Nat.lt_or_ge i h.cap with h1 | h1
            · exact h1
            · rw [inv.wf.range i h1] at h'; cases h'
        cases hmk : m k with
        | none =>
          cases hmk' : m' k with
          | none => rfl
          | some v => rw [(hk v).1 hmk'] at hmk; cases hmk
        | some v => exact (hk v).2 hmk
      rw [← this]; exact r
    · rw [hl, hc, hu, inv.len]
    · rw [hl, hc]
      have := inv.room
      omega
  · exact ⟨h, rfl, inv.wf, inv.rep, inv.len, by omega⟩

theorem put_ok {h : Table} {m : Bytes → Option (Option Nat)} (inv : Inv hash h m) (k : Bytes) :
    ∃ t i, put hash h k = some (t, i) ∧ t.slot i = some (k, (m k).join) ∧ Inv hash t (fun k' => if k' = k then some (m k).join else m k') := by
  obtain ⟨t, hg, wf, r, hl, hr⟩ := grow_ok inv
  unfold put
  simp only [hg, Option.bind_eq_bind, Option.bind_some]
  have hp := wf.pos
  cases hm : m k with
  | none =>
    obtain ⟨i, h1, h2, h3, h4, h5⟩ := place wf r hm none (by omega)
    refine ⟨{ setSlot t i (k, none) with len := t.len + 1 }, i, ?_, ?_, ⟨⟨h3.pow, h3.pos, h3.range, h3.chain, h3.free⟩, h4, ?_, ?_⟩⟩
    · simp only [h1, h2, Option.bind_some]; rfl
    · simp [setSlot]
    · show t.len + 1 = used (setSlot t i (k, none)).slot t.cap
      omega
    · show t.len + 1 ≤ t.cap / 2 + 1
      omega
  | some v =>
    obtain ⟨i, hi⟩ := (r k v).1 hm
    refine ⟨t, i, ?_, hi, ⟨wf, ?_, hl, by omega⟩⟩
    · simp only [keyindex_present wf hi, hi, Option.bind_some]; rfl
    · intro k' v'
      rw [← r]
      dsimp only [Option.join]
      by_cases hkk : k' = k
      · subst hkk; rw [if_pos rfl, hm]; rfl
      · rw [if_neg hkk]

theorem get_ok {h : Table} {m : Bytes → Option (Option Nat)} (inv : Inv hash h m) (k : Bytes) : get hash h k = some (m k).join := by
  unfold get
  cases hm : m k with
  | none =>
    obtain ⟨d, _, h1, h2, _⟩ := keyindex_absent inv.wf k (inv.rep.absent hm)
    simp only [h1, h2, Option.bind_eq_bind, Option.bind_some]; rfl
  | some v =>
    obtain ⟨i, hi⟩ := (inv.rep k v).1 hm
    simp only [keyindex_present inv.wf hi, hi, Option.bind_eq_bind, Option.bind_some]; rfl

/-- Storing a value. -/
theorem poke_ok {h : Table} {m : Bytes → Option (Option Nat)} (inv : Inv hash h m) {k : Bytes} {v : Option Nat} {i : Nat}
    (hs : h.slot i = some (k, v)) (w : Option Nat) : Inv hash (setSlot h i (k, w)) (fun k' => if k' = k then some w else m k') := by
  have hlt : i < h.cap := by
    rcases Nat.lt_or_ge i h.cap with h1 | h1
    · exact h1
    · rw [inv.wf.range i h1] at hs; cases hs
  have hu : used (setSlot h i (k, w)).slot h.cap = used h.slot h.cap := by
    simp only [setSlot, used_set]
    rw [if_neg (fun h => by rw [hs] at h; cases h.2)]; omega
  refine ⟨⟨inv.wf.pow, inv.wf.pos, ?_, ?_, ?_⟩, ?_, ?_, inv.room⟩
  · intro j hj
    simp only [setSlot] at hj ⊢
    rw [if_neg (by omega)]
    exact inv.wf.range j hj
  · intro j k' v' hj
    have hch : ∃ v2, h.slot j = some (k', v2) := by
      simp only [setSlot] at hj
      split at hj
      · rename_i e; cases hj; rw [e]; exact ⟨v, hs⟩
      · exact ⟨v', hj⟩
    obtain ⟨v2, hj2⟩ := hch
    obtain ⟨d, hd, hjd, hb⟩ := inv.wf.chain j k' v2 hj2
    refine ⟨d, hd, hjd, ?_⟩
    intro e he
    obtain ⟨k3, v3, h3, hne⟩ := hb e he
    simp only [setSlot]
    by_cases hp : pos hash h.cap k' e = i
    · rw [if_pos hp]
      rw [hp, hs] at h3
      cases h3
      exact ⟨_, _, rfl, hne⟩
    · rw [if_neg hp]; exact ⟨k3, v3, h3, hne⟩
  · rw [show (setSlot h i (k, w)).cap = h.cap from rfl, hu]; exact inv.wf.free
  · intro k' v'
    simp only [setSlot]
    by_cases hkk : k' = k
    · subst hkk
      rw [if_pos rfl]
      constructor
      · intro h; cases h; exact ⟨i, if_pos rfl⟩
      · rintro ⟨j, hj⟩
        split at hj
        · cases hj; rfl
        · rename_i hne
          exact absurd (unique inv.wf hj hs) hne
    · rw [if_neg hkk, inv.rep]
      constructor
      · rintro ⟨j, hj⟩
        refine ⟨j, ?_⟩
        rw [if_neg (fun e => by rw [e, hs] at hj; cases hj; exact hkk rfl)]
        exact hj
      · rintro ⟨j, hj⟩
        split at hj
        · cases hj; exact absurd rfl hkk
        · exact ⟨j, hj⟩
  · show h.len = used (setSlot h i (k, w)).slot h.cap
    rw [hu]; exact inv.len

/-- The nodes made so far: `nodes` maps paths to their numbers below `n`. -/
structure Nodes (hash : Bytes → UInt64) (h : Table) (n : Nat) (nodes : Bytes → Option Nat) : Prop where
  inv : Inv hash h (fun k => (nodes k).map some)
  lt : ∀ k v, nodes k = some v → v < n
  inj : ∀ k k' v, nodes k = some v → nodes k' = some v → k = k'

theorem mknode_ok {h : Table} {n : Nat} {nodes : Bytes → Option Nat} (hn : Nodes hash h n nodes) (p : Bytes) :
    ∃ h' n' v, mknode hash h n p = some (h', n', v) ∧ Nodes hash h' n' (fun k => if k = p then some v else nodes k) ∧
      (∀ w, nodes p = some w → w = v) := by
  obtain ⟨t, i, hp, hs, inv⟩ := put_ok hn.inv p
  unfold mknode
  simp only [hp, Option.bind_eq_bind, Option.bind_some]
  cases hnp : nodes p with
  | some v =>
    rw [hnp] at hs inv
    have e1 : (fun k' => if k' = p then some (Option.map some (some v)).join else (nodes k').map some) =
        (fun k => Option.map some (if k = p then some v else nodes k)) := by
      funext k; by_cases hk : k = p <;> simp [hk]
    rw [e1] at inv
    have e2 : (fun k => if k = p then some v else nodes k) = nodes := by
      funext k; by_cases hk : k = p
      · subst hk; rw [if_pos rfl, hnp]
      · rw [if_neg hk]
    refine ⟨t, n, v, ?_, ⟨inv, ?_, ?_⟩, ?_⟩
    · simp only [hs, Option.map_some, Option.join_some]; rfl
    · intro k w; rw [congrFun e2 k]; exact hn.lt k w
    · intro k k' w; rw [congrFun e2 k, congrFun e2 k']; exact hn.inj k k' w
    · intro w hw; cases hw; rfl
  | none =>
    rw [hnp] at hs inv
    have inv2 := poke_ok inv (v := none) (by simpa using hs) (some n)
    have e1 : (fun k' => if k' = p then some (some n) else if k' = p then some (Option.map some (none : Option Nat)).join else (nodes k').map some) =
        (fun k => Option.map some (if k = p then some n else nodes k)) := by
      funext k; by_cases hk : k = p <;> simp [hk]
    rw [e1] at inv2
    refine ⟨setSlot t i (p, some n), n + 1, n, ?_, ⟨inv2, ?_, ?_⟩, ?_⟩
    · simp only [hs, Option.map_none, Option.join_none]; rfl
    · intro k v
      split
      · intro h; cases h; omega
      · intro h; have := hn.lt k v h; omega
    · intro k k' v
      split
      · rename_i h1
        intro h; cases h
        split
        · rename_i h2; intro _; rw [h1, h2]
        · intro h; have := hn.lt _ _ h; omega
      · intro h
        split
        · intro h2; cases h2; have := hn.lt _ _ h; omega
        · intro h2; exact hn.inj k k' v h h2
    · intro w hw; cases hw

theorem nodes_init : Nodes hash init 0 (fun _ => none) := by
  have hu : ∀ n, used (fun _ => none) n = 0 := by
    intro n; induction n with
    | zero => rfl
    | succ n ih => simp [used, ih]
  refine ⟨⟨⟨⟨10, rfl⟩, by decide, fun _ _ => rfl, ?_, ?_⟩, ?_, ?_, by decide⟩, ?_, ?_⟩
  · intro i k v h; cases h
  · show used (fun _ => none) 1024 < 1024
    rw [hu]; decide
  · intro k v; simp [init, mk]
  · exact (hu _).symm
  · intro k v h; cases h
  · intro k k' v h; cases h

theorem mknodes_ok : ∀ (ps : List Bytes) {h : Table} {n : Nat} {nodes : Bytes → Option Nat}, Nodes hash h n nodes →
    ∃ h' n' vs nodes', mknodes hash ps h n = some (h', n', vs) ∧ Nodes hash h' n' nodes' ∧ vs.length = ps.length ∧
      (∀ i (hi : i < ps.length), nodes' (ps[i]'hi) = vs[i]?) ∧ (∀ k v, nodes k = some v → nodes' k = some v) ∧
      (∀ k, k ∉ ps → nodes' k = nodes k)
  | [], h, n, nodes, hn => ⟨h, n, [], nodes, rfl, hn, rfl, by intro i hi; simp at hi, fun _ _ h => h, fun _ _ => rfl⟩
  | p :: ps, h, n, nodes, hn => by
    obtain ⟨h1, n1, v, e1, hn1, hold⟩ := mknode_ok hn p
    obtain ⟨h2, n2, vs, nodes', e2, hn2, hlen, hget, hkeep, hout⟩ := mknodes_ok ps hn1
    refine ⟨h2, n2, v :: vs, nodes', ?_, hn2, by simp [hlen], ?_, ?_, ?_⟩
    · simp only [mknodes, e1, e2, Option.bind_eq_bind, Option.bind_some]; rfl
    · intro i hi
      cases i with
      | zero => simp only [List.getElem_cons_zero, List.getElem?_cons_zero]; exact hkeep p v (if_pos rfl)
      | succ i => simp only [List.getElem_cons_succ, List.getElem?_cons_succ]; exact hget i (by simpa using hi)
    · intro k w hk
      apply hkeep
      by_cases hkp : k = p
      · subst hkp; rw [if_pos rfl, hold w hk]
      · rw [if_neg hkp]; exact hk
    · intro k hk
      rw [List.mem_cons, not_or] at hk
      rw [hout k hk.2]
      simp [hk.1]

end Muon.Htab
