import Verif.Buf.Arr
/-
String buffers.
-/
namespace Muon.Buf
open Muon

theorem double_ok (n cap need : Nat) (hc : 0 < cap) (hn : need < 2 ^ 31) (h1 : cap < 2 ^ 31) (h2 : 2 ^ 31 ≤ cap * 2 ^ n) :
    ∃ c, double (n + 1) cap need = some c ∧ need ≤ c ∧ cap < c ∧ c < 2 ^ 32 := by
  induction n generalizing cap with
  | zero => simp at h2; omega
  | succ n ih =>
    have e : cap * 2 % 2 ^ 32 = cap * 2 := Nat.mod_eq_of_lt (by omega)
    rw [double]
    rw [e]
    by_cases hlt : cap * 2 < need
    · rw [if_pos hlt]
      obtain ⟨c, hc1, hc2, hc3, hc4⟩ := ih (cap * 2) (by omega) (by omega) (by rw [Nat.pow_succ] at h2; rw [Nat.mul_assoc, Nat.mul_comm 2]; exact h2)
      exact ⟨c, hc1, hc2, by omega, hc4⟩
    · rw [if_neg hlt]
      exact ⟨_, rfl, by omega, by omega, by omega⟩

theorem growCap_ok (cap need : Nat) (hn : need < 2 ^ 31) (h1 : cap < 2 ^ 31) :
    ∃ c, growCap cap need = some c ∧ need ≤ c ∧ cap < c ∧ c < 2 ^ 32 := by
  unfold growCap
  by_cases h0 : cap = 0
  · rw [if_pos h0]
    obtain ⟨c, h1, h2, h3, h4⟩ := double_ok 32 1024 need (by omega) hn (by omega) (by omega)
    exact ⟨c, h1, h2, by omega, h4⟩
  · rw [if_neg h0]
    refine double_ok 32 cap need (by omega) hn h1 ?_
    have : 1 * 2 ^ 32 ≤ cap * 2 ^ 32 := Nat.mul_le_mul_right _ (by omega)
    omega

/-- The buffer holds `s`, followed by a NUL byte (except in a buffer of no bytes at all). -/
structure Has (sb : Sb) (s : Bytes) : Prop where
  len : sb.len = s.length
  mem : sb.mem.take sb.len = s
  nul : sb.cap = 0 ∨ (sb.len < sb.cap ∧ sb.mem[sb.len]? = some 0)
  room : sb.cap ≤ sb.mem.length
  le : sb.len ≤ sb.cap
  str : sb.mode = .str → 0 < sb.cap

/-- There is room for `inc` more bytes. -/
structure Room (sb sb' : Sb) (s : Bytes) (inc : Nat) : Prop where
  len : sb'.len = s.length
  mem : sb'.mem.take s.length = s
  room : sb'.cap ≤ sb'.mem.length
  enough : s.length + inc ≤ sb'.cap
  pos : 0 < sb'.cap
  mode : sb'.mode = sb.mode ∨ ∃ o, sb.mode = .initial o

theorem growCap_ne (cap need c : Nat) (h : growCap cap need = some c) : c ≠ 4095 := by
  have key : ∀ n cap need c, double n cap need = some c → c % 2 = 0 := by
    intro n
    induction n with
    | zero => intro cap need c h; cases h
    | succ n ih =>
      intro cap need c h
      rw [double] at h
      by_cases hlt : cap * 2 % 2 ^ 32 < need
      · rw [if_pos hlt] at h; exact ih _ _ _ h
      · rw [if_neg hlt] at h; cases h; omega
  have := key _ _ _ _ h
  omega

/-- Growing keeps the content and makes room, or the buffer is one that must not grow. -/
theorem sbGrow_ok (junk : Nat → UInt8) (sb : Sb) (s : Bytes) (h : Has sb s) (inc : Nat) (hb : s.length + inc < 2 ^ 31) (hc : sb.cap < 2 ^ 31)
    (hmode : sb.mode ≠ .initial none) :
    ∃ sb', sbGrow junk sb inc = .ok sb' ∧ Room sb sb' s inc ∧ sb'.mode ≠ .initial none ∧
      ((s.length + inc < sb.cap ∧ sb' = sb) ∨ (sb.cap ≤ s.length + inc ∧ growCap sb.cap (s.length + inc) = some sb'.cap)) := by
  have hl := h.len
  have hle := h.le
  have hroom := h.room
  have hms : sb.mem.take s.length = s := by rw [← hl]; exact h.mem
  have hlm : s.length ≤ sb.mem.length := by omega
  unfold sbGrow
  dsimp only
  rw [hl, Nat.mod_eq_of_lt (by omega)]
  by_cases hlt : s.length + inc < sb.cap
  · rw [if_pos hlt]
    exact ⟨sb, rfl, ⟨hl, hms, hroom, by omega, by omega, .inl rfl⟩, hmode, .inl ⟨hlt, rfl⟩⟩
  · rw [if_neg hlt]
    obtain ⟨c, hg, hc1, hc2, hc3⟩ := growCap_ok sb.cap (s.length + inc) hb hc
    rw [hg]
    dsimp only
    have hpos : 0 < c := by omega
    cases hm : sb.mode with
    | heap =>
      dsimp only
      have hlen : (sb.mem.take c ++ (List.range (c - sb.mem.length)).map junk).length = max c (min c sb.mem.length) := by
        simp only [List.length_append, List.length_take, List.length_map, List.length_range]; omega
      have hw : s.length + (List.replicate (c - sb.cap) (0 : UInt8)).length ≤ (sb.mem.take c ++ (List.range (c - sb.mem.length)).map junk).length := by
        rw [hlen, List.length_replicate]; omega
      rw [write_ok _ _ _ hw, Res.ok_bind]
      refine ⟨_, rfl, ⟨rfl, ?_, ?_, hc1, hpos, .inl hm.symm⟩, by simp, .inr ⟨by omega, rfl⟩⟩
      · dsimp only
        rw [List.append_assoc, List.take_append_of_le_length (by rw [List.length_take, hlen]; omega), List.take_take, Nat.min_self,
          List.take_append_of_le_length (by rw [List.length_take]; omega), List.take_take, Nat.min_eq_left (by omega), hms]
      · dsimp only; rw [write_length _ _ _ hw, hlen]; omega
    | str =>
      dsimp only
      rw [if_pos hroom]
      refine ⟨_, rfl, ⟨rfl, ?_, ?_, hc1, hpos, .inl hm.symm⟩, by simp, .inr ⟨by omega, rfl⟩⟩
      · dsimp only
        rw [List.take_append_of_le_length (by rw [List.length_take]; omega), List.take_take, Nat.min_eq_left (by omega), hms]
      · dsimp only; simp only [List.length_append, List.length_take, List.length_replicate]; omega
    | initial o =>
      cases o with
      | none => exact absurd hm hmode
      | some o =>
        cases o with
        | true =>
          dsimp only
          rw [hms]
          have hw : 0 + s.length ≤ (List.replicate c (0 : UInt8)).length := by rw [List.length_replicate]; omega
          rw [write_ok _ _ _ hw, Res.ok_bind]
          refine ⟨_, rfl, ⟨rfl, ?_, ?_, hc1, hpos, .inr ⟨_, hm⟩⟩, by simp, .inr ⟨by omega, rfl⟩⟩
          · simp
          · dsimp only; rw [write_length _ _ _ hw, List.length_replicate]; omega
        | false =>
          dsimp only
          rw [if_neg (growCap_ne _ _ _ hg), hms]
          have hw : 0 + s.length ≤ (List.replicate (c + 1) (0 : UInt8)).length := by rw [List.length_replicate]; omega
          rw [write_ok _ _ _ hw, Res.ok_bind]
          refine ⟨_, rfl, ⟨rfl, ?_, ?_, hc1, hpos, .inr ⟨_, hm⟩⟩, by simp, .inr ⟨by omega, rfl⟩⟩
          · simp
          · dsimp only; rw [write_length _ _ _ hw, List.length_replicate]; omega

/-- Putting bytes and a NUL byte where there is room. -/
theorem sbPut_ok (sb sb' : Sb) (s d : Bytes) (h : Room sb sb' s (d.length + 1)) :
    ∃ sb'', sbPut sb' (d ++ [0]) d.length = .ok sb'' ∧ Has sb'' (s ++ d) ∧ sb''.cap = sb'.cap ∧ sb''.mode = sb'.mode := by
  unfold sbPut
  have h1 := h.enough
  have h2 := h.room
  rw [h.len]
  have hw : s.length + (d ++ [0]).length ≤ sb'.mem.length := by rw [List.length_append, List.length_singleton]; omega
  rw [write_ok _ _ _ hw, Res.ok_bind]
  refine ⟨_, rfl, ⟨?_, ?_, .inr ⟨?_, ?_⟩, ?_, ?_, fun _ => h.pos⟩, rfl, rfl⟩
  · simp
  · dsimp only
    rw [h.mem, ← List.append_assoc, List.append_assoc (s ++ d), ← List.length_append, List.take_left]
  · dsimp only; omega
  · dsimp only
    rw [h.mem, ← List.append_assoc, List.append_assoc (s ++ d), ← List.length_append (as := s) (bs := d), List.getElem?_append_right (Nat.le_refl _), Nat.sub_self]
    rfl
  · dsimp only
    rw [write_length _ _ _ hw]; exact h2
  · dsimp only; omega

/-- Operations on a string buffer. -/
inductive SbOp
  | push (c : UInt8)
  | pushn (s : Bytes)
  | pushs (s : Bytes)
  | clear
  deriving DecidableEq, Repr

def sbStep (junk : Nat → UInt8) (sb : Sb) : SbOp → Res Sb
  | .push c => sbPush junk sb c
  | .pushn s => sbPushn junk sb s
  | .pushs s => sbPushs junk sb s
  | .clear => sbClear sb

/-- What they do to the text. -/
def textStep (s : Bytes) : SbOp → Bytes
  | .push c => s ++ [c]
  | .pushn d => s ++ d
  | .pushs d => s ++ d
  | .clear => []

def opSize : SbOp → Nat
  | .push _ => 1
  | .pushn d => d.length
  | .pushs d => d.length
  | .clear => 0

/-- The capacity stays below twice what is needed. -/
theorem double_le (n cap need c : Nat) (h : double n cap need = some c) : c ≤ 2 * max cap need := by
  induction n generalizing cap with
  | zero => cases h
  | succ n ih =>
    rw [double] at h
    have hm := Nat.mod_le (cap * 2) (2 ^ 32)
    by_cases hlt : cap * 2 % 2 ^ 32 < need
    · rw [if_pos hlt] at h
      have := ih _ h
      omega
    · rw [if_neg hlt] at h; cases h; omega

theorem growCap_le (cap need c : Nat) (h : growCap cap need = some c) : c ≤ 2 * max (max cap 1024) need := by
  have := double_le _ _ _ _ h
  split at this <;> omega

theorem put_step (junk : Nat → UInt8) (sb : Sb) (s d : Bytes) (M : Nat) (h : Has sb s) (hmode : sb.mode ≠ .initial none)
    (hb : s.length + d.length < M) (hM : M < 2 ^ 30) (hcap : sb.cap ≤ 2 * max 1024 M) :
    ∃ sb', (sbGrow junk sb (d.length + 1) >>= fun sb => sbPut sb (d ++ [0]) d.length) = .ok sb' ∧ Has sb' (s ++ d) ∧ sb'.mode ≠ .initial none ∧
      sb'.cap ≤ 2 * max 1024 M ∧ (0 < sb.cap → 0 < sb'.cap) := by
  by_cases hg : s.length + (d.length + 1) < sb.cap
  · -- no growing
    have e : sbGrow junk sb (d.length + 1) = .ok sb := by
      unfold sbGrow
      dsimp only
      rw [h.len, Nat.mod_eq_of_lt (by omega), if_pos hg]
    rw [e, Res.ok_bind]
    have hr : Room sb sb s (d.length + 1) :=
      ⟨h.len, by rw [← h.len]; exact h.mem, h.room, by omega, by omega, .inl rfl⟩
    obtain ⟨sb', e', h', hc', hm'⟩ := sbPut_ok sb sb s d hr
    exact ⟨sb', e', h', by rw [hm']; exact hmode, by rw [hc']; exact hcap, fun h => by rw [hc']; exact h⟩
  · have hc : sb.cap < 2 ^ 31 := by omega
    obtain ⟨sb1, e, hr, hm1, hcp⟩ := sbGrow_ok junk sb s h (d.length + 1) (by omega) hc hmode
    rw [e, Res.ok_bind]
    obtain ⟨sb', e', h', hc', hm'⟩ := sbPut_ok sb sb1 s d hr
    refine ⟨sb', e', h', by rw [hm']; exact hm1, ?_, fun _ => by rw [hc']; exact hr.pos⟩
    rw [hc']
    rcases hcp with ⟨-, h1⟩ | ⟨-, h1⟩
    · rw [h1]; exact hcap
    · have := growCap_le _ _ _ h1
      omega

theorem sbStep_ok (junk : Nat → UInt8) (sb : Sb) (s : Bytes) (o : SbOp) (M : Nat) (h : Has sb s) (hmode : sb.mode ≠ .initial none)
    (hb : s.length + opSize o < M) (hM : M < 2 ^ 30) (hcap : sb.cap ≤ 2 * max 1024 M) :
    ∃ sb', sbStep junk sb o = .ok sb' ∧ Has sb' (textStep s o) ∧ sb'.mode ≠ .initial none ∧ sb'.cap ≤ 2 * max 1024 M ∧
      (0 < sb.cap → 0 < sb'.cap) := by
  cases o with
  | push c => exact put_step junk sb s [c] M h hmode hb hM hcap
  | pushn d =>
    simp only [sbStep, sbPushn, textStep]
    by_cases h0 : d = []
    · rw [if_pos h0, h0, List.append_nil]; exact ⟨sb, rfl, h, hmode, hcap, id⟩
    · rw [if_neg h0]; exact put_step junk sb s d M h hmode hb hM hcap
  | pushs d =>
    simp only [sbStep, sbPushs, textStep]
    by_cases h0 : d.length + 1 < 2
    · have : d = [] := List.eq_nil_of_length_eq_zero (by omega)
      rw [if_pos h0, this, List.append_nil]; exact ⟨sb, rfl, h, hmode, hcap, id⟩
    · rw [if_neg h0]; exact put_step junk sb s d M h hmode hb hM hcap
  | clear =>
    simp only [sbStep, sbClear, textStep]
    have hw : 0 + (List.replicate sb.len (0 : UInt8)).length ≤ sb.mem.length := by
      have := h.room; have := h.le; rw [List.length_replicate]; omega
    rw [write_ok _ _ _ hw, Res.ok_bind]
    refine ⟨_, rfl, ⟨rfl, by simp, ?_, ?_, Nat.zero_le _, h.str⟩, hmode, hcap, id⟩
    · rcases h.nul with h0 | ⟨h1, h2⟩
      · exact .inl h0
      · refine .inr ⟨by dsimp only; omega, ?_⟩
        dsimp only
        cases hl : sb.len with
        | zero => rw [hl] at h2; simpa using h2
        | succ n => simp [List.replicate_succ]
    · dsimp only; rw [write_length _ _ _ hw]; exact h.room

def sbRun (junk : Nat → UInt8) (sb : Sb) : List SbOp → Res Sb
  | [] => .ok sb
  | o :: os => sbStep junk sb o >>= fun sb => sbRun junk sb os

def textRun (s : Bytes) : List SbOp → Bytes
  | [] => s
  | o :: os => textRun (textStep s o) os

theorem sbRun_ok (junk : Nat → UInt8) (ops : List SbOp) (sb : Sb) (s : Bytes) (M : Nat) (h : Has sb s) (hmode : sb.mode ≠ .initial none)
    (hb : s.length + (ops.map opSize).sum < M) (hM : M < 2 ^ 30) (hcap : sb.cap ≤ 2 * max 1024 M) :
    ∃ sb', sbRun junk sb ops = .ok sb' ∧ Has sb' (textRun s ops) ∧ sb'.mode ≠ .initial none ∧ (0 < sb.cap → 0 < sb'.cap) := by
  induction ops generalizing sb s with
  | nil => exact ⟨sb, rfl, h, hmode, id⟩
  | cons o ops ih =>
    simp only [List.map_cons, List.sum_cons] at hb
    obtain ⟨sb1, e, h1, hm1, hc1, hp1⟩ := sbStep_ok junk sb s o M h hmode (by omega) hM hcap
    rw [sbRun, e, Res.ok_bind, textRun]
    have hl : (textStep s o).length ≤ s.length + opSize o := by cases o <;> simp [textStep, opSize]
    obtain ⟨sb2, e2, h2, hm2, hp2⟩ := ih sb1 _ h1 hm1 (by omega) hc1
    exact ⟨sb2, e2, h2, hm2, fun h => hp2 (hp1 h)⟩

theorem sbInit_has (buf : Bytes) (o : Option Bool) : Has (sbInit buf o) [] := by
  refine ⟨rfl, by simp [sbInit], ?_, by simp [sbInit], by simp [sbInit], by simp [sbInit]⟩
  cases buf with
  | nil => exact .inl rfl
  | cons c buf => exact .inr ⟨by simp [sbInit], by simp [sbInit]⟩

end Muon.Buf
