import Verif.Sha.Model
import Verif.Sha.Spec
namespace Muon.Sha
open Muon Muon.Sha.Spec

theorem rightRot_eq (v : Word) (n : Nat) (h : n < 32) : rightRot v n = v.rotateRight n := by
  rw [BitVec.rotateRight_def, Nat.mod_eq_of_lt h]
  rfl

theorem k_eq : k = K := by decide +kernel

/-- The variables of the code are the registers of the standard. -/
def regs (a : Ah) : Regs := ⟨a.v0, a.v1, a.v2, a.v3, a.v4, a.v5, a.v6, a.v7⟩

theorem h0_eq : regs h0 = H0 := by decide +kernel

theorem byteWord_toNat (c : UInt8) : (byteWord c).toNat = c.toNat := by
  unfold byteWord
  rw [BitVec.toNat_ofNat]
  have := c.toNat_lt
  omega

theorem word_eq (a b c d : UInt8) : byteWord a <<< 24 ||| byteWord b <<< 16 ||| byteWord c <<< 8 ||| byteWord d =
    BitVec.ofNat 32 (((a.toNat * 256 + b.toNat) * 256 + c.toNat) * 256 + d.toNat) := by
  apply BitVec.eq_of_toNat_eq
  have ha := a.toNat_lt
  have hb := b.toNat_lt
  have hc := c.toNat_lt
  have hd := d.toNat_lt
  rw [BitVec.toNat_or, BitVec.toNat_or, BitVec.toNat_or, BitVec.toNat_shiftLeft, BitVec.toNat_shiftLeft, BitVec.toNat_shiftLeft,
    byteWord_toNat, byteWord_toNat, byteWord_toNat, byteWord_toNat, BitVec.toNat_ofNat, Nat.shiftLeft_eq, Nat.shiftLeft_eq, Nat.shiftLeft_eq]
  rw [Nat.mod_eq_of_lt (by omega), Nat.mod_eq_of_lt (by omega), Nat.mod_eq_of_lt (by omega), Nat.mod_eq_of_lt (by omega)]
  have h1 : a.toNat * 2 ^ 24 ||| b.toNat * 2 ^ 16 = 2 ^ 24 * a.toNat + b.toNat * 2 ^ 16 := by
    rw [Nat.two_pow_add_eq_or_of_lt (by omega), Nat.mul_comm]
  have h2 : 2 ^ 24 * a.toNat + b.toNat * 2 ^ 16 ||| c.toNat * 2 ^ 8 = 2 ^ 16 * (a.toNat * 256 + b.toNat) + c.toNat * 2 ^ 8 := by
    rw [show 2 ^ 24 * a.toNat + b.toNat * 2 ^ 16 = 2 ^ 16 * (a.toNat * 256 + b.toNat) from by omega, ← Nat.two_pow_add_eq_or_of_lt (by omega)]
  have h3 : 2 ^ 16 * (a.toNat * 256 + b.toNat) + c.toNat * 2 ^ 8 ||| d.toNat = 2 ^ 8 * ((a.toNat * 256 + b.toNat) * 256 + c.toNat) + d.toNat := by
    rw [show 2 ^ 16 * (a.toNat * 256 + b.toNat) + c.toNat * 2 ^ 8 = 2 ^ 8 * ((a.toNat * 256 + b.toNat) * 256 + c.toNat) from by omega, ← Nat.two_pow_add_eq_or_of_lt (by omega)]
  rw [h1, h2, h3]
  omega

theorem outBytes_eq (w : Word) : outBytes w = be32 w := by
  unfold outBytes be32
  simp [List.range_succ, Nat.shiftRight_eq_div_pow]

theorem lenBytes_eq (n : Nat) : lenBytes n = be64 (8 * n) := by
  unfold lenBytes be64
  have h : ∀ j, n / 32 / 256 ^ j = 8 * n / 256 ^ (j + 1) := by
    intro j
    rw [Nat.pow_succ', ← Nat.div_div_eq_div_mul, show 8 * n / 256 = n / 32 by omega]
  simp only [show List.range 7 = [0, 1, 2, 3, 4, 5, 6] from rfl, show List.range 8 = [0, 1, 2, 3, 4, 5, 6, 7] from rfl, List.map_cons, List.map_nil,
    List.cons_append, List.nil_append, h]
  simp [Nat.mul_comm n 8]

/-! ### Rounds -/

/-- After `t` rounds. -/
def RInv (b : Bytes) (H : Ah) (t : Nat) (st : Ah × (Nat → Word)) : Prop :=
  regs st.1 = rounds b (regs H) t ∧ ∀ s, s < t → t ≤ s + 16 → st.2 (s % 16) = W b s

theorem step_inv (b : Bytes) (H : Ah) (i j : Nat) (hj : j < 16) (st : Ah × (Nat → Word)) (h : RInv b H (16 * i + j) st) :
    RInv b H (16 * i + j + 1) (step b i st j) := by
  obtain ⟨h1, h2⟩ := h
  have hw : (if i = 0 then
      byteWord (b.getD (4 * j) 0) <<< 24 ||| byteWord (b.getD (4 * j + 1) 0) <<< 16 ||| byteWord (b.getD (4 * j + 2) 0) <<< 8 ||| byteWord (b.getD (4 * j + 3) 0)
    else
      st.2 j + (rightRot (st.2 ((j + 1) % 16)) 7 ^^^ rightRot (st.2 ((j + 1) % 16)) 18 ^^^ (st.2 ((j + 1) % 16) >>> 3)) + st.2 ((j + 9) % 16) +
        (rightRot (st.2 ((j + 14) % 16)) 17 ^^^ rightRot (st.2 ((j + 14) % 16)) 19 ^^^ (st.2 ((j + 14) % 16) >>> 10))) = W b (16 * i + j) := by
    by_cases hi : i = 0
    · rw [if_pos hi, word_eq, W, if_pos (by omega)]
      unfold word
      rw [show 16 * i + j = j from by omega]
    · rw [if_neg hi, W, if_neg (by omega)]
      have e1 := h2 (16 * i + j - 15) (by omega) (by omega)
      have e2 := h2 (16 * i + j - 2) (by omega) (by omega)
      have e3 := h2 (16 * i + j - 7) (by omega) (by omega)
      have e4 := h2 (16 * i + j - 16) (by omega) (by omega)
      rw [show (16 * i + j - 15) % 16 = (j + 1) % 16 from by omega] at e1
      rw [show (16 * i + j - 2) % 16 = (j + 14) % 16 from by omega] at e2
      rw [show (16 * i + j - 7) % 16 = (j + 9) % 16 from by omega] at e3
      rw [show (16 * i + j - 16) % 16 = j from by omega] at e4
      rw [e1, e2, e3, e4, rightRot_eq _ _ (by omega), rightRot_eq _ _ (by omega), rightRot_eq _ _ (by omega), rightRot_eq _ _ (by omega)]
      unfold sigma0 sigma1
      ac_rfl
  constructor
  · unfold rounds
    rw [← h1, ← k_eq, ← hw]
    unfold step regs round Sigma0 Sigma1 ch maj
    dsimp only
    rw [rightRot_eq st.1.v4 6 (by omega), rightRot_eq st.1.v4 11 (by omega), rightRot_eq st.1.v4 25 (by omega),
      rightRot_eq st.1.v0 2 (by omega), rightRot_eq st.1.v0 13 (by omega), rightRot_eq st.1.v0 22 (by omega)]
  · intro s hs hs'
    by_cases he : s = 16 * i + j
    · subst he
      rw [← hw]
      unfold step
      dsimp only
      rw [if_pos (by omega)]
    · unfold step
      dsimp only
      rw [if_neg (by omega)]
      exact h2 s (by omega) (by omega)

theorem inner_inv (b : Bytes) (H : Ah) (i : Nat) (st : Ah × (Nat → Word)) (h : RInv b H (16 * i) st) (n : Nat) (hn : n ≤ 16) :
    RInv b H (16 * i + n) ((List.range n).foldl (step b i) st) := by
  induction n with
  | zero => exact h
  | succ n ih =>
    rw [List.range_succ, List.foldl_append]
    exact step_inv b H i n (by omega) _ (ih (by omega))

theorem outer_inv (b : Bytes) (H : Ah) (st : Ah × (Nat → Word)) (h : RInv b H 0 st) (n : Nat) :
    RInv b H (16 * n) ((List.range n).foldl (fun st i => (List.range 16).foldl (step b i) st) st) := by
  induction n with
  | zero => exact h
  | succ n ih =>
    rw [List.range_succ (n := n), List.foldl_append]
    have := inner_inv b H n _ ih 16 (Nat.le_refl _)
    rw [← Nat.mul_succ] at this
    rw [List.foldl_cons, List.foldl_nil]
    exact this

theorem chunkStep_eq (H : Ah) (b : Bytes) : regs (chunkStep H b) = compress (regs H) b := by
  have h := (outer_inv b H (H, fun _ => 0) ⟨rfl, fun s hs => by omega⟩ 4).1
  unfold compress
  rw [← h]
  rfl

/-! ### Chunks -/

theorem put_ok (pre mid post s : Bytes) (h : s.length = mid.length) : put (pre ++ mid ++ post) pre.length s = .ok (pre ++ s ++ post) := by
  unfold put
  rw [if_pos (by simp; omega)]
  rw [h]
  simp

theorem blocks_append (n : Nat) (a s : Bytes) (h : a.length = 64) : blocks (n + 1) (a ++ s) = a :: blocks n s := by
  rw [blocks, List.take_left' h, List.drop_left' h]

/-- The rest of the padded message. -/
def padTail (total : Nat) (m : Bytes) : Bytes := m ++ (0x80 :: (List.replicate (zeros m.length) 0 ++ be64 (8 * total)))

theorem be64_length (n : Nat) : (be64 n).length = 8 := by simp [be64]

theorem padTail_length (total : Nat) (m : Bytes) : (padTail total m).length = m.length + 9 + zeros m.length := by
  unfold padTail
  simp [be64_length]
  omega

/-- The hash value, for the words of the code. -/
def foldChunks (l : List Bytes) (h : Ah) : Ah := l.foldl chunkStep h

/-- The loop ends when the length has been processed. -/
theorem mainLoop_done (fuel : Nat) (h : Ah) (buf p : Bytes) (len total : Nat) (one : Bool) : mainLoop (fuel + 1) h buf ⟨p, len, total, one, true⟩ = .ok h := by
  rw [mainLoop]
  unfold calcChunk
  rw [if_pos rfl, Res.ok_bind]

/-- The last chunk, when only the length is missing. -/
theorem last_chunk (total fuel : Nat) (h : Ah) (buf p : Bytes) (hb : buf.length = 64) :
    mainLoop (fuel + 2) h buf ⟨p, 0, total, true, false⟩ = .ok (chunkStep h (List.replicate 56 0 ++ be64 (8 * total))) := by
  have h1 : put buf 0 (p.take 0) = .ok buf := by simp [put]
  have h2 : put buf 0 (List.replicate 56 0) = .ok (List.replicate 56 0 ++ buf.drop 56) := by
    unfold put
    rw [if_pos (by simp [hb])]
    simp
  have h3 : put (List.replicate 56 0 ++ buf.drop 56) 56 (lenBytes total) = .ok (List.replicate 56 0 ++ be64 (8 * total)) := by
    have := put_ok (List.replicate 56 0) (buf.drop 56) [] (be64 (8 * total)) (by rw [be64_length]; simp [hb])
    rw [lenBytes_eq]
    simpa using this
  have hc : calcChunk buf ⟨p, 0, total, true, false⟩ = .ok (some (List.replicate 56 0 ++ be64 (8 * total), List.replicate 56 0 ++ be64 (8 * total), ⟨p, 0, total, true, true⟩)) := by
    unfold calcChunk
    dsimp only
    rw [if_neg (by simp), if_neg (by omega), if_neg (by omega), h1, Res.ok_bind, if_pos rfl, Res.ok_bind]
    dsimp only
    rw [if_pos (by omega), h2, Res.ok_bind, h3, Res.ok_bind, List.drop_zero]
  rw [mainLoop, hc, Res.ok_bind]
  dsimp only
  rw [mainLoop_done]

theorem mainLoop_eq (n : Nat) : ∀ (fuel total : Nat) (h : Ah) (buf m : Bytes), m.length = n → m.length + 3 ≤ fuel → buf.length = 64 →
    mainLoop fuel h buf ⟨m, m.length, total, false, false⟩ = .ok (foldChunks (blocks ((padTail total m).length / 64) (padTail total m)) h) := by
  induction n using Nat.strongRecOn with
  | ind n ih =>
    intro fuel total h buf m hm hf hb
    obtain ⟨fuel, rfl⟩ : ∃ f, fuel = f + 1 := ⟨fuel - 1, by omega⟩
    by_cases h64 : m.length ≥ 64
    · have hc : calcChunk buf ⟨m, m.length, total, false, false⟩ = .ok (some (m.take 64, buf, ⟨m.drop 64, (m.drop 64).length, total, false, false⟩)) := by
        unfold calcChunk
        dsimp only
        rw [if_neg (by simp), if_pos h64, if_neg (by omega), List.length_drop]
      rw [mainLoop, hc, Res.ok_bind]
      dsimp only
      rw [ih (m.drop 64).length (by simp; omega) fuel total (chunkStep h (m.take 64)) buf (m.drop 64) rfl (by simp; omega) hb]
      have hp : padTail total m = m.take 64 ++ padTail total (m.drop 64) := by
        unfold padTail
        rw [← List.append_assoc, List.take_append_drop]
        congr 4
        unfold zeros
        rw [List.length_drop]
        omega
      have hl : (padTail total m).length / 64 = (padTail total (m.drop 64)).length / 64 + 1 := by
        rw [hp, List.length_append, List.length_take]
        omega
      rw [hl, hp, blocks_append _ _ _ (by rw [List.length_take]; omega)]
      simp only [foldChunks, List.foldl_cons]
    · have hput1 : put buf 0 (m.take m.length) = .ok (m ++ buf.drop m.length) := by
        unfold put
        rw [if_pos (by simp; omega)]
        simp
      have hput2 : put (m ++ buf.drop m.length) m.length [0x80] = .ok ((m ++ [0x80]) ++ buf.drop (m.length + 1)) := by
        have hd : buf.drop m.length = buf[m.length]'(by omega) :: buf.drop (m.length + 1) := List.drop_eq_getElem_cons (by omega)
        have := put_ok m [buf[m.length]'(by omega)] (buf.drop (m.length + 1)) [0x80] rfl
        rw [hd]
        simpa using this
      by_cases hsp : m.length ≤ 55
      · have hput3 : put ((m ++ [0x80]) ++ buf.drop (m.length + 1)) (m.length + 1) (List.replicate (64 - m.length - 1 - 8) 0)
            = .ok ((m ++ [0x80]) ++ List.replicate (64 - m.length - 1 - 8) 0 ++ buf.drop 56) := by
          have hd : buf.drop (m.length + 1) = (buf.drop (m.length + 1)).take (55 - m.length) ++ buf.drop 56 := by
            have := List.take_append_drop (55 - m.length) (buf.drop (m.length + 1))
            rw [List.drop_drop, show m.length + 1 + (55 - m.length) = 56 from by omega] at this
            exact this.symm
          have := put_ok (m ++ [0x80]) ((buf.drop (m.length + 1)).take (55 - m.length)) (buf.drop 56) (List.replicate (64 - m.length - 1 - 8) 0) (by simp; omega)
          rw [List.append_assoc _ _ (buf.drop 56), ← hd] at this
          simpa using this
        have hput4 : put ((m ++ [0x80]) ++ List.replicate (64 - m.length - 1 - 8) 0 ++ buf.drop 56) (m.length + 1 + (64 - m.length - 1 - 8)) (lenBytes total)
            = .ok ((m ++ [0x80]) ++ List.replicate (64 - m.length - 1 - 8) 0 ++ be64 (8 * total)) := by
          have := put_ok ((m ++ [0x80]) ++ List.replicate (64 - m.length - 1 - 8) 0) (buf.drop 56) [] (be64 (8 * total)) (by rw [be64_length]; simp [hb])
          rw [lenBytes_eq]
          have hlen : ((m ++ [0x80]) ++ List.replicate (64 - m.length - 1 - 8) (0 : UInt8)).length = m.length + 1 + (64 - m.length - 1 - 8) := by
            simp only [List.length_append, List.length_replicate, List.length_cons, List.length_nil]
          rw [hlen, List.append_nil, List.append_nil] at this
          exact this
        have hc : calcChunk buf ⟨m, m.length, total, false, false⟩ = .ok (some ((m ++ [0x80]) ++ List.replicate (64 - m.length - 1 - 8) 0 ++ be64 (8 * total),
            (m ++ [0x80]) ++ List.replicate (64 - m.length - 1 - 8) 0 ++ be64 (8 * total), ⟨[], 0, total, true, true⟩)) := by
          unfold calcChunk
          dsimp only
          rw [if_neg (by simp), if_neg h64, if_neg (by omega), hput1, Res.ok_bind, if_neg (by simp), hput2, Res.ok_bind, Res.ok_bind]
          dsimp only
          rw [if_pos (by omega), hput3, Res.ok_bind, hput4, Res.ok_bind, List.drop_length]
        have hz : zeros m.length = 64 - m.length - 1 - 8 := by unfold zeros; omega
        have hp : padTail total m = ((m ++ [0x80]) ++ List.replicate (64 - m.length - 1 - 8) 0 ++ be64 (8 * total)) ++ [] := by
          unfold padTail
          rw [hz]; simp
        have hl : (padTail total m).length / 64 = 0 + 1 := by rw [padTail_length, hz]; omega
        rw [hl, hp, blocks_append _ _ _ (by simp [be64_length]; omega), mainLoop, hc, Res.ok_bind]
        obtain ⟨fuel, rfl⟩ : ∃ f, fuel = f + 1 := ⟨fuel - 1, by omega⟩
        dsimp only
        rw [mainLoop_done]
        simp only [foldChunks, blocks, List.foldl_cons, List.foldl_nil]
      · have hput3 : put ((m ++ [0x80]) ++ buf.drop (m.length + 1)) (m.length + 1) (List.replicate (64 - m.length - 1) 0)
            = .ok ((m ++ [0x80]) ++ List.replicate (64 - m.length - 1) 0) := by
          have := put_ok (m ++ [0x80]) (buf.drop (m.length + 1)) [] (List.replicate (64 - m.length - 1) 0) (by simp; omega)
          simpa using this
        have hc : calcChunk buf ⟨m, m.length, total, false, false⟩ = .ok (some ((m ++ [0x80]) ++ List.replicate (64 - m.length - 1) 0,
            (m ++ [0x80]) ++ List.replicate (64 - m.length - 1) 0, ⟨[], 0, total, true, false⟩)) := by
          unfold calcChunk
          dsimp only
          rw [if_neg (by simp), if_neg h64, if_neg (by omega), hput1, Res.ok_bind, if_neg (by simp), hput2, Res.ok_bind, Res.ok_bind]
          dsimp only
          rw [if_neg (by omega), hput3, Res.ok_bind, List.drop_length]
        have hz : zeros m.length = (64 - m.length - 1) + 56 := by unfold zeros; omega
        have hp : padTail total m = ((m ++ [0x80]) ++ List.replicate (64 - m.length - 1) 0) ++ ((List.replicate 56 0 ++ be64 (8 * total)) ++ []) := by
          unfold padTail
          rw [hz, ← List.replicate_append_replicate]
          simp only [List.append_assoc, List.append_nil, List.cons_append, List.nil_append]
        have hl : (padTail total m).length / 64 = 0 + 1 + 1 := by rw [padTail_length, hz]; omega
        rw [hl, hp, blocks_append _ _ _ (by simp; omega), blocks_append _ _ _ (by rw [List.length_append, be64_length, List.length_replicate]), mainLoop, hc, Res.ok_bind]
        dsimp only
        obtain ⟨fuel, rfl⟩ : ∃ f, fuel = f + 2 := ⟨fuel - 2, by omega⟩
        rw [last_chunk total fuel _ _ _ (by simp; omega)]
        simp only [foldChunks, blocks, List.foldl_cons, List.foldl_nil]

theorem foldChunks_eq (l : List Bytes) : ∀ h, regs (foldChunks l h) = l.foldl compress (regs h) := by
  induction l with
  | nil => intro h; rfl
  | cons b l ih => intro h; rw [foldChunks, List.foldl_cons, List.foldl_cons, ← chunkStep_eq]; exact ih _

end Muon.Sha
