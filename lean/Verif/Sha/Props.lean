import Verif.Sha.Lemmas
namespace Muon.Sha
open Muon Muon.Sha.Spec

/-! ### C44 -/

/-- `calc_sha_256` computes the hash of the standard, for every message and whatever is in its buffer at first; it never
reads behind the message or writes behind the buffer, and ends. -/
theorem sha256_standard (junk input : Bytes) (hj : junk.length = 64) : calcSha256 junk input = .ok (sha256 input) := by
  unfold calcSha256 initBufState
  rw [mainLoop_eq input.length (input.length + 3) input.length h0 junk input rfl (Nat.le_refl _) hj, Res.ok_bind]
  have h := foldChunks_eq (blocks ((padTail input.length input).length / 64) (padTail input.length input)) h0
  rw [h0_eq] at h
  unfold sha256
  rw [show pad input = padTail input.length input from rfl, ← h]
  simp only [outBytes_eq, regs]

/-- The hash has 32 bytes. -/
theorem sha256_length (m : Bytes) : (sha256 m).length = 32 := by
  simp [sha256, be32]

/-- The roots of the specification are integer roots, and there are 64 primes. -/
theorem constants_roots : primes.length = 64 ∧ (∀ p ∈ primes, root 3 (p * 2 ^ 96) ^ 3 ≤ p * 2 ^ 96 ∧ p * 2 ^ 96 < (root 3 (p * 2 ^ 96) + 1) ^ 3) ∧
    ∀ p ∈ primes, root 2 (p * 2 ^ 64) ^ 2 ≤ p * 2 ^ 64 ∧ p * 2 ^ 64 < (root 2 (p * 2 ^ 64) + 1) ^ 2 := by decide +kernel

/-! ### C69: `fs.hash()` -/

/-- What is in the buffer for a byte. -/
def pad2 (b : UInt8) : Bytes := if b.toNat < 16 then fmtX b ++ [0] else fmtX b

theorem hashLoop_eq (h : Bytes) : ∀ (pre : Bytes), hashLoop h pre.length (pre ++ List.replicate (2 * h.length + 1) 0) = pre ++ (h.flatMap pad2 ++ [0]) := by
  induction h with
  | nil => intro pre; simp [hashLoop]
  | cons b h ih =>
    intro pre
    unfold hashLoop
    dsimp only
    have hz : ∀ n m : Nat, n ≤ m → List.drop n (List.replicate m (0 : UInt8)) = List.replicate (m - n) 0 := by
      intro n m _; simp
    have hstep : (pre ++ List.replicate (2 * (b :: h).length + 1) (0 : UInt8)).take pre.length ++ ((fmtX b).take 2 ++ [0]) ++
        (pre ++ List.replicate (2 * (b :: h).length + 1) (0 : UInt8)).drop (pre.length + ((fmtX b).take 2 ++ [0]).length) =
        (pre ++ pad2 b) ++ List.replicate (2 * h.length + 1) 0 := by
      rw [List.take_left, List.drop_append, List.length_append]
      unfold pad2
      by_cases hb : b.toNat < 16
      · have hl : (fmtX b).take 2 = fmtX b ∧ (fmtX b).length = 1 := by
          unfold fmtX; rw [if_pos hb]; exact ⟨rfl, rfl⟩
        rw [if_pos hb, hl.1, hl.2, List.drop_of_length_le (by omega), hz _ _ (by simp; omega)]
        simp only [List.length_cons, List.length_nil, List.append_assoc, List.nil_append]
        congr 3
        congr 1; omega
      · have hl : (fmtX b).take 2 = fmtX b ∧ (fmtX b).length = 2 := by
          unfold fmtX; rw [if_neg hb]; exact ⟨rfl, rfl⟩
        rw [if_neg hb, hl.1, hl.2, List.drop_of_length_le (by omega), hz _ _ (by simp; omega)]
        simp only [List.length_cons, List.length_nil, List.append_assoc, List.nil_append]
        congr 2
        rw [show ([0] : Bytes) = List.replicate 1 0 from rfl, List.replicate_append_replicate]
        congr 1; omega
    rw [hstep]
    have hp : (pad2 b).length = 2 := by
      unfold pad2 fmtX
      by_cases hb : b.toNat < 16
      · rw [if_pos hb, if_pos hb]; rfl
      · rw [if_neg hb, if_neg hb]; rfl
    have := ih (pre ++ pad2 b)
    rw [List.length_append, hp] at this
    rw [this]
    simp

theorem hexByte_ne (b : UInt8) : ∀ c ∈ hexByte b, c ≠ 0 := by
  revert b
  exact forall_byte (by decide +kernel)

/-- The string that is returned: the digits of the bytes before the first byte less than 16, and one digit of that byte. -/
theorem hash_string (h : Bytes) : (h.flatMap pad2 ++ [0]).takeWhile (· ≠ 0) =
    hex (h.takeWhile fun b => decide (16 ≤ b.toNat)) ++ (match h.dropWhile fun b => decide (16 ≤ b.toNat) with | [] => [] | b :: _ => (hexByte b).drop 1) := by
  induction h with
  | nil => rfl
  | cons b h ih =>
    by_cases hb : 16 ≤ b.toNat
    · have hp : pad2 b = hexByte b := by
        unfold pad2 fmtX hexByte
        rw [if_neg (by omega), if_neg (by omega)]
      rw [List.takeWhile_cons_of_pos (by simpa using hb), List.dropWhile_cons_of_pos (by simpa using hb), List.flatMap_cons, hp, List.append_assoc,
        List.takeWhile_append_of_pos (fun c hc => by simpa using hexByte_ne b c hc), ih]
      simp [hex]
    · have hp : pad2 b = (hexByte b).drop 1 ++ [0] := by
        unfold pad2 fmtX hexByte
        rw [if_pos (by omega), if_pos (by omega), Nat.mod_eq_of_lt (by omega)]
        rfl
      rw [List.takeWhile_cons_of_neg (by simpa using hb), List.dropWhile_cons_of_neg (by simpa using hb), List.flatMap_cons, hp, List.append_assoc, List.append_assoc,
        List.takeWhile_append_of_pos (fun c hc => by simpa using hexByte_ne b c (List.mem_of_mem_drop hc))]
      simp [hex]

/-- Exactly what `fs.hash()` returns. -/
theorem fs_hash_exact (junk content : Bytes) (hj : junk.length = 64) : fsHash junk content =
    .ok (hex ((sha256 content).takeWhile fun b => decide (16 ≤ b.toNat)) ++
      (match (sha256 content).dropWhile fun b => decide (16 ≤ b.toNat) with | [] => [] | b :: _ => (hexByte b).drop 1)) := by
  unfold fsHash
  rw [sha256_standard junk content hj, Res.ok_bind]
  have := hashLoop_eq (sha256 content) []
  rw [sha256_length] at this
  simp only [List.length_nil, List.nil_append] at this
  rw [show 2 * 32 + 1 = 65 from rfl] at this
  rw [this, hash_string]

/-- `fs.hash()` returns the hash in hexadecimal, if no byte of it is less than 16. -/
theorem fs_hash_partial (junk content : Bytes) (hj : junk.length = 64) (h : ∀ b ∈ sha256 content, 16 ≤ b.toNat) :
    fsHash junk content = .ok (hex (sha256 content)) := by
  rw [fs_hash_exact junk content hj]
  have h1 : (sha256 content).takeWhile (fun b => decide (16 ≤ b.toNat)) = sha256 content := by
    have := List.takeWhile_append_of_pos (p := fun b : UInt8 => decide (16 ≤ b.toNat)) (l₁ := sha256 content) (l₂ := []) (fun b hb => by simpa using h b hb)
    simpa using this
  have h2 : (sha256 content).dropWhile (fun b => decide (16 ≤ b.toNat)) = [] := by
    have := List.dropWhile_append_of_pos (p := fun b : UInt8 => decide (16 ≤ b.toNat)) (l₁ := sha256 content) (l₂ := []) (fun b hb => by simpa using h b hb)
    simpa using this
  rw [h1, h2, List.append_nil]

/-- Otherwise it is cut: for the file `abc` it has 11 characters. -/
theorem fs_hash_counterexample : fsHash (List.replicate 64 0) (ascii "abc") = .ok (ascii "ba7816bf8f1") ∧
    calcSha256 (List.replicate 64 0) (ascii "abc") = .ok (sha256 (ascii "abc")) ∧
    fsHash (List.replicate 64 0) (ascii "abc") ≠ .ok (hex (sha256 (ascii "abc"))) := by
  have h1 : fsHash (List.replicate 64 0) (ascii "abc") = .ok (ascii "ba7816bf8f1") := by decide +kernel
  refine ⟨h1, sha256_standard _ _ (by simp), ?_⟩
  rw [h1]
  intro h
  have hl : (hex (sha256 (ascii "abc"))).length = 64 := by
    unfold hex
    rw [List.length_flatMap]
    have : List.map (fun a => (hexByte a).length) (sha256 (ascii "abc")) = List.replicate 32 2 := by
      rw [List.eq_replicate_iff]
      refine ⟨by simp [sha256_length], fun n hn => ?_⟩
      obtain ⟨b, _, rfl⟩ := List.mem_map.1 hn
      rfl
    rw [this]; decide
  rw [← Res.ok.inj h] at hl
  revert hl
  decide

/-! ### C70: checksums of downloads -/

/-- Hexadecimal digits. -/
def isHex (c : UInt8) : Bool := (48 ≤ c && c ≤ 57) || (97 ≤ c && c ≤ 102) || (65 ≤ c && c ≤ 70)

/-- The lower case letter. -/
def lower (c : UInt8) : UInt8 := if isUpper c then c + 32 else c

theorem hexVal_two (c d : UInt8) (hc : isHex c = true) (hd : isHex d = true) : hexVal [c, d] = UInt8.ofNat (Lex.digitVal c * 16 + Lex.digitVal d) := by
  have key : ∀ c : UInt8, isHex c = true → Lex.digitVal c < 16 ∧ isSpace c = false ∧ c ≠ 45 ∧ c ≠ 43 := forall_byte (by decide +kernel)
  obtain ⟨c1, c2, c3, c4⟩ := key c hc
  obtain ⟨d1, _, _, _⟩ := key d hd
  unfold hexVal Lex.strtol
  have hs : Lex.signOf (List.dropWhile isSpace [c, d]) = (false, [c, d]) := by
    rw [List.dropWhile_cons_of_neg (by simp [c2])]
    unfold Lex.signOf
    split
    · next h => cases h; exact absurd rfl c3
    · next h => cases h; exact absurd rfl c4
    · rfl
  have hp : Lex.skipPrefix 16 [c, d] = [c, d] := by
    unfold Lex.skipPrefix
    split
    · next h => cases h
    · rfl
  simp only [hs, hp]
  have ht : List.takeWhile (fun c => decide (Lex.digitVal c < 16)) [c, d] = [c, d] := by simp [c1, d1]
  rw [ht, if_neg (by simp)]
  simp only [Lex.digitsVal, List.foldl_cons, List.foldl_nil]
  have : (0 * 16 + Lex.digitVal c) * 16 + Lex.digitVal d = Lex.digitVal c * 16 + Lex.digitVal d := by omega
  rw [this]
  congr 1
  simp
  omega

theorem hexVal_iff (c d : UInt8) (hc : isHex c = true) (hd : isHex d = true) (b : UInt8) : b = hexVal [c, d] ↔ [lower c, lower d] = hexByte b := by
  rw [hexVal_two c d hc hd]
  have key : ∀ c : UInt8, isHex c = true → Lex.digitVal c < 16 ∧ lower c = UInt8.ofNat (if Lex.digitVal c < 10 then 48 + Lex.digitVal c else 87 + Lex.digitVal c) :=
    forall_byte (by decide +kernel)
  obtain ⟨c1, c2⟩ := key c hc
  obtain ⟨d1, d2⟩ := key d hd
  rw [c2, d2]
  generalize Lex.digitVal c = x at c1
  generalize Lex.digitVal d = y at d1
  have inj : ∀ x y : Fin 16, UInt8.ofNat (if x.val < 10 then 48 + x.val else 87 + x.val) = UInt8.ofNat (if y.val < 10 then 48 + y.val else 87 + y.val) → x = y := by decide +kernel
  unfold hexByte
  constructor
  · intro h
    subst h
    have ht : (UInt8.ofNat (x * 16 + y)).toNat = x * 16 + y := by
      rw [UInt8.toNat_ofNat']; omega
    dsimp only
    rw [ht, show (x * 16 + y) / 16 = x from by omega, show (x * 16 + y) % 16 = y from by omega]
  · intro h
    dsimp only at h
    have hb := b.toNat_lt
    simp only [List.cons.injEq, and_true] at h
    have h1 := inj ⟨x, c1⟩ ⟨b.toNat / 16, by omega⟩ h.1
    have h2 := inj ⟨y, d1⟩ ⟨b.toNat % 16, by omega⟩ h.2
    simp only [Fin.mk.injEq] at h1 h2
    apply UInt8.toNat_inj.1
    rw [UInt8.toNat_ofNat']
    omega

theorem checkLoop_iff (h : Bytes) : ∀ (s : Bytes), s.length = 2 * h.length → (∀ c ∈ s, isHex c = true) → (checkLoop h s = true ↔ s.map lower = hex h) := by
  induction h with
  | nil =>
    intro s hs _
    have : s = [] := List.length_eq_zero_iff.1 (by simpa using hs)
    subst this
    simp [checkLoop, hex]
  | cons b h ih =>
    intro s hs hx
    match s, hs, hx with
    | c :: d :: s, hs, hx =>
      simp only [List.length_cons] at hs
      unfold checkLoop
      have hi := ih s (by omega) (fun c hc => hx c (by simp [hc]))
      have hv := hexVal_iff c d (hx c (by simp)) (hx d (by simp)) b
      simp only [List.take_succ_cons, List.take_zero, List.drop_succ_cons, List.drop_zero]
      have hh : hex (b :: h) = hexByte b ++ hex h := by simp [hex]
      have hlen : (hexByte b).length = 2 := rfl
      rw [hh]
      simp only [List.map_cons]
      by_cases he : b = hexVal [c, d]
      · rw [if_neg (by simpa using he), hi, ← hv.1 he]
        simp
      · rw [if_pos he]
        simp only [Bool.false_eq_true, false_iff]
        intro hcon
        apply he
        rw [hv]
        have := congrArg (List.take 2) hcon
        rw [List.take_left' hlen] at this
        simpa using this

/-- A checksum of hexadecimal digits, upper or lower case, is accepted if and only if it is that of the file. -/
theorem checksum_exact_partial (junk file sha : Bytes) (hj : junk.length = 64) (hx : ∀ c ∈ sha, isHex c = true) :
    ∃ b, checksum junk file sha = .ok b ∧ (b = true ↔ sha.map lower = hex (sha256 file)) := by
  unfold checksum
  by_cases hl : sha.length = 64
  · rw [if_neg (by simpa using hl), sha256_standard junk file hj, Res.ok_bind]
    exact ⟨_, rfl, checkLoop_iff _ _ (by rw [sha256_length]; exact hl) hx⟩
  · rw [if_pos hl]
    refine ⟨false, rfl, ?_⟩
    simp only [Bool.false_eq_true, false_iff]
    intro h
    apply hl
    have := congrArg List.length h
    rw [List.length_map] at this
    rw [this]
    unfold hex
    rw [List.length_flatMap]
    have : List.map (fun a => (hexByte a).length) (sha256 file) = List.replicate 32 2 := by
      rw [List.eq_replicate_iff]
      refine ⟨by simp [sha256_length], fun n hn => ?_⟩
      obtain ⟨b, _, rfl⟩ := List.mem_map.1 hn
      rfl
    rw [this]; decide

/-- Whatever the characters: if two files are accepted with the same checksum, they have the same hash. -/
theorem checksum_same (junk file file' sha : Bytes) (hj : junk.length = 64) (h : checksum junk file sha = .ok true) (h' : checksum junk file' sha = .ok true) :
    sha256 file = sha256 file' := by
  unfold checksum at h h'
  split at h
  · cases h
  next hl =>
  rw [if_neg hl] at h'
  rw [sha256_standard junk _ hj, Res.ok_bind] at h h'
  have h := Res.ok.inj h
  have h' := Res.ok.inj h'
  have key : ∀ (a b s : Bytes), a.length = b.length → checkLoop a s = true → checkLoop b s = true → a = b := by
    intro a
    induction a with
    | nil => intro b s hl _ _; exact (List.length_eq_zero_iff.1 hl.symm).symm
    | cons x a ih =>
      intro b s hl h1 h2
      cases b with
      | nil => cases hl
      | cons y b =>
        unfold checkLoop at h1 h2
        split at h1
        · cases h1
        next hx =>
        split at h2
        · cases h2
        next hy =>
        rw [ih b _ (by simpa using hl) h1 h2, Decidable.of_not_not hx, Decidable.of_not_not hy]
  exact key _ _ sha (by rw [sha256_length, sha256_length]) h h'

/-- But characters that are no hexadecimal digits are accepted: here blanks and signs. -/
theorem checksum_counterexample : ∃ sha : Bytes, checksum (List.replicate 64 0) (ascii "abc") sha = .ok true ∧ (∃ c ∈ sha, isHex c = false) :=
  ⟨ascii "ba7816bf8f 1cfea414140de5dae2223b0+361a396177a9cb410ff61f20015ad", by decide +kernel, by decide⟩

/-! ### Examples -/

/-- The test vectors of the standard. -/
example : calcSha256 (List.replicate 64 0xff) (ascii "abc") >>= (fun h => .ok (hex h)) = .ok (ascii "ba7816bf8f01cfea414140de5dae2223b00361a396177a9cb410ff61f20015ad") := by decide +kernel
example : calcSha256 (List.replicate 64 0xff) (ascii "abcdbcdecdefdefgefghfghighijhijkijkljklmklmnlmnomnopnopq") >>= (fun h => .ok (hex h)) =
    .ok (ascii "248d6a61d20638b8e5c026930c3e6039a33ce45964ff2167f6ecedd419db06c1") := by decide +kernel
/-- `fs.hash()` of the empty file is right. -/
example : fsHash (List.replicate 64 0) [] = .ok (ascii "e3b0c44298fc1c149afbf4c8996fb92427ae41e4649b934ca495991b7852b855") := by decide +kernel
example : ∀ b ∈ sha256 [], 16 ≤ b.toNat := by
  have : Res.ok (sha256 []) = calcSha256 (List.replicate 64 0) [] := (sha256_standard _ _ (by simp)).symm
  have h2 : calcSha256 (List.replicate 64 0) [] >>= (fun h => Res.ok (h.all fun b => decide (16 ≤ b.toNat))) = .ok true := by decide +kernel
  rw [← this, Res.ok_bind] at h2
  intro b hb
  have := List.all_eq_true.1 (Res.ok.inj h2) b hb
  simpa using this
/-- A checksum in upper case. -/
example : checksum (List.replicate 64 0) (ascii "abc") (ascii "BA7816BF8F01CFEA414140DE5DAE2223B00361A396177A9CB410FF61F20015AD") = .ok true := by decide +kernel

end Muon.Sha
