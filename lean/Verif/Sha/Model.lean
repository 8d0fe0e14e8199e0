import Verif.Lex.Model
/-
Model of src/sha_256.c, of `fs.hash()` (functions/modules/fs.c) and of the checksum of archives (wrap.c). 32-bit unsigned
integers are `BitVec 32`; `size_t` has 64 bits. Pointers into the input are what is left of the input; reading behind the
end is `bad`.
-/
namespace Muon.Sha
open Muon

abbrev Word := BitVec 32

/-- The round constants `k`, sha_256.c:29-38. -/
def k : List Word := [
  0x428a2f98, 0x71374491, 0xb5c0fbcf, 0xe9b5dba5, 0x3956c25b, 0x59f111f1, 0x923f82a4, 0xab1c5ed5,
  0xd807aa98, 0x12835b01, 0x243185be, 0x550c7dc3, 0x72be5d74, 0x80deb1fe, 0x9bdc06a7, 0xc19bf174,
  0xe49b69c1, 0xefbe4786, 0x0fc19dc6, 0x240ca1cc, 0x2de92c6f, 0x4a7484aa, 0x5cb0a9dc, 0x76f988da,
  0x983e5152, 0xa831c66d, 0xb00327c8, 0xbf597fc7, 0xc6e00bf3, 0xd5a79147, 0x06ca6351, 0x14292967,
  0x27b70a85, 0x2e1b2138, 0x4d2c6dfc, 0x53380d13, 0x650a7354, 0x766a0abb, 0x81c2c92e, 0x92722c85,
  0xa2bfe8a1, 0xa81a664b, 0xc24b8b70, 0xc76c51a3, 0xd192e819, 0xd6990624, 0xf40e3585, 0x106aa070,
  0x19a4c116, 0x1e376c08, 0x2748774c, 0x34b0bcb5, 0x391c0cb3, 0x4ed8aa4a, 0x5b9cca4f, 0x682e6ff3,
  0x748f82ee, 0x78a5636f, 0x84c87814, 0x8cc70208, 0x90befffa, 0xa4506ceb, 0xbef9a3f7, 0xc67178f2]

/-- `struct buffer_state`, sha_256.c:40-46. -/
structure BufState where
  p : Bytes
  len : Nat
  total : Nat
  one : Bool
  delivered : Bool
deriving DecidableEq, Repr

/-- `right_rot`, sha_256.c:48-55. -/
def rightRot (v : Word) (n : Nat) : Word := v >>> n ||| v <<< (32 - n)

/-- `init_buf_state`, sha_256.c:57-65. -/
def initBufState (input : Bytes) : BufState := ⟨input, input.length, input.length, false, false⟩

/-- Writing bytes into the buffer of 64 bytes; behind its end: `bad`. -/
def put (buf : Bytes) (off : Nat) (s : Bytes) : Res Bytes :=
  if off + s.length ≤ buf.length then .ok (buf.take off ++ s ++ buf.drop (off + s.length)) else .bad

/-- The length in bits, as stored by sha_256.c:109-114: `chunk[7]` first, then `chunk[6]` down to `chunk[0]`. -/
def lenBytes (len : Nat) : Bytes :=
  ((List.range 7).map fun i => UInt8.ofNat (len / 32 / 256 ^ (6 - i))) ++ [UInt8.ofNat (len * 8)]

/-- `calc_chunk`, sha_256.c:67-122: `none` at the end, else the chunk, the buffer and the state. -/
def calcChunk (buf : Bytes) (st : BufState) : Res (Option (Bytes × Bytes × BufState)) :=
  if st.delivered then .ok none
  else if st.len ≥ 64 then
    if st.p.length < 64 then .bad
    else .ok (some (st.p.take 64, buf, { st with p := st.p.drop 64, len := st.len - 64 }))
  else if st.p.length < st.len then .bad
  else
    put buf 0 (st.p.take st.len) >>= fun buf =>
    (if st.one then .ok (buf, st.len, 64 - st.len)
      else put buf st.len [0x80] >>= fun buf => .ok (buf, st.len + 1, 64 - st.len - 1)) >>= fun (r : Bytes × Nat × Nat) =>
    let st := { st with p := st.p.drop st.len, len := 0, one := true }
    if r.2.2 ≥ 8 then
      put r.1 r.2.1 (List.replicate (r.2.2 - 8) 0) >>= fun buf =>
      put buf (r.2.1 + (r.2.2 - 8)) (lenBytes st.total) >>= fun buf =>
      .ok (some (buf, buf, { st with delivered := true }))
    else
      put r.1 r.2.1 (List.replicate r.2.2 0) >>= fun buf =>
      .ok (some (buf, buf, st))

/-- The array `ah[8]` (and `h[8]`). -/
structure Ah where
  (v0 v1 v2 v3 v4 v5 v6 v7 : Word)
deriving DecidableEq, Repr

/-- The initial value of `h`, sha_256.c:152. -/
def h0 : Ah := ⟨0x6a09e667, 0xbb67ae85, 0x3c6ef372, 0xa54ff53a, 0x510e527f, 0x9b05688c, 0x1f83d9ab, 0x5be0cd19⟩

/-- A byte as a word. -/
def byteWord (c : UInt8) : Word := BitVec.ofNat 32 c.toNat

/-- The body of the inner loop, sha_256.c:190-218, for `i` and `j`. `w` is the array of 16 words. The pointer `p` has been
advanced by `4 * j` when `w[j]` is read from it. -/
def step (p : Bytes) (i : Nat) (st : Ah × (Nat → Word)) (j : Nat) : Ah × (Nat → Word) :=
  let w := st.2
  let wj :=
    if i = 0 then
      byteWord (p.getD (4 * j) 0) <<< 24 ||| byteWord (p.getD (4 * j + 1) 0) <<< 16 ||| byteWord (p.getD (4 * j + 2) 0) <<< 8 ||| byteWord (p.getD (4 * j + 3) 0)
    else
      let s0 := rightRot (w ((j + 1) % 16)) 7 ^^^ rightRot (w ((j + 1) % 16)) 18 ^^^ (w ((j + 1) % 16) >>> 3)
      let s1 := rightRot (w ((j + 14) % 16)) 17 ^^^ rightRot (w ((j + 14) % 16)) 19 ^^^ (w ((j + 14) % 16) >>> 10)
      w j + s0 + w ((j + 9) % 16) + s1
  let ah := st.1
  let s1 := rightRot ah.v4 6 ^^^ rightRot ah.v4 11 ^^^ rightRot ah.v4 25
  let ch := (ah.v4 &&& ah.v5) ^^^ (~~~ah.v4 &&& ah.v6)
  let temp1 := ah.v7 + s1 + ch + k.getD (16 * i + j) 0 + wj
  let s0 := rightRot ah.v0 2 ^^^ rightRot ah.v0 13 ^^^ rightRot ah.v0 22
  let maj := (ah.v0 &&& ah.v1) ^^^ (ah.v0 &&& ah.v2) ^^^ (ah.v1 &&& ah.v2)
  let temp2 := s0 + maj
  (⟨temp1 + temp2, ah.v0, ah.v1, ah.v2, ah.v3 + temp1, ah.v4, ah.v5, ah.v6⟩, fun m => if m = j then wj else w m)

/-- The body of the loop over the chunks, sha_256.c:165-225. -/
def chunkStep (h : Ah) (p : Bytes) : Ah :=
  let r := (List.range 4).foldl (fun st i => (List.range 16).foldl (step p i) st) (h, fun _ => 0)
  let a := r.1
  ⟨h.v0 + a.v0, h.v1 + a.v1, h.v2 + a.v2, h.v3 + a.v3, h.v4 + a.v4, h.v5 + a.v5, h.v6 + a.v6, h.v7 + a.v7⟩

/-- The loop over the chunks, sha_256.c:164-226. Running out of `fuel` is `bad`. -/
def mainLoop : Nat → Ah → Bytes → BufState → Res Ah
  | 0, _, _, _ => .bad
  | fuel + 1, h, buf, st => calcChunk buf st >>= fun r => match r with
    | none => .ok h
    | some (p, buf, st) => mainLoop fuel (chunkStep h p) buf st

/-- The bytes of a word, sha_256.c:230-233. -/
def outBytes (w : Word) : Bytes :=
  [UInt8.ofNat (w >>> 24).toNat, UInt8.ofNat (w >>> 16).toNat, UInt8.ofNat (w >>> 8).toNat, UInt8.ofNat w.toNat]

/-- `calc_sha_256`, sha_256.c:132-235; `junk` is what is in the buffer at first. -/
def calcSha256 (junk input : Bytes) : Res Bytes :=
  mainLoop (input.length + 3) h0 junk (initBufState input) >>= fun h =>
  .ok (outBytes h.v0 ++ outBytes h.v1 ++ outBytes h.v2 ++ outBytes h.v3 ++ outBytes h.v4 ++ outBytes h.v5 ++ outBytes h.v6 ++ outBytes h.v7)

/-! ### Users -/

/-- `%x` of a byte. -/
def fmtX (b : UInt8) : Bytes :=
  let d := fun (n : Nat) => UInt8.ofNat (if n < 10 then 48 + n else 87 + n)
  if b.toNat < 16 then [d b.toNat] else [d (b.toNat / 16), d (b.toNat % 16)]

/-- The loop of `func_module_fs_hash`, functions/modules/fs.c:334-339: `snprintf` writes at most two characters and a NUL;
the next call starts two characters after the last. -/
def hashLoop : Bytes → Nat → Bytes → Bytes
  | [], _, buf => buf
  | b :: r, bufi, buf =>
    let s := (fmtX b).take 2 ++ [0]
    hashLoop r (bufi + 2) (buf.take bufi ++ s ++ buf.drop (bufi + s.length))

/-- `func_module_fs_hash`, functions/modules/fs.c:308-345, for the content of a file: the string that is returned. Its
length is found with `strlen` (`make_str`). -/
def fsHash (junk content : Bytes) : Res Bytes :=
  calcSha256 junk content >>= fun h => .ok ((hashLoop h 0 (List.replicate 65 0)).takeWhile (· ≠ 0))

/-- `strtol(buf, NULL, 16)` converted to a byte, wrap.c:238. -/
def hexVal (s : Bytes) : UInt8 :=
  match Lex.strtol 16 s with
  | some (n, _) => UInt8.ofNat (n % 256).toNat
  | none => 0

/-- The loop of `checksum`, wrap.c:236-243, on the characters of the checksum. -/
def checkLoop : Bytes → Bytes → Bool
  | [], _ => true
  | b :: r, s => if b ≠ hexVal (s.take 2) then false else checkLoop r (s.drop 2)

/-- `checksum`, wrap.c:222-246; `sha` is the C string of the wrap file. -/
def checksum (junk file sha : Bytes) : Res Bool :=
  if sha.length ≠ 64 then .ok false
  else calcSha256 junk file >>= fun h => .ok (checkLoop h sha)

end Muon.Sha
