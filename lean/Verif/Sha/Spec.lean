import Verif.Base
/-
SHA-256, from FIPS 180-4: 4.1.2 (functions), 4.2.2 (constants), 5.1.1 (padding), 5.2.1 (parsing), 5.3.3 (initial value),
6.2 (the algorithm). The constants are computed from the primes, as in the standard.
-/
namespace Muon.Sha.Spec
open Muon

abbrev Word := BitVec 32

/-! ### 4.1.2 -/

def ch (x y z : Word) : Word := (x &&& y) ^^^ (~~~x &&& z)
def maj (x y z : Word) : Word := (x &&& y) ^^^ (x &&& z) ^^^ (y &&& z)
def Sigma0 (x : Word) : Word := x.rotateRight 2 ^^^ x.rotateRight 13 ^^^ x.rotateRight 22
def Sigma1 (x : Word) : Word := x.rotateRight 6 ^^^ x.rotateRight 11 ^^^ x.rotateRight 25
def sigma0 (x : Word) : Word := x.rotateRight 7 ^^^ x.rotateRight 18 ^^^ (x >>> 3)
def sigma1 (x : Word) : Word := x.rotateRight 17 ^^^ x.rotateRight 19 ^^^ (x >>> 10)

/-! ### 4.2.2 and 5.3.3: constants -/

def isPrime (n : Nat) : Bool := decide (2 ≤ n) && (List.range n).all fun d => d < 2 || n % d ≠ 0

/-- The prime numbers below 312, of which there are 64. -/
def primes : List Nat := (List.range 312).filter isPrime

/-- The integer part of the `e`-th root of `n`, if it has at most 40 bits. -/
def root (e n : Nat) : Nat := (List.range 40).reverse.foldl (fun x b => if (x + 2 ^ b) ^ e ≤ n then x + 2 ^ b else x) 0

/-- The first 32 bits of the fractional part of the cube root of a number. -/
def cubeFrac (p : Nat) : Word := BitVec.ofNat 32 (root 3 (p * 2 ^ 96))

/-- The first 32 bits of the fractional part of the square root of a number. -/
def squareFrac (p : Nat) : Word := BitVec.ofNat 32 (root 2 (p * 2 ^ 64))

/-- The constants of the 64 rounds. -/
def K : List Word := primes.map cubeFrac

/-! ### 5: preprocessing -/

/-- A number as big endian bytes. -/
def be64 (n : Nat) : Bytes := (List.range 8).map fun i => UInt8.ofNat (n / 256 ^ (7 - i))

/-- The least number of zero bytes after which 8 bytes complete a block. -/
def zeros (len : Nat) : Nat := (64 - (len + 9) % 64) % 64

/-- The message, a bit 1, zeros, and the length in bits. -/
def pad (m : Bytes) : Bytes := m ++ (0x80 :: (List.replicate (zeros m.length) 0 ++ be64 (8 * m.length)))

/-- The blocks of 64 bytes. -/
def blocks : Nat → Bytes → List Bytes
  | 0, _ => []
  | n + 1, s => s.take 64 :: blocks n (s.drop 64)

/-- Word `i` of a block, big endian. -/
def word (b : Bytes) (i : Nat) : Word :=
  BitVec.ofNat 32 ((((b.getD (4 * i) 0).toNat * 256 + (b.getD (4 * i + 1) 0).toNat) * 256 + (b.getD (4 * i + 2) 0).toNat) * 256 + (b.getD (4 * i + 3) 0).toNat)

/-! ### 6.2 -/

/-- The eight words of a hash value, and the working variables `a` to `h`. -/
structure Regs where
  (a b c d e f g h : Word)
deriving DecidableEq, Repr

/-- The initial hash value. -/
def H0 : Regs :=
  ⟨squareFrac 2, squareFrac 3, squareFrac 5, squareFrac 7, squareFrac 11, squareFrac 13, squareFrac 17, squareFrac 19⟩

/-- The message schedule. -/
def W (b : Bytes) (t : Nat) : Word :=
  if t < 16 then word b t else sigma1 (W b (t - 2)) + W b (t - 7) + sigma0 (W b (t - 15)) + W b (t - 16)

/-- One round. -/
def round (r : Regs) (k w : Word) : Regs :=
  let t1 := r.h + Sigma1 r.e + ch r.e r.f r.g + k + w
  let t2 := Sigma0 r.a + maj r.a r.b r.c
  ⟨t1 + t2, r.a, r.b, r.c, r.d + t1, r.e, r.f, r.g⟩

/-- The first `t` rounds. -/
def rounds (b : Bytes) (r : Regs) : Nat → Regs
  | 0 => r
  | t + 1 => round (rounds b r t) (K.getD t 0) (W b t)

/-- The hash value after a block. -/
def compress (H : Regs) (b : Bytes) : Regs :=
  let r := rounds b H 64
  ⟨H.a + r.a, H.b + r.b, H.c + r.c, H.d + r.d, H.e + r.e, H.f + r.f, H.g + r.g, H.h + r.h⟩

/-- A word as big endian bytes. -/
def be32 (w : Word) : Bytes := (List.range 4).map fun i => UInt8.ofNat (w.toNat / 256 ^ (3 - i))

/-- The hash of a message. -/
def sha256 (m : Bytes) : Bytes :=
  let r := (blocks ((pad m).length / 64) (pad m)).foldl compress H0
  be32 r.a ++ be32 r.b ++ be32 r.c ++ be32 r.d ++ be32 r.e ++ be32 r.f ++ be32 r.g ++ be32 r.h

/-- A byte as two hexadecimal digits. -/
def hexByte (b : UInt8) : Bytes :=
  let d := fun (n : Nat) => UInt8.ofNat (if n < 10 then 48 + n else 87 + n)
  [d (b.toNat / 16), d (b.toNat % 16)]

/-- Bytes as hexadecimal digits. -/
def hex (s : Bytes) : Bytes := s.flatMap hexByte

end Muon.Sha.Spec
