import Verif.Base
/-
Searching for a substring: src/memmem.c. Pointers into the haystack are offsets; a read outside of the haystack or the needle is `bad`.
-/
namespace Muon.Memmem
open Muon

/-- The loops of `twobyte_memmem`, `threebyte_memmem` and `fourbyte_memmem`, memmem.c:15-51: `hw` is the shift register, `put`
brings in the next byte, `h` are the bytes to come, `off` is the offset of the bytes in the register. -/
def regLoop (put : Nat → UInt8 → Nat) (nw : Nat) : Bytes → Nat → Nat → Option Nat
  | [], hw, off => if hw = nw then some off else none
  | c :: h, hw, off => if hw = nw then some off else regLoop put nw h (put hw c) (off + 1)

/-- `twobyte_memmem`, memmem.c:15-25: 16 bits. (`|` of numbers without common bits is `+`.) -/
def twobyte (h n : Bytes) : Res (Option Nat) :=
  match n, h with
  | n0 :: n1 :: _, h0 :: h1 :: r =>
    .ok (regLoop (fun hw c => (hw * 2 ^ 8 + c.toNat) % 2 ^ 16) (n0.toNat * 2 ^ 8 + n1.toNat) r (h0.toNat * 2 ^ 8 + h1.toNat) 0)
  | _, _ => .bad

/-- `threebyte_memmem`, memmem.c:27-38: the upper 24 of 32 bits. -/
def threebyte (h n : Bytes) : Res (Option Nat) :=
  match n, h with
  | n0 :: n1 :: n2 :: _, h0 :: h1 :: h2 :: r =>
    .ok (regLoop (fun hw c => (hw + c.toNat) * 2 ^ 8 % 2 ^ 32)
      (n0.toNat * 2 ^ 24 + n1.toNat * 2 ^ 16 + n2.toNat * 2 ^ 8) r (h0.toNat * 2 ^ 24 + h1.toNat * 2 ^ 16 + h2.toNat * 2 ^ 8) 0)
  | _, _ => .bad

/-- `fourbyte_memmem`, memmem.c:40-51: 32 bits. -/
def fourbyte (h n : Bytes) : Res (Option Nat) :=
  match n, h with
  | n0 :: n1 :: n2 :: n3 :: _, h0 :: h1 :: h2 :: h3 :: r =>
    .ok (regLoop (fun hw c => (hw * 2 ^ 8 + c.toNat) % 2 ^ 32)
      (n0.toNat * 2 ^ 24 + n1.toNat * 2 ^ 16 + n2.toNat * 2 ^ 8 + n3.toNat) r
      (h0.toNat * 2 ^ 24 + h1.toNat * 2 ^ 16 + h2.toNat * 2 ^ 8 + h3.toNat) 0)
  | _, _ => .bad

/-- `byteset` and `shift`, memmem.c:64-67: for the bytes of the needle the index after their last place. -/
def table : Bytes → Nat → (UInt8 → Option Nat) → UInt8 → Option Nat
  | [], _, t => t
  | c :: n, i, t => table n (i + 1) (fun b => if b = c then some (i + 1) else t b)

/-- The loop that computes the maximal suffix, memmem.c:69-88 and 91-108 (with the opposite comparison). `i` is `ip + 1` (`ip`
begins as -1). The result is `ip + 1` and `p`. -/
def maxSuffix (gt : UInt8 → UInt8 → Bool) (n : Bytes) : Nat → Nat → Nat → Nat → Nat → Res (Nat × Nat)
  | 0, _, _, _, _ => .bad
  | f + 1, i, jp, k, p =>
    if jp + k < n.length then
      match n[i + k - 1]?, n[jp + k]? with
      | some b, some a =>
        if b = a then
          if k = p then maxSuffix gt n f i (jp + p) 1 p else maxSuffix gt n f i jp (k + 1) p
        else if gt b a then maxSuffix gt n f i (jp + k) 1 (jp + k + 1 - i)
        else maxSuffix gt n f (jp + 1) (jp + 1) 1 1
      | _, _ => .bad
    else .ok (i, p)

/-- Comparing the right half, memmem.c:149-151: the result is `k`. -/
def right (h n : Bytes) (off : Nat) : Nat → Nat → Res Nat
  | 0, _ => .bad
  | f + 1, k =>
    if k < n.length then
      match n[k]?, h[off + k]? with
      | some a, some b => if a = b then right h n off f (k + 1) else .ok k
      | _, _ => .bad
    else .ok k

/-- Comparing the left half, memmem.c:158-160. -/
def left (h n : Bytes) (off mem : Nat) : Nat → Res Nat
  | 0 => .ok 0
  | k + 1 =>
    if k + 1 > mem then
      match n[k]?, h[off + k]? with
      | some a, some b => if a = b then left h n off mem k else .ok (k + 1)
      | _, _ => .bad
    else .ok (k + 1)

/-- The search loop, memmem.c:125-166. `c` is `ms + 1`. (`z - h` is unsigned: a place after the end of the haystack is `bad`.) -/
def search (h n : Bytes) (tbl : UInt8 → Option Nat) (c p mem0 : Nat) : Nat → Nat → Nat → Res (Option Nat)
  | 0, _, _ => .bad
  | f + 1, off, mem =>
    if h.length < off then .bad
    else if h.length - off < n.length then .ok none
    else
      match h[off + n.length - 1]? with
      | none => .bad
      | some b =>
        match tbl b with
        | none => search h n tbl c p mem0 f (off + n.length) 0
        | some s =>
          if n.length - s ≠ 0 then search h n tbl c p mem0 f (off + (if n.length - s < mem then mem else n.length - s)) 0
          else
            right h n off (n.length + 1) (max c mem) >>= fun k =>
            if k < n.length then search h n tbl c p mem0 f (off + (k + 1 - c)) 0
            else
              left h n off mem c >>= fun k =>
              if k ≤ mem then .ok (some off) else search h n tbl c p mem0 f (off + p) mem0

/-- The period and what is remembered, memmem.c:116-121. `ms` is -1 for `c = 0`, a large number in `MAX`. -/
def period (n : Bytes) (c p : Nat) : Res (Nat × Nat) :=
  if p + c ≤ n.length then
    if n.take c ≠ (n.drop p).take c then .ok ((max (if c = 0 then 2 ^ 64 - 1 else c - 1) (n.length - c) + 1) % 2 ^ 64, 0)
    else .ok (p, n.length - p)
  else .bad

/-- `twoway_memmem`, memmem.c:56-167. -/
def twoway (h n : Bytes) : Res (Option Nat) :=
  let tbl := table n 0 (fun _ => none)
  maxSuffix (fun b a => a < b) n (2 * n.length + 2) 0 0 1 1 >>= fun s1 =>
  maxSuffix (fun b a => b < a) n (2 * n.length + 2) 0 0 1 1 >>= fun s2 =>
  let s := if s2.1 > s1.1 then s2 else s1
  period n s.1 s.2 >>= fun q =>
  search h n tbl s.1 q.1 q.2 (h.length + 1) 0 0

/-- `memmem`, memmem.c:169-204: the offset of the place found. -/
def memmem (h n : Bytes) : Res (Option Nat) :=
  match n with
  | [] => .ok (some 0)
  | c :: r =>
    if h.length < n.length then .ok none
    else
      match h.findIdx? (· == c) with
      | none => .ok none
      | some o =>
        if r = [] then .ok (some o)
        else if (h.drop o).length < n.length then .ok none
        else
          (if n.length = 2 then twobyte (h.drop o) n
            else if n.length = 3 then threebyte (h.drop o) n
            else if n.length = 4 then fourbyte (h.drop o) n
            else twoway (h.drop o) n) >>= fun x => .ok (x.map (o + ·))

end Muon.Memmem
