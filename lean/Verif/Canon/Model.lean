import Verif.Base
/-
`samu_canonpath`, src/external/samurai/util.c: paths of build files are canonicalised in place.

The path is the bytes of the string, followed by NUL, in memory `mem`; reading or writing outside of it is `bad`.
-/
namespace Muon.Canon
open Muon

/-- `ARRAY_LEN(component)`, util.c:232. -/
def maxComponents : Nat := 60

/-- A store. -/
def write (mem : Bytes) (i : Nat) (x : UInt8) : Option Bytes := if i < mem.length then some (mem.set i x) else none

/-- The loop that copies a component, util.c:274-276: the memory and the pointers `s` and `d` afterwards. -/
def copy : Nat → Bytes → Nat → Nat → Option (Bytes × Nat × Nat)
  | 0, _, _, _ => none
  | f + 1, mem, s, d =>
    match mem[s]? with
    | none => none
    | some c =>
      if c ≠ 47 ∧ c ≠ 0 then
        match write mem d c with
        | none => none
        | some mem => copy f mem (s + 1) (d + 1)
      else some (mem, s, d)

/-- A component, util.c:270-277: the memory and the pointers afterwards (`d` was pushed to the components). -/
def component (f : Nat) (mem : Bytes) (s d : Nat) (n : Nat) : Res (Bytes × Nat × Nat) :=
  if n = maxComponents then .error
  else match copy f mem s d with
  | none => .bad
  | some (mem, s, d) =>
    match mem[s]? with
    | none => .bad
    | some c =>
      match write mem d c with
      | none => .bad
      | some mem => .ok (mem, s + 1, d + 1)

/-- Keeping `..`, util.c:261-263. -/
def keepUp (mem : Bytes) (s d : Nat) : Option Bytes := do
  let c0 ← mem[s]?
  let mem ← write mem d c0
  let c1 ← mem[s + 1]?
  let mem ← write mem (d + 1) c1
  let c2 ← mem[s + 2]?
  write mem (d + 2) c2

/-- What the bytes at `s` are, util.c:247-269. -/
inductive Kind | slash | dot | up | comp
deriving DecidableEq

def kind (mem : Bytes) (s : Nat) : Option Kind := do
  let c0 ← mem[s]?
  if c0 = 47 then pure .slash
  else if c0 = 46 then do
    let c1 ← mem[s + 1]?
    if c1 = 0 ∨ c1 = 47 then pure .dot
    else if c1 = 46 then do
      let c2 ← mem[s + 2]?
      if c2 ≠ 47 ∧ c2 ≠ 0 then pure .comp else pure .up
    else pure .comp
  else pure .comp

/-- The loop of `samu_canonpath`, util.c:246-278; `comp` is the array `component`, last entry first. -/
def loop (stop : Nat) : Nat → Bytes → Nat → Nat → List Nat → Res (Bytes × Nat)
  | 0, _, _, _, _ => .bad
  | f + 1, mem, s, d, comp =>
    if s < stop then
      match kind mem s with
      | none => .bad
      | some .slash => loop stop f mem (s + 1) d comp
      | some .dot => loop stop f mem (s + 2) d comp
      | some .up =>
        match comp with
        | p :: ps => loop stop f mem (s + 3) p ps
        | [] =>
          match keepUp mem s d with
          | none => .bad
          | some mem => loop stop f mem (s + 3) (d + 3) []
      | some .comp =>
        match component f mem s d comp.length with
        | .ok (mem, s', d') => loop stop f mem s' d' (d :: comp)
        | .error => .error
        | .bad => .bad
    else .ok (mem, d)

/-- The last part, util.c:279-286: the resulting string. -/
def finish (mem : Bytes) (d : Nat) : Res Bytes :=
  if d = 0 then
    match write mem 0 46 with
    | none => .bad
    | some mem =>
      match write mem 1 0 with
      | none => .bad
      | some mem => .ok (mem.take 1)
  else
    match write mem (d - 1) 0 with
    | none => .bad
    | some mem => .ok (mem.take (d - 1))

/-- `samu_canonpath`, util.c:229-287: the string afterwards. `error`: `samu_fatal`. -/
def canonpath (path : Bytes) : Res Bytes :=
  if path.length = 0 then .error
  else
    let mem := path ++ [0]
    let k := if path.head? = some 47 then 1 else 0
    loop path.length (path.length + 2) mem k k [] >>= fun r => finish r.1 r.2

end Muon.Canon
