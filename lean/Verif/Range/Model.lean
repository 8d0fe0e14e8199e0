import Verif.Interp.Model
/-
`range()`, src/functions/kernel.c, and loops over it, src/lang/interpreter.c. Counters are `uint32_t`.
-/
namespace Muon.Range
open Muon Val Interp

/-- `struct range_params`. -/
structure Params where
  start : Nat
  stop : Nat
  step : Nat
deriving DecidableEq

/-- `rangecheck`, src/lang/interpreter.c:84-93. -/
def rangecheck (min max n : Int) : Bool := !(n < min || n > max)

/-- The last part of `func_range_common`, src/functions/kernel.c:1890-1900. -/
def withStep (s : Option Int) (start stop : Nat) : Option Params :=
  match s with
  | none => some ⟨start, stop, 1⟩
  | some s => if !rangecheck 1 4294967295 s then none else some ⟨start, stop, s.toNat⟩

/-- `func_range_common`, src/functions/kernel.c:1863-1901; `none`: a reported error. A fourth argument is accepted and ignored by the code; it is
not modelled. -/
def params (a : Int) (b s : Option Int) : Option Params :=
  if !rangecheck 0 4294967295 a then none
  else match b with
    | none => withStep s 0 a.toNat
    | some b => if !rangecheck a 4294967295 b then none else withStep s a.toNat b.toNat

/-- The loop of `func_range`, src/functions/kernel.c:1903-1921, from counter `i` on: the numbers pushed; `none`: fuel used up. -/
def loop (stop step : Nat) : Nat → Nat → Option (List Nat)
  | 0, _ => none
  | f + 1, i => if i < stop then (i :: ·) <$> loop stop step f ((i + step) % 2 ^ 32) else some []

/-- `foreach x : range(…)`, src/lang/interpreter.c:991-1036. -/
def loopRange (body : St → Out St) (empty : Bool) (x : Bytes) (stop step : Nat) : Nat → Nat → St → Out St
  | 0, _, _ => .fuel
  | f + 1, i, st =>
    if i < stop then
      let st := { st with s := { st.s with heap := Heap.alloc st.s.heap (.num i) }, env := bindVar st.env x st.s.heap.next }
      if empty then .ok st
      else do
        let st ← body st
        let (go, st) := afterBody st
        if go then loopRange body empty x stop step f ((i + step) % 2 ^ 32) st else pure st
    else .ok st

end Muon.Range
