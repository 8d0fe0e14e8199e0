import Verif.Env.Model
/-
What environment objects mean: every call changes one variable, starting from the value it has in the environment
muon was started in.
-/
namespace Muon.Env.Spec
open Muon Muon.Env

/-- The values of a call with the separator between them. -/
def joined (sep : Bytes) : List Bytes → Bytes
  | [] => []
  | [v] => v
  | v :: vs => v ++ sep ++ joined sep vs

/-- The separator of a call. -/
def sepOf (c : Call) : Bytes := match c.sep with
  | some s => s
  | none => [58]

/-- The value of a variable after a call that names it; `none` is a variable that is not set. -/
def after (c : Call) : Option Bytes → Bytes
  | none => joined (sepOf c) c.vals
  | some old => match c.mode with
    | .set => joined (sepOf c) c.vals
    | .append => old ++ sepOf c ++ joined (sepOf c) c.vals
    | .prepend => joined (sepOf c) c.vals ++ sepOf c ++ old

/-- The value of a variable after calls that name it. -/
def afterAll : Option Bytes → List Call → Option Bytes
  | v, [] => v
  | v, c :: cs => afterAll (some (after c v)) cs

/-- The calls that name a variable, in order. -/
def naming (k : Bytes) (cs : List Call) : List Call := cs.filter fun c => c.key = k

/-- The variables named by calls, in the order in which they are first named. -/
def names : List Call → List Bytes
  | [] => []
  | c :: cs => c.key :: (names cs).filter fun k => k ≠ c.key

/-- A call without NUL bytes. -/
def NoNul (c : Call) : Prop := 0 ∉ c.key ∧ (∀ v ∈ c.vals, 0 ∉ v) ∧ 0 ∉ sepOf c

end Muon.Env.Spec
