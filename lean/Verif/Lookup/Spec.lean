import Verif.Lookup.Model
/-
What C96 says about lookups, apart from how they are made.
-/
namespace Muon.Lookup.Spec
open Muon

/-- The names that `dependency()` knows itself. -/
def Special (n : Bytes) : Prop := n = ascii "threads" ∨ n = ascii "curses" ∨ n = ascii "appleframeworks" ∨ n = []

/-- A version meets every one of the constraints, if there are any. -/
def Meets (v : Option Bytes) (cs : Option (List Bytes)) : Prop :=
  ∀ l, cs = some l → ∃ w, v = some w ∧ ∀ x ∈ l, Version.versionCompare1 w x = true

/-- The object `i` is the dependency `d`. -/
def Is (st : St) (i : Nat) (d : Dep) : Prop := st.heap[i]? = some d

/-- The object `i` is a dependency that was found. -/
def Found (st : St) (i : Nat) : Prop := ∃ d, Is st i d ∧ d.found = true

/-- Everything a lookup can come upon was found: what is in the caches, overrides, and dependencies in variables of
subprojects. -/
structure Sound (st : St) : Prop where
  cacheS : ∀ p n i, st.cacheS p n = some i → Found st i
  cacheD : ∀ p n i, st.cacheD p n = some i → Found st i
  ovS : ∀ n i, st.ovS n = some i → Found st i
  ovD : ∀ n i, st.ovD n = some i → Found st i
  subs : ∀ s vars v i, st.subs s = some vars → vars v = some (.dep i) → Found st i

/-- Subprojects too override and define only dependencies that were found. -/
def EvalSound (E : Env) : Prop :=
  ∀ st r n m, Sound st → Sound (E.eval st r n m).1 ∧
    ∀ ver vars v i, (E.eval st r n m).2 = some (ver, vars) → vars v = some (.dep i) → Found (E.eval st r n m).1 i

/-- The same dependency, but for the type of its include directories. -/
def Alike (d e : Dep) : Prop := { d with inc := .preserve } = { e with inc := .preserve }

/-- Dependencies stay what they are, but for the type of their include directories, and so does the cache of project
`p`. -/
structure Keeps (p : Nat) (a b : St) : Prop where
  heap : ∀ i d, Is a i d → ∃ e, Is b i e ∧ Alike d e
  cacheS : ∀ n, b.cacheS p n = a.cacheS p n
  cacheD : ∀ n, b.cacheD p n = a.cacheD p n

/-- A subproject has a cache of its own: evaluating it leaves the cache of project `p` alone. -/
def EvalKeeps (E : Env) (p : Nat) : Prop := ∀ st r n m, Keeps p st (E.eval st r n m).1

/-- Something a build definition does between two lookups: another lookup, in this or another project, or
`meson.override_dependency`. -/
inductive Step
  | call (E : Env) (c : Call)
  | override (static : Bool) (n : Bytes) (i : Nat)

/-- The state after a step; the lookup must not fail. -/
def Step.run : Step → St → Res St
  | .call E c, st => match dependency E c st with
    | .ok (st', _) => .ok st'
    | .error => .error
    | .bad => .bad
  | .override s n i, st => .ok (overrideDependency s n i st)

/-- A history of steps. -/
def runAll : List Step → St → Res St
  | [], st => .ok st
  | s :: ss, st => match s.run st with
    | .ok st' => runAll ss st'
    | .error => .error
    | .bad => .bad

/-- The dependency a call returns, if it returns one. -/
def returned : Res (St × Result) → Option Dep
  | .ok (st, .dep i) => st.heap[i]?
  | _ => none

/-- The state a call leaves; the one before, if it fails. -/
def after (st : St) : Res (St × Result) → St
  | .ok (st', _) => st'
  | _ => st

/-- How a call ends. -/
inductive End
  | ok | error | bad
  deriving DecidableEq, Repr

/-- How a call ends. -/
def ending : Res (St × Result) → End
  | .ok _ => .ok
  | .error => .error
  | .bad => .bad

end Muon.Lookup.Spec
