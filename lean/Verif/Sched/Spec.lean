import Verif.Sched.Model
/-
Specification of scheduling: which edges depend on which, and which are out of date.
-/
namespace Muon.Sched.Spec
open Muon.Sched

/-- What the parser guarantees of a graph: every node is an output of at most one edge and once (src/external/samurai/
parse.c:108-121), and every occurrence of a node as an input is recorded (parse.c:123-129, graph.c:198-217). -/
structure WF (g : Graph) : Prop where
  gen : ∀ (n e : Nat), g.gen n = some e ↔ e < g.edges ∧ n ∈ g.outs e
  outs : ∀ e, (g.outs e).Nodup
  use : ∀ (n e : Nat), (g.use n).count e = (g.ins e).count n

/-- Edge `a` has an input that edge `b` makes. -/
def Needs (g : Graph) (a b : Nat) : Prop := ∃ n ∈ g.ins a, g.gen n = some b

/-- Directly or indirectly, through one edge or more. -/
abbrev DependsOn (g : Graph) (a b : Nat) : Prop := Relation.TransGen (Needs g) a b

/-- The edge makes one of the targets or something they depend on. -/
def Required (g : Graph) (targets : List Nat) (e : Nat) : Prop :=
  ∃ n ∈ targets, ∃ e0, g.gen n = some e0 ∧ (e0 = e ∨ DependsOn g e0 e)

/-- A source file is needed that does not exist. -/
def Missing (g : Graph) (targets : List Nat) : Prop :=
  ∃ n, g.gen n = none ∧ g.mtime n = none ∧ (n ∈ targets ∨ ∃ e, Required g targets e ∧ n ∈ g.ins e)

/-- The inputs of an edge that are not order-only. -/
def inputs (g : Graph) (e : Nat) : List Nat := (g.ins e).take (g.inorder e)

/-- Input `i` exists and has been modified after time `t`. -/
def NewerThan (g : Graph) (i : Nat) (t : Int) : Prop := ∃ ti, g.mtime i = some ti ∧ t < ti

/-- Output `n` of edge `e` is not up to date. A `restat` rule is judged by the recorded time only. -/
inductive Stale (g : Graph) (e n : Nat) : Prop
  | phony (h : g.phony e = true) (hi : g.ins e = []) (hm : g.mtime n = none)
  | missing (h : g.phony e = false) (hm : g.mtime n = none)
  | older (h : g.phony e = false) (t : Int) (ht : g.mtime n = some t) (i : Nat) (hi : i ∈ inputs g e) (hn : NewerThan g i t)
    (hr : g.restat e = false ∨ g.logmtime n = none)
  | unrecorded (h : g.phony e = false) (hl : g.logmtime n = none) (hg : g.generator e = false)
  | recorded (h : g.phony e = false) (l : Int) (hl : g.logmtime n = some l) (i : Nat) (hi : i ∈ inputs g e) (hn : NewerThan g i l)
  | command (h : g.phony e = false) (hg : g.generator e = false) (hc : g.hash e ≠ g.loghash n)

/-- The edge has to run: an output is not up to date, or an input is made by an edge that has to run. -/
inductive Outdated (g : Graph) : Nat → Prop
  | out {e n : Nat} (h : n ∈ g.outs e) (hs : Stale g e n) : Outdated g e
  | input {e n e' : Nat} (h : n ∈ inputs g e) (hg : g.gen n = some e') (ho : Outdated g e') : Outdated g e

/-- The edge has been built or has been found not to need it. -/
def Ended (t : List Event) (e : Nat) : Prop := (∃ same, .done e same ∈ t) ∨ .prune e ∈ t

/-- A build has stopped. -/
def Stopped (g : Graph) (c : Config) (r : Run) : Prop := ∀ r', ¬ Step g c r r'

/-- States after `n` steps. -/
inductive Steps (g : Graph) (c : Config) (st : St) : Nat → Run → Prop
  | init : Steps g c st 0 { st }
  | step {n : Nat} {r r' : Run} : Steps g c st n r → Step g c r r' → Steps g c st (n + 1) r'

end Muon.Sched.Spec
