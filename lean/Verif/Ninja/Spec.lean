import Verif.Ninja.Model
import Verif.Manifest.Spec
import Verif.Esc.Spec
/-
Specification for C77-C79: the edges that targets are meant to have, and what it means that a graph read by ninja has them.
-/
namespace Muon.Ninja.Spec
open Muon Esc Esc.Spec Manifest

/-- A path that can be written to build.ninja. -/
def CleanPath (p : Bytes) : Prop := p ≠ [] ∧ ∀ c ∈ p, c ∉ ([0, 10, 13, 124, 255] : Bytes)
/-- Text that can be written to build.ninja. -/
def Clean (a : Bytes) : Prop := ∀ c ∈ a, c ∉ ([0, 10, 13, 255] : Bytes)

/-- A word that the shell reads as itself. -/
def Plain (x : Bytes) : Prop := x ≠ [] ∧ (∀ c ∈ x, c ∉ ascii "'\\ \t" ∧ c ∉ special) ∧ ∀ c, x.head? = some c → c ∉ specialFirst

/-- An edge as it is meant: outputs, rule, explicit inputs, implicit ones, order-only ones, and values of variables. -/
structure BEdge where
  outs : List Bytes
  rule : Bytes
  ins : List Bytes
  imp : List Bytes
  ord : List Bytes
  vars : List (Bytes × Bytes)

def BEdge.paths (e : BEdge) : List Bytes := e.outs ++ (e.ins ++ e.imp ++ e.ord)

/-- The edge in the graph, for canonical names `c` of the paths. -/
def BEdge.real (c : Bytes → Bytes) (r : Rule) (e : BEdge) : Manifest.Edge :=
  ⟨e.outs.map c, e.outs.length, (e.ins ++ e.imp ++ e.ord).map c, e.ins.length, e.ins.length + e.imp.length, r, e.vars.reverse, 0,
    Manifest.Spec.lastOf e.vars (ascii "pool")⟩

/-- What a custom target's edge runs: `cmd`. -/
def customEdge (t : Custom) (cmd : Bytes) : BEdge :=
  { outs := t.outs
    rule := if t.depfile.isSome then ascii "CUSTOM_COMMAND_DEP" else ascii "CUSTOM_COMMAND"
    ins := t.ins
    imp := t.depends ++ if t.stale then [ascii "build_always_stale"] else []
    ord := []
    vars := (ascii "COMMAND", cmd) :: (t.depfile.toList.map (fun d => (ascii "DEPFILE", d))
      ++ if t.console then [(ascii "pool", ascii "console")] else []) }

def aliasEdge (t : Alias) : BEdge := ⟨[t.name], ascii "phony", [], t.depends, [], []⟩

/-- The name that stands for all order-only dependencies of a target, if there are many. -/
def orderName (t : Target) : Bytes := t.path ++ ascii "-order_deps"

def sourceEdge (t : Target) (s : Source) (args : Option Bytes) : BEdge :=
  { outs := [s.dest], rule := s.rule, ins := [s.src]
    imp := if 1 < t.order.length then [orderName t] else []
    ord := if 1 < t.order.length then [] else t.order
    vars := args.toList.map (fun a => (ascii "ARGS", a)) }

def linkEdge (t : Target) (args : Option Bytes) : BEdge :=
  { outs := [t.path], rule := t.rulePrefix ++ ascii "_" ++ t.linker ++ ascii "_linker"
    ins := t.objects ++ t.sources.map (·.dest)
    imp := (if 1 < t.order.length then [orderName t] else []) ++ t.implicit
    ord := if 1 < t.order.length then [] else t.order
    vars := args.toList.map (fun a => (ascii "LINK_ARGS", a)) }

def orderEdge (t : Target) : BEdge := ⟨[orderName t], ascii "phony", [], [], t.order, []⟩

/-- The outputs of a target's edges. -/
def Tgt.outs : Tgt → List Bytes
  | .custom t => t.outs
  | .alias t => [t.name]
  | .build t => (if 1 < t.order.length then [orderName t] else []) ++ t.sources.map (·.dest) ++ [t.path]

/-- The inputs of a target's edges. -/
def Tgt.ins : Tgt → List Bytes
  | .custom t => t.ins ++ t.depends
  | .alias t => t.depends
  | .build t => t.order ++ t.sources.map (·.src) ++ t.objects ++ t.implicit

/-- The arguments that are written. -/
def Tgt.args : Tgt → List Bytes
  | .custom t => t.cmdline
  | .alias _ => []
  | .build t => t.sources.flatMap (fun s => s.args.getD []) ++ t.linkArgs.getD []

/-- The rules of a target. -/
def Tgt.rules : Tgt → List Bytes
  | .custom _ => []
  | .alias _ => []
  | .build t => t.sources.map (·.rule) ++ [t.rulePrefix ++ ascii "_" ++ t.linker ++ ascii "_linker"]

def defaultsOf : Tgt → List Bytes
  | .custom t => if t.byDefault then t.outs else []
  | .alias _ => []
  | .build t => if t.byDefault then [t.path] else []

/-- Whether a target is always run. -/
def Tgt.always : Tgt → Bool
  | .custom t => t.stale
  | .alias _ => false
  | .build _ => false

/-- All outputs of a build file. -/
def Build.outs (b : Build) : List Bytes :=
  [ascii "build.ninja"] ++ (if b.targets.any Tgt.always then [ascii "build_always_stale"] else [])
  ++ b.targets.flatMap Tgt.outs ++ (if b.targets.flatMap defaultsOf = [] then [ascii "muon_do_nothing"] else [])

def fixedRules : List Bytes := [ascii "phony", ascii "REGENERATE_BUILD", ascii "CUSTOM_COMMAND", ascii "CUSTOM_COMMAND_DEP"]

/-- A word of a command of a rule: text for the shell, a variable, or the name of the depfile. -/
inductive CWord
  | text (u : Bytes)
  | var (v : Bytes)
  | outD

/-- How text has to be written: `$` twice. -/
def dollars (u : Bytes) : Bytes := u.flatMap (fun c => if c = 36 then [36, 36] else [c])

def CWord.word : CWord → Word
  | .text u => .raw (dollars u)
  | .var v => .var v
  | .outD => .outD

def CWord.ok : CWord → Prop
  | .text u => Clean u
  | .var v => v ≠ [] ∧ ∀ c ∈ v, Manifest.Spec.simpleChar c
  | .outD => True

/-- Build files that can be written and read. -/
structure Good (b : Build) (c : Bytes → Bytes) : Prop where
  name : Clean b.name
  outs : ∀ t ∈ b.targets, Tgt.outs t ≠ [] ∧ ∀ p ∈ Tgt.outs t, CleanPath p
  ins : ∀ t ∈ b.targets, ∀ p ∈ Tgt.ins t, CleanPath p
  regenDeps : ∀ p ∈ b.regenDeps, CleanPath p
  args : ∀ t ∈ b.targets, ∀ a ∈ Tgt.args t, Clean a
  /-- `$` in the command that regenerates the build file is not escaped. -/
  regenCmd : b.regenCmd ≠ [] ∧ ∀ a ∈ b.regenCmd, Clean a ∧ 36 ∉ a
  /-- The name of the depfile is not escaped. -/
  depfile : ∀ t ∈ b.targets, ∀ k d, t = .custom k → k.depfile = some d → Clean d ∧ 36 ∉ d ∧ d.head? ≠ some 32
  /-- Commands of rules are not escaped. -/
  rules : ∀ r ∈ b.rules, Manifest.Spec.wfName r.name ∧ Clean r.description ∧ 36 ∉ r.description ∧ r.description ≠ [] ∧ r.description.head? ≠ some 32 ∧
    ∃ u cs, r.command = (CWord.text u :: cs).map CWord.word ∧ u ≠ [] ∧ u.head? ≠ some 32 ∧ ∀ w ∈ CWord.text u :: cs, CWord.ok w
  names : (fixedRules ++ b.rules.map (·.name)).Nodup
  has : ∀ t ∈ b.targets, ∀ r ∈ Tgt.rules t, r ∈ b.rules.map (·.name)
  canon : ∀ p, p ∈ Build.outs b ∨ (∃ t ∈ b.targets, p ∈ Tgt.ins t) ∨ p ∈ b.regenDeps → Canon.canonpath p = .ok (c p)
  unique : ((Build.outs b).map c).Nodup

end Muon.Ninja.Spec
