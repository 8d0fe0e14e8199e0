import Verif.Base
/-
The scheduler of the embedded ninja, src/external/samurai/build.c.

Edges (build statements) and nodes (files) are numbers. Simplifications: the dependencies that `samu_depsload` adds to
an edge are part of the graph from the start (they are added before the inputs of the edge are read); the time stamp of
a node is the one found when it is first looked at during scheduling; the first pass that rebuilds the manifest
(src/external/samurai/samu.c:229-247) is not modelled; counters are natural numbers that wrap below zero.
-/
namespace Muon.Sched
open Muon

/-- The build graph: `struct samu_edge`, `struct samu_node`, `struct samu_pool`, include/external/samurai/ctx.h:57-160. -/
structure Graph where
  /-- number of edges -/
  edges : Nat
  /-- `e->in` -/
  ins : Nat → List Nat
  /-- `e->inorderidx`: this many inputs are not order-only -/
  inorder : Nat → Nat
  /-- `e->out` -/
  outs : Nat → List Nat
  /-- `n->gen` -/
  gen : Nat → Option Nat
  /-- `n->use` -/
  use : Nat → List Nat
  /-- `e->rule == &ctx->phonyrule` -/
  phony : Nat → Bool
  /-- `e->pool` -/
  pool : Nat → Option Nat
  /-- `p->maxjobs` -/
  depth : Nat → Nat
  /-- the variables `generator` and `restat` of an edge -/
  generator : Nat → Bool
  restat : Nat → Bool
  /-- `n->mtime`; `none` is `SAMU_MTIME_MISSING` -/
  mtime : Nat → Option Int
  /-- `n->logmtime`; `none` is `SAMU_MTIME_MISSING` -/
  logmtime : Nat → Option Int
  /-- `e->hash`, of the command, and `n->hash`, from the log -/
  hash : Nat → Nat
  loghash : Nat → Nat

/-- The state of the scheduler: the flags and counters of edges, `n->dirty`, `ctx->build.work`, `p->work`,
`p->numjobs` and `ctx->build.ntotal`. -/
structure St where
  work : Nat → Bool := fun _ => false
  cycle : Nat → Bool := fun _ => false
  dirtyIn : Nat → Bool := fun _ => false
  dirtyOut : Nat → Bool := fun _ => false
  nblock : Nat → Nat := fun _ => 0
  nprune : Nat → Nat := fun _ => 0
  dirty : Nat → Bool := fun _ => false
  queue : List Nat := []
  poolq : Nat → List Nat := fun _ => []
  numjobs : Nat → Nat := fun _ => 0
  ntotal : Nat := 0

/-- Changing a function at one place. -/
def upd {α : Type} (f : Nat → α) (d : Nat) (x : α) : Nat → α := fun y => if y = d then x else f y

/-- `e->flags & FLAG_DIRTY`. -/
def St.isDirty (st : St) (e : Nat) : Bool := st.dirtyIn e || st.dirtyOut e

/-- `samu_isnewer`, build.c:42-46, for a node that is not missing. -/
def isnewer (g : Graph) : Option Nat → Int → Bool
  | none, _ => false
  | some n1, t => match g.mtime n1 with | some t1 => t1 > t | none => false

/-- `samu_isdirty`, build.c:49-95, for an output `n` of `e`. -/
def isdirty (g : Graph) (e n : Nat) (newest : Option Nat) : Bool :=
  if g.phony e then
    if (g.ins e).length > 0 ∨ g.mtime n ≠ none then false else true
  else
    match g.mtime n with
    | none => true
    | some t =>
      if isnewer g newest t && (!g.restat e || g.logmtime n == none) then true
      else if (match g.logmtime n with
          | none => !g.generator e
          | some l => isnewer g newest l) then true
      else if g.generator e then false
      else if g.hash e = g.loghash n then false
      else true

/-- `samu_queue`, build.c:98-111. -/
def queue (g : Graph) (st : St) (e : Nat) : St :=
  match g.pool e with
  | some p =>
    if g.phony e then { st with queue := e :: st.queue }
    else if st.numjobs p = g.depth p then { st with poolq := upd st.poolq p (e :: st.poolq p) }
    else { st with numjobs := upd st.numjobs p (st.numjobs p + 1), queue := e :: st.queue }
  | none => { st with queue := e :: st.queue }

/-- The outcome of scheduling: `samu_fatal` for a missing file or for a dependency cycle. -/
inductive Out
  | ok (st : St)
  | missing (n : Nat)
  | cyclic (n : Nat)
  | fuel

/-- The newest input so far, build.c:150-151. -/
def newer (g : Graph) (newest : Option Nat) (n : Nat) : Option Nat :=
  match g.mtime n with
  | some t => if isnewer g newest t then newest else some n
  | none => newest

/-- `n->dirty || (n->gen && n->gen->nblock > 0)`, build.c:153. -/
def blocks (g : Graph) (st : St) (n : Nat) : Bool :=
  st.dirty n || (match g.gen n with | some e => st.nblock e > 0 | none => false)

/-- The loop over the inputs in `samu_buildadd`, build.c:144-155; `rec` is `samu_buildadd`. -/
def addIns (g : Graph) (rec : Nat → St → Out) (e : Nat) : List Nat → Nat → Option Nat → St → Out × Option Nat
  | [], _, newest, st => (.ok st, newest)
  | n :: ns, i, newest, st =>
    match rec n st with
    | .ok st =>
      let st := if i < g.inorder e ∧ st.dirty n = true then { st with dirtyIn := upd st.dirtyIn e true } else st
      let newest := if i < g.inorder e then newer g newest n else newest
      let st := if blocks g st n then { st with nblock := upd st.nblock e (st.nblock e + 1) } else st
      addIns g rec e ns (i + 1) newest st
    | out => (out, newest)

/-- The rest of `samu_buildadd`, build.c:156-186: are the outputs dirty? -/
def finish (g : Graph) (e : Nat) (newest : Option Nat) (st : St) : St :=
  let st := if (g.outs e).any fun n => isdirty g e n newest then { st with dirtyOut := upd st.dirtyOut e true } else st
  let st := if st.isDirty e then { st with dirty := fun n => if n ∈ g.outs e then true else st.dirty n } else st
  let st := if st.dirtyOut e then st else { st with nprune := upd st.nprune e (st.nblock e) }
  let st :=
    if st.isDirty e then
      let st := if st.nblock e = 0 then queue g st e else st
      if g.phony e then st else { st with ntotal := st.ntotal + 1 }
    else st
  { st with cycle := upd st.cycle e false }

/-- `samu_buildadd`, build.c:113-187. -/
def buildadd (g : Graph) : Nat → Nat → St → Out
  | 0, _, _ => .fuel
  | f + 1, n, st =>
    match g.gen n with
    | none => if g.mtime n = none then .missing n else .ok { st with dirty := upd st.dirty n false }
    | some e =>
      if st.cycle e then .cyclic n
      else if st.work e then .ok st
      else
        let st := { st with
          cycle := upd st.cycle e true, work := upd st.work e true, nblock := upd st.nblock e 0
          dirty := fun n => if n ∈ g.outs e then false else st.dirty n }
        match addIns g (buildadd g f) e (g.ins e) 0 none st with
        | (.ok st, newest) => .ok (finish g e newest st)
        | (out, _) => out

/-- Adding all targets, samu.c:249-256. -/
def addAll (g : Graph) : List Nat → St → Out
  | [], st => .ok st
  | n :: ns, st =>
    match buildadd g (g.edges + 2) n st with
    | .ok st => addAll g ns st
    | out => out

/-- Options: `maxjobs`, `maxfail`, `dryrun`. -/
structure Config where
  maxjobs : Nat
  maxfail : Nat
  dryrun : Bool := false

/-- What happens during a build. -/
inductive Event
  /-- a job is started -/
  | start (e : Nat)
  /-- starting a job fails -/
  | nostart (e : Nat)
  /-- a job has ended with success; `same` says which outputs a `restat` rule has left unchanged -/
  | done (e : Nat) (same : Nat → Bool)
  /-- a job has failed -/
  | fail (e : Nat)
  /-- an edge has been found to be up to date -/
  | prune (e : Nat)

/-- A build in progress. `pending` is the call stack of `samu_nodedone`: the users of nodes that are still to be told
that a node is done, and whether the node is pruned. -/
structure Run where
  st : St
  running : List Nat := []
  numfail : Nat := 0
  pending : List (Nat × Bool) := []
  trace : List Event := []

/-- `--counter` for a `size_t`. -/
def dec (n : Nat) : Nat := if n = 0 then 2 ^ 64 - 1 else n - 1

/-- The iterations of the calls of `samu_nodedone` for the outputs of an edge. -/
def announce (g : Graph) (e : Nat) (same : Nat → Bool) : List (Nat × Bool) :=
  (g.outs e).flatMap fun n => (g.use n).map fun u => (u, same n)

/-- The second branch of an iteration of `samu_nodedone`, build.c:341-343. -/
def unblock (g : Graph) (r : Run) (e : Nat) : Run :=
  let st := { r.st with nblock := upd r.st.nblock e (dec (r.st.nblock e)) }
  { r with st := if st.nblock e = 0 then queue g st e else st }

/-- An iteration of `samu_nodedone` for user `e`, build.c:329-343, with the recursive calls put on the stack. -/
def deliver (g : Graph) (r : Run) (e : Nat) (prune : Bool) : Run :=
  if !r.st.work e then r
  else if !(if prune then r.st.dirtyOut e else r.st.isDirty e) then
    let st := { r.st with nprune := upd r.st.nprune e (dec (r.st.nprune e)) }
    if st.nprune e = 0 then
      { r with
        st := { st with ntotal := if st.isDirty e && !g.phony e then st.ntotal - 1 else st.ntotal }
        pending := announce g e (fun _ => true) ++ r.pending
        trace := r.trace ++ [.prune e] }
    else unblock g { r with st } e
  else unblock g r e

/-- Giving back the slot of a pool, in `samu_jobdone`, build.c:417-432. -/
def release (g : Graph) (st : St) (e : Nat) : St :=
  match g.pool e with
  | none => st
  | some p =>
    match st.poolq p with
    | x :: xs => { st with poolq := upd st.poolq p xs, queue := x :: st.queue }
    | [] => { st with numjobs := upd st.numjobs p (dec (st.numjobs p)) }

/-- The loop condition of `samu_build`, build.c:454. -/
def canStart (c : Config) (r : Run) : Prop := r.running.length < c.maxjobs ∧ r.numfail < c.maxfail

/-- The steps of `samu_build`, build.c:437-525, for all schedules: jobs may end at any time and in any order
(`run_cmd_collect`), with any result. -/
inductive Step (g : Graph) (c : Config) : Run → Run → Prop
  /-- an iteration of `samu_nodedone` -/
  | deliver (r : Run) (e : Nat) (prune : Bool) (rest : List (Nat × Bool)) (h : r.pending = (e, prune) :: rest) :
    Step g c r (deliver g { r with pending := rest } e prune)
  /-- an edge without a job, build.c:455-466 -/
  | skip (r : Run) (e : Nat) (q : List Nat) (hp : r.pending = []) (hq : r.st.queue = e :: q) (hs : canStart c r)
    (h : g.phony e = true ∨ c.dryrun = true) :
    Step g c r { r with st := { r.st with queue := q }, pending := announce g e (fun _ => false), trace := r.trace ++ [.start e, .done e fun _ => false] }
  /-- starting a job, build.c:455-456, 479-486 -/
  | start (r : Run) (e : Nat) (q : List Nat) (hp : r.pending = []) (hq : r.st.queue = e :: q) (hs : canStart c r)
    (h : g.phony e = false ∧ c.dryrun = false) :
    Step g c r { r with st := { r.st with queue := q }, running := e :: r.running, trace := r.trace ++ [.start e] }
  /-- failing to start a job, build.c:479-481 -/
  | nostart (r : Run) (e : Nat) (q : List Nat) (hp : r.pending = []) (hq : r.st.queue = e :: q) (hs : canStart c r)
    (h : g.phony e = false ∧ c.dryrun = false) :
    Step g c r { r with st := { r.st with queue := q }, numfail := r.numfail + 1, trace := r.trace ++ [.nostart e] }
  /-- a job ends with success; an output counts as unchanged only for a `restat` rule; build.c:368-435 -/
  | done (r : Run) (e : Nat) (same : Nat → Bool) (hp : r.pending = []) (hr : e ∈ r.running) (hs : ∀ n, same n = true → g.restat e = true) :
    Step g c r { r with st := release g r.st e, running := r.running.erase e, pending := announce g e same, trace := r.trace ++ [.done e same] }
  /-- a job fails -/
  | fail (r : Run) (e : Nat) (hp : r.pending = []) (hr : e ∈ r.running) :
    Step g c r { r with st := release g r.st e, running := r.running.erase e, numfail := r.numfail + 1, trace := r.trace ++ [.fail e] }

/-- The states of a build that starts in state `st`. -/
inductive Reach (g : Graph) (c : Config) (st : St) : Run → Prop
  | init : Reach g c st { st }
  | step {r r' : Run} : Reach g c st r → Step g c r r' → Reach g c st r'

end Muon.Sched
