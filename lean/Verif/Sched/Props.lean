import Verif.Sched.Hist
/-
C48-C51: scheduling.
-/
namespace Muon.Sched
open Muon Spec

/-- C49: scheduling always ends; it succeeds exactly if no source file that is needed is missing and the targets do not depend on a cycle. -/
theorem scheduling_total (g : Graph) (wf : WF g) (targets : List Nat) :
    ((∃ st, addAll g targets {} = .ok st) ∨ (∃ n, addAll g targets {} = .missing n) ∨ ∃ n, addAll g targets {} = .cyclic n) ∧
    ((∃ st, addAll g targets {} = .ok st) ↔ ¬ Missing g targets ∧ ¬ ∃ e, Required g targets e ∧ DependsOn g e e) ∧
    (∀ n, addAll g targets {} = .missing n → Missing g targets) ∧
    (∀ n, addAll g targets {} = .cyclic n → ∃ e, Required g targets e ∧ DependsOn g e e) := by
  have S := addAll_spec wf targets targets {} (init_inv g) (fun _ => rfl) (fun _ h => h)
  have hok : ∀ st, addAll g targets {} = .ok st → ¬ Missing g targets ∧ ¬ ∃ e, Required g targets e ∧ DependsOn g e e := by
    intro st h
    have s := sched_of wf h
    constructor
    · rintro ⟨n, h1, h2, h3⟩
      rcases h3 with h3 | ⟨e, h3, h4⟩
      · exact s.present n h3 h1 h2
      · exact (s.ok ((s.work e).2 h3)).present n h4 h1 h2
    · rintro ⟨e, h1, h2⟩
      exact grounded_acyclic (s.ok ((s.work e).2 h1)).grounded e (.inl rfl) h2
  cases h : addAll g targets {} with
  | ok st =>
    refine ⟨.inl ⟨st, rfl⟩, ⟨fun _ => hok st h, fun _ => ⟨st, rfl⟩⟩, fun n hn => (by cases hn), fun n hn => (by cases hn)⟩
  | missing m =>
    rw [h] at S
    have hm : Missing g targets := ⟨m, S.1, S.2.1, S.2.2⟩
    exact ⟨.inr (.inl ⟨m, rfl⟩), ⟨fun ⟨st, hs⟩ => (by cases hs), fun hn => absurd hm hn.1⟩, fun _ _ => hm, fun n hn => (by cases hn)⟩
  | cyclic m =>
    rw [h] at S
    exact ⟨.inr (.inr ⟨m, rfl⟩), ⟨fun ⟨st, hs⟩ => (by cases hs), fun hn => absurd S hn.2⟩, fun n hn => (by cases hn), fun _ _ => S⟩
  | fuel => rw [h] at S; exact S.elim

/-- C51: an edge is considered clean exactly if it is not out of date. -/
theorem up_to_date (g : Graph) (wf : WF g) (targets : List Nat) (st : St) (h : addAll g targets {} = .ok st) (e : Nat) (hr : Required g targets e) :
    st.isDirty e = false ↔ ¬ Outdated g e := by
  have s := sched_of wf h
  rw [← dirty_iff wf s ((s.work e).2 hr)]
  cases st.isDirty e <;> simp

/-- C51: an output of a clean edge with a command exists, its command is unchanged unless the rule is a generator, it has a record unless the rule is a
generator, and no input is newer than it or its record (only its record for a `restat` rule with a record); and no input is made by an edge that is not clean. -/
theorem clean_outputs (g : Graph) (wf : WF g) (targets : List Nat) (st : St) (h : addAll g targets {} = .ok st) (e : Nat) (hr : Required g targets e)
    (hp : g.phony e = false) (hc : st.isDirty e = false) (n : Nat) (hn : n ∈ g.outs e) :
    (∃ t, g.mtime n = some t ∧ ((g.restat e = false ∨ g.logmtime n = none) → ∀ i ∈ inputs g e, ∀ ti, g.mtime i = some ti → ti ≤ t)) ∧
    (∀ l, g.logmtime n = some l → ∀ i ∈ inputs g e, ∀ ti, g.mtime i = some ti → ti ≤ l) ∧
    (g.generator e = false → g.hash e = g.loghash n ∧ ∃ l, g.logmtime n = some l) ∧
    (∀ i ∈ inputs g e, ∀ e', g.gen i = some e' → ¬ Outdated g e') := by
  have ho := (up_to_date g wf targets st h e hr).1 hc
  have hs : ¬ Stale g e n := fun h => ho (.out hn h)
  refine ⟨?_, ?_, ?_, ?_⟩
  · cases hm : g.mtime n with
    | none => exact absurd (.missing hp hm) hs
    | some t =>
      refine ⟨t, rfl, fun hrs i hi ti hti => ?_⟩
      apply Int.not_lt.1
      intro hlt
      exact hs (.older hp t hm i hi ⟨ti, hti, hlt⟩ hrs)
  · intro l hl i hi ti hti
    apply Int.not_lt.1
    intro hlt
    exact hs (.recorded hp l hl i hi ⟨ti, hti, hlt⟩)
  · intro hg
    constructor
    · apply Classical.byContradiction
      intro hne
      exact hs (.command hp hg hne)
    · cases hl : g.logmtime n with
      | some l => exact ⟨l, rfl⟩
      | none => exact absurd (.unrecorded hp hl hg) hs
  · intro i hi e' hg hout
    exact ho (.input hi hg hout)

/-- C48: a job is started only if it is required and out of date, and after every edge it depends on that is out of date has been built or found not to
need it. -/
theorem inputs_ready (g : Graph) (wf : WF g) (targets : List Nat) (st : St) (h : addAll g targets {} = .ok st) (c : Config) (r : Run) (hr : Reach g c st r)
    (t1 t2 : List Event) (e : Nat) (ht : r.trace = t1 ++ .start e :: t2) :
    Required g targets e ∧ Outdated g e ∧ ∀ e', DependsOn g e e' → Outdated g e' → Ended t1 e' := by
  have s := sched_of wf h
  have H := reach_hist wf s hr
  obtain ⟨hw, hd, hrd⟩ := H t1 _ t2 ht
  refine ⟨(s.work e).1 hw, (dirty_iff wf s hw).1 hd, fun e' hdep ho => ?_⟩
  have hp : Hist g st t1 := hist_prefix (by rw [← ht]; exact H)
  obtain ⟨hw', hE⟩ := ready_all wf s hp hw hrd e' hdep
  exact hE ⟨hw', .inl ((dirty_iff wf s hw').2 ho)⟩

/-- C48: no job is started twice, not even after it has failed, and never more than `maxjobs` run. -/
theorem started_once (g : Graph) (wf : WF g) (targets : List Nat) (st : St) (h : addAll g targets {} = .ok st) (c : Config) (r : Run) (hr : Reach g c st r) :
    (∀ e, (r.trace.filter fun | .start x => x == e | .nostart x => x == e | _ => false).length ≤ 1) ∧ r.running.length ≤ c.maxjobs := by
  have s := sched_of wf h
  have I := reach_inv wf s hr
  refine ⟨fun e => ?_, I.jobs⟩
  have e1 : (r.trace.filter fun | .start x => x == e | .nostart x => x == e | _ => false).length = r.trace.countP (isStart e) + r.trace.countP (isNostart e) := by
    rw [← List.countP_eq_length_filter]
    generalize r.trace = t
    induction t with
    | nil => rfl
    | cons ev t ih =>
      rw [List.countP_cons, List.countP_cons, List.countP_cons, ih]
      cases ev <;> simp [isStart, isNostart] <;> omega
  rw [e1]
  have hs := I.starts e
  cases hw : st.work e with
  | true =>
    have := I.one e hw
    split at this <;> omega
  | false =>
    have := I.foreign e hw
    omega

/-- C48: what has been pruned did not have to run: the outputs were not stale, and every input that an edge to be built makes has been left unchanged by
a `restat` rule or is made by an edge that has been pruned. -/
theorem pruned_unneeded (g : Graph) (wf : WF g) (targets : List Nat) (st : St) (h : addAll g targets {} = .ok st) (c : Config) (r : Run) (hr : Reach g c st r)
    (t1 t2 : List Event) (e : Nat) (ht : r.trace = t1 ++ .prune e :: t2) :
    (∀ n ∈ g.outs e, ¬ Stale g e n) ∧
    (Outdated g e → ∀ n ∈ g.ins e, ∀ e', g.gen n = some e' → Outdated g e' →
      .prune e' ∈ t1 ∨ (g.restat e' = true ∧ ∃ same, .done e' same ∈ t1 ∧ same n = true)) := by
  have s := sched_of wf h
  have H := reach_hist wf s hr
  obtain ⟨hw, hd, hrd, hall⟩ := H t1 _ t2 ht
  constructor
  · intro n hn hs
    rw [(s.ok hw).dirtyOut, List.any_eq_false] at hd
    exact hd n hn ((isdirty_iff g e n).2 hs)
  · intro ho n hn e' hg ho'
    have hw' := ((s.ok hw).closed n hn e' hg).1
    have hD := hall ((dirty_iff wf s hw).2 ho) n hn e' hg ⟨hw', .inl ((dirty_iff wf s hw').2 ho')⟩
    unfold D at hD
    rw [hg] at hD
    dsimp only [Option.bind_some] at hD
    cases hE : endOf e' t1 with
    | none => rw [hE] at hD; cases hD
    | some same =>
      rw [hE] at hD
      have hsame : same n = true := by simpa using hD
      obtain ⟨ev, hev, hee⟩ := List.exists_of_findSome?_eq_some hE
      cases ev with
      | done x same' =>
        unfold endEv at hee
        dsimp only at hee
        by_cases hx : x = e'
        · rw [if_pos hx] at hee
          cases hee
          subst hx
          obtain ⟨s1, s2, hs12⟩ := List.append_of_mem hev
          have := H s1 (.done x same) (s2 ++ .prune e :: t2) (by rw [ht, hs12]; simp)
          exact .inr ⟨this.2.2.2 n hsame, same, hev, hsame⟩
        · rw [if_neg hx] at hee; cases hee
      | prune x =>
        unfold endEv at hee
        dsimp only at hee
        by_cases hx : x = e'
        · subst hx; exact .inl hev
        · rw [if_neg hx] at hee; cases hee
      | start x => cases hee
      | nostart x => cases hee
      | fail x => cases hee

/-- C48: when a build without failures stops, every required edge that is out of date has been built or pruned. -/
theorem build_complete (g : Graph) (wf : WF g) (targets : List Nat) (st : St) (h : addAll g targets {} = .ok st) (c : Config) (r : Run) (hr : Reach g c st r)
    (hs : Stopped g c r) (hj : 0 < c.maxjobs) (hf : 0 < c.maxfail) (hd : ∀ p, 0 < g.depth p) (hdry : c.dryrun = false ∨ ∀ e, g.pool e = none)
    (nofail : ∀ e, .fail e ∉ r.trace ∧ .nostart e ∉ r.trace) (e : Nat) (hq : Required g targets e) (ho : Outdated g e) : Ended r.trace e := by
  have s := sched_of wf h
  have hw := (s.work e).2 hq
  exact complete wf s (reach_inv wf s hr) hs hj hf hd hdry nofail e ⟨hw, .inl ((dirty_iff wf s hw).2 ho)⟩

/-- C48, C50: every build stops: the number of steps is bounded. So no job waits for ever. -/
theorem build_stops (g : Graph) (wf : WF g) (targets : List Nat) (st : St) (h : addAll g targets {} = .ok st) (c : Config) :
    ∃ bound, ∀ n r, Steps g c st n r → n ≤ bound := by
  have s := sched_of wf h
  refine ⟨measure g { st }, fun n r hn => ?_⟩
  suffices H : Reach g c st r ∧ n + measure g r ≤ measure g { st } by omega
  induction hn with
  | init => exact ⟨.init, by omega⟩
  | step _ hst ih =>
    have := measure_step wf s (reach_inv wf s ih.1) hst
    exact ⟨.step ih.1 hst, by omega⟩

/-- C50: of the jobs of a pool never more than the depth of the pool are running or in the main queue. -/
theorem pool_depth (g : Graph) (wf : WF g) (targets : List Nat) (st : St) (h : addAll g targets {} = .ok st) (c : Config) (r : Run) (hr : Reach g c st r) (p : Nat) :
    (r.running.filter fun e => g.pool e == some p).length + (r.st.queue.filter fun e => g.pool e == some p && !g.phony e).length ≤ g.depth p := by
  have s := sched_of wf h
  have I := reach_inv wf s hr
  have h1 := I.count p
  have h2 := (I.pools p).le
  have e1 : (r.running.filter fun e => g.pool e == some p).length = r.running.countP (inPool g p) := by
    rw [← List.countP_eq_length_filter]
    apply List.countP_congr
    intro e he
    unfold inPool
    rw [I.real e he]; simp
  have e2 : (r.st.queue.filter fun e => g.pool e == some p && !g.phony e).length = r.st.queue.countP (inPool g p) := by
    rw [← List.countP_eq_length_filter]; rfl
  omega

/-! Examples and counterexamples -/

/-- A graph given by lists: inputs, outputs, users and generators. -/
structure Lists where
  ins : List (List Nat)
  outs : List (List Nat)
  use : List (List Nat)
  gen : List (Option Nat)

/-- The lists fit together. -/
def Lists.good (l : Lists) : Bool :=
  l.outs.length == l.ins.length && l.gen.length == l.use.length && l.outs.all (·.Nodup) &&
  (l.gen.all fun g => match g with | some e => e < l.ins.length | none => true) &&
  (l.ins.all fun ns => ns.all (· < l.use.length)) && (l.outs.all fun ns => ns.all (· < l.use.length)) && (l.use.all fun es => es.all (· < l.ins.length)) &&
  (List.range l.use.length).all fun n => (List.range l.ins.length).all fun e =>
    (l.gen.getD n none == some e) == decide (n ∈ l.outs.getD e []) && (l.use.getD n []).count e == (l.ins.getD e []).count n

theorem getD_lt {α : Type} (l : List α) (d : α) {k : Nat} (h : k < l.length) : l.getD k d = l[k] := by
  rw [List.getD_eq_getElem?_getD, List.getElem?_eq_getElem h]; rfl

theorem getD_ge {α : Type} (l : List α) (d : α) {k : Nat} (h : l.length ≤ k) : l.getD k d = d := by
  rw [List.getD_eq_getElem?_getD, List.getElem?_eq_none h]; rfl

theorem good_wf (l : Lists) (h : l.good = true) (g : Graph) (he : g.edges = l.ins.length) (hi : ∀ e, g.ins e = l.ins.getD e []) (ho : ∀ e, g.outs e = l.outs.getD e [])
    (hu : ∀ n, g.use n = l.use.getD n []) (hg : ∀ n, g.gen n = l.gen.getD n none) : WF g := by
  unfold Lists.good at h
  simp only [Bool.and_eq_true, List.all_eq_true, decide_eq_true_eq, beq_iff_eq, List.mem_range] at h
  obtain ⟨⟨⟨⟨⟨⟨⟨h1, h2⟩, h3⟩, h4⟩, h5⟩, h6⟩, h7⟩, h8⟩ := h
  have mem : ∀ {α : Type} (ls : List (List α)) (k : Nat) (x : α), x ∈ ls.getD k [] → ls.getD k [] ∈ ls := by
    intro α ls k x hx
    by_cases hk : k < ls.length
    · rw [getD_lt _ _ hk]; exact List.getElem_mem hk
    · rw [getD_ge _ _ (by omega)] at hx; cases hx
  have lt : ∀ {α : Type} (ls : List (List α)) (k : Nat) (x : α), x ∈ ls.getD k [] → k < ls.length := by
    intro α ls k x hx
    by_cases hk : k < ls.length
    · exact hk
    · rw [getD_ge _ _ (by omega)] at hx; cases hx
  constructor
  · intro n e
    rw [hg, he, ho]
    constructor
    · intro hgen
      have hn : n < l.gen.length := by
        by_cases hn : n < l.gen.length
        · exact hn
        · rw [getD_ge _ _ (by omega)] at hgen; cases hgen
      have hm := h4 (l.gen.getD n none) (by rw [getD_lt _ _ hn]; exact List.getElem_mem hn)
      rw [hgen] at hm
      have hel : e < l.ins.length := by simpa using hm
      have := (h8 n (by omega) e hel).1
      rw [hgen] at this
      refine ⟨hel, ?_⟩
      simpa using this
    · rintro ⟨hel, hmem⟩
      have hn := h6 _ (mem l.outs e n hmem) n hmem
      have := (h8 n hn e hel).1
      rw [decide_eq_true hmem] at this
      exact eq_of_beq this
  · intro e
    rw [ho]
    by_cases hk : e < l.outs.length
    · have := h3 (l.outs.getD e []) (by rw [getD_lt _ _ hk]; exact List.getElem_mem hk)
      exact this
    · rw [getD_ge _ _ (by omega)]; simp
  · intro n e
    rw [hu, hi]
    by_cases hn : n < l.use.length
    · by_cases hel : e < l.ins.length
      · exact (h8 n hn e hel).2
      · rw [getD_ge l.ins _ (by omega), List.count_nil]
        rw [List.count_eq_zero]
        intro hm
        exact hel (h7 _ (mem l.use n e hm) e hm)
    · rw [getD_ge l.use _ (by omega), List.count_nil]
      symm
      rw [List.count_eq_zero]
      intro hm
      exact hn (h5 _ (mem l.ins e n hm) n hm)

def exLists : Lists where
  ins := [[0], [0], [1, 2]]
  outs := [[1], [2], [3]]
  use := [[0, 1], [2], [2], []]
  gen := [none, some 0, some 1, some 2]

/-- Two edges in a pool of depth 1, both required by a phony edge. Nodes: 0 source, 1, 2 outputs, 3 phony. -/
def exPool : Graph where
  edges := 3
  ins e := exLists.ins.getD e []
  inorder e := [1, 1, 2].getD e 0
  outs e := exLists.outs.getD e []
  gen n := exLists.gen.getD n none
  use n := exLists.use.getD n []
  phony e := e == 2
  pool e := if e < 2 then some 0 else none
  depth _ := 1
  generator _ := false
  restat _ := true
  mtime n := if n = 0 then some 5 else none
  logmtime _ := none
  hash _ := 1
  loghash _ := 0

theorem exPool_wf : WF exPool := good_wf exLists (by decide) exPool rfl (fun _ => rfl) (fun _ => rfl) (fun _ => rfl) (fun _ => rfl)

/-- The state after scheduling. -/
def outSt : Out → St | .ok st => st | _ => {}

def exSt : St := outSt (addAll exPool [3] {})

theorem exSt_ok : addAll exPool [3] {} = .ok exSt := by
  unfold exSt
  cases h : addAll exPool [3] {} with
  | ok st => rfl
  | missing n => exact absurd h (by
      intro h
      have : (match addAll exPool [3] {} with | .ok _ => true | _ => false) = true := by decide +kernel
      rw [h] at this; cases this)
  | cyclic n => exact absurd h (by
      intro h
      have : (match addAll exPool [3] {} with | .ok _ => true | _ => false) = true := by decide +kernel
      rw [h] at this; cases this)
  | fuel => exact absurd h (by
      intro h
      have : (match addAll exPool [3] {} with | .ok _ => true | _ => false) = true := by decide +kernel
      rw [h] at this; cases this)

/-- Everything in the example is required and out of date. -/
example : Required exPool [3] 0 ∧ Required exPool [3] 2 ∧ Outdated exPool 0 ∧ Outdated exPool 2 ∧ DependsOn exPool 2 0 := by
  have n0 : Needs exPool 2 0 := ⟨1, by decide, by decide⟩
  have o0 : Outdated exPool 0 := .out (n := 1) (by decide) (.missing (by decide) (by decide))
  exact ⟨⟨3, by simp, 2, by decide, .inr (.single n0)⟩, ⟨3, by simp, 2, by decide, .inl rfl⟩, o0, .input (n := 1) (by decide) (by decide) o0, .single n0⟩

/-- The queue after scheduling: one of the two edges waits for the pool. -/
example : exSt.queue = [0] ∧ exSt.poolq 0 = [1] ∧ exSt.nblock 2 = 2 := by decide +kernel

/-- A choice of the next step. -/
inductive Act
  | deliver | skip | start | nostart | done (e : Nat) (same : Nat → Bool) | fail (e : Nat)

def exec1 (g : Graph) (c : Config) (r : Run) : Act → Option Run
  | .deliver => match r.pending with | (e, b) :: rest => some (deliver g { r with pending := rest } e b) | [] => none
  | .skip =>
    match r.pending, r.st.queue with
    | [], e :: q =>
      if (r.running.length < c.maxjobs ∧ r.numfail < c.maxfail) ∧ (g.phony e = true ∨ c.dryrun = true) then
        some { r with st := { r.st with queue := q }, pending := announce g e (fun _ => false), trace := r.trace ++ [.start e, .done e fun _ => false] }
      else none
    | _, _ => none
  | .start =>
    match r.pending, r.st.queue with
    | [], e :: q =>
      if (r.running.length < c.maxjobs ∧ r.numfail < c.maxfail) ∧ (g.phony e = false ∧ c.dryrun = false) then
        some { r with st := { r.st with queue := q }, running := e :: r.running, trace := r.trace ++ [.start e] }
      else none
    | _, _ => none
  | .nostart =>
    match r.pending, r.st.queue with
    | [], e :: q =>
      if (r.running.length < c.maxjobs ∧ r.numfail < c.maxfail) ∧ (g.phony e = false ∧ c.dryrun = false) then
        some { r with st := { r.st with queue := q }, numfail := r.numfail + 1, trace := r.trace ++ [.nostart e] }
      else none
    | _, _ => none
  | .done e same =>
    if r.pending = [] ∧ e ∈ r.running ∧ g.restat e = true then
      some { r with st := release g r.st e, running := r.running.erase e, pending := announce g e same, trace := r.trace ++ [.done e same] }
    else none
  | .fail e =>
    if r.pending = [] ∧ e ∈ r.running then
      some { r with st := release g r.st e, running := r.running.erase e, numfail := r.numfail + 1, trace := r.trace ++ [.fail e] }
    else none

def exec (g : Graph) (c : Config) : List Act → Run → Option Run
  | [], r => some r
  | a :: l, r => (exec1 g c r a).bind (exec g c l)

theorem exec1_step (g : Graph) (c : Config) (r r' : Run) (a : Act) (h : exec1 g c r a = some r') : Step g c r r' := by
  cases a with
  | deliver =>
    unfold exec1 at h
    cases hp : r.pending with
    | nil => rw [hp] at h; cases h
    | cons x rest => rw [hp] at h; cases h; exact .deliver r x.1 x.2 rest hp
  | skip =>
    unfold exec1 at h
    cases hp : r.pending with
    | cons x rest => rw [hp] at h; cases h
    | nil =>
      cases hq : r.st.queue with
      | nil => rw [hp, hq] at h; cases h
      | cons e q =>
        rw [hp, hq] at h
        dsimp only at h
        split at h
        · next hc => cases h; exact .skip r e q hp hq hc.1 hc.2
        · cases h
  | start =>
    unfold exec1 at h
    cases hp : r.pending with
    | cons x rest => rw [hp] at h; cases h
    | nil =>
      cases hq : r.st.queue with
      | nil => rw [hp, hq] at h; cases h
      | cons e q =>
        rw [hp, hq] at h
        dsimp only at h
        split at h
        · next hc =>
          cases h
          have := Step.start r e q hp hq hc.1 hc.2
          rw [hp] at this
          exact this
        · cases h
  | nostart =>
    unfold exec1 at h
    cases hp : r.pending with
    | cons x rest => rw [hp] at h; cases h
    | nil =>
      cases hq : r.st.queue with
      | nil => rw [hp, hq] at h; cases h
      | cons e q =>
        rw [hp, hq] at h
        dsimp only at h
        split at h
        · next hc =>
          cases h
          have := Step.nostart r e q hp hq hc.1 hc.2
          rw [hp] at this
          exact this
        · cases h
  | done e same =>
    unfold exec1 at h
    dsimp only at h
    split at h
    · next hc => cases h; exact .done r e same hc.1 hc.2.1 (fun _ _ => hc.2.2)
    · cases h
  | fail e =>
    unfold exec1 at h
    dsimp only at h
    split at h
    · next hc => cases h; exact .fail r e hc.1 hc.2
    · cases h

theorem exec_reach (g : Graph) (c : Config) (st : St) (l : List Act) : ∀ (r r' : Run), exec g c l r = some r' → Reach g c st r → Reach g c st r' := by
  induction l with
  | nil => intro r r' h hr; cases h; exact hr
  | cons a l ih =>
    intro r r' h hr
    unfold exec at h
    cases h1 : exec1 g c r a with
    | none => rw [h1] at h; cases h
    | some r1 =>
      rw [h1] at h
      exact ih r1 r' h (.step hr (exec1_step g c r r1 a h1))

/-- Events without functions, to compare. -/
def evCode : Event → Nat × Nat
  | .start e => (0, e)
  | .nostart e => (1, e)
  | .done e _ => (2, e)
  | .fail e => (3, e)
  | .prune e => (4, e)

theorem stopped_of {g : Graph} {c : Config} {r : Run} (hp : r.pending = []) (hr : r.running = []) (hq : r.st.queue = []) : Stopped g c r := by
  intro r' h
  cases h with
  | deliver e b rest h => rw [hp] at h; cases h
  | skip e q _ h => rw [hq] at h; cases h
  | start e q _ h => rw [hq] at h; cases h
  | nostart e q _ h => rw [hq] at h; cases h
  | done e same _ h => rw [hr] at h; cases h
  | fail e _ h => rw [hr] at h; cases h

/-- The run described by a list of choices that ends with nothing to do. -/
theorem exec_run (g : Graph) (c : Config) (st : St) (l : List Act) (tr : List (Nat × Nat))
    (h : (exec g c l { st }).map (fun r => (r.trace.map evCode, r.pending.length, r.running.length, r.st.queue.length)) = some (tr, 0, 0, 0)) :
    ∃ r, Reach g c st r ∧ Stopped g c r ∧ r.trace.map evCode = tr := by
  cases hr : exec g c l { st } with
  | none => rw [hr] at h; cases h
  | some r =>
    rw [hr] at h
    simp only [Option.map_some, Option.some.injEq, Prod.mk.injEq] at h
    exact ⟨r, exec_reach g c st l _ r hr .init, stopped_of (List.length_eq_zero_iff.1 h.2.1) (List.length_eq_zero_iff.1 h.2.2.1) (List.length_eq_zero_iff.1 h.2.2.2), h.1⟩

/-- A build of the example: the second job of the pool is started after the first has ended; the first leaves its output unchanged. -/
example : ∃ r, Reach exPool { maxjobs := 4, maxfail := 1 } exSt r ∧ Stopped exPool { maxjobs := 4, maxfail := 1 } r ∧
    r.trace.map evCode = [(0, 0), (2, 0), (0, 1), (2, 1), (0, 2), (2, 2)] :=
  exec_run _ _ _ [.start, .done 0 (fun _ => true), .deliver, .start, .done 1 (fun _ => false), .deliver, .skip] _ (by decide +kernel)

/-- When both outputs are left unchanged, the phony edge is pruned. -/
example : ∃ r, Reach exPool { maxjobs := 4, maxfail := 1 } exSt r ∧ Stopped exPool { maxjobs := 4, maxfail := 1 } r ∧
    r.trace.map evCode = [(0, 0), (2, 0), (0, 1), (2, 1), (4, 2)] :=
  exec_run _ _ _ [.start, .done 0 (fun _ => true), .deliver, .start, .done 1 (fun _ => true), .deliver] _ (by decide +kernel)

theorem not_ended_of_code {t : List Event} {e : Nat} (h : (2, e) ∉ t.map evCode ∧ (4, e) ∉ t.map evCode) : ¬ Ended t e := by
  rintro (⟨same, hm⟩ | hm)
  · exact h.1 (List.mem_map.2 ⟨_, hm, rfl⟩)
  · exact h.2 (List.mem_map.2 ⟨_, hm, rfl⟩)

/-- C48, C50 fail for dry runs: a dry run stops before it has listed all jobs if a pool is full, because the slot of a job that is only listed is never given
back (src/external/samurai/build.c:457-466). -/
theorem dry_run_counterexample : ∃ (g : Graph) (targets : List Nat) (st : St) (c : Config) (r : Run) (e : Nat), WF g ∧ addAll g targets {} = .ok st ∧ c.dryrun = true ∧
    0 < c.maxjobs ∧ 0 < c.maxfail ∧ (∀ p, 0 < g.depth p) ∧ Reach g c st r ∧ Stopped g c r ∧ (∀ x, .fail x ∉ r.trace ∧ .nostart x ∉ r.trace) ∧
    Required g targets e ∧ Outdated g e ∧ ¬ Ended r.trace e := by
  obtain ⟨r, h1, h2, h3⟩ := exec_run exPool { maxjobs := 4, maxfail := 1, dryrun := true } exSt [.skip, .deliver] [(0, 0), (2, 0)] (by decide +kernel)
  refine ⟨exPool, [3], exSt, _, r, 1, exPool_wf, exSt_ok, rfl, by decide, by decide, fun _ => Nat.succ_pos 0, h1, h2, fun x => ⟨fun hm => ?_, fun hm => ?_⟩, ?_, ?_, ?_⟩
  · have : (3, x) ∈ r.trace.map evCode := List.mem_map.2 ⟨_, hm, rfl⟩
    rw [h3] at this; simp at this
  · have : (1, x) ∈ r.trace.map evCode := List.mem_map.2 ⟨_, hm, rfl⟩
    rw [h3] at this; simp at this
  · exact ⟨3, by simp, 2, by decide, .inr (.single ⟨2, by decide, by decide⟩)⟩
  · exact .out (n := 2) (by decide) (.missing (by decide) (by decide))
  · apply not_ended_of_code; rw [h3]; decide

/-- C50 fails if a job cannot be started: its slot is never given back (src/external/samurai/build.c:479-481), so with `-k` a job of the same pool that does not depend
on it is never run although more failures are allowed. -/
theorem pool_slot_counterexample : ∃ (g : Graph) (targets : List Nat) (st : St) (c : Config) (r : Run) (e : Nat), WF g ∧ addAll g targets {} = .ok st ∧ c.dryrun = false ∧
    0 < c.maxjobs ∧ (∀ p, 0 < g.depth p) ∧ Reach g c st r ∧ Stopped g c r ∧ r.numfail < c.maxfail ∧
    Required g targets e ∧ Outdated g e ∧ (∀ e', ¬ Needs g e e') ∧ (∀ x, .start x ∉ r.trace) := by
  obtain ⟨r, h1, h2, h3⟩ := exec_run exPool { maxjobs := 4, maxfail := 2 } exSt [.nostart] [(1, 0)] (by decide +kernel)
  have I := reach_inv exPool_wf (sched_of exPool_wf exSt_ok) h1
  refine ⟨exPool, [3], exSt, _, r, 1, exPool_wf, exSt_ok, rfl, by decide, fun _ => Nat.succ_pos 0, h1, h2, ?_, ?_, ?_, ?_, fun x hm => ?_⟩
  · rw [I.fails]
    have : r.trace.countP isAnyFail ≤ r.trace.length := List.countP_le_length
    have h4 : (r.trace.map evCode).length = 1 := by rw [h3]; rfl
    rw [List.length_map] at h4
    show _ < 2
    omega
  · exact ⟨3, by simp, 2, by decide, .inr (.single ⟨2, by decide, by decide⟩)⟩
  · exact .out (n := 2) (by decide) (.missing (by decide) (by decide))
  · rintro e' ⟨n, hn, hg⟩
    have : n = 0 := by simpa [exPool, exLists] using hn
    subst this
    exact absurd hg (by simp [exPool, exLists])
  · have : (0, x) ∈ r.trace.map evCode := List.mem_map.2 ⟨_, hm, rfl⟩
    rw [h3] at this; simp at this

def exPhonyLists : Lists where
  ins := [[0], [1]]
  outs := [[1], [2]]
  use := [[0], [1], []]
  gen := [none, some 0, some 1]

/-- A source file, a phony edge with it as input, and an edge with the phony target as input. -/
def exPhony : Graph where
  edges := 2
  ins e := exPhonyLists.ins.getD e []
  inorder _ := 1
  outs e := exPhonyLists.outs.getD e []
  gen n := exPhonyLists.gen.getD n none
  use n := exPhonyLists.use.getD n []
  phony e := e == 0
  pool _ := none
  depth _ := 1
  generator _ := false
  restat _ := false
  mtime n := if n = 0 then some 10 else if n = 2 then some 5 else none
  logmtime _ := some 5
  hash _ := 1
  loghash _ := 1

/-- C51 fails across phony edges: the edge counts as clean although the file it depends on through a phony target is newer than its output. -/
theorem phony_counterexample : ∃ (g : Graph) (targets : List Nat) (st : St) (e n i : Nat), WF g ∧ addAll g targets {} = .ok st ∧ Required g targets e ∧
    g.phony e = false ∧ g.restat e = false ∧ n ∈ g.outs e ∧ (∃ m ∈ inputs g e, ∃ e', g.gen m = some e' ∧ g.phony e' = true ∧ i ∈ inputs g e') ∧
    (∃ t, g.mtime n = some t ∧ NewerThan g i t) ∧ st.isDirty e = false := by
  have wf : WF exPhony := good_wf exPhonyLists (by decide) exPhony rfl (fun _ => rfl) (fun _ => rfl) (fun _ => rfl) (fun _ => rfl)
  have hd : (match addAll exPhony [2] {} with | .ok st => st.isDirty 1 == false | _ => false) = true := by decide +kernel
  cases h : addAll exPhony [2] {} with
  | ok st =>
    rw [h] at hd
    exact ⟨exPhony, [2], st, 1, 2, 0, wf, h, ⟨2, by simp, 1, by decide, .inl rfl⟩, by decide, by decide, by decide,
      ⟨1, by decide, 0, by decide, by decide, by decide⟩, ⟨5, by decide, 10, by decide, by decide⟩, by simpa using hd⟩
  | missing n => rw [h] at hd; cases hd
  | cyclic n => rw [h] at hd; cases hd
  | fuel => rw [h] at hd; cases hd

def exCycleLists : Lists where
  ins := [[1], [0]]
  outs := [[0], [1]]
  use := [[1], [0]]
  gen := [some 0, some 1]

/-- Two edges that depend on each other. -/
def exCycle : Graph where
  edges := 2
  ins e := exCycleLists.ins.getD e []
  inorder _ := 1
  outs e := exCycleLists.outs.getD e []
  gen n := exCycleLists.gen.getD n none
  use n := exCycleLists.use.getD n []
  phony _ := false
  pool _ := none
  depth _ := 1
  generator _ := false
  restat _ := false
  mtime _ := none
  logmtime _ := none
  hash _ := 1
  loghash _ := 1

example : WF exCycle ∧ DependsOn exCycle 0 0 :=
  ⟨good_wf exCycleLists (by decide) exCycle rfl (fun _ => rfl) (fun _ => rfl) (fun _ => rfl) (fun _ => rfl),
    .tail (b := 1) (.single ⟨1, by decide, by decide⟩) ⟨0, by decide, by decide⟩⟩
example : (match addAll exCycle [1] {} with | .cyclic n => n | _ => 99) = 1 := by decide +kernel

end Muon.Sched
