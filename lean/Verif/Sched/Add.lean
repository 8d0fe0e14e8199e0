import Verif.Sched.Spec
/-
Lemmas about `samu_buildadd`.
-/
namespace Muon.Sched
open Muon Spec

theorem upd_same {α : Type} (f : Nat → α) (d : Nat) (x : α) : upd f d x d = x := if_pos rfl
theorem upd_other {α : Type} (f : Nat → α) (d : Nat) (x : α) (y : Nat) (h : y ≠ d) : upd f d x y = f y := if_neg h

/-- How often an edge is in a queue. -/
def tot (g : Graph) (st : St) (e : Nat) : Nat :=
  st.queue.count e + match g.pool e with | some p => (st.poolq p).count e | none => 0

/-- The edge is counted in pool `p`. -/
def inPool (g : Graph) (p : Nat) (e : Nat) : Bool := g.pool e == some p && !g.phony e

/-- Everything below the edge is in order; no cycle. -/
inductive Grounded (g : Graph) : Nat → Prop
  | mk {e : Nat} (h : ∀ e', Needs g e e' → Grounded g e') : Grounded g e

/-- The newest of the inputs. -/
def newestOf (g : Graph) (ns : List Nat) : Option Nat := ns.foldl (newer g) none

/-- The edge has been scheduled. -/
def Fin (st : St) (e : Nat) : Prop := st.work e = true ∧ st.cycle e = false

structure FinOk (g : Graph) (st : St) (e : Nat) : Prop where
  closed : ∀ n ∈ g.ins e, ∀ e', g.gen n = some e' → Fin st e'
  present : ∀ n ∈ g.ins e, g.gen n = none → g.mtime n ≠ none
  nblock : st.nblock e = (g.ins e).countP (blocks g st)
  dirtyIn : st.dirtyIn e = (inputs g e).any st.dirty
  dirtyOut : st.dirtyOut e = (g.outs e).any fun n => isdirty g e n (newestOf g (inputs g e))
  outs : ∀ n ∈ g.outs e, st.dirty n = st.isDirty e
  nprune : st.dirtyOut e = false → st.nprune e = st.nblock e
  tot : tot g st e = if st.isDirty e = true ∧ st.nblock e = 0 then 1 else 0
  grounded : Grounded g e

structure PoolOk (g : Graph) (st : St) (p : Nat) : Prop where
  mem : ∀ e ∈ st.poolq p, inPool g p e = true
  le : st.numjobs p ≤ g.depth p
  full : st.poolq p ≠ [] → st.numjobs p = g.depth p

/-- The invariant between calls of `samu_buildadd`. -/
structure AInv (g : Graph) (st : St) : Prop where
  cyc : ∀ e, st.cycle e = true → st.work e = true
  lt : ∀ e, st.work e = true → e < g.edges
  fin : ∀ e, Fin st e → FinOk g st e
  fresh : ∀ e, st.work e = false → st.dirtyIn e = false ∧ st.dirtyOut e = false
  notq : ∀ e, ¬ Fin st e → tot g st e = 0
  src : ∀ n, g.gen n = none → st.dirty n = false
  pools : ∀ p, PoolOk g st p
  count : ∀ p, st.numjobs p = st.queue.countP (inPool g p)

/-- What does not change. -/
structure Ext (g : Graph) (st st' : St) : Prop where
  work : ∀ e, st.work e = true → st'.work e = true
  cycle : ∀ e, st'.cycle e = st.cycle e
  dirtyIn : ∀ e, st.work e = true → st'.dirtyIn e = st.dirtyIn e
  dirtyOut : ∀ e, st.work e = true → st'.dirtyOut e = st.dirtyOut e
  nblock : ∀ e, st.work e = true → st'.nblock e = st.nblock e
  nprune : ∀ e, st.work e = true → st'.nprune e = st.nprune e
  dirty : ∀ n e, g.gen n = some e → st.work e = true → st'.dirty n = st.dirty n
  src : ∀ n, g.gen n = none → st.dirty n = false → st'.dirty n = false
  tot : ∀ e, st.work e = true → tot g st' e = tot g st e

theorem Ext.refl (g : Graph) (st : St) : Ext g st st :=
  ⟨fun _ h => h, fun _ => rfl, fun _ _ => rfl, fun _ _ => rfl, fun _ _ => rfl, fun _ _ => rfl, fun _ _ _ _ => rfl, fun _ _ h => h, fun _ _ => rfl⟩

theorem Ext.trans {g : Graph} {a b c : St} (h : Ext g a b) (k : Ext g b c) : Ext g a c where
  work e w := k.work e (h.work e w)
  cycle e := (k.cycle e).trans (h.cycle e)
  dirtyIn e w := (k.dirtyIn e (h.work e w)).trans (h.dirtyIn e w)
  dirtyOut e w := (k.dirtyOut e (h.work e w)).trans (h.dirtyOut e w)
  nblock e w := (k.nblock e (h.work e w)).trans (h.nblock e w)
  nprune e w := (k.nprune e (h.work e w)).trans (h.nprune e w)
  dirty n e hg w := (k.dirty n e hg (h.work e w)).trans (h.dirty n e hg w)
  src n hg hd := k.src n hg (h.src n hg hd)
  tot e w := (k.tot e (h.work e w)).trans (h.tot e w)

/-- The facts about a scheduled edge stay true if nothing about scheduled edges changes. -/
structure Keeps (g : Graph) (st st' : St) : Prop where
  fin : ∀ e, Fin st e → Fin st' e
  dirtyIn : ∀ e, Fin st e → st'.dirtyIn e = st.dirtyIn e
  dirtyOut : ∀ e, Fin st e → st'.dirtyOut e = st.dirtyOut e
  nblock : ∀ e, Fin st e → st'.nblock e = st.nblock e
  nprune : ∀ e, Fin st e → st'.nprune e = st.nprune e
  dirty : ∀ n e, g.gen n = some e → Fin st e → st'.dirty n = st.dirty n
  src : ∀ n, g.gen n = none → st'.dirty n = st.dirty n
  tot : ∀ e, Fin st e → tot g st' e = tot g st e

theorem FinOk.keep {g : Graph} (wf : WF g) {st st' : St} (k : Keeps g st st') {e : Nat} (lt : e < g.edges) (f : FinOk g st e) (hf : Fin st e) : FinOk g st' e := by
  have hd : ∀ n ∈ g.ins e, st'.dirty n = st.dirty n := by
    intro n hn
    cases hg : g.gen n with
    | none => exact k.src n hg
    | some e' => exact k.dirty n e' hg (f.closed n hn e' hg)
  have hi : st'.isDirty e = st.isDirty e := by unfold St.isDirty; rw [k.dirtyIn e hf, k.dirtyOut e hf]
  constructor
  · intro n hn e' hg; exact k.fin e' (f.closed n hn e' hg)
  · exact f.present
  · rw [k.nblock e hf, f.nblock]
    apply List.countP_congr
    intro n hn
    unfold blocks
    rw [hd n hn]
    cases hg : g.gen n with
    | none => exact Iff.rfl
    | some e' =>
      dsimp only
      rw [k.nblock e' (f.closed n hn e' hg)]
  · rw [k.dirtyIn e hf, f.dirtyIn]
    have : ∀ n ∈ inputs g e, st'.dirty n = st.dirty n := fun n hn => hd n (List.mem_of_mem_take hn)
    rw [Bool.eq_iff_iff, List.any_eq_true, List.any_eq_true]
    constructor
    · rintro ⟨n, h1, h2⟩; exact ⟨n, h1, by rw [this n h1]; exact h2⟩
    · rintro ⟨n, h1, h2⟩; exact ⟨n, h1, by rw [← this n h1]; exact h2⟩
  · rw [k.dirtyOut e hf, f.dirtyOut]
  · intro n hn
    rw [hi, ← f.outs n hn]
    exact k.dirty n e ((wf.gen n e).2 ⟨lt, hn⟩) hf
  · intro h
    rw [k.dirtyOut e hf] at h
    rw [k.nprune e hf, k.nblock e hf]; exact f.nprune h
  · rw [k.tot e hf, f.tot, hi, k.nblock e hf]
  · exact f.grounded

theorem Ext.keeps {g : Graph} {st st' : St} (h : Ext g st st') (src : ∀ n, g.gen n = none → st.dirty n = false) : Keeps g st st' where
  fin e f := ⟨h.work e f.1, (h.cycle e).trans f.2⟩
  dirtyIn e f := h.dirtyIn e f.1
  dirtyOut e f := h.dirtyOut e f.1
  nblock e f := h.nblock e f.1
  nprune e f := h.nprune e f.1
  dirty n e hg f := h.dirty n e hg f.1
  src n hg := by rw [src n hg, h.src n hg (src n hg)]
  tot e f := h.tot e f.1

/-- Number of edges that have not been looked at. -/
def left (g : Graph) (st : St) : Nat := (List.range g.edges).countP fun e => !st.work e

theorem left_mono (g : Graph) (st st' : St) (h : ∀ e, st.work e = true → st'.work e = true) : left g st' ≤ left g st := by
  apply List.countP_mono_left
  intro e _ h1
  cases hw : st.work e with
  | false => rfl
  | true => rw [h e hw] at h1; cases h1

theorem left_lt (g : Graph) (st : St) (e : Nat) (he : e < g.edges) (hw : st.work e = false) (st' : St) (h : st'.work = upd st.work e true) :
    left g st' < left g st := by
  have hm : e ∈ List.range g.edges := List.mem_range.2 he
  unfold left
  rw [h]
  have : (List.range g.edges).countP (fun x => !st.work x) = (List.range g.edges).countP (fun x => !upd st.work e true x) + 1 := by
    have nd : (List.range g.edges).Nodup := List.nodup_range
    generalize List.range g.edges = l at hm nd
    induction l with
    | nil => cases hm
    | cons a l ih =>
      rw [List.nodup_cons] at nd
      rw [List.countP_cons, List.countP_cons]
      by_cases ha : a = e
      · subst ha
        rw [upd_same, hw]
        have : l.countP (fun x => !st.work x) = l.countP (fun x => !upd st.work a true x) := by
          apply List.countP_congr
          intro x hx
          rw [upd_other _ _ _ _ (fun h => nd.1 (by rw [← h]; exact hx))]
        rw [this]; rfl
      · rw [upd_other _ _ _ _ ha, ih (by
          rcases List.mem_cons.1 hm with h1 | h1
          · exact absurd h1.symm ha
          · exact h1) nd.2]
        omega
  omega

/-- What is known of the result of scheduling node `n`. -/
structure Post (g : Graph) (n : Nat) (st st' : St) : Prop where
  inv : AInv g st'
  ext : Ext g st st'
  fin : ∀ e, g.gen n = some e → Fin st' e
  present : g.gen n = none → g.mtime n ≠ none
  only : ∀ e, st'.work e = true → st.work e = true ∨ ∃ e0, g.gen n = some e0 ∧ (e0 = e ∨ DependsOn g e0 e)

/-- The specification of scheduling node `n`. -/
def Good (g : Graph) (n : Nat) (st : St) : Out → Prop
  | .ok st' => Post g n st st'
  | .missing m => g.gen m = none ∧ g.mtime m = none ∧ (m = n ∨ ∃ e0 e, g.gen n = some e0 ∧ (e0 = e ∨ DependsOn g e0 e) ∧ m ∈ g.ins e)
  | .cyclic _ => ∃ e0 c, g.gen n = some e0 ∧ (e0 = c ∨ DependsOn g e0 c) ∧ DependsOn g c c
  | .fuel => False

/-- The edges being looked at depend on the node. -/
def Stack (g : Graph) (n : Nat) (st : St) : Prop := ∀ c, st.cycle c = true → ∀ e, g.gen n = some e → DependsOn g c e

/-- The state of the loop over the inputs: `pre` have been looked at. -/
structure LoopInv (g : Graph) (e : Nat) (pre : List Nat) (newest : Option Nat) (st0 st : St) : Prop where
  inv : AInv g st
  cyc : st.cycle e = true
  sameCyc : ∀ x, st.cycle x = st0.cycle x
  work : ∀ x, st0.work x = true → st.work x = true
  closed : ∀ n ∈ pre, ∀ e', g.gen n = some e' → Fin st e'
  present : ∀ n ∈ pre, g.gen n = none → g.mtime n ≠ none
  nblock : st.nblock e = pre.countP (blocks g st)
  dirtyIn : st.dirtyIn e = (pre.take (g.inorder e)).any st.dirty
  dirtyOut : st.dirtyOut e = false
  newest : newest = newestOf g (pre.take (g.inorder e))
  outs : ∀ n ∈ g.outs e, st.dirty n = false
  others : ∀ x, st0.work x = true → x ≠ e → st.dirtyIn x = st0.dirtyIn x ∧ st.dirtyOut x = st0.dirtyOut x ∧ st.nblock x = st0.nblock x ∧
    st.nprune x = st0.nprune x ∧ tot g st x = tot g st0 x ∧ ∀ n, g.gen n = some x → st.dirty n = st0.dirty n
  only : ∀ x, st.work x = true → st0.work x = true ∨ ∃ n ∈ pre, ∃ e0, g.gen n = some e0 ∧ (e0 = x ∨ DependsOn g e0 x)

theorem keeps_inv {g : Graph} (wf : WF g) {st st' : St} (a : AInv g st) (k : Keeps g st st') (hw : st'.work = st.work) (hc : st'.cycle = st.cycle)
    (hfresh : ∀ e, st.work e = false → st'.dirtyIn e = st.dirtyIn e ∧ st'.dirtyOut e = st.dirtyOut e)
    (hq : st'.queue = st.queue) (hp : st'.poolq = st.poolq) (hn : st'.numjobs = st.numjobs) : AInv g st' := by
  have hfin : ∀ e, Fin st' e ↔ Fin st e := fun e => by unfold Fin; rw [hw, hc]
  have htot : ∀ e, tot g st' e = tot g st e := fun e => by unfold tot; rw [hq, hp]
  constructor
  · rw [hw, hc]; exact a.cyc
  · rw [hw]; exact a.lt
  · intro e f
    rw [hfin] at f
    exact (a.fin e f).keep wf k (a.lt e f.1) f
  · intro e h
    rw [hw] at h
    obtain ⟨h1, h2⟩ := hfresh e h
    rw [h1, h2]; exact a.fresh e h
  · intro e h; rw [htot]; exact a.notq e (fun f => h ((hfin e).2 f))
  · intro n h; rw [k.src n h]; exact a.src n h
  · intro p
    have := a.pools p
    exact ⟨by rw [hp]; exact this.mem, by rw [hn]; exact this.le, by rw [hp, hn]; exact this.full⟩
  · intro p; rw [hn, hq]; exact a.count p

/-- One more input. -/
theorem loop_step {g : Graph} (wf : WF g) {e : Nat} {pre : List Nat} {newest : Option Nat} {st0 st1 : St} (li : LoopInv g e pre newest st0 st1)
    {n : Nat} {st2 : St} (p : Post g n st1 st2) :
    LoopInv g e (pre ++ [n]) (if pre.length < g.inorder e then newer g newest n else newest) st0
      (let st3 := if pre.length < g.inorder e ∧ st2.dirty n = true then { st2 with dirtyIn := upd st2.dirtyIn e true } else st2
       if blocks g st3 n then { st3 with nblock := upd st3.nblock e (st3.nblock e + 1) } else st3) := by
  have we : st1.work e = true := li.inv.cyc e li.cyc
  have ce : st2.cycle e = true := (p.ext.cycle e).trans li.cyc
  have nfe : ¬ Fin st2 e := fun f => by rw [f.2] at ce; cases ce
  dsimp only
  generalize hst3 : (if pre.length < g.inorder e ∧ st2.dirty n = true then { st2 with dirtyIn := upd st2.dirtyIn e true } else st2) = st3
  -- st3 differs from st2 in dirtyIn e only
  have s3 : st3.work = st2.work ∧ st3.cycle = st2.cycle ∧ st3.dirtyOut = st2.dirtyOut ∧ st3.nblock = st2.nblock ∧ st3.nprune = st2.nprune ∧
      st3.dirty = st2.dirty ∧ st3.queue = st2.queue ∧ st3.poolq = st2.poolq ∧ st3.numjobs = st2.numjobs ∧
      (∀ x, x ≠ e → st3.dirtyIn x = st2.dirtyIn x) ∧ st3.dirtyIn e = (st2.dirtyIn e || (decide (pre.length < g.inorder e) && st2.dirty n)) := by
    rw [← hst3]
    by_cases hc : pre.length < g.inorder e ∧ st2.dirty n = true
    · rw [if_pos hc]
      refine ⟨rfl, rfl, rfl, rfl, rfl, rfl, rfl, rfl, rfl, fun x hx => upd_other _ _ _ _ hx, ?_⟩
      show upd st2.dirtyIn e true e = _
      rw [upd_same, hc.2]; simp [hc.1]
    · rw [if_neg hc]
      refine ⟨rfl, rfl, rfl, rfl, rfl, rfl, rfl, rfl, rfl, fun _ _ => rfl, ?_⟩
      by_cases h1 : pre.length < g.inorder e
      · have : st2.dirty n = false := by
          cases h : st2.dirty n with
          | false => rfl
          | true => exact absurd ⟨h1, h⟩ hc
        simp [this]
      · simp [h1]
  obtain ⟨s1, s2, s3o, s4, s5, s6, s7, s8, s9, s10, s11⟩ := s3
  have hbl : ∀ x, blocks g st3 x = blocks g st2 x := by intro x; unfold blocks; rw [s6, s4]
  rw [hbl]
  generalize hst4 : (if blocks g st2 n = true then { st3 with nblock := upd st3.nblock e (st3.nblock e + 1) } else st3) = st4
  have t : st4.work = st2.work ∧ st4.cycle = st2.cycle ∧ st4.dirtyOut = st2.dirtyOut ∧ st4.nprune = st2.nprune ∧
      st4.dirty = st2.dirty ∧ st4.queue = st2.queue ∧ st4.poolq = st2.poolq ∧ st4.numjobs = st2.numjobs ∧ st4.dirtyIn = st3.dirtyIn ∧
      (∀ x, x ≠ e → st4.nblock x = st2.nblock x) ∧ st4.nblock e = st2.nblock e + if blocks g st2 n = true then 1 else 0 := by
    rw [← hst4]
    by_cases hc : blocks g st2 n = true
    · rw [if_pos hc, if_pos hc]
      refine ⟨s1, s2, s3o, s5, s6, s7, s8, s9, rfl, fun x hx => ?_, ?_⟩
      · show upd st3.nblock e _ x = _
        rw [upd_other _ _ _ _ hx, s4]
      · show upd st3.nblock e _ e = _
        rw [upd_same, s4]
    · rw [if_neg hc, if_neg hc]
      exact ⟨s1, s2, s3o, s5, s6, s7, s8, s9, rfl, fun x _ => by rw [s4], by rw [s4]; rfl⟩
  obtain ⟨t1, t2, t3, t4, t5, t6, t7, t8, t9, t10, t11⟩ := t
  have nefin : ∀ x, Fin st2 x → x ≠ e := fun x f h => nfe (h ▸ f)
  have htot : ∀ x, tot g st4 x = tot g st2 x := fun x => by unfold tot; rw [t6, t7]
  have k : Keeps g st2 st4 := by
    constructor
    · intro x f; unfold Fin; rw [t1, t2]; exact f
    · intro x f; rw [t9]; exact s10 x (nefin x f)
    · intro x _; rw [t3]
    · intro x f; exact t10 x (nefin x f)
    · intro x _; rw [t4]
    · intro m x _ _; rw [t5]
    · intro m _; rw [t5]
    · intro x _; exact htot x
  have inv4 : AInv g st4 := keeps_inv wf p.inv k t1 t2 (fun x hx => by
    have : x ≠ e := fun h => by rw [h, p.ext.work e we] at hx; cases hx
    exact ⟨by rw [t9]; exact s10 x this, by rw [t3]⟩) t6 t7 t8
  have hdirty : ∀ m ∈ pre, st2.dirty m = st1.dirty m := by
    intro m hm
    cases hg : g.gen m with
    | none => rw [p.inv.src m hg, li.inv.src m hg]
    | some x => exact p.ext.dirty m x hg (li.closed m hm x hg).1
  have hblocks : ∀ m ∈ pre ++ [n], blocks g st4 m = blocks g st2 m := by
    intro m hm
    unfold blocks
    rw [t5]
    cases hg : g.gen m with
    | none => rfl
    | some x =>
      dsimp only
      have : x ≠ e := by
        rcases List.mem_append.1 hm with h1 | h1
        · have := (li.closed m h1 x hg).2
          intro h; rw [h, li.cyc] at this; cases this
        · have : m = n := by simpa using h1
          subst this
          exact nefin x (p.fin x hg)
      rw [t10 x this]
  have hblocks2 : ∀ m ∈ pre, blocks g st2 m = blocks g st1 m := by
    intro m hm
    unfold blocks
    rw [hdirty m hm]
    cases hg : g.gen m with
    | none => rfl
    | some x =>
      dsimp only
      rw [p.ext.nblock x (li.closed m hm x hg).1]
  constructor
  · exact inv4
  · rw [t2]; exact ce
  · intro x; rw [t2, p.ext.cycle x, li.sameCyc x]
  · intro x hx; rw [t1]; exact p.ext.work x (li.work x hx)
  · intro m hm e' hg
    show Fin st4 e'
    rcases List.mem_append.1 hm with h1 | h1
    · exact k.fin e' (by
        have f := li.closed m h1 e' hg
        exact ⟨p.ext.work e' f.1, (p.ext.cycle e').trans f.2⟩)
    · have : m = n := by simpa using h1
      subst this
      exact k.fin e' (p.fin e' hg)
  · intro m hm hg
    rcases List.mem_append.1 hm with h1 | h1
    · exact li.present m h1 hg
    · have : m = n := by simpa using h1
      subst this
      exact p.present hg
  · rw [t11, p.ext.nblock e we, li.nblock, List.countP_append, List.countP_singleton]
    rw [hblocks n (by simp)]
    congr 1
    apply List.countP_congr
    intro m hm
    rw [hblocks m (List.mem_append_left _ hm), hblocks2 m hm]
  · rw [t9, s11, p.ext.dirtyIn e we, li.dirtyIn, t5, List.take_append]
    have h1 : ((pre.take (g.inorder e)).any st2.dirty) = (pre.take (g.inorder e)).any st1.dirty := by
      rw [Bool.eq_iff_iff, List.any_eq_true, List.any_eq_true]
      constructor
      · rintro ⟨m, h1, h2⟩; exact ⟨m, h1, by rw [← hdirty m (List.mem_of_mem_take h1)]; exact h2⟩
      · rintro ⟨m, h1, h2⟩; exact ⟨m, h1, by rw [hdirty m (List.mem_of_mem_take h1)]; exact h2⟩
    rw [List.any_append, h1]
    congr 1
    by_cases hl : pre.length < g.inorder e
    · have : List.take (g.inorder e - pre.length) [n] = [n] := List.take_of_length_le (by simp; omega)
      rw [this]; simp [hl]
    · have : g.inorder e - pre.length = 0 := by omega
      rw [this]; simp [hl]
  · rw [t3, p.ext.dirtyOut e we]; exact li.dirtyOut
  · rw [List.take_append]
    unfold newestOf
    rw [List.foldl_append]
    by_cases hl : pre.length < g.inorder e
    · have : List.take (g.inorder e - pre.length) [n] = [n] := List.take_of_length_le (by simp; omega)
      rw [this, if_pos hl, li.newest]; rfl
    · have : g.inorder e - pre.length = 0 := by omega
      rw [this, if_neg hl, li.newest]; rfl
  · intro m hm
    rw [t5, p.ext.dirty m e ((wf.gen m e).2 ⟨li.inv.lt e we, hm⟩) we]
    exact li.outs m hm
  · intro x hx hne
    have w1 := li.work x hx
    obtain ⟨o1, o2, o3, o4, o5, o6⟩ := li.others x hx hne
    refine ⟨?_, ?_, ?_, ?_, ?_, ?_⟩
    · rw [t9, s10 x hne, p.ext.dirtyIn x w1, o1]
    · rw [t3, p.ext.dirtyOut x w1, o2]
    · rw [t10 x hne, p.ext.nblock x w1, o3]
    · rw [t4, p.ext.nprune x w1, o4]
    · rw [htot, p.ext.tot x w1, o5]
    · intro m hg
      rw [t5, p.ext.dirty m x hg w1, o6 m hg]
  · intro x hx
    rw [t1] at hx
    rcases p.only x hx with h1 | ⟨e0, h1, h2⟩
    · rcases li.only x h1 with h2 | ⟨m, hm, h2⟩
      · exact .inl h2
      · exact .inr ⟨m, List.mem_append_left _ hm, h2⟩
    · exact .inr ⟨n, by simp, e0, h1, h2⟩


/-- `samu_queue` changes only the queues. -/
theorem queue_other (g : Graph) (st : St) (e : Nat) : (queue g st e).work = st.work ∧ (queue g st e).cycle = st.cycle ∧ (queue g st e).dirtyIn = st.dirtyIn ∧
    (queue g st e).dirtyOut = st.dirtyOut ∧ (queue g st e).nblock = st.nblock ∧ (queue g st e).nprune = st.nprune ∧ (queue g st e).dirty = st.dirty := by
  unfold queue
  split
  · split
    · exact ⟨rfl, rfl, rfl, rfl, rfl, rfl, rfl⟩
    · split <;> exact ⟨rfl, rfl, rfl, rfl, rfl, rfl, rfl⟩
  · exact ⟨rfl, rfl, rfl, rfl, rfl, rfl, rfl⟩

theorem queue_tot (g : Graph) (st : St) (e x : Nat) : tot g (queue g st e) x = tot g st x + if x = e then 1 else 0 := by
  have hc : ∀ l : List Nat, (e :: l).count x = l.count x + if x = e then 1 else 0 := by
    intro l
    rw [List.count_cons]
    by_cases h : x = e
    · subst h; simp
    · have : ¬ e = x := fun k => h k.symm
      simp [h, this]
  unfold queue
  split
  · next p hp =>
    split
    · show tot g { st with queue := e :: st.queue } x = _
      unfold tot
      dsimp only
      rw [hc]; omega
    · split
      · show tot g { st with poolq := upd st.poolq p (e :: st.poolq p) } x = _
        unfold tot
        dsimp only
        by_cases h : x = e
        · subst h
          rw [hp]; dsimp only
          rw [upd_same, hc]; omega
        · cases hx : g.pool x with
          | none => dsimp only; rw [if_neg h]
          | some q =>
            dsimp only
            by_cases hq : q = p
            · subst hq; rw [upd_same, hc]; omega
            · rw [upd_other _ _ _ _ hq, if_neg h]; rfl
      · unfold tot
        dsimp only
        rw [hc]; omega
  · unfold tot
    dsimp only
    rw [hc]; omega

theorem queue_pool (g : Graph) (st : St) (e p : Nat) (h : PoolOk g st p) : PoolOk g (queue g st e) p := by
  unfold queue
  split
  · next q hq =>
    split
    · exact ⟨h.mem, h.le, h.full⟩
    · next hph =>
      split
      · next hfull =>
        by_cases hp : p = q
        · subst hp
          refine ⟨?_, h.le, fun _ => hfull⟩
          show ∀ x ∈ upd st.poolq p (e :: st.poolq p) p, _
          rw [upd_same]
          intro x hx
          rcases List.mem_cons.1 hx with h1 | h1
          · subst h1
            unfold inPool; rw [hq]; simp [Bool.eq_false_iff.2 hph]
          · exact h.mem x h1
        · refine ⟨?_, h.le, ?_⟩
          · show ∀ x ∈ upd st.poolq q _ p, _
            rw [upd_other _ _ _ _ hp]; exact h.mem
          · show upd st.poolq q _ p ≠ [] → _
            rw [upd_other _ _ _ _ hp]; exact h.full
      · next hfull =>
        by_cases hp : p = q
        · subst hp
          refine ⟨h.mem, ?_, ?_⟩
          · show upd st.numjobs p _ p ≤ _
            rw [upd_same]
            have := h.le
            omega
          · show st.poolq p ≠ [] → _
            intro hne
            exact absurd (h.full hne) hfull
        · refine ⟨h.mem, ?_, ?_⟩
          · show upd st.numjobs q _ p ≤ _
            rw [upd_other _ _ _ _ hp]; exact h.le
          · show st.poolq p ≠ [] → upd st.numjobs q _ p = _
            rw [upd_other _ _ _ _ hp]; exact h.full
  · exact ⟨h.mem, h.le, h.full⟩

theorem queue_count (g : Graph) (st : St) (e p : Nat) :
    (queue g st e).numjobs p + st.queue.countP (inPool g p) = st.numjobs p + (queue g st e).queue.countP (inPool g p) := by
  unfold queue
  split
  · next q hq =>
    split
    · next hph =>
      dsimp only
      rw [List.countP_cons]
      have : inPool g p e = false := by unfold inPool; rw [hph]; simp
      rw [this]; rfl
    · next hph =>
      split
      · rfl
      · dsimp only
        rw [List.countP_cons]
        by_cases hp : p = q
        · subst hp
          have : inPool g p e = true := by unfold inPool; rw [hq]; simp [Bool.eq_false_iff.2 hph]
          rw [this, upd_same]; simp; omega
        · have : inPool g p e = false := by
            unfold inPool; rw [hq]
            have : ¬ q = p := fun h => hp h.symm
            simp [this]
          rw [this, upd_other _ _ _ _ hp]; simp
  · next hq =>
    dsimp only
    rw [List.countP_cons]
    have : inPool g p e = false := by unfold inPool; rw [hq]; simp
    rw [this]; rfl

/-- What `finish` does. -/
structure Finished (g : Graph) (e : Nat) (newest : Option Nat) (st st' : St) : Prop where
  work : st'.work = st.work
  cycle : st'.cycle = upd st.cycle e false
  dirtyIn : st'.dirtyIn = st.dirtyIn
  nblock : st'.nblock = st.nblock
  dirtyOut : ∀ x, x ≠ e → st'.dirtyOut x = st.dirtyOut x
  dirtyOute : st'.dirtyOut e = (st.dirtyOut e || (g.outs e).any fun n => isdirty g e n newest)
  nprune : ∀ x, x ≠ e → st'.nprune x = st.nprune x
  nprunee : st'.dirtyOut e = false → st'.nprune e = st.nblock e
  dirty : ∀ n, st'.dirty n = if st'.isDirty e = true ∧ n ∈ g.outs e then true else st.dirty n
  tot : ∀ x, tot g st' x = tot g st x + if x = e ∧ st'.isDirty e = true ∧ st.nblock e = 0 then 1 else 0
  pools : ∀ p, PoolOk g st p → PoolOk g st' p
  count : ∀ p, st.numjobs p = st.queue.countP (inPool g p) → st'.numjobs p = st'.queue.countP (inPool g p)

theorem finish_spec (g : Graph) (e : Nat) (newest : Option Nat) (st : St) : Finished g e newest st (finish g e newest st) := by
  unfold finish
  extract_lets s1 s2 s3 s3' s4
  have h1 : s1.work = st.work ∧ s1.cycle = st.cycle ∧ s1.dirtyIn = st.dirtyIn ∧ s1.nblock = st.nblock ∧ s1.nprune = st.nprune ∧ s1.dirty = st.dirty ∧
      s1.queue = st.queue ∧ s1.poolq = st.poolq ∧ s1.numjobs = st.numjobs ∧ (∀ x, x ≠ e → s1.dirtyOut x = st.dirtyOut x) ∧
      s1.dirtyOut e = (st.dirtyOut e || (g.outs e).any fun n => isdirty g e n newest) := by
    simp only [s1]
    split
    · next h =>
      refine ⟨rfl, rfl, rfl, rfl, rfl, rfl, rfl, rfl, rfl, fun x hx => upd_other _ _ _ _ hx, ?_⟩
      show upd st.dirtyOut e true e = _
      rw [upd_same, h]; simp
    · next h =>
      refine ⟨rfl, rfl, rfl, rfl, rfl, rfl, rfl, rfl, rfl, fun _ _ => rfl, ?_⟩
      rw [Bool.eq_false_iff.2 h]; simp
  clear_value s1
  obtain ⟨a1, a2, a3, a4, a5, a6, a7, a8, a9, a10, a11⟩ := h1
  have h2 : s2.work = s1.work ∧ s2.cycle = s1.cycle ∧ s2.dirtyIn = s1.dirtyIn ∧ s2.dirtyOut = s1.dirtyOut ∧ s2.nblock = s1.nblock ∧ s2.nprune = s1.nprune ∧
      s2.queue = s1.queue ∧ s2.poolq = s1.poolq ∧ s2.numjobs = s1.numjobs ∧
      (∀ n, s2.dirty n = if s2.isDirty e = true ∧ n ∈ g.outs e then true else s1.dirty n) := by
    simp only [s2]
    split
    · next h =>
      refine ⟨rfl, rfl, rfl, rfl, rfl, rfl, rfl, rfl, rfl, fun n => ?_⟩
      have hi : St.isDirty { s1 with dirty := fun n => if n ∈ g.outs e then true else s1.dirty n } e = true := h
      show (if n ∈ g.outs e then true else s1.dirty n) = _
      rw [hi]; simp
    · next h =>
      exact ⟨rfl, rfl, rfl, rfl, rfl, rfl, rfl, rfl, rfl, fun n => by simp [h]⟩
  clear_value s2
  obtain ⟨b1, b2, b3, b4, b5, b6, b7, b8, b9, b10⟩ := h2
  have h3 : s3.work = s2.work ∧ s3.cycle = s2.cycle ∧ s3.dirtyIn = s2.dirtyIn ∧ s3.dirtyOut = s2.dirtyOut ∧ s3.nblock = s2.nblock ∧ s3.dirty = s2.dirty ∧
      s3.queue = s2.queue ∧ s3.poolq = s2.poolq ∧ s3.numjobs = s2.numjobs ∧ (∀ x, x ≠ e → s3.nprune x = s2.nprune x) ∧
      (s2.dirtyOut e = false → s3.nprune e = s2.nblock e) := by
    simp only [s3]
    split
    · next h => exact ⟨rfl, rfl, rfl, rfl, rfl, rfl, rfl, rfl, rfl, fun _ _ => rfl, fun h1 => by rw [h] at h1; cases h1⟩
    · exact ⟨rfl, rfl, rfl, rfl, rfl, rfl, rfl, rfl, rfl, fun x hx => upd_other _ _ _ _ hx, fun _ => upd_same _ _ _⟩
  clear_value s3
  obtain ⟨c1, c2, c3, c4, c5, c6, c7, c8, c9, c10, c11⟩ := h3
  have hd3 : s3.isDirty e = s2.isDirty e := by unfold St.isDirty; rw [c3, c4]
  have h4 : s4.work = s3.work ∧ s4.cycle = s3.cycle ∧ s4.dirtyIn = s3.dirtyIn ∧ s4.dirtyOut = s3.dirtyOut ∧ s4.nblock = s3.nblock ∧ s4.nprune = s3.nprune ∧ s4.dirty = s3.dirty ∧
      (∀ x, tot g s4 x = tot g s3 x + if x = e ∧ s3.isDirty e = true ∧ s3.nblock e = 0 then 1 else 0) ∧
      (∀ p, PoolOk g s3 p → PoolOk g s4 p) ∧
      (∀ p, s3.numjobs p = s3.queue.countP (inPool g p) → s4.numjobs p = s4.queue.countP (inPool g p)) := by
    simp only [s4, s3']
    by_cases hd : s3.isDirty e = true
    · rw [if_pos hd]
      by_cases hb : s3.nblock e = 0
      · rw [if_pos hb]
        obtain ⟨q1, q2, q3, q4, q5, q6, q7⟩ := queue_other g s3 e
        have qt := queue_tot g s3 e
        have qp := queue_pool g s3 e
        have qc := queue_count g s3 e
        split
        · refine ⟨q1, q2, q3, q4, q5, q6, q7, fun x => ?_, fun p => qp p, fun p hp => by have := qc p; omega⟩
          rw [qt]; simp [hd, hb]
        · refine ⟨q1, q2, q3, q4, q5, q6, q7, fun x => ?_, fun p hp => ⟨(qp p hp).mem, (qp p hp).le, (qp p hp).full⟩, fun p hp => by have := qc p; dsimp only; omega⟩
          show tot g (queue g s3 e) x = _
          rw [qt]; simp [hd, hb]
      · rw [if_neg hb]
        split
        · exact ⟨rfl, rfl, rfl, rfl, rfl, rfl, rfl, fun x => by simp [hb], fun _ h => h, fun _ h => h⟩
        · refine ⟨rfl, rfl, rfl, rfl, rfl, rfl, rfl, fun x => ?_, fun _ h => ⟨h.mem, h.le, h.full⟩, fun _ h => h⟩
          show tot g s3 x = _
          simp [hb]
    · rw [if_neg hd]
      exact ⟨rfl, rfl, rfl, rfl, rfl, rfl, rfl, fun x => by simp [hd], fun _ h => h, fun _ h => h⟩
  clear_value s4 s3'
  obtain ⟨d1, d2, d3, d4, d5, d6, d7, d8, d9, d10⟩ := h4
  have hd4 : s4.isDirty e = s2.isDirty e := by unfold St.isDirty; rw [d3, d4, c3, c4]
  have tot3 : ∀ x, tot g s3 x = tot g st x := by
    intro x; unfold tot; rw [c7, b7, a7, c8, b8, a8]
  constructor
  · show s4.work = _; rw [d1, c1, b1, a1]
  · show upd s4.cycle e false = _; rw [d2, c2, b2, a2]
  · show s4.dirtyIn = _; rw [d3, c3, b3, a3]
  · show s4.nblock = _; rw [d5, c5, b5, a4]
  · show ∀ x, x ≠ e → s4.dirtyOut x = _
    intro x hx; rw [d4, c4, b4, a10 x hx]
  · show s4.dirtyOut e = _; rw [d4, c4, b4, a11]
  · show ∀ x, x ≠ e → s4.nprune x = _
    intro x hx; rw [d6, c10 x hx, b6, a5]
  · show s4.dirtyOut e = false → s4.nprune e = _
    intro h; rw [d4, c4] at h; rw [d6, c11 h, b5, a4]
  · show ∀ n, s4.dirty n = if s4.isDirty e = true ∧ _ then _ else _
    intro n; rw [hd4, d7, c6, b10 n, a6]
  · show ∀ x, tot g s4 x = _ + if x = e ∧ s4.isDirty e = true ∧ _ then _ else _
    intro x; rw [d8, tot3, hd4, hd3, c5, b5, a4]
  · intro p hp
    have : PoolOk g s3 p := ⟨by rw [c8, b8, a8]; exact hp.mem, by rw [c9, b9, a9]; exact hp.le, by rw [c8, b8, a8, c9, b9, a9]; exact hp.full⟩
    have := d9 p this
    exact ⟨this.mem, this.le, this.full⟩
  · intro p hp
    exact d10 p (by rw [c9, b9, a9, c7, b7, a7]; exact hp)

theorem addIns_spec {g : Graph} (wf : WF g) {f : Nat} {rec : Nat → St → Out}
    (hrec : ∀ n st, AInv g st → left g st < f → Stack g n st → Good g n st (rec n st)) {e : Nat} (he : e < g.edges) {st0 : St}
    (hstk : ∀ c, st0.cycle c = true → c = e ∨ DependsOn g c e) :
    ∀ (ns pre : List Nat) (newest : Option Nat) (st : St), LoopInv g e pre newest st0 st → g.ins e = pre ++ ns → left g st < f →
      match addIns g rec e ns pre.length newest st with
      | (.ok st', newest') => LoopInv g e (g.ins e) newest' st0 st'
      | (.missing m, _) => g.gen m = none ∧ g.mtime m = none ∧ ∃ e', (e = e' ∨ DependsOn g e e') ∧ m ∈ g.ins e'
      | (.cyclic _, _) => ∃ c, (e = c ∨ DependsOn g e c) ∧ DependsOn g c c
      | (.fuel, _) => False := by
  intro ns
  induction ns with
  | nil =>
    intro pre newest st li hi _
    rw [List.append_nil] at hi
    show LoopInv g e (g.ins e) newest st0 st
    rw [hi]; exact li
  | cons n ns ih =>
    intro pre newest st li hi hl
    have hn : n ∈ g.ins e := by rw [hi]; simp
    have hstk' : Stack g n st := by
      intro c hc x hx
      rw [li.sameCyc c] at hc
      have hx' : Needs g e x := ⟨n, hn, hx⟩
      rcases hstk c hc with h | h
      · subst h; exact .single hx'
      · exact .tail h hx'
    have hg := hrec n st li.inv hl hstk'
    unfold addIns
    generalize hr : rec n st = out at hg
    cases out with
    | ok st2 =>
      dsimp only
      have step := loop_step wf li hg
      dsimp only at step
      have := ih (pre ++ [n]) _ _ step (by rw [hi]; simp) (by
        refine Nat.lt_of_le_of_lt (left_mono g st _ ?_) hl
        intro x hx
        have h2 := hg.ext.work x hx
        split
        · split <;> exact h2
        · split <;> exact h2)
      rw [List.length_append] at this
      exact this
    | missing m =>
      dsimp only
      obtain ⟨h1, h2, h3⟩ := hg
      refine ⟨h1, h2, ?_⟩
      rcases h3 with h3 | ⟨e0, e', h3, h4, h5⟩
      · subst h3; exact ⟨e, .inl rfl, hn⟩
      · refine ⟨e', .inr ?_, h5⟩
        have hx : Needs g e e0 := ⟨n, hn, h3⟩
        rcases h4 with h4 | h4
        · subst h4; exact .single hx
        · exact Relation.TransGen.trans (.single hx) h4
    | cyclic m =>
      dsimp only
      obtain ⟨e0, c, h3, h4, h5⟩ := hg
      refine ⟨c, .inr ?_, h5⟩
      have hx : Needs g e e0 := ⟨n, hn, h3⟩
      rcases h4 with h4 | h4
      · subst h4; exact .single hx
      · exact Relation.TransGen.trans (.single hx) h4
    | fuel => exact hg

/-- The start of the loop. -/
theorem loop_init {g : Graph} (wf : WF g) {st : St} (a : AInv g st) {e : Nat} (he : e < g.edges) (hw : st.work e = false) (st1 : St)
    (h1 : st1 = { st with cycle := upd st.cycle e true, work := upd st.work e true, nblock := upd st.nblock e 0,
                          dirty := fun n => if n ∈ g.outs e then false else st.dirty n }) :
    LoopInv g e [] none st1 st1 := by
  have nc : st.cycle e = false := by
    cases h : st.cycle e with
    | false => rfl
    | true => rw [a.cyc e h] at hw; cases hw
  have w : ∀ x, st1.work x = upd st.work e true x := fun x => by rw [h1]
  have c : ∀ x, st1.cycle x = upd st.cycle e true x := fun x => by rw [h1]
  have hfin : ∀ x, Fin st1 x ↔ Fin st x := by
    intro x
    unfold Fin
    rw [w, c]
    by_cases hx : x = e
    · subst hx; rw [upd_same, upd_same, hw]; simp
    · rw [upd_other _ _ _ _ hx, upd_other _ _ _ _ hx]
  have nefin : ∀ x, Fin st x → x ≠ e := fun x f h => by rw [h] at f; rw [f.1] at hw; cases hw
  have htot : ∀ x, tot g st1 x = tot g st x := fun x => by rw [h1]; rfl
  have hout : ∀ n x, g.gen n = some x → x ≠ e → n ∉ g.outs e := by
    intro n x hg hne hm
    rw [(wf.gen n e).2 ⟨he, hm⟩] at hg
    cases hg; exact hne rfl
  have hsrc : ∀ n, g.gen n = none → n ∉ g.outs e := by
    intro n hg hm
    rw [(wf.gen n e).2 ⟨he, hm⟩] at hg; cases hg
  have k : Keeps g st st1 := by
    constructor
    · intro x f; exact (hfin x).2 f
    · intro x _; rw [h1]
    · intro x _; rw [h1]
    · intro x f; rw [h1]; exact upd_other _ _ _ _ (nefin x f)
    · intro x _; rw [h1]
    · intro n x hg f
      rw [h1]; exact if_neg (hout n x hg (nefin x f))
    · intro n hg
      rw [h1]; exact if_neg (hsrc n hg)
    · intro x _; exact htot x
  constructor
  · constructor
    · intro x hx
      rw [c] at hx; rw [w]
      by_cases h : x = e
      · subst h; rw [upd_same]
      · rw [upd_other _ _ _ _ h] at hx ⊢; exact a.cyc x hx
    · intro x hx
      rw [w] at hx
      by_cases h : x = e
      · subst h; exact he
      · rw [upd_other _ _ _ _ h] at hx; exact a.lt x hx
    · intro x f
      rw [hfin] at f
      exact (a.fin x f).keep wf k (a.lt x f.1) f
    · intro x hx
      rw [w] at hx
      by_cases h : x = e
      · subst h; rw [upd_same] at hx; cases hx
      · rw [upd_other _ _ _ _ h] at hx
        rw [h1]; exact a.fresh x hx
    · intro x hx
      rw [htot]; exact a.notq x (fun f => hx ((hfin x).2 f))
    · intro n hg
      rw [k.src n hg]; exact a.src n hg
    · intro p
      rw [h1]; exact ⟨(a.pools p).mem, (a.pools p).le, (a.pools p).full⟩
    · intro p; rw [h1]; exact a.count p
  · rw [c, upd_same]
  · intro x; rfl
  · intro x hx; exact hx
  · intro n hn; cases hn
  · intro n hn; cases hn
  · rw [h1]; exact upd_same _ _ _
  · rw [h1, List.take_nil]; exact (a.fresh e hw).1
  · rw [h1]; exact (a.fresh e hw).2
  · rw [List.take_nil]; rfl
  · intro n hn; rw [h1]; exact if_pos hn
  · intro x _ _; exact ⟨rfl, rfl, rfl, rfl, rfl, fun _ _ => rfl⟩
  · intro x hx; exact .inl hx

theorem grounded_of {g : Graph} {e : Nat} (h : ∀ n ∈ g.ins e, ∀ e', g.gen n = some e' → Grounded g e') : Grounded g e :=
  .mk fun e' ⟨n, hn, hg⟩ => h n hn e' hg

/-- The end of the loop. -/
theorem loop_fin {g : Graph} (wf : WF g) {st st1 st2 : St} (a : AInv g st) {e : Nat} (he : e < g.edges) (hw : st.work e = false)
    (h1 : st1 = { st with cycle := upd st.cycle e true, work := upd st.work e true, nblock := upd st.nblock e 0,
                          dirty := fun n => if n ∈ g.outs e then false else st.dirty n })
    {newest : Option Nat} (li : LoopInv g e (g.ins e) newest st1 st2) {n : Nat} (hg : g.gen n = some e) :
    Post g n st (finish g e newest st2) := by
  have nc : st.cycle e = false := by
    cases h : st.cycle e with
    | false => rfl
    | true => rw [a.cyc e h] at hw; cases hw
  have F := finish_spec g e newest st2
  generalize finish g e newest st2 = st3 at F
  have w2 : st2.work e = true := li.inv.cyc e li.cyc
  have c3 : st3.cycle e = false := by rw [F.cycle, upd_same]
  have c3o : ∀ x, x ≠ e → st3.cycle x = st2.cycle x := fun x hx => by rw [F.cycle, upd_other _ _ _ _ hx]
  have nfe : ¬ Fin st2 e := fun f => by have := f.2; rw [li.cyc] at this; cases this
  have nefin : ∀ x, Fin st2 x → x ≠ e := fun x f h => nfe (h ▸ f)
  have hout : ∀ n x, g.gen n = some x → x ≠ e → n ∉ g.outs e := by
    intro n x hg hne hm
    rw [(wf.gen n e).2 ⟨he, hm⟩] at hg
    cases hg; exact hne rfl
  have hsrc : ∀ n, g.gen n = none → n ∉ g.outs e := by
    intro n hg hm
    rw [(wf.gen n e).2 ⟨he, hm⟩] at hg; cases hg
  have dirtyo : ∀ n, n ∉ g.outs e → st3.dirty n = st2.dirty n := fun n hn => by rw [F.dirty, if_neg (fun h => hn h.2)]
  have toto : ∀ x, x ≠ e → tot g st3 x = tot g st2 x := fun x hx => by rw [F.tot, if_neg (fun h => hx h.1)]; rfl
  have k : Keeps g st2 st3 := by
    constructor
    · intro x f; exact ⟨by rw [F.work]; exact f.1, by rw [c3o x (nefin x f)]; exact f.2⟩
    · intro x f; rw [F.dirtyIn]
    · intro x f; exact F.dirtyOut x (nefin x f)
    · intro x f; rw [F.nblock]
    · intro x f; exact F.nprune x (nefin x f)
    · intro m x hm f; exact dirtyo m (hout m x hm (nefin x f))
    · intro m hm; exact dirtyo m (hsrc m hm)
    · intro x f; exact toto x (nefin x f)
  have hfin : ∀ x, x ≠ e → (Fin st3 x ↔ Fin st2 x) := fun x hx => by unfold Fin; rw [F.work, c3o x hx]
  have hine : ∀ m ∈ g.ins e, m ∉ g.outs e := by
    intro m hm
    cases hgm : g.gen m with
    | none => exact hsrc m hgm
    | some x => exact hout m x hgm (nefin x (li.closed m hm x hgm))
  have finE : FinOk g st3 e := by
    constructor
    · intro m hm x hx; exact k.fin x (li.closed m hm x hx)
    · exact li.present
    · rw [F.nblock, li.nblock]
      apply List.countP_congr
      intro m hm
      unfold blocks
      rw [dirtyo m (hine m hm), F.nblock]
    · rw [F.dirtyIn, li.dirtyIn]
      have : ∀ m ∈ inputs g e, st3.dirty m = st2.dirty m := fun m hm => dirtyo m (hine m (List.mem_of_mem_take hm))
      show (inputs g e).any st2.dirty = _
      rw [Bool.eq_iff_iff, List.any_eq_true, List.any_eq_true]
      constructor
      · rintro ⟨m, h1, h2⟩; exact ⟨m, h1, by rw [this m h1]; exact h2⟩
      · rintro ⟨m, h1, h2⟩; exact ⟨m, h1, by rw [← this m h1]; exact h2⟩
    · rw [F.dirtyOute, li.dirtyOut, Bool.false_or, li.newest]; rfl
    · intro m hm
      rw [F.dirty]
      cases hd : st3.isDirty e with
      | true => exact if_pos ⟨rfl, hm⟩
      | false => rw [if_neg (fun h => by cases h.1)]; exact li.outs m hm
    · intro h; rw [F.nprunee h, F.nblock]
    · rw [F.tot, li.inv.notq e nfe, F.nblock]
      simp
    · exact grounded_of fun m hm x hx => (li.inv.fin x (li.closed m hm x hx)).grounded
  have hcyc : ∀ x, st3.cycle x = st.cycle x := by
    intro x
    by_cases hx : x = e
    · subst hx; rw [c3, nc]
    · rw [c3o x hx, li.sameCyc x, h1]; exact upd_other _ _ _ _ hx
  have w1 : ∀ x, st.work x = true → x ≠ e ∧ st1.work x = true := by
    intro x hx
    have hne : x ≠ e := fun h => by rw [h, hw] at hx; cases hx
    refine ⟨hne, ?_⟩
    rw [h1]
    show upd st.work e true x = true
    rw [upd_other _ _ _ _ hne]; exact hx
  refine ⟨?_, ?_, ?_, ?_, ?_⟩
  · constructor
    · intro x hx
      by_cases h : x = e
      · subst h; rw [c3] at hx; cases hx
      · rw [c3o x h] at hx; rw [F.work]; exact li.inv.cyc x hx
    · intro x hx; rw [F.work] at hx; exact li.inv.lt x hx
    · intro x f
      by_cases h : x = e
      · subst h; exact finE
      · rw [hfin x h] at f
        exact (li.inv.fin x f).keep wf k (li.inv.lt x f.1) f
    · intro x hx
      rw [F.work] at hx
      have hne : x ≠ e := fun h => by rw [h, w2] at hx; cases hx
      rw [F.dirtyIn, F.dirtyOut x hne]; exact li.inv.fresh x hx
    · intro x hx
      have hne : x ≠ e := fun h => hx (by rw [h]; exact ⟨by rw [F.work]; exact w2, c3⟩)
      rw [toto x hne]
      exact li.inv.notq x (fun f => hx ((hfin x hne).2 f))
    · intro m hm; rw [k.src m hm]; exact li.inv.src m hm
    · intro p; exact F.pools p (li.inv.pools p)
    · intro p; exact F.count p (li.inv.count p)
  · constructor
    · intro x hx; rw [F.work]; exact li.work x (w1 x hx).2
    · exact hcyc
    · intro x hx
      obtain ⟨hne, hx1⟩ := w1 x hx
      rw [F.dirtyIn, (li.others x hx1 hne).1, h1]
    · intro x hx
      obtain ⟨hne, hx1⟩ := w1 x hx
      rw [F.dirtyOut x hne, (li.others x hx1 hne).2.1, h1]
    · intro x hx
      obtain ⟨hne, hx1⟩ := w1 x hx
      rw [F.nblock, (li.others x hx1 hne).2.2.1, h1]; exact upd_other _ _ _ _ hne
    · intro x hx
      obtain ⟨hne, hx1⟩ := w1 x hx
      rw [F.nprune x hne, (li.others x hx1 hne).2.2.2.1, h1]
    · intro m x hm hx
      obtain ⟨hne, hx1⟩ := w1 x hx
      rw [dirtyo m (hout m x hm hne), (li.others x hx1 hne).2.2.2.2.2 m hm, h1]
      exact if_neg (hout m x hm hne)
    · intro m hm _
      rw [k.src m hm]; exact li.inv.src m hm
    · intro x hx
      obtain ⟨hne, hx1⟩ := w1 x hx
      rw [toto x hne, (li.others x hx1 hne).2.2.2.2.1, h1]; rfl
  · intro x hx
    rw [hg] at hx
    cases hx
    exact ⟨by rw [F.work]; exact w2, c3⟩
  · intro h; rw [hg] at h; cases h
  · intro x hx
    rw [F.work] at hx
    rcases li.only x hx with h | ⟨m, hm, e0, h3, h4⟩
    · by_cases hxe : x = e
      · subst hxe; exact .inr ⟨x, hg, .inl rfl⟩
      · rw [h1] at h
        have h : upd st.work e true x = true := h
        rw [upd_other _ _ _ _ hxe] at h
        exact .inl h
    · refine .inr ⟨e, hg, .inr ?_⟩
      have hn : Needs g e e0 := ⟨m, hm, h3⟩
      rcases h4 with h4 | h4
      · subst h4; exact .single hn
      · exact Relation.TransGen.trans (.single hn) h4

theorem buildadd_spec {g : Graph} (wf : WF g) (f : Nat) : ∀ (n : Nat) (st : St), AInv g st → left g st < f → Stack g n st → Good g n st (buildadd g f n st) := by
  induction f with
  | zero => intro n st _ h; omega
  | succ f ih =>
    intro n st a hl hstk
    unfold buildadd
    cases hg : g.gen n with
    | none =>
      dsimp only
      by_cases hm : g.mtime n = none
      · rw [if_pos hm]; exact ⟨hg, hm, .inl rfl⟩
      · rw [if_neg hm]
        have hd : ({ st with dirty := upd st.dirty n false } : St) = st := by
          have : upd st.dirty n false = st.dirty := by
            funext x
            by_cases hx : x = n
            · subst hx; rw [upd_same, a.src x hg]
            · rw [upd_other _ _ _ _ hx]
          rw [this]
        rw [hd]
        exact ⟨a, Ext.refl g st, fun e he => by rw [hg] at he; (try cases he), fun _ => hm, fun e he => .inl he⟩
    | some e =>
      dsimp only
      have he : e < g.edges := ((wf.gen n e).1 hg).1
      by_cases hc : st.cycle e = true
      · rw [if_pos hc]
        exact ⟨e, e, hg, .inl rfl, hstk e hc e hg⟩
      · rw [if_neg hc]
        by_cases hw : st.work e = true
        · rw [if_pos hw]
          refine ⟨a, Ext.refl g st, fun x hx => ?_, fun h => (by rw [hg] at h; cases h), fun x hx => .inl hx⟩
          rw [hg] at hx; cases hx
          exact ⟨hw, Bool.eq_false_iff.2 hc⟩
        · rw [if_neg hw]
          have hw : st.work e = false := Bool.eq_false_iff.2 hw
          generalize h1 : ({ st with cycle := upd st.cycle e true, work := upd st.work e true, nblock := upd st.nblock e 0,
                                     dirty := fun n => if n ∈ g.outs e then false else st.dirty n } : St) = st1
          have li := loop_init wf a he hw st1 h1.symm
          have hl1 : left g st1 < left g st := left_lt g st e he hw st1 (by rw [← h1])
          have S := addIns_spec wf (fun n st => ih n st) he (st0 := st1) (fun c hc => by
            rw [← h1] at hc
            have hc : upd st.cycle e true c = true := hc
            by_cases hce : c = e
            · exact .inl hce
            · rw [upd_other _ _ _ _ hce] at hc
              exact .inr (hstk c hc e hg)) (g.ins e) [] none st1 li rfl (by omega)
          have e0 : ([] : List Nat).length = 0 := rfl
          rw [e0] at S
          generalize addIns g (buildadd g f) e (g.ins e) 0 none st1 = r at S
          obtain ⟨out, newest⟩ := r
          cases out with
          | ok st2 => exact loop_fin wf a he hw h1.symm S hg
          | missing m =>
            obtain ⟨s1, s2, e', s3, s4⟩ := S
            exact ⟨s1, s2, .inr ⟨e, e', hg, s3, s4⟩⟩
          | cyclic m =>
            obtain ⟨c, s1, s2⟩ := S
            exact ⟨e, c, hg, s1, s2⟩
          | fuel => exact S

/-- The state before anything is scheduled. -/
theorem init_inv (g : Graph) : AInv g {} where
  cyc e h := by cases h
  lt e h := by cases h
  fin e h := by cases h.1
  fresh e _ := ⟨rfl, rfl⟩
  notq e _ := by unfold tot; cases g.pool e <;> rfl
  src n _ := rfl
  pools p := ⟨fun e h => (by cases h), Nat.zero_le _, fun h => absurd rfl h⟩
  count p := rfl

/-- The result of adding all targets. -/
theorem addAll_spec {g : Graph} (wf : WF g) (targets : List Nat) : ∀ (ns : List Nat) (st : St), AInv g st → (∀ e, st.cycle e = false) → (∀ n ∈ ns, n ∈ targets) →
    match addAll g ns st with
    | .ok st' => AInv g st' ∧ (∀ e, st'.cycle e = false) ∧ (∀ e, st.work e = true → st'.work e = true) ∧ (∀ n ∈ ns, ∀ e, g.gen n = some e → st'.work e = true) ∧
        (∀ n ∈ ns, g.gen n = none → g.mtime n ≠ none) ∧ (∀ e, st'.work e = true → st.work e = true ∨ Required g targets e)
    | .missing m => g.gen m = none ∧ g.mtime m = none ∧ (m ∈ targets ∨ ∃ e, Required g targets e ∧ m ∈ g.ins e)
    | .cyclic _ => ∃ e, Required g targets e ∧ DependsOn g e e
    | .fuel => False := by
  intro ns
  induction ns with
  | nil => intro st a hc _; exact ⟨a, hc, fun _ h => h, fun n h => (by cases h), fun n h => (by cases h), fun e h => .inl h⟩
  | cons n ns ih =>
    intro st a hc hns
    have hl : left g st < g.edges + 2 := by
      have : left g st ≤ g.edges := by
        unfold left
        have := List.countP_le_length (p := fun e => !st.work e) (l := List.range g.edges)
        rwa [List.length_range] at this
      omega
    have S := buildadd_spec wf (g.edges + 2) n st a hl (fun c h => by rw [hc c] at h; cases h)
    unfold addAll
    generalize buildadd g (g.edges + 2) n st = out at S
    have hn : n ∈ targets := hns n (by simp)
    cases out with
    | ok st1 =>
      dsimp only
      have I := ih st1 S.inv (fun e => (S.ext.cycle e).trans (hc e)) (fun m hm => hns m (List.mem_cons_of_mem _ hm))
      generalize addAll g ns st1 = out at I
      cases out with
      | ok st2 =>
        obtain ⟨i1, i2, i3, i4, i5, i6⟩ := I
        refine ⟨i1, i2, fun e h => i3 e (S.ext.work e h), fun m hm e he => ?_, fun m hm he => ?_, fun e he => ?_⟩
        · rcases List.mem_cons.1 hm with h | h
          · subst h; exact i3 e (S.fin e he).1
          · exact i4 m h e he
        · rcases List.mem_cons.1 hm with h | h
          · subst h; exact S.present he
          · exact i5 m h he
        · rcases i6 e he with h | h
          · rcases S.only e h with h | ⟨e0, h1, h2⟩
            · exact .inl h
            · exact .inr ⟨n, hn, e0, h1, h2⟩
          · exact .inr h
      | missing m => exact I
      | cyclic m => exact I
      | fuel => exact I
    | missing m =>
      obtain ⟨s1, s2, s3⟩ := S
      refine ⟨s1, s2, ?_⟩
      rcases s3 with h | ⟨e0, e, h1, h2, h3⟩
      · subst h; exact .inl hn
      · exact .inr ⟨e, ⟨n, hn, e0, h1, h2⟩, h3⟩
    | cyclic m =>
      obtain ⟨e0, c, h1, h2, h3⟩ := S
      exact ⟨c, ⟨n, hn, e0, h1, h2⟩, h3⟩
    | fuel => exact S

end Muon.Sched
