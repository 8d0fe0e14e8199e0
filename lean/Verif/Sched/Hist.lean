import Verif.Sched.Deliver
/-
Histories: the order of events, completeness and termination.
-/
namespace Muon.Sched
open Muon Spec

theorem endOf_isSome (e : Nat) (t : List Event) : (endOf e t).isSome = true ↔ Ended t e := by
  unfold endOf
  rw [List.findSome?_isSome_iff]
  constructor
  · rintro ⟨ev, hm, h⟩
    cases ev with
    | done x same =>
      by_cases hx : x = e
      · subst hx; exact .inl ⟨same, hm⟩
      · simp [endEv, hx] at h
    | prune x =>
      by_cases hx : x = e
      · subst hx; exact .inr hm
      · simp [endEv, hx] at h
    | start x => simp [endEv] at h
    | nostart x => simp [endEv] at h
    | fail x => simp [endEv] at h
  · rintro (⟨same, h⟩ | h)
    · exact ⟨_, h, by simp [endEv]⟩
    · exact ⟨_, h, by simp [endEv]⟩

/-- Every edge `e` waits for has ended. -/
def Ready (g : Graph) (st0 : St) (t : List Event) (e : Nat) : Prop := ∀ n ∈ g.ins e, ∀ x, g.gen n = some x → Active st0 x → Ended t x

/-- What is true when an event happens, `t` being the events before. -/
def EvOk (g : Graph) (st0 : St) (t : List Event) : Event → Prop
  | .start e => st0.work e = true ∧ st0.isDirty e = true ∧ Ready g st0 t e
  | .done e same => st0.work e = true ∧ st0.isDirty e = true ∧ Ready g st0 t e ∧ ∀ n, same n = true → g.restat e = true
  | .prune e => st0.work e = true ∧ st0.dirtyOut e = false ∧ Ready g st0 t e ∧
      (st0.isDirty e = true → ∀ n ∈ g.ins e, ∀ x, g.gen n = some x → Active st0 x → D g t n = some true)
  | .nostart e => st0.work e = true ∧ st0.isDirty e = true ∧ Ready g st0 t e
  | .fail e => st0.work e = true ∧ st0.isDirty e = true ∧ Ready g st0 t e

def Hist (g : Graph) (st0 : St) (t : List Event) : Prop := ∀ t1 ev t2, t = t1 ++ ev :: t2 → EvOk g st0 t1 ev

theorem hist_snoc {g : Graph} {st0 : St} {t : List Event} (h : Hist g st0 t) {ev : Event} (he : EvOk g st0 t ev) : Hist g st0 (t ++ [ev]) := by
  intro t1 ev' t2 heq
  rcases List.eq_nil_or_concat t2 with h2 | ⟨t2', l, h2⟩
  · subst h2
    have := List.append_inj_right' heq rfl
    cases this
    have := List.append_inj_left' heq rfl
    subst this
    exact he
  · subst h2
    have heq : t ++ [ev] = (t1 ++ ev' :: t2') ++ [l] := by rw [heq]; simp
    have := List.append_inj_left' heq rfl
    exact h t1 ev' t2' this

theorem hist_prefix {g : Graph} {st0 : St} {t s : List Event} (h : Hist g st0 (t ++ s)) : Hist g st0 t := by
  intro t1 ev t2 heq
  exact h t1 ev (t2 ++ s) (by rw [heq]; simp)

theorem Ended.mono {t s : List Event} {e : Nat} (h : Ended t e) : Ended (t ++ s) e := by
  rcases h with ⟨same, h⟩ | h
  · exact .inl ⟨same, List.mem_append_left _ h⟩
  · exact .inr (List.mem_append_left _ h)

theorem ready_of_ann {g : Graph} (wf : WF g) {targets : List Nat} {st0 : St} (s : Sched g targets st0) {t : List Event}
    (he : ∀ e, (endOf e t).isSome = true → Active st0 e) {e : Nat} (h : st0.work e = true) (ha : ann g t e true + ann g t e false = st0.nblock e) : Ready g st0 t e := by
  intro n hn x hx hact
  have := (ann_le wf s he h).2 ha n hn x hx hact
  unfold D at this
  rw [hx] at this
  rw [← endOf_isSome]
  simpa using this

theorem ready_queued {g : Graph} (wf : WF g) {c : Config} {targets : List Nat} {st0 : St} (s : Sched g targets st0) {r : Run} (I : RInv g c st0 r) {e : Nat}
    (hp : r.pending = []) (h : 0 < tot g r.st e + r.running.count e) : st0.work e = true ∧ st0.isDirty e = true ∧ Ready g st0 r.trace e := by
  obtain ⟨hw, hd, hn, _, _, _, _, p0, _⟩ := queued s I h
  refine ⟨hw, hd, ready_of_ann wf s I.ended hw ?_⟩
  have := (I.live e hw p0).blk
  rw [hn, hp] at this
  simpa using this

theorem hist_step {g : Graph} (wf : WF g) {c : Config} {targets : List Nat} {st0 : St} (s : Sched g targets st0) {r r' : Run} (I : RInv g c st0 r)
    (H : Hist g st0 r.trace) (h : Step g c r r') : Hist g st0 r'.trace := by
  cases h with
  | deliver e b rest hp =>
    rcases (rinv_deliver wf s I e b rest hp).2 with h1 | ⟨h1, hw, hd, _, ha, hf⟩
    · rw [h1]; exact H
    · rw [h1]
      apply hist_snoc H
      refine ⟨hw, hd, ready_of_ann wf s I.ended hw ha, fun hdi n hn x hx hact => ?_⟩
      have h2 := (ann_le wf s I.ended hw).2 ha n hn x hx hact
      have h3 := hf hdi
      unfold ann at h3
      rw [List.countP_eq_zero] at h3
      have h4 := h3 n hn
      cases hD : D g r.trace n with
      | none => rw [hD] at h2; cases h2
      | some v =>
        cases v with
        | true => rfl
        | false => rw [hD] at h4; exact absurd rfl h4
  | skip e q hp hq hs h =>
    have hpe : 0 < tot g r.st e + r.running.count e := by rw [tot_pop g r.st e e q hq, if_pos rfl]; omega
    obtain ⟨w, d, rd⟩ := ready_queued wf s I hp hpe
    have h1 : Hist g st0 (r.trace ++ [.start e]) := hist_snoc H ⟨w, d, rd⟩
    have h2 := hist_snoc (ev := .done e fun _ => false) h1 ⟨w, d, fun n hn x hx ha => Ended.mono (rd n hn x hx ha), fun n h => by cases h⟩
    show Hist g st0 (r.trace ++ [.start e, .done e fun _ => false])
    rw [List.append_assoc] at h2
    exact h2
  | start e q hp hq hs h =>
    have hpe : 0 < tot g r.st e + r.running.count e := by rw [tot_pop g r.st e e q hq, if_pos rfl]; omega
    exact hist_snoc H (ready_queued wf s I hp hpe)
  | nostart e q hp hq hs h =>
    have hpe : 0 < tot g r.st e + r.running.count e := by rw [tot_pop g r.st e e q hq, if_pos rfl]; omega
    exact hist_snoc H (ready_queued wf s I hp hpe)
  | done e same hp hr hs =>
    have hpe : 0 < tot g r.st e + r.running.count e := by rw [count_erase_mem r.running e e hr, if_pos rfl]; omega
    obtain ⟨w, d, rd⟩ := ready_queued wf s I hp hpe
    exact hist_snoc H ⟨w, d, rd, hs⟩
  | fail e hp hr =>
    have hpe : 0 < tot g r.st e + r.running.count e := by rw [count_erase_mem r.running e e hr, if_pos rfl]; omega
    exact hist_snoc H (ready_queued wf s I hp hpe)

theorem reach_hist {g : Graph} (wf : WF g) {c : Config} {targets : List Nat} {st0 : St} (s : Sched g targets st0) {r : Run} (h : Reach g c st0 r) : Hist g st0 r.trace := by
  induction h with
  | init => intro t1 ev t2 h; exact absurd h (by simp)
  | step hr h ih => exact hist_step wf s (reach_inv wf s hr) ih h

/-- An edge that waits for something is announced. -/
theorem active_of {g : Graph} (wf : WF g) {targets : List Nat} {st0 : St} (s : Sched g targets st0) {m x : Nat} (hm : st0.work m = true) (hn : Needs g m x) (hx : Active st0 x) :
    Active st0 m := by
  obtain ⟨n, hn, hg⟩ := hn
  refine ⟨hm, .inr ?_⟩
  rw [(s.ok hm).nblock]
  exact List.countP_pos_iff.2 ⟨n, hn, (blocks_iff wf s hm hn).2 ⟨x, hg, hx⟩⟩

theorem ready_all {g : Graph} (wf : WF g) {targets : List Nat} {st0 : St} (s : Sched g targets st0) {t : List Event} (H : Hist g st0 t) {e : Nat} (hw : st0.work e = true)
    (hr : Ready g st0 t e) : ∀ e', DependsOn g e e' → st0.work e' = true ∧ (Active st0 e' → Ended t e') := by
  intro e' hd
  induction hd with
  | single h =>
    obtain ⟨n, hn, hg⟩ := h
    exact ⟨((s.ok hw).closed n hn _ hg).1, hr n hn _ hg⟩
  | @tail m e' _ h ih =>
    obtain ⟨hm, ihm⟩ := ih
    have h' := h
    obtain ⟨n, hn, hg⟩ := h'
    refine ⟨((s.ok hm).closed n hn _ hg).1, fun ha => ?_⟩
    have hem := ihm (active_of wf s hm h ha)
    have : ∃ t1 ev t2, t = t1 ++ ev :: t2 ∧ Ready g st0 t1 m := by
      rcases hem with ⟨same, hmem⟩ | hmem
      · obtain ⟨t1, t2, heq⟩ := List.append_of_mem hmem
        exact ⟨t1, _, t2, heq, (H t1 _ t2 heq).2.2.1⟩
      · obtain ⟨t1, t2, heq⟩ := List.append_of_mem hmem
        exact ⟨t1, _, t2, heq, (H t1 _ t2 heq).2.2.1⟩
    obtain ⟨t1, ev, t2, heq, hrm⟩ := this
    rw [heq]
    exact Ended.mono (hrm n hn e' hg ha)

/-- A build that has stopped. -/
theorem stopped_idle {g : Graph} {c : Config} {r : Run} (h : Stopped g c r) (hj : 0 < c.maxjobs) (hf : r.numfail < c.maxfail) :
    r.pending = [] ∧ r.running = [] ∧ r.st.queue = [] := by
  have hp : r.pending = [] := by
    cases hp : r.pending with
    | nil => rfl
    | cons a l => exact absurd (Step.deliver r a.1 a.2 l hp) (h _)
  have hr : r.running = [] := by
    cases hr : r.running with
    | nil => rfl
    | cons a l => exact absurd (Step.fail r a hp (by rw [hr]; simp)) (h _)
  refine ⟨hp, hr, ?_⟩
  cases hq : r.st.queue with
  | nil => rfl
  | cons e q =>
    have hs : canStart c r := ⟨by rw [hr]; exact hj, hf⟩
    by_cases hk : g.phony e = true ∨ c.dryrun = true
    · exact absurd (Step.skip r e q hp hq hs hk) (h _)
    · have hk : g.phony e = false ∧ c.dryrun = false := by
        constructor
        · cases h1 : g.phony e with
          | false => rfl
          | true => exact absurd (.inl h1) hk
        · cases h1 : c.dryrun with
          | false => rfl
          | true => exact absurd (.inr h1) hk
      exact absurd (Step.start r e q hp hq hs hk) (h _)

theorem complete {g : Graph} (wf : WF g) {c : Config} {targets : List Nat} {st0 : St} (s : Sched g targets st0) {r : Run} (I : RInv g c st0 r) (h : Stopped g c r)
    (hj : 0 < c.maxjobs) (hf : 0 < c.maxfail) (hd : ∀ p, 0 < g.depth p) (hdry : c.dryrun = false ∨ ∀ e, g.pool e = none)
    (nofail : ∀ e, .fail e ∉ r.trace ∧ .nostart e ∉ r.trace) : ∀ e, Active st0 e → Ended r.trace e := by
  have nf : r.trace.countP isAnyFail = 0 := by
    rw [List.countP_eq_zero]
    intro ev hev hb
    cases ev with
    | fail x => exact (nofail x).1 hev
    | nostart x => exact (nofail x).2 hev
    | _ => cases hb
  obtain ⟨hp, hr, hq⟩ := stopped_idle h hj (by rw [I.fails, nf]; exact hf)
  have fz : ∀ e, r.trace.countP (isFail e) = 0 ∧ r.trace.countP (isNostart e) = 0 := by
    intro e
    constructor
    · rw [List.countP_eq_zero]
      intro ev hev hb
      cases ev with
      | fail x => exact (nofail x).1 hev
      | _ => cases hb
    · rw [List.countP_eq_zero]
      intro ev hev hb
      cases ev with
      | nostart x => exact (nofail x).2 hev
      | _ => cases hb
  have tz : ∀ e, tot g r.st e = 0 := by
    intro e
    unfold tot
    rw [hq]
    cases hpe : g.pool e with
    | none => rfl
    | some p =>
      dsimp only
      have hdry' : c.dryrun = false := by
        rcases hdry with h1 | h1
        · exact h1
        · rw [h1 e] at hpe; cases hpe
      have : r.st.poolq p = [] := by
        cases hpq : r.st.poolq p with
        | nil => rfl
        | cons a l =>
          have h1 := (I.pools p).full (by rw [hpq]; simp)
          have h2 := I.count p
          have h3 : r.trace.countP (leaks g c p) = 0 := by
            rw [List.countP_eq_zero]
            intro ev hev hb
            cases ev with
            | nostart x => exact (nofail x).2 hev
            | start x => unfold leaks at hb; rw [hdry'] at hb; cases hb
            | _ => cases hb
          rw [hq, hr, h3] at h2
          have := hd p
          simp at h2
          omega
      rw [this]; rfl
  intro e ha
  have hw := ha.1
  have G := (s.ok hw).grounded
  induction G with
  | @mk e _ ih =>
    -- everything the edge waits for has ended
    have hall : ∀ n ∈ g.ins e, ∀ x, g.gen n = some x → Active st0 x → Ended r.trace x := by
      intro n hn x hx hax
      exact ih x ⟨n, hn, hx⟩ hax hax.1
    rw [← endOf_isSome]
    by_cases h0 : r.trace.countP (isPrune e) = 0
    · have L := I.live e hw h0
      have hle := (ann_le wf s I.ended hw).1
      have hge : st0.nblock e ≤ ann g r.trace e true + ann g r.trace e false := by
        rw [(s.ok hw).nblock]
        unfold ann
        have : ∀ l : List Nat, (∀ n ∈ l, blocks g st0 n = true → (D g r.trace n == some true) = true ∨ (D g r.trace n == some false) = true) →
            l.countP (blocks g st0) ≤ l.countP (fun n => D g r.trace n == some true) + l.countP (fun n => D g r.trace n == some false) := by
          intro l
          induction l with
          | nil => intro _; simp
          | cons a l ih2 =>
            intro hl
            have := ih2 (fun n hn => hl n (List.mem_cons_of_mem _ hn))
            have ha := hl a (by simp)
            rw [List.countP_cons, List.countP_cons, List.countP_cons]
            cases hb : blocks g st0 a with
            | false => simp; omega
            | true =>
              rcases ha hb with h1 | h1
              · rw [h1]; simp; omega
              · rw [h1]; simp; omega
        apply this
        intro n hn hb
        obtain ⟨x, hx, hax⟩ := (blocks_iff wf s hw hn).1 hb
        have he := (endOf_isSome x r.trace).2 (hall n hn x hx hax)
        have hD : (D g r.trace n).isSome = true := by
          unfold D; rw [hx]; simpa using he
        cases hv : D g r.trace n with
        | none => rw [hv] at hD; cases hD
        | some v => cases v <;> simp
      have hb := L.blk
      rw [hp] at hb
      simp at hb
      have hnb : r.st.nblock e = 0 := by omega
      have hdirty : st0.isDirty e = true := by
        cases hdi : st0.isDirty e with
        | true => rfl
        | false =>
          have h1 := L.clean hdi
          have h2 : 0 < st0.nblock e := by
            rcases ha.2 with h3 | h3
            · rw [hdi] at h3; cases h3
            · exact h3
          have h3 : st0.dirtyOut e = false := by
            unfold St.isDirty at hdi
            rw [Bool.or_eq_false_iff] at hdi
            exact hdi.2
          have := L.pos h3 h2
          omega
      have ho := I.one e hw
      rw [if_pos ⟨hdirty, hnb⟩, tz e, hr, (fz e).1, (fz e).2] at ho
      simp at ho
      cases hE : endOf e r.trace with
      | some _ => rfl
      | none =>
        have := ((endOf_none e r.trace).1 hE).1
        omega
    · cases hE : endOf e r.trace with
      | some _ => rfl
      | none => exact absurd ((endOf_none e r.trace).1 hE).2 h0

/-- How many announcements the end of an edge makes. -/
def cost (g : Graph) (e : Nat) : Nat := (announce g e fun _ => true).length

theorem announce_length (g : Graph) (e : Nat) (same : Nat → Bool) : (announce g e same).length = cost g e := by
  unfold cost announce
  induction g.outs e with
  | nil => rfl
  | cons a l ih => rw [List.flatMap_cons, List.flatMap_cons, List.length_append, List.length_append, ih, List.length_map, List.length_map]

/-- Has the edge ended or failed? -/
def over (r : Run) (e : Nat) : Bool := r.trace.any fun ev => isDone e ev || isPrune e ev || isFail e ev || isNostart e ev

def weight (g : Graph) (r : Run) (e : Nat) : Nat := if over r e then 0 else if e ∈ r.running then 1 + cost g e else 2 + cost g e

def measure (g : Graph) (r : Run) : Nat := r.pending.length + ((List.range g.edges).map (weight g r)).sum

theorem sum_change (l : List Nat) (nd : l.Nodup) (w w' : Nat → Nat) (e : Nat) (he : e ∈ l) (ho : ∀ x, x ≠ e → w' x = w x) (k : Nat) (hk : w' e + k = w e) :
    (l.map w').sum + k = (l.map w).sum := by
  induction l with
  | nil => cases he
  | cons a l ih =>
    rw [List.nodup_cons] at nd
    simp only [List.map_cons, List.sum_cons]
    by_cases ha : a = e
    · subst ha
      have : l.map w' = l.map w := List.map_congr_left fun x hx => ho x (fun h => nd.1 (by rw [← h]; exact hx))
      rw [this]; omega
    · have := ih nd.2 (by
        rcases List.mem_cons.1 he with h | h
        · exact absurd h.symm ha
        · exact h)
      rw [ho a ha]; omega

theorem over_false {g : Graph} {c : Config} {targets : List Nat} {st0 : St} (_ : Sched g targets st0) {r : Run} (e : Nat)
    (h : r.trace.countP (isDone e) = 0 ∧ r.trace.countP (isFail e) = 0 ∧ r.trace.countP (isNostart e) = 0 ∧ r.trace.countP (isPrune e) = 0) (_ : RInv g c st0 r) : over r e = false := by
  obtain ⟨h1, h2, h3, h4⟩ := h
  rw [List.countP_eq_zero] at h1 h2 h3 h4
  unfold over
  rw [List.any_eq_false]
  intro ev hev
  have a := h1 ev hev
  have b := h2 ev hev
  have c := h3 ev hev
  have d := h4 ev hev
  simp_all

theorem deliver_shape (g : Graph) (r : Run) (e : Nat) (b : Bool) : (deliver g r e b).running = r.running ∧
    ((deliver g r e b).trace = r.trace ∧ (deliver g r e b).pending = r.pending ∨
     (deliver g r e b).trace = r.trace ++ [.prune e] ∧ (deliver g r e b).pending = announce g e (fun _ => true) ++ r.pending) := by
  unfold deliver
  by_cases h1 : (!r.st.work e) = true
  · rw [if_pos h1]; exact ⟨rfl, .inl ⟨rfl, rfl⟩⟩
  · rw [if_neg h1]
    by_cases h2 : (!(if b = true then r.st.dirtyOut e else r.st.isDirty e)) = true
    · rw [if_pos h2]
      dsimp only
      by_cases h3 : upd r.st.nprune e (dec (r.st.nprune e)) e = 0
      · rw [if_pos h3]; exact ⟨rfl, .inr ⟨rfl, rfl⟩⟩
      · rw [if_neg h3]; exact ⟨rfl, .inl ⟨rfl, rfl⟩⟩
    · rw [if_neg h2]; exact ⟨rfl, .inl ⟨rfl, rfl⟩⟩

theorem measure_step {g : Graph} (wf : WF g) {c : Config} {targets : List Nat} {st0 : St} (s : Sched g targets st0) {r r' : Run} (I : RInv g c st0 r) (h : Step g c r r') :
    measure g r' < measure g r := by
  have nd : (List.range g.edges).Nodup := List.nodup_range
  have I' := rinv_step wf s I h
  cases h with
  | deliver e b rest hp =>
    have D := rinv_deliver wf s I e b rest hp
    unfold measure
    -- what happens to the fields
    have shape := deliver_shape g { r with pending := rest } e b
    dsimp only at shape
    have hrun := shape.1
    rcases D.2 with h1 | ⟨h1, hw, hdo, hE, _, _⟩
    · have hpend : (deliver g { r with pending := rest } e b).pending = rest := by
        rcases shape.2 with h2 | h2
        · exact h2.2
        · exact absurd (h1.symm.trans h2.1) (by simp)
      have hwt : ∀ x, weight g (deliver g { r with pending := rest } e b) x = weight g r x := by
        intro x
        unfold weight over
        rw [h1, hrun]
      rw [hpend, hp, List.map_congr_left (fun x _ => hwt x), List.length_cons]
      omega
    · have hpend : (deliver g { r with pending := rest } e b).pending = announce g e (fun _ => true) ++ rest := by
        rcases shape.2 with h2 | h2
        · exact absurd (h2.1.symm.trans h1) (by simp)
        · exact h2.2
      have hwt : ∀ x, x ≠ e → weight g (deliver g { r with pending := rest } e b) x = weight g r x := by
        intro x hx
        have : ¬ e = x := fun h => hx h.symm
        unfold weight over
        rw [h1, hrun, List.any_append]
        simp [isDone, isPrune, isFail, isNostart, this]
      have hover : over (deliver g { r with pending := rest } e b) e = true := by
        unfold over
        rw [h1, List.any_append]
        simp [isPrune]
      -- the edge was not running
      have hL := I'.dead e hw (by rw [h1, List.countP_append]; simp [isPrune])
      have hone := I'.one e hw
      rw [if_neg (by rintro ⟨_, h⟩; have := hL.blocked; omega), h1, hrun] at hone
      rw [List.countP_append, List.countP_append, List.countP_append] at hone
      have hnot : e ∉ r.running := List.count_eq_zero.1 (by omega)
      have hof : over r e = false := over_false s e ⟨by omega, by omega, by omega, ((endOf_none e r.trace).1 hE).2⟩ I
      have we : weight g r e = 2 + cost g e := by
        unfold weight; rw [hof]; simp [hnot]
      have we' : weight g (deliver g { r with pending := rest } e b) e = 0 := by
        unfold weight; rw [hover]; rfl
      have := sum_change _ nd (weight g r) (weight g (deliver g { r with pending := rest } e b)) e (List.mem_range.2 (s.inv.lt e hw)) hwt (2 + cost g e) (by rw [we, we']; omega)
      rw [hpend, hp, List.length_append, announce_length, List.length_cons]
      omega
  | skip e q hp hq hs h =>
    have hpe : 0 < tot g r.st e + r.running.count e := by rw [tot_pop g r.st e e q hq, if_pos rfl]; omega
    obtain ⟨hw, hd, hn, h1, d0, f0, n0, p0, hlt⟩ := queued s I hpe
    have hnot : e ∉ r.running := List.count_eq_zero.1 (by
      have := tot_pop g r.st e e q hq
      rw [if_pos rfl] at this; omega)
    have hof : over r e = false := over_false s e ⟨d0, f0, n0, p0⟩ I
    have we : weight g r e = 2 + cost g e := by unfold weight; rw [hof]; simp [hnot]
    unfold measure
    have := sum_change _ nd (weight g r) (weight g { r with st := { r.st with queue := q }, pending := announce g e (fun _ => false), trace := r.trace ++ [.start e, .done e fun _ => false] })
      e (List.mem_range.2 hlt) (by
        intro x hx
        have hex : ¬ e = x := fun h => hx h.symm
        unfold weight over
        dsimp only
        rw [List.any_append]
        simp [isDone, isPrune, isFail, isNostart, hex]) (2 + cost g e) (by
        rw [we]
        unfold weight over
        dsimp only
        rw [List.any_append]
        simp [isDone])
    dsimp only at this ⊢
    rw [announce_length, hp]
    simp only [List.length_nil]
    omega
  | start e q hp hq hs h =>
    have hpe : 0 < tot g r.st e + r.running.count e := by rw [tot_pop g r.st e e q hq, if_pos rfl]; omega
    obtain ⟨hw, hd, hn, h1, d0, f0, n0, p0, hlt⟩ := queued s I hpe
    have hnot : e ∉ r.running := List.count_eq_zero.1 (by
      have := tot_pop g r.st e e q hq
      rw [if_pos rfl] at this; omega)
    have hof : over r e = false := over_false s e ⟨d0, f0, n0, p0⟩ I
    have we : weight g r e = 2 + cost g e := by unfold weight; rw [hof]; simp [hnot]
    unfold measure
    have := sum_change _ nd (weight g r) (weight g { r with st := { r.st with queue := q }, running := e :: r.running, trace := r.trace ++ [.start e] })
      e (List.mem_range.2 hlt) (by
        intro x hx
        have hex : ¬ e = x := fun h => hx h.symm
        unfold weight over
        dsimp only
        rw [List.any_append]
        simp [isDone, isPrune, isFail, isNostart, hx]) 1 (by
        rw [we]
        unfold over at hof
        unfold weight over
        dsimp only
        rw [List.any_append, hof]
        simp [isDone, isPrune, isFail, isNostart]
        omega)
    dsimp only at this ⊢
    omega
  | nostart e q hp hq hs h =>
    have hpe : 0 < tot g r.st e + r.running.count e := by rw [tot_pop g r.st e e q hq, if_pos rfl]; omega
    obtain ⟨hw, hd, hn, h1, d0, f0, n0, p0, hlt⟩ := queued s I hpe
    have hnot : e ∉ r.running := List.count_eq_zero.1 (by
      have := tot_pop g r.st e e q hq
      rw [if_pos rfl] at this; omega)
    have hof : over r e = false := over_false s e ⟨d0, f0, n0, p0⟩ I
    have we : weight g r e = 2 + cost g e := by unfold weight; rw [hof]; simp [hnot]
    unfold measure
    have := sum_change _ nd (weight g r) (weight g { r with st := { r.st with queue := q }, numfail := r.numfail + 1, trace := r.trace ++ [.nostart e] })
      e (List.mem_range.2 hlt) (by
        intro x hx
        have hex : ¬ e = x := fun h => hx h.symm
        unfold weight over
        dsimp only
        rw [List.any_append]
        simp [isDone, isPrune, isFail, isNostart, hex]) (2 + cost g e) (by
        rw [we]
        unfold weight over
        dsimp only
        rw [List.any_append]
        simp [isNostart])
    dsimp only at this ⊢
    omega
  | done e same hp hr hs =>
    have hpe : 0 < tot g r.st e + r.running.count e := by rw [count_erase_mem r.running e e hr, if_pos rfl]; omega
    obtain ⟨hw, hd, hn, h1, d0, f0, n0, p0, hlt⟩ := queued s I hpe
    have hof : over r e = false := over_false s e ⟨d0, f0, n0, p0⟩ I
    have we : weight g r e = 1 + cost g e := by unfold weight; rw [hof]; simp [hr]
    unfold measure
    have := sum_change _ nd (weight g r) (weight g { r with st := release g r.st e, running := r.running.erase e, pending := announce g e same, trace := r.trace ++ [.done e same] })
      e (List.mem_range.2 hlt) (by
        intro x hx
        have hex : ¬ e = x := fun h => hx h.symm
        unfold weight over
        dsimp only
        rw [List.any_append]
        simp [isDone, isPrune, isFail, isNostart, hex, List.mem_erase_of_ne hx]) (1 + cost g e) (by
        rw [we]
        unfold weight over
        dsimp only
        rw [List.any_append]
        simp [isDone])
    dsimp only at this ⊢
    rw [announce_length, hp]
    simp only [List.length_nil]
    omega
  | fail e hp hr =>
    have hpe : 0 < tot g r.st e + r.running.count e := by rw [count_erase_mem r.running e e hr, if_pos rfl]; omega
    obtain ⟨hw, hd, hn, h1, d0, f0, n0, p0, hlt⟩ := queued s I hpe
    have hof : over r e = false := over_false s e ⟨d0, f0, n0, p0⟩ I
    have we : weight g r e = 1 + cost g e := by unfold weight; rw [hof]; simp [hr]
    unfold measure
    have := sum_change _ nd (weight g r) (weight g { r with st := release g r.st e, running := r.running.erase e, numfail := r.numfail + 1, trace := r.trace ++ [.fail e] })
      e (List.mem_range.2 hlt) (by
        intro x hx
        have hex : ¬ e = x := fun h => hx h.symm
        unfold weight over
        dsimp only
        rw [List.any_append]
        simp [isDone, isPrune, isFail, isNostart, hex, List.mem_erase_of_ne hx]) (1 + cost g e) (by
        rw [we]
        unfold weight over
        dsimp only
        rw [List.any_append]
        simp [isFail])
    dsimp only at this ⊢
    omega

end Muon.Sched
