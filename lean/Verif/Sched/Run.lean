import Verif.Sched.Dirty
/-
Invariants of a build: all schedules.
-/
namespace Muon.Sched
open Muon Spec

def isStart (e : Nat) : Event → Bool | .start x => x == e | _ => false
def isDone (e : Nat) : Event → Bool | .done x _ => x == e | _ => false
def isFail (e : Nat) : Event → Bool | .fail x => x == e | _ => false
def isNostart (e : Nat) : Event → Bool | .nostart x => x == e | _ => false
def isPrune (e : Nat) : Event → Bool | .prune x => x == e | _ => false

/-- How an edge has ended, if this event says so: which outputs are unchanged. -/
def endEv (e : Nat) : Event → Option (Nat → Bool)
  | .done x same => if x = e then some same else none
  | .prune x => if x = e then some (fun _ => true) else none
  | _ => none

def endOf (e : Nat) (t : List Event) : Option (Nat → Bool) := t.findSome? (endEv e)

/-- Has the node been announced, and as pruned? -/
def D (g : Graph) (t : List Event) (n : Nat) : Option Bool := (g.gen n).bind fun x => (endOf x t).map fun same => same n

/-- Number of inputs announced, with a given flag. -/
def ann (g : Graph) (t : List Event) (e : Nat) (b : Bool) : Nat := (g.ins e).countP fun n => D g t n == some b

theorem endOf_append (e : Nat) (t s : List Event) : endOf e (t ++ s) = (endOf e t).or (endOf e s) := List.findSome?_append

theorem endOf_none (e : Nat) (t : List Event) : endOf e t = none ↔ t.countP (isDone e) = 0 ∧ t.countP (isPrune e) = 0 := by
  unfold endOf
  rw [List.findSome?_eq_none_iff, List.countP_eq_zero, List.countP_eq_zero]
  constructor
  · intro h
    refine ⟨fun ev hev hd => ?_, fun ev hev hd => ?_⟩
    · have := h ev hev
      cases ev <;> simp_all [isDone, endEv]
    · have := h ev hev
      cases ev <;> simp_all [isPrune, endEv]
  · rintro ⟨h1, h2⟩ ev hev
    have a := h1 ev hev
    have b := h2 ev hev
    cases ev <;> simp_all [isDone, isPrune, endEv]

theorem count_announce (g : Graph) (wf : WF g) (x : Nat) (same : Nat → Bool) (e : Nat) (b : Bool) :
    (announce g x same).count (e, b) = (g.ins e).countP fun n => decide (n ∈ g.outs x) && same n == b := by
  unfold announce
  have nd := wf.outs x
  generalize g.outs x = l at nd
  induction l with
  | nil => simp
  | cons a l ih =>
    rw [List.nodup_cons] at nd
    rw [List.flatMap_cons, List.count_append, ih nd.2]
    have h1 : ((g.use a).map fun u => (u, same a)).count (e, b) = if same a = b then (g.ins e).count a else 0 := by
      rw [← wf.use a e]
      generalize g.use a = us
      induction us with
      | nil => simp
      | cons u us ih =>
        rw [List.map_cons, List.count_cons, List.count_cons, ih]
        by_cases hs : same a = b
        · rw [if_pos hs, if_pos hs]
          by_cases hu : u = e
          · simp [hu, hs]
          · simp [hu]
        · rw [if_neg hs, if_neg hs]; simp [hs]
    rw [h1]
    generalize g.ins e = ins
    induction ins with
    | nil => simp
    | cons i ins ih2 =>
      rw [List.count_cons, List.countP_cons, List.countP_cons]
      have : (if same a = b then List.count a ins + (if (i == a) = true then 1 else 0) else 0) =
          (if same a = b then List.count a ins else 0) + if same a = b ∧ i = a then 1 else 0 := by
        by_cases hs : same a = b
        · simp [hs]
        · simp [hs]
      rw [this]
      by_cases hi : i = a
      · subst hi
        have hn : ¬ i ∈ l := nd.1
        by_cases hs : same i = b
        · simp [hs, hn] at ih2 ⊢; omega
        · simp [hs, hn] at ih2 ⊢; omega
      · simp [hi] at ih2 ⊢; omega

/-- A node of an edge that ends now. -/
theorem D_end (g : Graph) (t : List Event) (ev : List Event) (x : Nat) (same : Nat → Bool) (h0 : endOf x t = none) (hx : endOf x ev = some same)
    (ho : ∀ y, y ≠ x → endOf y ev = none) (n : Nat) : D g (t ++ ev) n = if g.gen n = some x then some (same n) else D g t n := by
  unfold D
  cases hg : g.gen n with
  | none => simp
  | some y =>
    dsimp only [Option.bind_some]
    rw [endOf_append]
    by_cases hy : y = x
    · subst hy; rw [h0, hx]; simp
    · rw [ho y hy]; simp [hy]

theorem ann_end (g : Graph) (wf : WF g) (t ev : List Event) (x : Nat) (same : Nat → Bool) (hlt : x < g.edges) (h0 : endOf x t = none) (hx : endOf x ev = some same)
    (ho : ∀ y, y ≠ x → endOf y ev = none) (e : Nat) (b : Bool) : ann g (t ++ ev) e b = ann g t e b + (announce g x same).count (e, b) := by
  rw [count_announce g wf]
  unfold ann
  have h1 : ∀ n, (D g (t ++ ev) n == some b) = ((D g t n == some b) || (decide (n ∈ g.outs x) && same n == b)) ∧
      ¬ ((D g t n == some b) = true ∧ (decide (n ∈ g.outs x) && same n == b) = true) := by
    intro n
    rw [D_end g t ev x same h0 hx ho]
    by_cases hg : g.gen n = some x
    · have hm : n ∈ g.outs x := ((wf.gen n x).1 hg).2
      have hd : D g t n = none := by unfold D; rw [hg]; simp [h0]
      rw [if_pos hg, hd]
      simp [hm]
    · have hm : n ∉ g.outs x := fun h => hg ((wf.gen n x).2 ⟨hlt, h⟩)
      rw [if_neg hg]; simp [hm]
  generalize g.ins e = l
  induction l with
  | nil => rfl
  | cons a l ih =>
    rw [List.countP_cons, List.countP_cons, List.countP_cons, ih]
    obtain ⟨h2, h3⟩ := h1 a
    rw [h2]
    cases p : (D g t a == some b) <;> cases q : (decide (a ∈ g.outs x) && same a == b)
    · simp
    · simp; omega
    · simp; omega
    · exact absurd ⟨p, q⟩ h3

theorem ann_same (g : Graph) (t ev : List Event) (ho : ∀ y, endOf y ev = none) (e : Nat) (b : Bool) : ann g (t ++ ev) e b = ann g t e b := by
  unfold ann D
  apply List.countP_congr
  intro n _
  cases g.gen n with
  | none => exact Iff.rfl
  | some y =>
    dsimp only [Option.bind_some]
    rw [endOf_append, ho y]; simp

/-- The edge will be announced in this build. -/
def Active (st0 : St) (e : Nat) : Prop := st0.work e = true ∧ (st0.isDirty e = true ∨ 0 < st0.nblock e)

theorem blocks_iff {g : Graph} (wf : WF g) {targets : List Nat} {st0 : St} (s : Sched g targets st0) {e : Nat} (h : st0.work e = true) {n : Nat} (hn : n ∈ g.ins e) :
    blocks g st0 n = true ↔ ∃ x, g.gen n = some x ∧ Active st0 x := by
  unfold blocks
  cases hg : g.gen n with
  | none => rw [s.inv.src n hg]; simp
  | some x =>
    dsimp only
    have hw := ((s.ok h).closed n hn x hg).1
    rw [(s.ok hw).outs n ((wf.gen n x).1 hg).2, Bool.or_eq_true, decide_eq_true_iff]
    constructor
    · intro k; exact ⟨x, rfl, hw, k⟩
    · rintro ⟨y, hy, _, k⟩; cases hy; exact k

theorem countP_two {α : Type} (l : List α) (p q r : α → Bool) (h : ∀ x ∈ l, (p x = true ∨ q x = true) → r x = true) (d : ∀ x ∈ l, ¬ (p x = true ∧ q x = true)) :
    l.countP p + l.countP q ≤ l.countP r ∧ (l.countP p + l.countP q = l.countP r → ∀ x ∈ l, r x = true → p x = true ∨ q x = true) := by
  induction l with
  | nil => exact ⟨by simp, fun _ x hx => by cases hx⟩
  | cons a l ih =>
    obtain ⟨i1, i2⟩ := ih (fun x hx => h x (List.mem_cons_of_mem _ hx)) (fun x hx => d x (List.mem_cons_of_mem _ hx))
    rw [List.countP_cons, List.countP_cons, List.countP_cons]
    have ha := h a (by simp)
    have da := d a (by simp)
    cases hp : p a <;> cases hq : q a <;> cases hr : r a <;> simp_all
    all_goals try omega
    · exact ⟨by omega, fun he => i2 (by omega)⟩
    · exact ⟨by omega, fun he => i2 (by omega)⟩

theorem ann_le {g : Graph} (wf : WF g) {targets : List Nat} {st0 : St} (s : Sched g targets st0) {t : List Event}
    (he : ∀ e, (endOf e t).isSome = true → Active st0 e) {e : Nat} (h : st0.work e = true) :
    ann g t e true + ann g t e false ≤ st0.nblock e ∧
    (ann g t e true + ann g t e false = st0.nblock e → ∀ n ∈ g.ins e, ∀ x, g.gen n = some x → Active st0 x → (D g t n).isSome = true) := by
  rw [(s.ok h).nblock]
  unfold ann
  have := countP_two (g.ins e) (fun n => D g t n == some true) (fun n => D g t n == some false) (blocks g st0) (by
    intro n hn hd
    rw [blocks_iff wf s h hn]
    have hs : (D g t n).isSome = true := by
      rcases hd with hd | hd
      · rw [eq_of_beq hd]; rfl
      · rw [eq_of_beq hd]; rfl
    unfold D at hs
    cases hg : g.gen n with
    | none => rw [hg] at hs; cases hs
    | some x =>
      rw [hg] at hs
      exact ⟨x, rfl, he x (by simpa using hs)⟩) (by
    rintro n _ ⟨h1, h2⟩
    rw [eq_of_beq h1] at h2; cases h2)
  refine ⟨this.1, fun heq n hn x hx ha => ?_⟩
  rcases this.2 heq n hn ((blocks_iff wf s h hn).2 ⟨x, hx, ha⟩) with h1 | h1
  · rw [eq_of_beq h1]; rfl
  · rw [eq_of_beq h1]; rfl

/-- An edge that has not been pruned. -/
structure Live (g : Graph) (st0 : St) (r : Run) (e : Nat) : Prop where
  blk : r.st.nblock e + ann g r.trace e true + ann g r.trace e false = st0.nblock e + r.pending.count (e, true) + r.pending.count (e, false)
  clean : st0.isDirty e = false → r.st.nprune e = r.st.nblock e
  prune : st0.dirtyOut e = false → st0.isDirty e = true → r.st.nprune e + ann g r.trace e true = st0.nblock e + r.pending.count (e, true)
  pos : st0.dirtyOut e = false → 0 < st0.nblock e → 0 < r.st.nprune e

/-- An edge that has been pruned. -/
structure Dead (g : Graph) (st0 : St) (r : Run) (e : Nat) : Prop where
  all : ann g r.trace e true + ann g r.trace e false = st0.nblock e
  none : r.pending.count (e, true) = 0 ∧ r.pending.count (e, false) = 0
  blocked : 0 < r.st.nblock e
  clean : st0.dirtyOut e = false
  once : r.trace.countP (isPrune e) = 1

/-- Slots of pool `p` that are not given back. -/
def leaks (g : Graph) (c : Config) (p : Nat) : Event → Bool
  | .nostart e => inPool g p e
  | .start e => c.dryrun && inPool g p e
  | _ => false

def isAnyFail : Event → Bool | .nostart _ => true | .fail _ => true | _ => false

structure RInv (g : Graph) (c : Config) (st0 : St) (r : Run) : Prop where
  work : r.st.work = st0.work
  dirtyIn : r.st.dirtyIn = st0.dirtyIn
  dirtyOut : r.st.dirtyOut = st0.dirtyOut
  ended : ∀ e, (endOf e r.trace).isSome = true → Active st0 e
  lePend : ∀ e b, r.pending.count (e, b) ≤ ann g r.trace e b
  live : ∀ e, st0.work e = true → r.trace.countP (isPrune e) = 0 → Live g st0 r e
  dead : ∀ e, st0.work e = true → 0 < r.trace.countP (isPrune e) → Dead g st0 r e
  one : ∀ e, st0.work e = true → tot g r.st e + r.running.count e + r.trace.countP (isDone e) + r.trace.countP (isFail e) + r.trace.countP (isNostart e) =
    if st0.isDirty e = true ∧ r.st.nblock e = 0 then 1 else 0
  foreign : ∀ e, st0.work e = false → tot g r.st e = 0 ∧ r.running.count e = 0 ∧ r.trace.countP (isDone e) = 0 ∧ r.trace.countP (isFail e) = 0 ∧
    r.trace.countP (isNostart e) = 0
  starts : ∀ e, r.trace.countP (isStart e) = r.running.count e + r.trace.countP (isDone e) + r.trace.countP (isFail e)
  pools : ∀ p, PoolOk g r.st p
  count : ∀ p, r.st.numjobs p = r.st.queue.countP (inPool g p) + r.running.countP (inPool g p) + r.trace.countP (leaks g c p)
  jobs : r.running.length ≤ c.maxjobs
  fails : r.numfail = r.trace.countP isAnyFail
  real : ∀ e ∈ r.running, g.phony e = false

theorem nil_count (g : Graph) (e : Nat) (b : Bool) : ann g [] e b = 0 := by
  unfold ann
  rw [List.countP_eq_zero]
  intro n _
  unfold D
  cases g.gen n <;> simp [endOf]

theorem rinv_init {g : Graph} {c : Config} {targets : List Nat} {st0 : St} (s : Sched g targets st0) : RInv g c st0 { st := st0 } where
  work := rfl
  dirtyIn := rfl
  dirtyOut := rfl
  ended e h := by cases h
  lePend e b := by simp
  live e h _ := by
    have F := s.ok h
    refine ⟨?_, ?_, ?_, ?_⟩
    · simp [nil_count]
    · intro hc
      have : st0.dirtyOut e = false := by
        unfold St.isDirty at hc
        rw [Bool.or_eq_false_iff] at hc
        exact hc.2
      exact F.nprune this
    · intro hd _
      simp [nil_count, F.nprune hd]
    · intro hd hp
      show 0 < st0.nprune e
      rw [F.nprune hd]; exact hp
  dead e _ h := by simp at h
  one e h := by
    have F := s.ok h
    simp
    rw [F.tot]
  foreign e h := by
    refine ⟨s.inv.notq e (fun f => ?_), rfl, rfl, rfl, rfl⟩
    rw [f.1] at h; cases h
  starts e := by simp
  pools := s.inv.pools
  count p := by simp [s.inv.count p]
  jobs := by simp
  fails := rfl
  real e h := by cases h

theorem Live.grow {g : Graph} {st0 : St} {r r' : Run} {e : Nat} (h : Live g st0 r e) (hb : r'.st.nblock e = r.st.nblock e) (hp : r'.st.nprune e = r.st.nprune e)
    (k : Bool → Nat) (ha : ∀ b, ann g r'.trace e b = ann g r.trace e b + k b) (hc : ∀ b, r'.pending.count (e, b) = r.pending.count (e, b) + k b) : Live g st0 r' e := by
  constructor
  · have := h.blk
    rw [hb, ha, ha, hc, hc]; omega
  · intro hd; rw [hp, hb]; exact h.clean hd
  · intro h1 h2
    have := h.prune h1 h2
    rw [hp, ha, hc]; omega
  · intro h1 h2; rw [hp]; exact h.pos h1 h2

theorem Dead.grow {g : Graph} {st0 : St} {r r' : Run} {e : Nat} (h : Dead g st0 r e) (hb : r'.st.nblock e = r.st.nblock e)
    (k : Bool → Nat) (ha : ∀ b, ann g r'.trace e b = ann g r.trace e b + k b) (hc : ∀ b, r'.pending.count (e, b) = r.pending.count (e, b) + k b)
    (hle : ann g r'.trace e true + ann g r'.trace e false ≤ st0.nblock e) (ho : r'.trace.countP (isPrune e) = r.trace.countP (isPrune e)) : Dead g st0 r' e := by
  have h1 := h.all
  have h2 := h.none
  have a1 := ha true
  have a2 := ha false
  have c1 := hc true
  have c2 := hc false
  exact ⟨by omega, ⟨by omega, by omega⟩, by rw [hb]; exact h.blocked, h.clean, by rw [ho]; exact h.once⟩

/-- The part of the invariant about counters, when nothing but announcements happens to edge `e`. -/
theorem counters_grow {g : Graph} (wf : WF g) {c : Config} {targets : List Nat} {st0 : St} (s : Sched g targets st0) {r r' : Run} (I : RInv g c st0 r)
    (ended : ∀ e, (endOf e r'.trace).isSome = true → Active st0 e) (hb : r'.st.nblock = r.st.nblock) (hp : r'.st.nprune = r.st.nprune)
    (k : Nat → Bool → Nat) (ha : ∀ e b, ann g r'.trace e b = ann g r.trace e b + k e b) (hc : ∀ e b, r'.pending.count (e, b) = r.pending.count (e, b) + k e b)
    (ho : ∀ e, r'.trace.countP (isPrune e) = r.trace.countP (isPrune e)) :
    (∀ e b, r'.pending.count (e, b) ≤ ann g r'.trace e b) ∧ (∀ e, st0.work e = true → r'.trace.countP (isPrune e) = 0 → Live g st0 r' e) ∧
    (∀ e, st0.work e = true → 0 < r'.trace.countP (isPrune e) → Dead g st0 r' e) := by
  refine ⟨fun e b => ?_, fun e hw h0 => ?_, fun e hw h0 => ?_⟩
  · have := I.lePend e b
    rw [ha, hc]; omega
  · exact (I.live e hw (by rw [← ho]; exact h0)).grow (by rw [hb]) (by rw [hp]) (k e) (ha e) (hc e)
  · exact (I.dead e hw (by rw [← ho]; exact h0)).grow (by rw [hb]) (k e) (ha e) (hc e) (ann_le wf s ended hw).1 (ho e)

/-- Edges at the head of the queue are ready to run. -/
theorem queued {g : Graph} {c : Config} {targets : List Nat} {st0 : St} (s : Sched g targets st0) {r : Run} (I : RInv g c st0 r) {e : Nat}
    (h : 0 < tot g r.st e + r.running.count e) : st0.work e = true ∧ st0.isDirty e = true ∧ r.st.nblock e = 0 ∧ tot g r.st e + r.running.count e = 1 ∧
      r.trace.countP (isDone e) = 0 ∧ r.trace.countP (isFail e) = 0 ∧ r.trace.countP (isNostart e) = 0 ∧ r.trace.countP (isPrune e) = 0 ∧ e < g.edges := by
  cases hw : st0.work e with
  | false =>
    have := I.foreign e hw
    omega
  | true =>
    have := I.one e hw
    by_cases hc : st0.isDirty e = true ∧ r.st.nblock e = 0
    · rw [if_pos hc] at this
      refine ⟨rfl, hc.1, hc.2, by omega, by omega, by omega, by omega, ?_, s.inv.lt e hw⟩
      cases h0 : r.trace.countP (isPrune e) with
      | zero => rfl
      | succ k =>
        have := (I.dead e hw (by omega)).blocked
        omega
    · rw [if_neg hc] at this
      omega

theorem tot_pop (g : Graph) (st : St) (e x : Nat) (q : List Nat) (hq : st.queue = e :: q) : tot g st x = tot g { st with queue := q } x + if x = e then 1 else 0 := by
  unfold tot
  dsimp only
  rw [hq, List.count_cons]
  by_cases h : x = e
  · subst h; simp; omega
  · have : ¬ e = x := fun k => h k.symm
    simp [h, this]


/-- What is left to check when an edge that has been taken from the queue or has been running ends or fails. -/
theorem isDirty_eq {g : Graph} {c : Config} {st0 : St} {r : Run} (I : RInv g c st0 r) (e : Nat) : r.st.isDirty e = st0.isDirty e := by
  unfold St.isDirty; rw [I.dirtyIn, I.dirtyOut]

theorem inPool_phony (g : Graph) (p e : Nat) (h : g.phony e = true) : inPool g p e = false := by
  unfold inPool; rw [h]; simp

theorem rinv_skip {g : Graph} (wf : WF g) {c : Config} {targets : List Nat} {st0 : St} (s : Sched g targets st0) {r : Run} (I : RInv g c st0 r)
    (e : Nat) (q : List Nat) (hp : r.pending = []) (hq : r.st.queue = e :: q) (h : g.phony e = true ∨ c.dryrun = true) :
    RInv g c st0 { r with st := { r.st with queue := q }, pending := announce g e (fun _ => false), trace := r.trace ++ [.start e, .done e fun _ => false] } := by
  have hpop := fun x => tot_pop g r.st e x q hq
  have hpe : 0 < tot g r.st e + r.running.count e := by rw [hpop e, if_pos rfl]; omega
  obtain ⟨hw, hd, hn, h1, d0, f0, n0, p0, hlt⟩ := queued s I hpe
  have he0 : endOf e r.trace = none := (endOf_none e r.trace).2 ⟨d0, p0⟩
  have hx : endOf e [Event.start e, .done e fun _ => false] = some (fun _ => false) := by simp [endOf, List.findSome?, endEv]
  have ho : ∀ y, y ≠ e → endOf y [Event.start e, .done e fun _ => false] = none := by
    intro y hy
    have : ¬ e = y := fun h => hy h.symm
    simp [endOf, endEv, this]
  have ended : ∀ x, (endOf x (r.trace ++ [Event.start e, .done e fun _ => false])).isSome = true → Active st0 x := by
    intro x hxs
    by_cases hxe : x = e
    · subst hxe; exact ⟨hw, .inl hd⟩
    · rw [endOf_append, ho x hxe, Option.or_none] at hxs
      exact I.ended x hxs
  have C := counters_grow wf s I (r' := { r with st := { r.st with queue := q }, pending := announce g e (fun _ => false), trace := r.trace ++ [.start e, .done e fun _ => false] })
    ended rfl rfl (fun x b => (announce g e fun _ => false).count (x, b)) (fun x b => ann_end g wf r.trace _ e _ hlt he0 hx ho x b) (fun x b => by rw [hp]; simp)
    (fun x => by simp [isPrune])
  constructor
  · exact I.work
  · exact I.dirtyIn
  · exact I.dirtyOut
  · exact ended
  · exact C.1
  · exact C.2.1
  · exact C.2.2
  · intro x hxw
    have := I.one x hxw
    have := hpop x
    dsimp only
    rw [List.countP_append, List.countP_append, List.countP_append]
    by_cases hxe : x = e
    · subst hxe
      simp [isDone, isFail, isNostart] at *
      omega
    · have hex : ¬ e = x := fun h => hxe h.symm
      simp [isDone, isFail, isNostart, hxe, hex] at *
      omega
  · intro x hxw
    have := I.foreign x hxw
    have := hpop x
    have hxe : ¬ x = e := fun h => by rw [h, hw] at hxw; cases hxw
    have hex : ¬ e = x := fun h => hxe h.symm
    dsimp only
    rw [List.countP_append, List.countP_append, List.countP_append]
    simp only [isDone, isFail, isNostart, List.countP_cons, List.countP_nil, beq_false_of_ne hex, Bool.false_eq_true, if_false]
    rw [if_neg hxe] at this
    omega
  · intro x
    have := I.starts x
    dsimp only
    rw [List.countP_append, List.countP_append, List.countP_append]
    by_cases hxe : e = x
    · simp [isStart, isDone, isFail, hxe]; omega
    · simp [isStart, isDone, isFail, hxe]; omega
  · intro p
    have := I.pools p
    exact ⟨this.mem, this.le, this.full⟩
  · intro p
    have := I.count p
    dsimp only
    rw [hq, List.countP_cons] at this
    rw [this, List.countP_append]
    rcases h with h | h
    · have h2 := inPool_phony g p e h
      simp [leaks, h2]
    · by_cases hin : inPool g p e = true
      · simp [leaks, h, hin]; omega
      · simp [leaks, h, hin]
  · exact I.jobs
  · dsimp only
    rw [I.fails, List.countP_append]; simp [isAnyFail]
  · exact I.real

theorem rinv_start {g : Graph} (wf : WF g) {c : Config} {targets : List Nat} {st0 : St} (s : Sched g targets st0) {r : Run} (I : RInv g c st0 r)
    (e : Nat) (q : List Nat) (hq : r.st.queue = e :: q) (hs : canStart c r) (h : g.phony e = false ∧ c.dryrun = false) :
    RInv g c st0 { r with st := { r.st with queue := q }, running := e :: r.running, trace := r.trace ++ [.start e] } := by
  have hpop := fun x => tot_pop g r.st e x q hq
  have hpe : 0 < tot g r.st e + r.running.count e := by rw [hpop e, if_pos rfl]; omega
  obtain ⟨hw, hd, hn, h1, d0, f0, n0, p0, hlt⟩ := queued s I hpe
  have ho : ∀ y, endOf y [Event.start e] = none := by intro y; simp [endOf, endEv]
  have ended : ∀ x, (endOf x (r.trace ++ [Event.start e])).isSome = true → Active st0 x := by
    intro x hxs
    rw [endOf_append, ho x, Option.or_none] at hxs
    exact I.ended x hxs
  have C := counters_grow wf s I (r' := { r with st := { r.st with queue := q }, running := e :: r.running, trace := r.trace ++ [.start e] })
    ended rfl rfl (fun x b => 0) (fun x b => ann_same g r.trace _ ho x b) (fun x b => rfl) (fun x => by simp [isPrune])
  constructor
  · exact I.work
  · exact I.dirtyIn
  · exact I.dirtyOut
  · exact ended
  · exact C.1
  · exact C.2.1
  · exact C.2.2
  · intro x hxw
    have := I.one x hxw
    have := hpop x
    dsimp only
    rw [List.countP_append, List.countP_append, List.countP_append, List.count_cons]
    by_cases hxe : x = e
    · subst hxe
      simp [isDone, isFail, isNostart] at *
      omega
    · have hex : ¬ e = x := fun h => hxe h.symm
      simp [isDone, isFail, isNostart, hxe, hex] at *
      omega
  · intro x hxw
    have := I.foreign x hxw
    have := hpop x
    have hxe : ¬ x = e := fun h => by rw [h, hw] at hxw; cases hxw
    have hex : ¬ e = x := fun h => hxe h.symm
    dsimp only
    rw [List.countP_append, List.countP_append, List.countP_append, List.count_cons]
    simp only [isDone, isFail, isNostart, List.countP_cons, List.countP_nil, beq_false_of_ne hex, Bool.false_eq_true, if_false]
    rw [if_neg hxe] at this
    omega
  · intro x
    have := I.starts x
    dsimp only
    rw [List.countP_append, List.countP_append, List.countP_append, List.count_cons]
    by_cases hxe : e = x
    · simp [isStart, isDone, isFail, hxe]; omega
    · simp [isStart, isDone, isFail, hxe]; omega
  · intro p
    have := I.pools p
    exact ⟨this.mem, this.le, this.full⟩
  · intro p
    have := I.count p
    dsimp only
    rw [hq, List.countP_cons] at this
    rw [this, List.countP_append, List.countP_cons]
    simp [leaks, h.2]
    omega
  · have := hs.1
    dsimp only
    rw [List.length_cons]; omega
  · dsimp only
    rw [I.fails, List.countP_append]; simp [isAnyFail]
  · intro x hx
    rcases List.mem_cons.1 hx with hx | hx
    · rw [hx]; exact h.1
    · exact I.real x hx

theorem rinv_nostart {g : Graph} (wf : WF g) {c : Config} {targets : List Nat} {st0 : St} (s : Sched g targets st0) {r : Run} (I : RInv g c st0 r)
    (e : Nat) (q : List Nat) (hq : r.st.queue = e :: q) :
    RInv g c st0 { r with st := { r.st with queue := q }, numfail := r.numfail + 1, trace := r.trace ++ [.nostart e] } := by
  have hpop := fun x => tot_pop g r.st e x q hq
  have hpe : 0 < tot g r.st e + r.running.count e := by rw [hpop e, if_pos rfl]; omega
  obtain ⟨hw, hd, hn, h1, d0, f0, n0, p0, hlt⟩ := queued s I hpe
  have ho : ∀ y, endOf y [Event.nostart e] = none := by intro y; simp [endOf, endEv]
  have ended : ∀ x, (endOf x (r.trace ++ [Event.nostart e])).isSome = true → Active st0 x := by
    intro x hxs
    rw [endOf_append, ho x, Option.or_none] at hxs
    exact I.ended x hxs
  have C := counters_grow wf s I (r' := { r with st := { r.st with queue := q }, numfail := r.numfail + 1, trace := r.trace ++ [.nostart e] })
    ended rfl rfl (fun x b => 0) (fun x b => ann_same g r.trace _ ho x b) (fun x b => rfl) (fun x => by simp [isPrune])
  constructor
  · exact I.work
  · exact I.dirtyIn
  · exact I.dirtyOut
  · exact ended
  · exact C.1
  · exact C.2.1
  · exact C.2.2
  · intro x hxw
    have := I.one x hxw
    have := hpop x
    dsimp only
    rw [List.countP_append, List.countP_append, List.countP_append]
    by_cases hxe : x = e
    · subst hxe
      simp [isDone, isFail, isNostart] at *
      omega
    · have hex : ¬ e = x := fun h => hxe h.symm
      simp [isDone, isFail, isNostart, hxe, hex] at *
      omega
  · intro x hxw
    have := I.foreign x hxw
    have := hpop x
    have hxe : ¬ x = e := fun h => by rw [h, hw] at hxw; cases hxw
    have hex : ¬ e = x := fun h => hxe h.symm
    dsimp only
    rw [List.countP_append, List.countP_append, List.countP_append]
    simp only [isDone, isFail, isNostart, List.countP_cons, List.countP_nil, beq_false_of_ne hex, Bool.false_eq_true, if_false]
    rw [if_neg hxe] at this
    omega
  · intro x
    have := I.starts x
    dsimp only
    rw [List.countP_append, List.countP_append, List.countP_append]
    simp [isStart, isDone, isFail]; omega
  · intro p
    have := I.pools p
    exact ⟨this.mem, this.le, this.full⟩
  · intro p
    have := I.count p
    dsimp only
    rw [hq, List.countP_cons] at this
    rw [this, List.countP_append]
    by_cases hin : inPool g p e = true
    · simp [leaks, hin]; omega
    · simp [leaks, hin]
  · exact I.jobs
  · dsimp only
    rw [I.fails, List.countP_append]; simp [isAnyFail]
  · exact I.real

/-- What giving back a slot does. -/
theorem release_spec (g : Graph) (st : St) (e : Nat) (pools : ∀ p, PoolOk g st p) (hj : ∀ p, inPool g p e = true → 0 < st.numjobs p) (hph : g.phony e = false) :
    (release g st e).work = st.work ∧ (release g st e).dirtyIn = st.dirtyIn ∧ (release g st e).dirtyOut = st.dirtyOut ∧ (release g st e).nblock = st.nblock ∧
    (release g st e).nprune = st.nprune ∧ (∀ x, tot g (release g st e) x = tot g st x) ∧ (∀ p, PoolOk g (release g st e) p) ∧
    (∀ p, (release g st e).numjobs p + st.queue.countP (inPool g p) + (if inPool g p e = true then 1 else 0) = st.numjobs p + (release g st e).queue.countP (inPool g p)) := by
  unfold release
  cases hp : g.pool e with
  | none =>
    refine ⟨rfl, rfl, rfl, rfl, rfl, fun _ => rfl, pools, fun p => ?_⟩
    have : inPool g p e = false := by unfold inPool; rw [hp]; simp
    rw [this]; simp
  | some p0 =>
    dsimp only
    have hin : ∀ p, inPool g p e = true ↔ p = p0 := by
      intro p
      unfold inPool
      rw [hp, hph]
      simp
      exact ⟨fun h => h.symm, fun h => h.symm⟩
    cases hq : st.poolq p0 with
    | nil =>
      dsimp only
      refine ⟨rfl, rfl, rfl, rfl, rfl, fun _ => rfl, fun p => ?_, fun p => ?_⟩
      · have P := pools p
        by_cases hpp : p = p0
        · subst hpp
          refine ⟨P.mem, ?_, fun hne => absurd hq hne⟩
          show upd st.numjobs p _ p ≤ _
          rw [upd_same]
          have := P.le
          unfold dec
          have := hj p ((hin p).2 rfl)
          split <;> omega
        · refine ⟨P.mem, ?_, ?_⟩
          · show upd st.numjobs p0 _ p ≤ _
            rw [upd_other _ _ _ _ hpp]; exact P.le
          · show _ → upd st.numjobs p0 _ p = _
            rw [upd_other _ _ _ _ hpp]; exact P.full
      · by_cases hpp : p = p0
        · subst hpp
          rw [upd_same, if_pos ((hin p).2 rfl)]
          have := hj p ((hin p).2 rfl)
          unfold dec
          rw [if_neg (by omega)]
          omega
        · rw [upd_other _ _ _ _ hpp, if_neg (fun h => hpp ((hin p).1 h))]; rfl
    | cons x xs =>
      dsimp only
      have hx : inPool g p0 x = true := (pools p0).mem x (by rw [hq]; simp)
      have hxp : g.pool x = some p0 := by
        unfold inPool at hx
        rw [Bool.and_eq_true] at hx
        exact eq_of_beq hx.1
      refine ⟨rfl, rfl, rfl, rfl, rfl, fun y => ?_, fun p => ?_, fun p => ?_⟩
      · unfold tot
        dsimp only
        rw [List.count_cons]
        by_cases hy : x = y
        · subst hy
          rw [hxp]; dsimp only
          rw [upd_same, hq, List.count_cons]; omega
        · cases hyp : g.pool y with
          | none => simp [hy]
          | some p =>
            dsimp only
            by_cases hpp : p = p0
            · subst hpp
              rw [upd_same, hq, List.count_cons]; simp [hy]
            · rw [upd_other _ _ _ _ hpp]; simp [hy]
      · have P := pools p
        by_cases hpp : p = p0
        · subst hpp
          refine ⟨?_, P.le, fun _ => P.full (by rw [hq]; simp)⟩
          show ∀ y ∈ upd st.poolq p xs p, _
          rw [upd_same]
          intro y hy
          exact P.mem y (by rw [hq]; exact List.mem_cons_of_mem _ hy)
        · refine ⟨?_, P.le, ?_⟩
          · show ∀ y ∈ upd st.poolq p0 xs p, _
            rw [upd_other _ _ _ _ hpp]; exact P.mem
          · show upd st.poolq p0 xs p ≠ [] → _
            rw [upd_other _ _ _ _ hpp]; exact P.full
      · rw [List.countP_cons]
        by_cases hpp : p = p0
        · subst hpp
          rw [if_pos ((hin p).2 rfl), hx]; simp; omega
        · have : inPool g p x = false := by
            unfold inPool
            rw [hxp]
            have : ¬ p0 = p := fun h => hpp h.symm
            simp [this]
          rw [if_neg (fun h => hpp ((hin p).1 h)), this]; simp

theorem countP_erase_mem {α : Type} [BEq α] [LawfulBEq α] (l : List α) (p : α → Bool) (a : α) (h : a ∈ l) : l.countP p = (l.erase a).countP p + if p a = true then 1 else 0 := by
  have := (List.perm_cons_erase h).countP_eq p
  rw [this, List.countP_cons]

theorem count_erase_mem (l : List Nat) (a x : Nat) (h : a ∈ l) : l.count x = (l.erase a).count x + if x = a then 1 else 0 := by
  have := (List.perm_cons_erase h).count_eq x
  rw [this, List.count_cons]
  by_cases hx : x = a
  · simp [hx]
  · have : ¬ a = x := fun k => hx k.symm
    simp [hx, this]

theorem running_job {g : Graph} {c : Config} {st0 : St} {r : Run} (I : RInv g c st0 r) {e : Nat} (hr : e ∈ r.running) (p : Nat) (h : inPool g p e = true) :
    0 < r.st.numjobs p := by
  have := I.count p
  have h2 := countP_erase_mem r.running (inPool g p) e hr
  rw [if_pos h] at h2
  omega

theorem rinv_done {g : Graph} (wf : WF g) {c : Config} {targets : List Nat} {st0 : St} (s : Sched g targets st0) {r : Run} (I : RInv g c st0 r)
    (e : Nat) (same : Nat → Bool) (hp : r.pending = []) (hr : e ∈ r.running) :
    RInv g c st0 { r with st := release g r.st e, running := r.running.erase e, pending := announce g e same, trace := r.trace ++ [.done e same] } := by
  have hcnt := fun x => count_erase_mem r.running e x hr
  have hpe : 0 < tot g r.st e + r.running.count e := by rw [hcnt e, if_pos rfl]; omega
  obtain ⟨hw, hd, hn, h1, d0, f0, n0, p0, hlt⟩ := queued s I hpe
  obtain ⟨w1, w2, w3, w4, w5, w6, w7, w8⟩ := release_spec g r.st e I.pools (running_job I hr) (I.real e hr)
  have he0 : endOf e r.trace = none := (endOf_none e r.trace).2 ⟨d0, p0⟩
  have hx : endOf e [Event.done e same] = some same := by simp [endOf, endEv]
  have ho : ∀ y, y ≠ e → endOf y [Event.done e same] = none := by
    intro y hy
    have : ¬ e = y := fun h => hy h.symm
    simp [endOf, endEv, this]
  have ended : ∀ x, (endOf x (r.trace ++ [Event.done e same])).isSome = true → Active st0 x := by
    intro x hxs
    by_cases hxe : x = e
    · subst hxe; exact ⟨hw, .inl hd⟩
    · rw [endOf_append, ho x hxe, Option.or_none] at hxs
      exact I.ended x hxs
  have C := counters_grow wf s I (r' := { r with st := release g r.st e, running := r.running.erase e, pending := announce g e same, trace := r.trace ++ [.done e same] })
    ended w4 w5 (fun x b => (announce g e same).count (x, b)) (fun x b => ann_end g wf r.trace _ e _ hlt he0 hx ho x b) (fun x b => by rw [hp]; simp)
    (fun x => by simp [isPrune])
  constructor
  · exact w1.trans I.work
  · exact w2.trans I.dirtyIn
  · exact w3.trans I.dirtyOut
  · exact ended
  · exact C.1
  · exact C.2.1
  · exact C.2.2
  · intro x hxw
    have := I.one x hxw
    have := hcnt x
    dsimp only
    rw [w6, w4, List.countP_append, List.countP_append, List.countP_append]
    by_cases hxe : x = e
    · subst hxe
      simp [isDone, isFail, isNostart] at *
      omega
    · have hex : ¬ e = x := fun h => hxe h.symm
      simp [isDone, isFail, isNostart, hxe, hex] at *
      omega
  · intro x hxw
    have := I.foreign x hxw
    have := hcnt x
    have hxe : ¬ x = e := fun h => by rw [h, hw] at hxw; cases hxw
    have hex : ¬ e = x := fun h => hxe h.symm
    dsimp only
    rw [w6, List.countP_append, List.countP_append, List.countP_append]
    simp only [isDone, isFail, isNostart, List.countP_cons, List.countP_nil, beq_false_of_ne hex, Bool.false_eq_true, if_false]
    rw [if_neg hxe] at this
    omega
  · intro x
    have := I.starts x
    have := hcnt x
    dsimp only
    rw [List.countP_append, List.countP_append, List.countP_append]
    by_cases hxe : x = e
    · subst hxe
      simp [isStart, isDone, isFail] at *; omega
    · have hex : ¬ e = x := fun h => hxe h.symm
      simp [isStart, isDone, isFail, hxe, hex] at *; omega
  · exact w7
  · intro p
    have := I.count p
    have h2 := countP_erase_mem r.running (inPool g p) e hr
    have h3 := w8 p
    dsimp only
    rw [List.countP_append]
    simp [leaks]
    omega
  · have := I.jobs
    have := List.length_erase_le (a := e) (l := r.running)
    dsimp only
    omega
  · dsimp only
    rw [I.fails, List.countP_append]; simp [isAnyFail]
  · intro x hx; exact I.real x (List.mem_of_mem_erase hx)

theorem rinv_fail {g : Graph} (wf : WF g) {c : Config} {targets : List Nat} {st0 : St} (s : Sched g targets st0) {r : Run} (I : RInv g c st0 r)
    (e : Nat) (hr : e ∈ r.running) :
    RInv g c st0 { r with st := release g r.st e, running := r.running.erase e, numfail := r.numfail + 1, trace := r.trace ++ [.fail e] } := by
  have hcnt := fun x => count_erase_mem r.running e x hr
  have hpe : 0 < tot g r.st e + r.running.count e := by rw [hcnt e, if_pos rfl]; omega
  obtain ⟨hw, hd, hn, h1, d0, f0, n0, p0, hlt⟩ := queued s I hpe
  obtain ⟨w1, w2, w3, w4, w5, w6, w7, w8⟩ := release_spec g r.st e I.pools (running_job I hr) (I.real e hr)
  have ho : ∀ y, endOf y [Event.fail e] = none := by intro y; simp [endOf, endEv]
  have ended : ∀ x, (endOf x (r.trace ++ [Event.fail e])).isSome = true → Active st0 x := by
    intro x hxs
    rw [endOf_append, ho x, Option.or_none] at hxs
    exact I.ended x hxs
  have C := counters_grow wf s I (r' := { r with st := release g r.st e, running := r.running.erase e, numfail := r.numfail + 1, trace := r.trace ++ [.fail e] })
    ended w4 w5 (fun x b => 0) (fun x b => ann_same g r.trace _ ho x b) (fun x b => rfl) (fun x => by simp [isPrune])
  constructor
  · exact w1.trans I.work
  · exact w2.trans I.dirtyIn
  · exact w3.trans I.dirtyOut
  · exact ended
  · exact C.1
  · exact C.2.1
  · exact C.2.2
  · intro x hxw
    have := I.one x hxw
    have := hcnt x
    dsimp only
    rw [w6, w4, List.countP_append, List.countP_append, List.countP_append]
    by_cases hxe : x = e
    · subst hxe
      simp [isDone, isFail, isNostart] at *
      omega
    · have hex : ¬ e = x := fun h => hxe h.symm
      simp [isDone, isFail, isNostart, hxe, hex] at *
      omega
  · intro x hxw
    have := I.foreign x hxw
    have := hcnt x
    have hxe : ¬ x = e := fun h => by rw [h, hw] at hxw; cases hxw
    have hex : ¬ e = x := fun h => hxe h.symm
    dsimp only
    rw [w6, List.countP_append, List.countP_append, List.countP_append]
    simp only [isDone, isFail, isNostart, List.countP_cons, List.countP_nil, beq_false_of_ne hex, Bool.false_eq_true, if_false]
    rw [if_neg hxe] at this
    omega
  · intro x
    have := I.starts x
    have := hcnt x
    dsimp only
    rw [List.countP_append, List.countP_append, List.countP_append]
    by_cases hxe : x = e
    · subst hxe
      simp [isStart, isDone, isFail] at *; omega
    · have hex : ¬ e = x := fun h => hxe h.symm
      simp [isStart, isDone, isFail, hxe, hex] at *; omega
  · exact w7
  · intro p
    have := I.count p
    have h2 := countP_erase_mem r.running (inPool g p) e hr
    have h3 := w8 p
    dsimp only
    rw [List.countP_append]
    simp [leaks]
    omega
  · have := I.jobs
    have := List.length_erase_le (a := e) (l := r.running)
    dsimp only
    omega
  · dsimp only
    rw [I.fails, List.countP_append]; simp [isAnyFail]
  · intro x hx; exact I.real x (List.mem_of_mem_erase hx)

end Muon.Sched
