import Verif.Run.Model
import Verif.Tap.Props
/-
Property C73.
-/
namespace Muon.Run
open Muon Muon.Tap
open scoped List

/-- The tests that are running. -/
def running (st : St) : List Nat := st.slots.filterMap id

/-- The tests that have not been started. -/
def remaining : Phase → List Nat
  | .next rest => rest
  | .waiting t rest => t :: rest
  | .drain => []
  | .finished => []
  | .stopped rest => rest

/-- The states that can be reached from the beginning. -/
inductive Reach (c : Conf) (jobs : Nat) (ts : List Nat) : Phase × St → Prop
  | init (serial : Bool) : Reach c jobs ts (.next ts, initial jobs serial)
  | step {x y : Phase × St} : Reach c jobs ts x → Step c x y → Reach c jobs ts y

/-! ### Slots -/

theorem firstFree_spec (s : List (Option Nat)) (k i : Nat) (h : firstFree s k = some i) : ∃ j, i = k + j ∧ s[j]? = some none := by
  induction s generalizing k with
  | nil => cases h
  | cons a s ih =>
    cases a with
    | none => cases h; exact ⟨0, rfl, rfl⟩
    | some t =>
      obtain ⟨j, rfl, hj⟩ := ih (k + 1) h
      exact ⟨j + 1, by omega, by simpa using hj⟩

theorem firstFree_none (s : List (Option Nat)) (k : Nat) (h : firstFree s k = none) : (s.filterMap id).length = s.length := by
  induction s generalizing k with
  | nil => rfl
  | cons a s ih =>
    cases a with
    | none => cases h
    | some t => simp [ih (k + 1) h]

/-- Filling a free slot. -/
theorem set_some (s : List (Option Nat)) (i t : Nat) (h : s[i]? = some none) : (s.set i (some t)).filterMap id ~ t :: s.filterMap id := by
  induction s generalizing i with
  | nil => cases h
  | cons a s ih =>
    cases i with
    | zero => cases h; simp
    | succ i =>
      have := ih i (by simpa using h)
      cases a with
      | none => simpa using this
      | some u =>
        simp only [List.set_cons_succ, List.filterMap_cons, id]
        exact (List.Perm.cons u this).trans (List.Perm.swap t u _)

theorem set_same (s : List (Option Nat)) (i : Nat) (h : s[i]? = some none) : s.set i none = s := by
  induction s generalizing i with
  | nil => cases h
  | cons a s ih =>
    cases i with
    | zero => cases h; rfl
    | succ i => rw [List.set_cons_succ, ih i (by simpa using h)]

/-- Freeing a slot. -/
theorem set_none (s : List (Option Nat)) (i t : Nat) (h : s[i]? = some (some t)) : s.filterMap id ~ t :: (s.set i none).filterMap id := by
  induction s generalizing i with
  | nil => cases h
  | cons a s ih =>
    cases i with
    | zero => cases h; simp
    | succ i =>
      have := ih i (by simpa using h)
      cases a with
      | none => simpa using this
      | some u =>
        simp only [List.set_cons_succ, List.filterMap_cons, id]
        exact (List.Perm.cons u this).trans (List.Perm.swap t u _)

theorem filterMap_le (s : List (Option Nat)) : (s.filterMap id).length ≤ s.length := List.length_filterMap_le _ _

/-! ### Invariant -/

structure Inv (c : Conf) (jobs : Nat) (ts : List Nat) (x : Phase × St) : Prop where
  slots : x.2.slots.length = jobs
  busy : x.2.busy = (running x.2).length
  alone : ∀ t ∈ running x.2, c.par t = false → running x.2 = [t] ∧ x.2.serial = true
  errors : x.2.errors = (x.2.results.filter (fun r => isError r.2)).length
  started : ∃ done, ts = done ++ remaining x.1 ∧ x.2.results.map Prod.fst ++ running x.2 ~ done
  stopped : ∀ rest, x.1 = .stopped rest → x.2.errors ≠ 0
  finished : x.1 = .finished → running x.2 = []

/-- What the parts of the state keep when programs end. -/
structure Keep (c : Conf) (st st' : St) : Prop where
  slots : st'.slots.length = st.slots.length
  busy : st'.busy = (running st').length
  alone : ∀ t ∈ running st', c.par t = false → running st' = [t] ∧ st'.serial = true
  errors : st'.errors = (st'.results.filter (fun r => isError r.2)).length
  perm : st'.results.map Prod.fst ++ running st' ~ st.results.map Prod.fst ++ running st

theorem free_keep (c : Conf) (st : St) (i t : Nat) (s : Status) (hb : st.busy = (running st).length)
    (ha : ∀ t ∈ running st, c.par t = false → running st = [t] ∧ st.serial = true)
    (he : st.errors = (st.results.filter (fun r => isError r.2)).length) (h : st.slots[i]? = some (some t)) :
    Keep c st (free c st i t s) := by
  have hp : running st ~ t :: running (free c st i t s) := set_none st.slots i t h
  refine ⟨by simp [free], ?_, ?_, ?_, ?_⟩
  · show st.busy - 1 = _
    rw [hb, hp.length_eq]; simp
  · intro u hu hpar
    have hu' : u ∈ running st := hp.mem_iff.mpr (by simp [hu])
    have h1 := (ha u hu' hpar).1
    rw [h1] at hp
    have := hp.length_eq
    simp only [List.length_cons, List.length_nil] at this
    have h0 : running (free c st i t s) = [] := List.eq_nil_of_length_eq_zero (by omega)
    rw [h0] at hu; cases hu
  · show (if isError s then st.errors + 1 else st.errors) = ((st.results ++ [(t, s)]).filter _).length
    rw [List.filter_append, List.length_append, ← he]
    cases hs : isError s <;> simp [hs]
  · show (st.results ++ [(t, s)]).map Prod.fst ++ _ ~ _
    rw [List.map_append, List.append_assoc]
    exact List.Perm.append_left _ hp.symm

theorem keep_refl (c : Conf) (st : St) (hb : st.busy = (running st).length)
    (ha : ∀ t ∈ running st, c.par t = false → running st = [t] ∧ st.serial = true)
    (he : st.errors = (st.results.filter (fun r => isError r.2)).length) : Keep c st st :=
  ⟨rfl, hb, ha, he, List.Perm.refl _⟩

theorem Keep.trans {c : Conf} {a b d : St} (h1 : Keep c a b) (h2 : Keep c b d) : Keep c a d :=
  ⟨h2.slots.trans h1.slots, h2.busy, h2.alone, h2.errors, h2.perm.trans h1.perm⟩

theorem collectFrom_keep (c : Conf) (ended : Nat → Option Status) (is : List Nat) (st : St) (hb : st.busy = (running st).length)
    (ha : ∀ t ∈ running st, c.par t = false → running st = [t] ∧ st.serial = true)
    (he : st.errors = (st.results.filter (fun r => isError r.2)).length) : Keep c st (collectFrom c ended is st) := by
  induction is generalizing st with
  | nil => exact keep_refl c st hb ha he
  | cons i is ih =>
    rw [collectFrom.eq_def]; dsimp only
    split
    · next t ht =>
      split
      · exact ih st hb ha he
      · next s hs =>
        have hk := free_keep c st i t s hb ha he ht
        split
        · exact hk
        · exact hk.trans (ih _ hk.busy hk.alone hk.errors)
    · exact ih st hb ha he

theorem slotFor_spec (c : Conf) (st : St) (t i : Nat) (hb : st.busy = (running st).length) (hj : 0 < st.slots.length)
    (ha : ∀ t ∈ running st, c.par t = false → running st = [t] ∧ st.serial = true)
    (h : slotFor c st t = some i) :
    st.slots[i]? = some none ∧ (c.par t = false → running st = []) ∧ (∀ u ∈ running st, c.par u = true) := by
  unfold slotFor at h
  have h0 : st.busy = 0 → running st = [] := fun e => List.eq_nil_of_length_eq_zero (by omega)
  by_cases hs : (st.serial && decide (st.busy ≠ 0)) = true
  · rw [if_pos hs] at h; cases h
  · rw [if_neg hs] at h
    have hall : ∀ u ∈ running st, c.par u = true := by
      intro u hu
      cases hc : c.par u with
      | true => rfl
      | false =>
        exfalso
        have h1 := ha u hu hc
        apply hs
        rw [h1.2]
        have : st.busy ≠ 0 := by rw [hb, h1.1]; simp
        simp [this]
    by_cases hp : c.par t = true
    · rw [if_pos hp] at h
      obtain ⟨j, rfl, hj⟩ := firstFree_spec _ _ _ h
      rw [Nat.zero_add]
      exact ⟨hj, (fun e => by rw [hp] at e; cases e), hall⟩
    · rw [if_neg hp] at h
      by_cases hz : st.busy = 0
      · rw [if_pos hz] at h
        cases h
        have hr := h0 hz
        refine ⟨?_, fun _ => hr, hall⟩
        have : ∀ s : List (Option Nat), 0 < s.length → s.filterMap id = [] → s[0]? = some none := by
          intro s hl hf
          cases s with
          | nil => simp at hl
          | cons a s => cases a with
            | none => rfl
            | some u => simp at hf
        exact this _ hj hr
      · rw [if_neg hz] at h; cases h

theorem inv_step (c : Conf) (jobs : Nat) (hj : 0 < jobs) (ts : List Nat) (x y : Phase × St) (hx : Inv c jobs ts x) (h : Step c x y) :
    Inv c jobs ts y := by
  obtain ⟨h1, h2, h3, h4, ⟨done, h5, h6⟩, h7, h8⟩ := hx
  cases h with
  | begin hn => exact ⟨h1, h2, h3, h4, ⟨done, h5, h6⟩, by simp, by simp⟩
  | stop hf he => exact ⟨h1, h2, h3, h4, ⟨done, h5, h6⟩, fun _ _ => he, by simp⟩
  | @wait t rest st ended hs =>
    have hk := collectFrom_keep c ended (List.range st.slots.length) _ h2 h3 h4
    exact ⟨hk.slots.trans h1, hk.busy, hk.alone, hk.errors, ⟨done, h5, hk.perm.trans h6⟩, by simp, by simp⟩
  | @start t i rest st ok hs =>
    dsimp only at h1 h2 h3 h4 h5 h6
    obtain ⟨hfree, hpar, hall⟩ := slotFor_spec c st t i h2 (by omega) h3 hs
    cases ok with
    | true =>
      have hp : running (start c st t i true) ~ t :: running st := set_some st.slots i t hfree
      refine ⟨?_, ?_, ?_, h4, ⟨done ++ [t], ?_, ?_⟩, by simp, by simp⟩
      · show (st.slots.set i (some t)).length = jobs
        rw [List.length_set, h1]
      · show st.busy + 1 = _
        rw [hp.length_eq, h2]; rfl
      · intro u hu hpu
        have hu' : u = t ∨ u ∈ running st := by simpa using hp.mem_iff.mp hu
        rcases hu' with rfl | hu'
        · rw [hpar hpu] at hp
          refine ⟨List.perm_singleton.mp hp, ?_⟩
          show (if c.par u then st.serial else true) = true
          rw [hpu]; rfl
        · rw [hall u hu'] at hpu; cases hpu
      · rw [h5]; simp [remaining]
      · show st.results.map Prod.fst ++ _ ~ _
        refine (List.Perm.append_left _ hp).trans ?_
        refine List.perm_middle.trans ?_
        exact (List.Perm.cons t h6).trans (List.perm_append_singleton t done).symm
    | false =>
      have hr : running (start c st t i false) = running st := by
        show (st.slots.set i none).filterMap id = _
        rw [set_same _ _ hfree]; rfl
      refine ⟨?_, ?_, ?_, ?_, ⟨done ++ [t], ?_, ?_⟩, by simp, by simp⟩
      · show (st.slots.set i none).length = jobs
        rw [List.length_set, h1]
      · show st.busy = _
        rw [hr, h2]
      · intro u hu hpu
        rw [hr] at hu
        rw [hall u hu] at hpu; cases hpu
      · show st.errors + 1 = ((st.results ++ [(t, Status.failed)]).filter _).length
        rw [List.filter_append, List.length_append, ← h4]; rfl
      · rw [h5]; simp [remaining]
      · show (st.results ++ [(t, Status.failed)]).map Prod.fst ++ _ ~ _
        rw [hr, List.map_append, List.append_assoc]
        refine List.perm_middle.trans ?_
        exact (List.Perm.cons t h6).trans (List.perm_append_singleton t done).symm
  | all hn => exact ⟨h1, h2, h3, h4, ⟨done, h5, h6⟩, by simp, by simp⟩
  | @drain st ended hb =>
    have hk := collectFrom_keep c ended (List.range st.slots.length) _ h2 h3 h4
    exact ⟨hk.slots.trans h1, hk.busy, hk.alone, hk.errors, ⟨done, h5, hk.perm.trans h6⟩, by simp, by simp⟩
  | finish hb =>
    refine ⟨h1, h2, h3, h4, ⟨done, h5, h6⟩, by simp, fun _ => ?_⟩
    dsimp only at h2
    exact List.eq_nil_of_length_eq_zero (by dsimp only; omega)

theorem inv_init (c : Conf) (jobs : Nat) (ts : List Nat) (serial : Bool) : Inv c jobs ts (.next ts, initial jobs serial) := by
  have hr : running (initial jobs serial) = [] := by
    show (List.replicate jobs none).filterMap id = []
    induction jobs with
    | zero => rfl
    | succ n ih => rw [List.replicate_succ, List.filterMap_cons]; exact ih
  refine ⟨by simp [initial], by rw [hr]; rfl, by rw [hr]; simp, rfl, ⟨[], rfl, by rw [hr]; exact List.Perm.refl _⟩, by simp, fun _ => hr⟩

theorem inv_reach (c : Conf) (jobs : Nat) (hj : 0 < jobs) (ts : List Nat) (x : Phase × St) (h : Reach c jobs ts x) : Inv c jobs ts x := by
  induction h with
  | init serial => exact inv_init c jobs ts serial
  | step _ hs ih => exact inv_step c jobs hj ts _ _ ih hs

/-! ### C73 -/

/-- At no time do more tests run than there are jobs. -/
theorem at_most_jobs (c : Conf) (jobs : Nat) (hj : 0 < jobs) (ts : List Nat) (x : Phase × St) (h : Reach c jobs ts x) :
    (running x.2).length ≤ jobs := by
  have hi := inv_reach c jobs hj ts x h
  rw [← hi.slots]
  exact filterMap_le _

/-- A test that is not parallel runs alone. -/
theorem serial_alone (c : Conf) (jobs : Nat) (hj : 0 < jobs) (ts : List Nat) (x : Phase × St) (h : Reach c jobs ts x)
    (t : Nat) (ht : t ∈ running x.2) (hp : c.par t = false) : running x.2 = [t] :=
  ((inv_reach c jobs hj ts x h).alone t ht hp).1

/-- Tests are started in their order, and each started test is running or has one result. -/
theorem each_once (c : Conf) (jobs : Nat) (hj : 0 < jobs) (ts : List Nat) (x : Phase × St) (h : Reach c jobs ts x) :
    ∃ done, ts = done ++ remaining x.1 ∧ x.2.results.map Prod.fst ++ running x.2 ~ done :=
  (inv_reach c jobs hj ts x h).started

/-- At the end each test has one result, and no test is running. -/
theorem all_results (c : Conf) (jobs : Nat) (hj : 0 < jobs) (ts : List Nat) (st : St) (h : Reach c jobs ts (.finished, st)) :
    st.results.map Prod.fst ~ ts ∧ running st = [] := by
  have hi := inv_reach c jobs hj ts _ h
  obtain ⟨done, h5, h6⟩ := hi.started
  have hr : running st = [] := hi.finished rfl
  simp only [remaining, List.append_nil] at h5
  rw [hr, List.append_nil, ← h5] at h6
  exact ⟨h6, hr⟩

/-- If `muon test` succeeds then all tests were run, and all succeeded or were skipped. -/
theorem success_all (c : Conf) (jobs : Nat) (hj : 0 < jobs) (ts : List Nat) (p : Phase) (st : St) (h : Reach c jobs ts (p, st))
    (hp : p = .finished ∨ ∃ rest, p = .stopped rest) (ho : overall (st.results.map Prod.snd) = true) :
    st.results.map Prod.fst ~ ts ∧ ∀ r ∈ st.results, r.2 ≠ .failed ∧ r.2 ≠ .timedout := by
  have hgood : ∀ r ∈ st.results, r.2 ≠ .failed ∧ r.2 ≠ .timedout := by
    intro r hr
    exact (overall_iff _).mp ho r.2 (List.mem_map_of_mem hr)
  have hi := inv_reach c jobs hj ts _ h
  rcases hp with rfl | ⟨rest, rfl⟩
  · exact ⟨(all_results c jobs hj ts st h).1, hgood⟩
  · exfalso
    apply hi.stopped rest rfl
    rw [hi.errors]
    apply List.length_eq_zero_iff.mpr
    rw [List.filter_eq_nil_iff]
    intro r hr he
    have := hgood r hr
    simp only [isError, Bool.or_eq_true, beq_iff_eq] at he
    rcases he with he | he
    · exact this.1 he
    · exact this.2 he

/-- Without `fail_fast` it is never stopped early. -/
theorem no_stop (c : Conf) (jobs : Nat) (ts : List Nat) (x : Phase × St) (hc : c.failFast = false) (h : Reach c jobs ts x)
    (rest : List Nat) : x.1 ≠ .stopped rest := by
  cases h with
  | init => simp
  | step _ hs => cases hs <;> simp_all

/-! Progress -/

/-- Steps that wait see at least one program that has ended. -/
def Productive (x y : Phase × St) : Prop :=
  (∃ t rest, x.1 = .waiting t rest ∧ y.1 = x.1) ∨ (x.1 = .drain ∧ y.1 = .drain) → y.2.busy < x.2.busy

def phaseWeight : Phase → Nat
  | .next rest => 3 * rest.length + 2
  | .waiting _ rest => 3 * rest.length + 4
  | .drain => 1
  | .finished => 0
  | .stopped _ => 0

def weight (x : Phase × St) : Nat := phaseWeight x.1 + x.2.busy

theorem weight_step (c : Conf) (x y : Phase × St) (h : Step c x y) (hp : Productive x y) : weight y < weight x := by
  unfold Productive at hp
  cases h with
  | begin => simp only [weight, phaseWeight, List.length_cons]; omega
  | stop => simp only [weight, phaseWeight]; omega
  | wait ended hs =>
    have := hp (.inl ⟨_, _, rfl, rfl⟩)
    simp only [weight, phaseWeight]; dsimp only at this; omega
  | @start t i rest st ok hs => cases ok <;> simp only [weight, phaseWeight, start] <;> simp <;> omega
  | all => simp only [weight, phaseWeight, List.length_nil]; omega
  | drain ended hb =>
    have := hp (.inr ⟨rfl, rfl⟩)
    simp only [weight, phaseWeight]; dsimp only at this; omega
  | finish => simp only [weight, phaseWeight]; omega

/-- Steps, each of which makes progress. -/
inductive Steps (c : Conf) : Nat → Phase × St → Phase × St → Prop
  | refl {x : Phase × St} : Steps c 0 x x
  | step {n : Nat} {x y z : Phase × St} : Steps c n x y → Step c y z → Productive y z → Steps c (n + 1) x z

theorem steps_weight (c : Conf) (n : Nat) (x y : Phase × St) (h : Steps c n x y) : n + weight y ≤ weight x := by
  induction h with
  | refl => omega
  | step _ hs hp ih => have := weight_step c _ _ hs hp; omega

/-- Running the tests ends if programs end: for `n` tests there are at most 3n+2 steps besides those that wait in vain. -/
theorem run_ends (c : Conf) (jobs : Nat) (ts : List Nat) (serial : Bool) (n : Nat) (y : Phase × St)
    (h : Steps c n (.next ts, initial jobs serial) y) : n ≤ 3 * ts.length + 2 := by
  have := steps_weight c n _ _ h
  simp only [weight, phaseWeight, initial] at this
  omega

theorem collectFrom_busy (c : Conf) (ended : Nat → Option Status) (is : List Nat) (st : St) :
    (collectFrom c ended is st).busy ≤ st.busy := by
  induction is generalizing st with
  | nil => exact Nat.le_refl _
  | cons i is ih =>
    rw [collectFrom.eq_def]; dsimp only
    have hf : ∀ t s, (free c st i t s).busy ≤ st.busy := fun t s => Nat.sub_le _ _
    split
    · next t ht =>
      split
      · exact ih st
      · next s hs =>
        split
        · exact hf t s
        · exact Nat.le_trans (ih _) (hf t s)
    · exact ih st

/-- If the program in a busy slot has ended, `collect_tests` frees a slot. -/
theorem collect_productive (c : Conf) (ended : Nat → Option Status) (is : List Nat) (st : St) (hb : st.busy = (running st).length)
    (i t : Nat) (hi : i ∈ is) (ht : st.slots[i]? = some (some t)) (he : (ended i).isSome = true) :
    (collectFrom c ended is st).busy < st.busy := by
  have hpos : 0 < st.busy := by
    rw [hb, running, (set_none st.slots i t ht).length_eq]; simp
  induction is with
  | nil => cases hi
  | cons k is ih =>
    rw [collectFrom.eq_def]; dsimp only
    have hf : ∀ t s, (free c st k t s).busy < st.busy := fun t s => by show st.busy - 1 < st.busy; omega
    by_cases hk : k = i
    · subst hk
      rw [ht]
      dsimp only
      obtain ⟨s, hs⟩ := Option.isSome_iff_exists.mp he
      rw [hs]
      dsimp only
      split
      · exact hf t s
      · exact Nat.lt_of_le_of_lt (collectFrom_busy c ended is _) (hf t s)
    · have hi' : i ∈ is := by
        rcases List.mem_cons.mp hi with e | e
        · exact absurd e.symm hk
        · exact e
      split
      · next t' ht' =>
        split
        · exact ih hi'
        · next s hs =>
          split
          · exact hf t' s
          · exact Nat.lt_of_le_of_lt (collectFrom_busy c ended is _) (hf t' s)
      · exact ih hi'

/-- While it is not done there is a step; if that step waits, some test is running, and when a running program has ended
the step makes progress. -/
theorem no_deadlock (c : Conf) (jobs : Nat) (hj : 0 < jobs) (ts : List Nat) (p : Phase) (st : St) (h : Reach c jobs ts (p, st))
    (h1 : p ≠ .finished) (h2 : ∀ rest, p ≠ .stopped rest) :
    (∃ y, Step c (p, st) y ∧ Productive (p, st) y) ∨
    (running st ≠ [] ∧ ∀ (ended : Nat → Option Status) (i t : Nat), st.slots[i]? = some (some t) → (ended i).isSome = true →
      Step c (p, st) (p, collectAll c ended st) ∧ Productive (p, st) (p, collectAll c ended st)) := by
  have hi := inv_reach c jobs hj ts _ h
  have hb : st.busy = (running st).length := hi.busy
  have hlen : st.slots.length = jobs := hi.slots
  have hmem : ∀ i t, st.slots[i]? = some (some t) → i ∈ List.range st.slots.length := by
    intro i t ht
    rw [List.mem_range]
    exact (List.getElem?_eq_some_iff.mp ht).1
  have hprog : ∀ (q : Phase) (ended : Nat → Option Status) (i t : Nat), st.slots[i]? = some (some t) → (ended i).isSome = true →
      Productive (q, st) (q, collectAll c ended st) := by
    intro q ended i t ht he _
    exact collect_productive c ended _ st hb i t (hmem i t ht) ht he
  cases p with
  | next rest =>
    left
    by_cases hs : c.failFast = true ∧ st.errors ≠ 0
    · exact ⟨_, .stop hs.1 hs.2, fun hh => by rcases hh with ⟨_, _, e, _⟩ | ⟨e, _⟩ <;> cases e⟩
    · cases rest with
      | nil => exact ⟨_, .all hs, fun hh => by rcases hh with ⟨_, _, e, _⟩ | ⟨e, _⟩ <;> cases e⟩
      | cons t rest => exact ⟨_, .begin hs, fun hh => by rcases hh with ⟨_, _, e, _⟩ | ⟨e, _⟩ <;> cases e⟩
  | waiting t rest =>
    cases hs : slotFor c st t with
    | some i => exact .inl ⟨_, .start true hs, fun hh => by rcases hh with ⟨_, _, _, e⟩ | ⟨e, _⟩ <;> cases e⟩
    | none =>
      right
      refine ⟨?_, fun ended i u hu he => ⟨.wait ended hs, hprog _ ended i u hu he⟩⟩
      intro hr
      rw [hr] at hb
      simp only [List.length_nil] at hb
      unfold slotFor at hs
      rw [if_neg (by simp [hb])] at hs
      by_cases hp : c.par t = true
      · rw [if_pos hp] at hs
        have := firstFree_none _ _ hs
        have hr' : st.slots.filterMap id = [] := hr
        rw [hr'] at this
        simp at this; omega
      · rw [if_neg hp, if_pos hb] at hs; cases hs
  | drain =>
    by_cases hz : st.busy = 0
    · exact .inl ⟨_, .finish hz, fun hh => by rcases hh with ⟨_, _, e, _⟩ | ⟨_, e⟩ <;> cases e⟩
    · right
      refine ⟨?_, fun ended i u hu he => ⟨.drain ended hz, hprog _ ended i u hu he⟩⟩
      intro hr; rw [hr] at hb; exact hz hb
  | finished => exact absurd rfl h1
  | stopped rest => exact absurd rfl (h2 rest)

/-! Failing fast -/

theorem errors_mono (c : Conf) (ended : Nat → Option Status) (is : List Nat) (st : St) :
    st.errors ≤ (collectFrom c ended is st).errors := by
  induction is generalizing st with
  | nil => exact Nat.le_refl _
  | cons i is ih =>
    rw [collectFrom.eq_def]; dsimp only
    have hf : ∀ t s, st.errors ≤ (free c st i t s).errors := by
      intro t s; show st.errors ≤ if isError s then st.errors + 1 else st.errors
      split <;> omega
    split
    · next t ht =>
      split
      · exact ih st
      · next s hs =>
        split
        · exact hf t s
        · exact Nat.le_trans (hf t s) (ih _)
    · exact ih st

/-- What remains after the first failure: nothing is started any more but the test that is already waiting. -/
theorem fail_fast_step (c : Conf) (hc : c.failFast = true) (x y : Phase × St) (he : x.2.errors ≠ 0) (h : Step c x y) :
    y.2.errors ≠ 0 ∧ (y.1 = x.1 ∨ (∃ rest, x.1 = .next rest ∧ y.1 = .stopped rest) ∨
      (∃ t rest, x.1 = .waiting t rest ∧ y.1 = .next rest) ∨ (x.1 = .drain ∧ y.1 = .finished)) := by
  cases h with
  | begin hn => exact absurd ⟨hc, he⟩ hn
  | stop _ _ => exact ⟨he, .inr (.inl ⟨_, rfl, rfl⟩)⟩
  | @wait t rest st ended hs =>
    refine ⟨?_, .inl rfl⟩
    dsimp only at he
    intro e
    have := errors_mono c ended (List.range st.slots.length) st
    unfold collectAll at e; dsimp only at e; omega
  | @start t i rest st ok hs =>
    refine ⟨?_, .inr (.inr (.inl ⟨_, _, rfl, rfl⟩))⟩
    dsimp only at he
    cases ok
    · show st.errors + 1 ≠ 0; omega
    · exact he
  | all hn => exact absurd ⟨hc, he⟩ hn
  | @drain st ended hb =>
    refine ⟨?_, .inl rfl⟩
    dsimp only at he
    intro e
    have := errors_mono c ended (List.range st.slots.length) st
    unfold collectAll at e; dsimp only at e; omega
  | finish hb => exact ⟨he, .inr (.inr (.inr ⟨rfl, rfl⟩))⟩

/-! Cases that can happen -/

/-- With two jobs, tests 1 and 2 that are parallel and then test 3 that is not: 1 and 2 run at the same time while 3 waits. -/
example : ∃ st, Reach ⟨false, fun t => t != 3⟩ 2 [1, 2, 3] (.waiting 3 [], st) ∧ running st = [1, 2] := by
  have h0 := Reach.init (c := ⟨false, fun t => t != 3⟩) (jobs := 2) (ts := [1, 2, 3]) false
  have h1 := h0.step (.begin (by simp))
  have h2 := h1.step (.start true (i := 0) (by decide))
  have h3 := h2.step (.begin (by simp))
  have h4 := h3.step (.start true (i := 1) (by decide))
  have h5 := h4.step (.begin (by simp))
  exact ⟨_, h5, by decide⟩

/-- And when they have ended test 3 runs, alone. -/
example : ∃ st, Reach ⟨false, fun t => t != 3⟩ 2 [3, 1] (.waiting 1 [], st) ∧ running st = [3] ∧
    (⟨false, fun t => t != 3⟩ : Conf).par 3 = false := by
  have h0 := Reach.init (c := ⟨false, fun t => t != 3⟩) (jobs := 2) (ts := [3, 1]) false
  have h1 := h0.step (.begin (by simp))
  have h2 := h1.step (.start true (i := 0) (by decide))
  have h3 := h2.step (.begin (by simp))
  exact ⟨_, h3, by decide, by decide⟩

/-- A run to the end. -/
example : ∃ st, Reach ⟨false, fun _ => true⟩ 1 [1] (.finished, st) ∧ overall (st.results.map Prod.snd) = true := by
  have h0 := Reach.init (c := ⟨false, fun _ => true⟩) (jobs := 1) (ts := [1]) false
  have h1 := h0.step (.begin (by simp))
  have h2 := h1.step (.start true (i := 0) (by decide))
  have h3 := h2.step (.all (by simp))
  have h4 := h3.step (.drain (fun _ => some .ok) (by decide))
  have h5 := h4.step (.finish (by decide))
  exact ⟨_, h5, by decide⟩

/-- With `fail_fast` running tests are left alone when the run is stopped: they have no result and are not waited for. -/
theorem fail_fast_counterexample : ∃ st, Reach ⟨true, fun _ => true⟩ 2 [1, 2, 3] (.stopped [], st) ∧ running st = [3, 2] := by
  have h0 := Reach.init (c := ⟨true, fun _ => true⟩) (jobs := 2) (ts := [1, 2, 3]) false
  have h1 := h0.step (.begin (by simp [initial]))
  have h2 := h1.step (.start true (i := 0) (by decide))
  have h3 := h2.step (.begin (by simp [initial, start]))
  have h4 := h3.step (.start true (i := 1) (by decide))
  have h5 := h4.step (.begin (by simp [initial, start]))
  have h6 := h5.step (.wait (fun i => if i = 0 then some .failed else none) (by decide))
  have h7 := h6.step (.start true (i := 0) (by decide))
  have h8 := h7.step (.stop rfl (by decide))
  exact ⟨_, h8, by decide⟩

/-- After a test that is not parallel could not be started, parallel tests wait for each other although jobs are free. -/
theorem serial_counterexample : ∃ st, Reach ⟨false, fun t => t != 1⟩ 2 [1, 2, 3] (.waiting 3 [], st) ∧ running st = [2] ∧
    slotFor ⟨false, fun t => t != 1⟩ st 3 = none := by
  have h0 := Reach.init (c := ⟨false, fun t => t != 1⟩) (jobs := 2) (ts := [1, 2, 3]) false
  have h1 := h0.step (.begin (by simp))
  have h2 := h1.step (.start false (i := 0) (by decide))
  have h3 := h2.step (.begin (by simp))
  have h4 := h3.step (.start true (i := 0) (by decide))
  have h5 := h4.step (.begin (by simp))
  exact ⟨_, h5, by decide, by decide⟩

/-! The order -/

/-- A test of higher priority comes first, and among tests of the same priority those that are not parallel do. -/
theorem compare_order (p1 p2 : Int) (a b : Bool) :
    (p1 > p2 → compare p1 p2 a b = -1 ∧ compare p2 p1 b a = 1) ∧
    (p1 = p2 → a = false → b = true → compare p1 p2 a b = -1 ∧ compare p2 p1 b a = 1) ∧
    (p1 = p2 → a = true → b = true → compare p1 p2 a b = 0) := by
  unfold compare
  refine ⟨?_, ?_, ?_⟩
  · intro h; rw [if_pos h, if_neg (by omega), if_pos h]; exact ⟨rfl, rfl⟩
  · rintro rfl rfl rfl; simp
  · rintro rfl rfl rfl; simp

/-- Of two tests of the same priority that are not parallel each comes before the other, which `qsort` does not allow. -/
theorem compare_counterexample : compare 0 0 false false = -1 := by decide

end Muon.Run
