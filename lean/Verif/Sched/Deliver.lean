import Verif.Sched.Run
/-
The invariant is preserved by `samu_nodedone`; all reachable states satisfy it.
-/
namespace Muon.Sched
open Muon Spec

theorem upd_id {α : Type} (f : Nat → α) (d : Nat) : upd f d (f d) = f := by
  funext x
  by_cases h : x = d
  · subst h; rw [upd_same]
  · rw [upd_other _ _ _ _ h]

theorem count_cons_other (x e : Nat) (b b' : Bool) (rest : List (Nat × Bool)) (h : x ≠ e) : ((e, b) :: rest).count (x, b') = rest.count (x, b') := by
  rw [List.count_cons]
  have : ¬ e = x := fun k => h k.symm
  simp [this]

theorem rinv_unblock {g : Graph} (wf : WF g) {c : Config} {targets : List Nat} {st0 : St} (s : Sched g targets st0) {r : Run} (I : RInv g c st0 r)
    (e : Nat) (b : Bool) (rest : List (Nat × Bool)) (hp : r.pending = (e, b) :: rest) (hw : st0.work e = true) (h0 : r.trace.countP (isPrune e) = 0) (np : Nat)
    (hclean : st0.isDirty e = false → np = dec (r.st.nblock e) ∧ np ≠ 0)
    (hprune : st0.dirtyOut e = false → st0.isDirty e = true → np + (if b = true then 1 else 0) = r.st.nprune e)
    (hpos : st0.dirtyOut e = false → 0 < np) :
    RInv g c st0 (unblock g { r with pending := rest, st := { r.st with nprune := upd r.st.nprune e np } } e) := by
  have L := I.live e hw h0
  have hle := (ann_le wf s I.ended hw).1
  have hlt := I.lePend e true
  have hlf := I.lePend e false
  have c1 : r.pending.count (e, true) = rest.count (e, true) + if b = true then 1 else 0 := by
    rw [hp, List.count_cons]; cases b <;> simp
  have c2 : r.pending.count (e, false) = rest.count (e, false) + if b = true then 0 else 1 := by
    rw [hp, List.count_cons]; cases b <;> simp
  have hbpos : 0 < r.st.nblock e := by
    have := L.blk
    cases b <;> simp at c1 c2 <;> omega
  have hdec : dec (r.st.nblock e) = r.st.nblock e - 1 := by unfold dec; rw [if_neg (by omega)]
  have hu : unblock g { r with pending := rest, st := { r.st with nprune := upd r.st.nprune e np } } e =
      { r with pending := rest, st := (fun st1 : St => if st1.nblock e = 0 then queue g st1 e else st1) ({ r.st with nprune := upd r.st.nprune e np, nblock := upd r.st.nblock e (dec (r.st.nblock e)) } : St) } := rfl
  rw [hu]
  clear hu
  generalize hst1 : ({ r.st with nprune := upd r.st.nprune e np, nblock := upd r.st.nblock e (dec (r.st.nblock e)) } : St) = st1
  dsimp only
  have a1 : st1.work = r.st.work ∧ st1.dirtyIn = r.st.dirtyIn ∧ st1.dirtyOut = r.st.dirtyOut ∧ st1.nblock = upd r.st.nblock e (dec (r.st.nblock e)) ∧
      st1.nprune = upd r.st.nprune e np ∧ (∀ x, tot g st1 x = tot g r.st x) ∧ st1.queue = r.st.queue ∧ st1.poolq = r.st.poolq ∧ st1.numjobs = r.st.numjobs := by
    rw [← hst1]; exact ⟨rfl, rfl, rfl, rfl, rfl, fun _ => rfl, rfl, rfl, rfl⟩
  clear hst1
  obtain ⟨a1, a2, a3, a4, a5, a6, a7, a8, a9⟩ := a1
  have anb : st1.nblock e = r.st.nblock e - 1 := by rw [a4, upd_same, hdec]
  have hq0 : tot g r.st e + r.running.count e + r.trace.countP (isDone e) + r.trace.countP (isFail e) + r.trace.countP (isNostart e) = 0 := by
    have := I.one e hw
    rw [if_neg (by rintro ⟨_, h⟩; omega)] at this
    exact this
  generalize hst2 : (if st1.nblock e = 0 then queue g st1 e else st1) = st2
  have b1 : st2.work = st1.work ∧ st2.dirtyIn = st1.dirtyIn ∧ st2.dirtyOut = st1.dirtyOut ∧ st2.nblock = st1.nblock ∧ st2.nprune = st1.nprune ∧
      (∀ x, tot g st2 x = tot g st1 x + if x = e ∧ st1.nblock e = 0 then 1 else 0) ∧ (∀ p, PoolOk g st2 p) ∧
      (∀ p, st2.numjobs p + st1.queue.countP (inPool g p) = st1.numjobs p + st2.queue.countP (inPool g p)) := by
    have P1 : ∀ p, PoolOk g st1 p := fun p => by
      have := I.pools p
      exact ⟨by rw [a8]; exact this.mem, by rw [a9]; exact this.le, by rw [a8, a9]; exact this.full⟩
    rw [← hst2]
    split
    · next hz =>
      obtain ⟨q1, _, q3, q4, q5, q6, _⟩ := queue_other g st1 e
      refine ⟨q1, q3, q4, q5, q6, fun x => ?_, fun p => queue_pool g st1 e p (P1 p), queue_count g st1 e⟩
      rw [queue_tot]; simp [hz]
    · next hz =>
      exact ⟨rfl, rfl, rfl, rfl, rfl, fun x => by simp [hz], P1, fun _ => rfl⟩
  clear hst2
  obtain ⟨b1, b2, b3, b4, b5, b6, b7, b8⟩ := b1
  have nbo : ∀ x, x ≠ e → st2.nblock x = r.st.nblock x := fun x hx => by rw [b4, a4, upd_other _ _ _ _ hx]
  have npo : ∀ x, x ≠ e → st2.nprune x = r.st.nprune x := fun x hx => by rw [b5, a5, upd_other _ _ _ _ hx]
  have nbe : st2.nblock e = r.st.nblock e - 1 := by rw [b4, anb]
  have npe : st2.nprune e = np := by rw [b5, a5, upd_same]
  have pco : ∀ x b', x ≠ e → rest.count (x, b') = r.pending.count (x, b') := fun x b' hx => by rw [hp, count_cons_other x e b b' rest hx]
  constructor
  · exact b1.trans (a1.trans I.work)
  · exact b2.trans (a2.trans I.dirtyIn)
  · exact b3.trans (a3.trans I.dirtyOut)
  · exact I.ended
  · intro x b'
    have h1 := I.lePend x b'
    have h2 : rest.count (x, b') ≤ r.pending.count (x, b') := by
      rw [hp]; exact List.count_le_count_cons
    exact Nat.le_trans h2 h1
  · intro x hxw hx0
    by_cases hx : x = e
    · subst hx
      refine ⟨?_, ?_, ?_, ?_⟩
      · have := L.blk
        show st2.nblock x + _ + _ = _ + rest.count (x, true) + rest.count (x, false)
        dsimp only
        cases b <;> simp at c1 c2 <;> omega
      · intro hd
        show st2.nprune x = st2.nblock x
        rw [npe, nbe, (hclean hd).1, hdec]
      · intro h1 h2
        show st2.nprune x + _ = _ + rest.count (x, true)
        have := L.prune h1 h2
        have := hprune h1 h2
        rw [npe]
        dsimp only
        cases b <;> simp at c1 this <;> omega
      · intro h1 _
        show 0 < st2.nprune x
        rw [npe]; exact hpos h1
    · exact (I.live x hxw hx0).grow (nbo x hx) (npo x hx) (fun _ => 0) (fun _ => rfl) (fun b' => pco x b' hx)
  · intro x hxw hx0
    by_cases hx : x = e
    · subst hx
      have hx0 : 0 < r.trace.countP (isPrune x) := hx0
      omega
    · exact (I.dead x hxw hx0).grow (nbo x hx) (fun _ => 0) (fun _ => rfl) (fun b' => pco x b' hx) (ann_le wf s I.ended hxw).1 rfl
  · intro x hxw
    by_cases hx : x = e
    · subst hx
      dsimp only
      rw [b6, a6, nbe, anb]
      by_cases hz : r.st.nblock x - 1 = 0
      · have hd : st0.isDirty x = true := by
          cases hd : st0.isDirty x with
          | true => rfl
          | false =>
            have := hclean hd
            omega
        simp [hz, hd]; omega
      · rw [if_neg (fun h => hz h.2), if_neg (fun h => hz h.2)]; omega
    · dsimp only
      rw [b6, a6, nbo x hx]
      have := I.one x hxw
      simp [hx]; omega
  · intro x hxw
    have hx : x ≠ e := fun h => by rw [h, hw] at hxw; cases hxw
    have := I.foreign x hxw
    dsimp only
    rw [b6, a6]
    rw [if_neg (fun h => hx h.1)]
    omega
  · exact I.starts
  · exact b7
  · intro p
    have h1 := I.count p
    have h2 := b8 p
    rw [a7, a9] at h2
    dsimp only
    omega
  · exact I.jobs
  · exact I.fails
  · exact I.real

theorem rinv_prune {g : Graph} (wf : WF g) {c : Config} {targets : List Nat} {st0 : St} (s : Sched g targets st0) {r : Run} (I : RInv g c st0 r)
    (e : Nat) (b : Bool) (rest : List (Nat × Bool)) (hp : r.pending = (e, b) :: rest) (hw : st0.work e = true) (h0 : r.trace.countP (isPrune e) = 0)
    (hdo : st0.dirtyOut e = false) (hb : b = false → st0.isDirty e = false) (hn1 : r.st.nprune e = 1) (nt : Nat) (np : Nat) :
    RInv g c st0 { r with
      st := { r.st with nprune := upd r.st.nprune e np, ntotal := nt }
      pending := announce g e (fun _ => true) ++ rest
      trace := r.trace ++ [.prune e] } ∧
    (ann g r.trace e true + ann g r.trace e false = st0.nblock e ∧ (st0.isDirty e = true → ann g r.trace e false = 0)) := by
  have L := I.live e hw h0
  have hle := (ann_le wf s I.ended hw).1
  have hlt := I.lePend e true
  have hlf := I.lePend e false
  have c1 : r.pending.count (e, true) = rest.count (e, true) + if b = true then 1 else 0 := by
    rw [hp, List.count_cons]; cases b <;> simp
  have c2 : r.pending.count (e, false) = rest.count (e, false) + if b = true then 0 else 1 := by
    rw [hp, List.count_cons]; cases b <;> simp
  have hbpos : 0 < r.st.nblock e := by
    have := L.blk
    cases b <;> simp at c1 c2 <;> omega
  have hB : 0 < st0.nblock e := by cases b <;> simp at c1 c2 <;> omega
  have facts : ann g r.trace e true + ann g r.trace e false = st0.nblock e ∧ rest.count (e, true) = 0 ∧ rest.count (e, false) = 0 ∧
      (st0.isDirty e = true → ann g r.trace e false = 0) := by
    cases hd : st0.isDirty e with
    | true =>
      have hbt : b = true := by
        cases b with
        | true => rfl
        | false => rw [hb rfl] at hd; cases hd
      have := L.prune hdo hd
      have := L.blk
      rw [if_pos hbt] at c1 c2
      exact ⟨by omega, by omega, by omega, fun _ => by omega⟩
    | false =>
      have := L.clean hd
      have := L.blk
      cases b <;> simp at c1 c2 <;> exact ⟨by omega, by omega, by omega, fun h => by cases h⟩
  obtain ⟨f1, f2, f3, f4⟩ := facts
  refine ⟨?_, f1, f4⟩
  have hq0 : tot g r.st e + r.running.count e + r.trace.countP (isDone e) + r.trace.countP (isFail e) + r.trace.countP (isNostart e) = 0 := by
    have := I.one e hw
    rw [if_neg (by rintro ⟨_, h⟩; omega)] at this
    exact this
  have he0 : endOf e r.trace = none := (endOf_none e r.trace).2 ⟨by omega, h0⟩
  have hx : endOf e [Event.prune e] = some (fun _ => true) := by simp [endOf, List.findSome?, endEv]
  have ho : ∀ y, y ≠ e → endOf y [Event.prune e] = none := by
    intro y hy
    have : ¬ e = y := fun h => hy h.symm
    simp [endOf, endEv, this]
  have ended : ∀ x, (endOf x (r.trace ++ [Event.prune e])).isSome = true → Active st0 x := by
    intro x hxs
    by_cases hxe : x = e
    · subst hxe; exact ⟨hw, .inr hB⟩
    · rw [endOf_append, ho x hxe, Option.or_none] at hxs
      exact I.ended x hxs
  have hann := ann_end g wf r.trace _ e _ (s.inv.lt e hw) he0 hx ho
  have pco : ∀ x b', x ≠ e → rest.count (x, b') = r.pending.count (x, b') := fun x b' hx => by rw [hp, count_cons_other x e b b' rest hx]
  have hpo : ∀ x, x ≠ e → (r.trace ++ [Event.prune e]).countP (isPrune x) = r.trace.countP (isPrune x) := fun x hx => by
    have : ¬ e = x := fun h => hx h.symm
    rw [List.countP_append]; simp [isPrune, this]
  have hpe : (r.trace ++ [Event.prune e]).countP (isPrune e) = 1 := by
    rw [List.countP_append, h0]; simp [isPrune]
  have hrest : ∀ x b', rest.count (x, b') ≤ r.pending.count (x, b') := fun x b' => by rw [hp]; exact List.count_le_count_cons
  constructor
  · exact I.work
  · exact I.dirtyIn
  · exact I.dirtyOut
  · exact ended
  · intro x b'
    dsimp only
    rw [List.count_append, hann x b']
    have := I.lePend x b'
    have := hrest x b'
    omega
  · intro x hxw hx0
    by_cases hxe : x = e
    · subst hxe
      have hx0 : (r.trace ++ [Event.prune x]).countP (isPrune x) = 0 := hx0
      omega
    · exact (I.live x hxw (by rw [← hpo x hxe]; exact hx0)).grow rfl (upd_other _ _ _ _ hxe) (fun b' => (announce g e fun _ => true).count (x, b')) (hann x)
        (fun b' => by
          show (announce g e (fun _ => true) ++ rest).count (x, b') = _
          rw [List.count_append, pco x b' hxe]; omega)
  · intro x hxw hx0
    by_cases hxe : x = e
    · subst hxe
      have hle' := (ann_le wf s ended hxw).1
      have a1 := hann x true
      have a2 := hann x false
      refine ⟨?_, ⟨?_, ?_⟩, hbpos, hdo, hpe⟩
      · show ann g (r.trace ++ _) x true + ann g (r.trace ++ _) x false = _
        omega
      · show (announce g x (fun _ => true) ++ rest).count (x, true) = 0
        rw [List.count_append]; omega
      · show (announce g x (fun _ => true) ++ rest).count (x, false) = 0
        rw [List.count_append]; omega
    · exact (I.dead x hxw (by rw [← hpo x hxe]; exact hx0)).grow rfl (fun b' => (announce g e fun _ => true).count (x, b')) (hann x)
        (fun b' => by
          show (announce g e (fun _ => true) ++ rest).count (x, b') = _
          rw [List.count_append, pco x b' hxe]; omega)
        (ann_le wf s ended hxw).1 (hpo x hxe)
  · intro x hxw
    have := I.one x hxw
    show tot g r.st x + _ + _ + _ + _ = _
    dsimp only
    rw [List.countP_append, List.countP_append, List.countP_append]
    simp only [isDone, isFail, isNostart, List.countP_cons, List.countP_nil, Bool.false_eq_true, if_false]
    omega
  · intro x hxw
    have := I.foreign x hxw
    show tot g r.st x = 0 ∧ _
    dsimp only
    rw [List.countP_append, List.countP_append, List.countP_append]
    simp only [isDone, isFail, isNostart, List.countP_cons, List.countP_nil, Bool.false_eq_true, if_false]
    omega
  · intro x
    have := I.starts x
    dsimp only
    rw [List.countP_append, List.countP_append, List.countP_append]
    simp only [isStart, isDone, isFail, List.countP_cons, List.countP_nil, Bool.false_eq_true, if_false]
    omega
  · intro p
    have := I.pools p
    exact ⟨this.mem, this.le, this.full⟩
  · intro p
    have := I.count p
    dsimp only
    rw [this, List.countP_append]; simp [leaks]
  · exact I.jobs
  · dsimp only
    rw [I.fails, List.countP_append]; simp [isAnyFail]
  · exact I.real

/-- What an iteration of `samu_nodedone` does: it preserves the invariant, and it prunes an edge only if all announcements it waits for have been made. -/
theorem rinv_deliver {g : Graph} (wf : WF g) {c : Config} {targets : List Nat} {st0 : St} (s : Sched g targets st0) {r : Run} (I : RInv g c st0 r)
    (e : Nat) (b : Bool) (rest : List (Nat × Bool)) (hp : r.pending = (e, b) :: rest) :
    RInv g c st0 (deliver g { r with pending := rest } e b) ∧
    ((deliver g { r with pending := rest } e b).trace = r.trace ∨
      (deliver g { r with pending := rest } e b).trace = r.trace ++ [.prune e] ∧ st0.work e = true ∧ st0.dirtyOut e = false ∧ endOf e r.trace = none ∧
      ann g r.trace e true + ann g r.trace e false = st0.nblock e ∧ (st0.isDirty e = true → ann g r.trace e false = 0)) := by
  have hwk : r.st.work e = st0.work e := by rw [I.work]
  unfold deliver
  cases hw : st0.work e with
  | false =>
    rw [if_pos (by show (!r.st.work e) = true; rw [hwk, hw]; rfl)]
    refine ⟨?_, .inl rfl⟩
    have pco : ∀ x b', x ≠ e → rest.count (x, b') = r.pending.count (x, b') := fun x b' hx => by rw [hp, count_cons_other x e b b' rest hx]
    have ne : ∀ x, st0.work x = true → x ≠ e := fun x hx h => by rw [h, hw] at hx; cases hx
    exact ⟨I.work, I.dirtyIn, I.dirtyOut, I.ended,
      fun x b' => Nat.le_trans (by show rest.count _ ≤ r.pending.count _; rw [hp]; exact List.count_le_count_cons) (I.lePend x b'),
      fun x hxw hx0 => (I.live x hxw hx0).grow rfl rfl (fun _ => 0) (fun _ => rfl) (fun b' => pco x b' (ne x hxw)),
      fun x hxw hx0 => (I.dead x hxw hx0).grow rfl (fun _ => 0) (fun _ => rfl) (fun b' => pco x b' (ne x hxw)) (ann_le wf s I.ended hxw).1 rfl,
      I.one, I.foreign, I.starts, I.pools, I.count, I.jobs, I.fails, I.real⟩
  | true =>
    rw [if_neg (by show ¬ (!r.st.work e) = true; rw [hwk, hw]; simp)]
    have h0 : r.trace.countP (isPrune e) = 0 := by
      cases h : r.trace.countP (isPrune e) with
      | zero => rfl
      | succ k =>
        have := (I.dead e hw (by omega)).none
        rw [hp] at this
        cases b <;> simp at this
    have L := I.live e hw h0
    have hB : 0 < st0.nblock e := by
      have h1 := (ann_le wf s I.ended hw).1
      have h2 := I.lePend e b
      rw [hp] at h2
      have : 0 < ((e, b) :: rest).count (e, b) := by rw [List.count_cons]; simp
      cases b <;> omega
    have hq0 : r.trace.countP (isDone e) = 0 := by
      have hle := (ann_le wf s I.ended hw).1
      have hlt := I.lePend e true
      have hlf := I.lePend e false
      have c1 : r.pending.count (e, true) = rest.count (e, true) + if b = true then 1 else 0 := by
        rw [hp, List.count_cons]; cases b <;> simp
      have c2 : r.pending.count (e, false) = rest.count (e, false) + if b = true then 0 else 1 := by
        rw [hp, List.count_cons]; cases b <;> simp
      have hbpos : 0 < r.st.nblock e := by
        have := L.blk
        cases b <;> simp at c1 c2 <;> omega
      have := I.one e hw
      rw [if_neg (by rintro ⟨_, h⟩; omega)] at this
      omega
    have hunb : ∀ (hd : st0.isDirty e = true) (hc : b = true → st0.dirtyOut e = true), RInv g c st0 (unblock g { r with pending := rest } e) ∧
        (unblock g { r with pending := rest } e).trace = r.trace := by
      intro hd hc
      refine ⟨?_, rfl⟩
      have := rinv_unblock wf s I e b rest hp hw h0 (r.st.nprune e) (fun h => by rw [hd] at h; cases h) (fun h1 _ => by
        cases b with
        | true => rw [hc rfl] at h1; cases h1
        | false => rfl) (fun h1 => L.pos h1 hB)
      rw [upd_id] at this
      exact this
    have hdd : r.st.isDirty e = st0.isDirty e := isDirty_eq I e
    have hce : (if b = true then r.st.dirtyOut e else r.st.isDirty e) = if b = true then st0.dirtyOut e else st0.isDirty e := by rw [hdd, I.dirtyOut]
    by_cases hcond : (if b = true then st0.dirtyOut e else st0.isDirty e) = true
    · rw [if_neg (by show ¬ (!(if b = true then r.st.dirtyOut e else r.st.isDirty e)) = true; rw [hce, hcond]; simp)]
      have hd : st0.isDirty e = true := by
        cases b with
        | true =>
          have : st0.dirtyOut e = true := hcond
          unfold St.isDirty; rw [this]; simp
        | false => exact hcond
      have := hunb hd (fun hb => by subst hb; exact hcond)
      exact ⟨this.1, .inl this.2⟩
    · rw [if_pos (by show (!(if b = true then r.st.dirtyOut e else r.st.isDirty e)) = true; rw [hce, Bool.eq_false_iff.2 hcond]; rfl)]
      have hdo : st0.dirtyOut e = false := by
        cases b with
        | true => exact Bool.eq_false_iff.2 hcond
        | false =>
          have : st0.isDirty e = false := Bool.eq_false_iff.2 hcond
          unfold St.isDirty at this
          rw [Bool.or_eq_false_iff] at this
          exact this.2
      have hb : b = false → st0.isDirty e = false := fun hb => by subst hb; exact Bool.eq_false_iff.2 hcond
      have hnp : 0 < r.st.nprune e := L.pos hdo hB
      have hdec : dec (r.st.nprune e) = r.st.nprune e - 1 := by unfold dec; rw [if_neg (by omega)]
      dsimp only
      by_cases hz : dec (r.st.nprune e) = 0
      · rw [if_pos (by rw [upd_same]; exact hz)]
        have P := rinv_prune wf s I e b rest hp hw h0 hdo hb (by omega)
          (if (St.isDirty { r.st with nprune := upd r.st.nprune e (dec (r.st.nprune e)) } e && !g.phony e) = true then r.st.ntotal - 1 else r.st.ntotal)
          (dec (r.st.nprune e))
        exact ⟨P.1, .inr ⟨rfl, rfl, hdo, (endOf_none e r.trace).2 ⟨hq0, h0⟩, P.2⟩⟩
      · rw [if_neg (by rw [upd_same]; exact hz)]
        refine ⟨?_, .inl rfl⟩
        exact rinv_unblock wf s I e b rest hp hw h0 (dec (r.st.nprune e))
          (fun hd => ⟨by rw [L.clean hd], hz⟩)
          (fun h1 h2 => by
            cases b with
            | true => rw [if_pos rfl]; omega
            | false => rw [hb rfl] at h2; cases h2)
          (fun _ => by omega)

theorem rinv_step {g : Graph} (wf : WF g) {c : Config} {targets : List Nat} {st0 : St} (s : Sched g targets st0) {r r' : Run} (I : RInv g c st0 r) (h : Step g c r r') :
    RInv g c st0 r' := by
  cases h with
  | deliver e b rest hp => exact (rinv_deliver wf s I e b rest hp).1
  | skip e q hp hq hs h => exact rinv_skip wf s I e q hp hq h
  | start e q hp hq hs h => exact rinv_start wf s I e q hq hs h
  | nostart e q hp hq hs h => exact rinv_nostart wf s I e q hq
  | done e same hp hr hs => exact rinv_done wf s I e same hp hr
  | fail e hp hr => exact rinv_fail wf s I e hr

theorem reach_inv {g : Graph} (wf : WF g) {c : Config} {targets : List Nat} {st0 : St} (s : Sched g targets st0) {r : Run} (h : Reach g c st0 r) : RInv g c st0 r := by
  induction h with
  | init => exact rinv_init s
  | step _ h ih => exact rinv_step wf s ih h

end Muon.Sched
