import Verif.Dict.Lemmas
/-
Property of dictionaries (C33).
-/
namespace Muon.Dict
open Muon

/-- The relation between the code's state and the specification's. -/
structure Sim (env : Env) (st : State) (ms : List Spec.Map) (fl : List Bool) (F : Nat → Foot) (P : Nat → List (Nat × Nat)) : Prop where
  good : Good env st.heap F P
  nodup : st.vars.Nodup
  lt : ∀ d ∈ st.vars, d < st.heap.nObjs
  maps : ms = st.vars.map fun d => view env (P d)
  flLen : fl.length = st.vars.length
  flag : ∀ (x d : Nat), st.vars[x]? = some d → (F d).tab.isSome → fl[x]? = some true

theorem large_get (fl : List Bool) (ms : List Spec.Map) (x : Nat) (m : Spec.Map) (hm : ms[x]? = some m)
    (h : fl[x]? = some true ∨ 15 ≤ m.length) : (Spec.large fl ms)[x]? = some true := by
  unfold Spec.large
  rw [List.getElem?_mapIdx, hm]
  simp only [Option.map_some, Option.some.injEq, Bool.or_eq_true, decide_eq_true_eq]
  rcases h with h | h
  · left; rw [List.getD_eq_getElem?_getD, h]; rfl
  · right; exact h

theorem large_length (fl : List Bool) (ms : List Spec.Map) : (Spec.large fl ms).length = ms.length := by simp [Spec.large]

/-- Changing the dictionary of one variable. -/
theorem sim_upd {env : Env} {st : State} {ms : List Spec.Map} {fl : List Bool} {F : Nat → Foot} {P : Nat → List (Nat × Nat)}
    (s : Sim env st ms fl F P) (x d : Nat) (hx : st.vars[x]? = some d) (h' : Heap) (f' : Foot) (ps' : List (Nat × Nat)) (m' : Spec.Map)
    (g : Good env h' (upd F d f') (upd P d ps')) (v : view env ps' = m') (n : h'.nObjs = st.heap.nObjs)
    (b : f'.tab.isSome → (F d).tab.isSome ∨ 15 ≤ ps'.length) :
    ∃ F' P', Sim env ⟨h', st.vars⟩ (ms.set x m') (Spec.large fl (ms.set x m')) F' P' := by
  have hms : ms.set x m' = st.vars.map fun d' => view env (upd P d ps' d') := by
    rw [s.maps]
    apply List.ext_getElem?
    intro i
    rw [List.getElem?_set, List.getElem?_map, List.getElem?_map, List.length_map]
    have hxl : x < st.vars.length := (List.getElem?_eq_some_iff.1 hx).1
    by_cases hi : x = i
    · subst hi
      rw [if_pos rfl, if_pos hxl, hx]
      simp only [Option.map_some, upd_same, v]
    · rw [if_neg hi]
      cases h1 : st.vars[i]? with
      | none => rfl
      | some d' =>
        have : d' ≠ d := by
          rintro rfl
          obtain ⟨i1, e1⟩ := List.getElem?_eq_some_iff.1 h1
          obtain ⟨i2, e2⟩ := List.getElem?_eq_some_iff.1 hx
          exact hi ((List.getElem_inj s.nodup).1 (e2.trans e1.symm))
        simp only [Option.map_some, upd_other _ _ _ _ this]
  refine ⟨_, _, ⟨g, s.nodup, fun d hd => by show d < h'.nObjs; rw [n]; exact s.lt d hd, hms, ?_, ?_⟩⟩
  · rw [large_length, List.length_set, s.maps, List.length_map]
  · intro y d' hy hf
    have hy : st.vars[y]? = some d' := hy
    apply large_get fl _ y (view env (upd P d ps' d')) (by rw [hms, List.getElem?_map, hy]; rfl)
    by_cases e : d' = d
    · rw [e, upd_same] at hf ⊢
      rcases b hf with h1 | h1
      · exact .inl (s.flag y d (e ▸ hy) h1)
      · right; rw [length_view]; exact h1
    · rw [upd_other _ _ _ _ e] at hf
      exact .inl (s.flag y d' hy hf)

/-- A variable with a new dictionary. -/
theorem sim_new {env : Env} {st : State} {ms : List Spec.Map} {fl : List Bool} {F : Nat → Foot} {P : Nat → List (Nat × Nat)}
    (s : Sim env st ms fl F P) (h' : Heap) (f' : Foot) (ps' : List (Nat × Nat)) (m' : Spec.Map)
    (g : Good env h' (upd F st.heap.nObjs f') (upd P st.heap.nObjs ps')) (v : view env ps' = m') (n : h'.nObjs = st.heap.nObjs + 1)
    (b : f'.tab.isSome → 15 ≤ ps'.length) :
    ∃ F' P', Sim env ⟨h', st.vars ++ [st.heap.nObjs]⟩ (ms ++ [m']) (Spec.large fl (ms ++ [m'])) F' P' := by
  have hne : ∀ d ∈ st.vars, d ≠ st.heap.nObjs := fun d hd e => absurd (s.lt d hd) (by omega)
  have hms : ms ++ [m'] = (st.vars ++ [st.heap.nObjs]).map fun d' => view env (upd P st.heap.nObjs ps' d') := by
    rw [List.map_append, s.maps]
    congr 1
    · apply List.map_congr_left
      intro d hd
      rw [upd_other _ _ _ _ (hne d hd)]
    · simp [upd_same, v]
  refine ⟨_, _, ⟨g, ?_, ?_, hms, ?_, ?_⟩⟩
  · show (st.vars ++ [st.heap.nObjs]).Nodup
    rw [List.nodup_append]
    exact ⟨s.nodup, by simp, fun a ha b hb => by
      have : b = st.heap.nObjs := by simpa using hb
      rw [this]; exact hne a ha⟩
  · intro d hd
    show d < h'.nObjs
    rcases List.mem_append.1 hd with h1 | h1
    · have := s.lt d h1; omega
    · have : d = st.heap.nObjs := by simpa using h1
      omega
  · rw [large_length, hms, List.length_map]
  · intro y d' hy hf
    have hy : (st.vars ++ [st.heap.nObjs])[y]? = some d' := hy
    apply large_get fl _ y (view env (upd P st.heap.nObjs ps' d')) (by rw [hms, List.getElem?_map, hy]; rfl)
    by_cases e : d' = st.heap.nObjs
    · rw [e, upd_same] at hf ⊢
      right; rw [length_view]; exact b hf
    · rw [upd_other _ _ _ _ e] at hf
      left
      by_cases hl : y < st.vars.length
      · rw [List.getElem?_append_left hl] at hy
        exact s.flag y d' hy hf
      · rw [List.getElem?_append_right (by omega)] at hy
        cases h1 : y - st.vars.length with
        | zero => rw [h1] at hy; exact absurd (Option.some.inj hy).symm e
        | succ _ => rw [h1] at hy; cases hy

theorem sim_var {env : Env} {st : State} {ms : List Spec.Map} {fl : List Bool} {F : Nat → Foot} {P : Nat → List (Nat × Nat)}
    (s : Sim env st ms fl F P) (x : Nat) (m : Spec.Map) (hx : ms[x]? = some m) :
    ∃ d, st.vars[x]? = some d ∧ d < st.heap.nObjs ∧ view env (P d) = m := by
  rw [s.maps, List.getElem?_map] at hx
  cases h : st.vars[x]? with
  | none => rw [h] at hx; cases hx
  | some d =>
    rw [h] at hx
    exact ⟨d, rfl, s.lt d (List.mem_of_getElem? h), Option.some.inj hx⟩

theorem step_sim {env : Env} {st : State} {ms : List Spec.Map} {fl : List Bool} {F : Nat → Foot} {P : Nat → List (Nat × Nat)}
    (s : Sim env st ms fl F P) (op : Op)
    (hav : ∀ (x : Nat) (k : Bytes) (m : Spec.Map), op = .del x k → ms[x]? = some m → fl[x]? = some false ∨ Spec.get m k = none)
    (ms' : List Spec.Map) (h : Spec.step env.str ms op = some ms') :
    ∃ st' F' P', step env st op = some st' ∧ Sim env st' ms' (Spec.large fl ms') F' P' := by
  cases op with
  | new =>
    obtain rfl : ms ++ [[]] = ms' := Option.some.inj h
    obtain ⟨F', P', s'⟩ := sim_new s _ _ _ [] (good_make s.good) rfl rfl (fun h => by cases h)
    exact ⟨_, F', P', rfl, s'⟩
  | set x key v =>
    cases hx : ms[x]? with
    | none => simp [Spec.step, hx] at h
    | some m =>
      obtain rfl : ms.set x (Spec.set m (env.str key) v) = ms' := by simpa [Spec.step, hx] using h
      obtain ⟨d, hd, hlt, hm⟩ := sim_var s x m hx
      obtain ⟨h', f', ps', e1, g1, v1, n1, b1⟩ := set_ok s.good hlt key v
      rw [hm] at v1
      obtain ⟨F', P', s'⟩ := sim_upd s x d hd h' f' ps' _ g1 v1 n1 (by
        intro h1
        have o1 := g1.owns d (by omega)
        rw [upd_same, upd_same] at o1
        rw [← big_iff o1] at h1
        rcases b1 h1 with h2 | h2
        · left; rw [← big_iff (s.good.owns d hlt)]; exact h2
        · right
          have := length_set m (env.str key) v
          rw [← v1, length_view] at this
          rw [← length_view env, hm] at h2
          omega)
      exact ⟨_, F', P', by simp [step, hd, e1], s'⟩
  | del x k =>
    cases hx : ms[x]? with
    | none => simp [Spec.step, hx] at h
    | some m =>
      obtain rfl : ms.set x (Spec.del m k) = ms' := by simpa [Spec.step, hx] using h
      obtain ⟨d, hd, hlt, hm⟩ := sim_var s x m hx
      obtain ⟨h', f', ps', e1, g1, v1, n1, b1⟩ := del_ok s.good hlt k (by
        rw [hm]
        rcases hav x k m rfl hx with h1 | h1
        · left
          cases h2 : (F d).tab.isSome with
          | false => rfl
          | true =>
            have := s.flag x d hd h2
            rw [h1] at this; cases this
        · exact .inr h1)
      rw [hm] at v1
      obtain ⟨F', P', s'⟩ := sim_upd s x d hd h' f' ps' _ g1 v1 n1 (fun h1 => .inl (by rw [← b1]; exact h1))
      exact ⟨_, F', P', by simp [step, hd, e1], s'⟩
  | dup x =>
    cases hx : ms[x]? with
    | none => simp [Spec.step, hx] at h
    | some m =>
      obtain rfl : ms ++ [m] = ms' := by simpa [Spec.step, hx] using h
      obtain ⟨d, hd, hlt, hm⟩ := sim_var s x m hx
      obtain ⟨h', f', ps', e1, g1, v1, n1, b1⟩ := dup_ok s.good hlt
      obtain ⟨F', P', s'⟩ := sim_new s h' f' ps' _ g1 (v1.trans hm) n1 b1
      exact ⟨_, F', P', by simp [step, hd, e1], s'⟩
  | merge x y =>
    cases hx : ms[x]? with
    | none => simp [Spec.step, hx] at h
    | some m =>
      cases hy : ms[y]? with
      | none => simp [Spec.step, hx, hy] at h
      | some m2 =>
        obtain rfl : ms ++ [Spec.update m m2] = ms' := by simpa [Spec.step, hx, hy] using h
        obtain ⟨d, hd, hlt, hm⟩ := sim_var s x m hx
        obtain ⟨d2, hd2, hlt2, hm2⟩ := sim_var s y m2 hy
        obtain ⟨h', f', ps', e1, g1, v1, n1, b1⟩ := merge_ok s.good hlt hlt2
        rw [hm, hm2] at v1
        obtain ⟨F', P', s'⟩ := sim_new s h' f' ps' _ g1 v1 n1 b1
        exact ⟨_, F', P', by simp [step, hd, hd2, e1], s'⟩
  | update x y =>
    cases hx : ms[x]? with
    | none => simp [Spec.step, hx] at h
    | some m =>
      cases hy : ms[y]? with
      | none => simp [Spec.step, hx, hy] at h
      | some m2 =>
        by_cases hxy : x = y
        · simp [Spec.step, hy, hxy] at h
        · obtain rfl : ms.set x (Spec.update m m2) = ms' := by simpa [Spec.step, hx, hy, hxy] using h
          obtain ⟨d, hd, hlt, hm⟩ := sim_var s x m hx
          obtain ⟨d2, hd2, hlt2, hm2⟩ := sim_var s y m2 hy
          have hne : d ≠ d2 := by
            rintro rfl
            obtain ⟨i1, e1⟩ := List.getElem?_eq_some_iff.1 hd
            obtain ⟨i2, e2⟩ := List.getElem?_eq_some_iff.1 hd2
            exact hxy ((List.getElem_inj s.nodup).1 (e1.trans e2.symm))
          obtain ⟨h', f', ps', e1, g1, v1, n1, b1⟩ := mergeInto_ok s.good hlt hlt2 hne
          rw [hm, hm2] at v1
          obtain ⟨F', P', s'⟩ := sim_upd s x d hd h' f' ps' _ g1 v1 n1 b1
          exact ⟨_, F', P', by simp [step, hd, hd2, e1], s'⟩

theorem run_sim {env : Env} : ∀ (ops : List Op) {st : State} {ms : List Spec.Map} {fl : List Bool} {F : Nat → Foot} {P : Nat → List (Nat × Nat)},
    Sim env st ms fl F P → Spec.Avoids env.str ms fl ops → ∀ ms', Spec.run env.str ms ops = some ms' →
    ∃ st' fl' F' P', run env st ops = some st' ∧ Sim env st' ms' fl' F' P'
  | [], st, ms, fl, F, P, s, _, ms', h => ⟨st, fl, F, P, rfl, by obtain rfl : ms = ms' := Option.some.inj h; exact s⟩
  | op :: ops, st, ms, fl, F, P, s, hav, ms', h => by
    cases h1 : Spec.step env.str ms op with
    | none => simp [Spec.run, h1] at h
    | some ms1 =>
      obtain ⟨st1, F1, P1, e1, s1⟩ := step_sim s op hav.1 ms1 h1
      obtain ⟨st', fl', F', P', e2, s2⟩ := run_sim ops s1 (hav.2 ms1 h1) ms' (by simpa [Spec.run, h1] using h)
      exact ⟨st', fl', F', P', by simp [run, e1, e2], s2⟩

/-- **C33**, with one kind of use left out. Whatever sequence of operations is applied to dictionaries (for whatever
hash function), the dictionary of every variable has the contents, in the order, that the same operations give on maps:
looking up any key, iterating and the length agree. Left out is the deletion of a key from a dictionary that has or
has had fifteen keys; see the counterexample. -/
theorem dicts_partial (env : Env) (ops : List Op) (hav : Spec.Avoids env.str [] [] ops) (ms : List Spec.Map)
    (h : Spec.run env.str [] ops = some ms) :
    ∃ st, run env {} ops = some st ∧ st.vars.length = ms.length ∧ ∀ (x d : Nat) (m : Spec.Map), st.vars[x]? = some d → ms[x]? = some m →
      (∀ k, index env st.heap d k = some (Spec.get m k)) ∧ contents env st.heap d = some m ∧ (st.heap.obj d).len = m.length := by
  have s0 : Sim env {} [] [] (fun _ => ⟨[], none⟩) (fun _ => []) :=
    ⟨⟨fun d h => absurd h (Nat.not_lt_zero d), fun d h => absurd h (Nat.not_lt_zero d), Nat.one_pos⟩, List.nodup_nil,
      fun _ h => (by cases h), rfl, rfl, fun _ _ h => (by cases h)⟩
  obtain ⟨st, fl, F, P, e, s⟩ := run_sim ops s0 hav ms h
  refine ⟨st, e, by rw [s.maps, List.length_map], ?_⟩
  intro x d m hd hm
  obtain ⟨d', hd', hlt, hv⟩ := sim_var s x m hm
  obtain rfl : d = d' := Option.some.inj (hd.symm.trans hd')
  have o := s.good.owns d hlt
  rw [← hv]
  exact ⟨index_ok o, contents_ok o, by rw [length_view]; exact o.len⟩

/-- A sequence of operations that uses a list, deletes from it, and goes on to use a hash table. -/
def exampleOps : List Op := [.new, .set 0 1 10, .set 0 2 20, .del 0 [1], .set 0 2 21] ++ (List.range 20).map (fun i => .set 0 (i + 3) i) ++
  [.dup 0, .set 1 5 77, .new, .set 2 5 78, .set 2 99 1, .update 0 2, .merge 2 1]

example : (Spec.run (fun o => [UInt8.ofNat o]) [] exampleOps).map (·.map List.length) = some [22, 21, 2, 22] := by decide +kernel
instance (str : Nat → Bytes) : (ms : List Spec.Map) → (fl : List Bool) → (ops : List Op) → Decidable (Spec.Avoids str ms fl ops)
  | _, _, [] => .isTrue trivial
  | ms, fl, op :: ops =>
    have d1 : Decidable (∀ (x : Nat) (k : Bytes) (m : Spec.Map), op = .del x k → ms[x]? = some m → fl[x]? = some false ∨ Spec.get m k = none) :=
      match op with
      | .del x k =>
        match h : ms[x]? with
        | none => .isTrue fun _ _ m h1 h2 => by cases h1; rw [h] at h2; cases h2
        | some m =>
          if hc : fl[x]? = some false ∨ Spec.get m k = none then
            .isTrue fun _ _ m' h1 h2 => by cases h1; rw [h] at h2; cases h2; exact hc
          else .isFalse fun hf => hc (hf x k m rfl h)
      | .new => .isTrue fun _ _ _ h => by cases h
      | .set .. => .isTrue fun _ _ _ h => by cases h
      | .dup .. => .isTrue fun _ _ _ h => by cases h
      | .merge .. => .isTrue fun _ _ _ h => by cases h
      | .update .. => .isTrue fun _ _ _ h => by cases h
    have d2 : Decidable (∀ ms', Spec.step str ms op = some ms' → Spec.Avoids str ms' (Spec.large fl ms') ops) :=
      match h : Spec.step str ms op with
      | none => .isTrue fun _ h => by cases h
      | some ms1 =>
        match instDecidableAvoids str ms1 (Spec.large fl ms1) ops with
        | .isTrue h1 => .isTrue fun ms' h2 => by cases h2; exact h1
        | .isFalse h1 => .isFalse fun h2 => h1 (h2 ms1 rfl)
    inferInstanceAs (Decidable (_ ∧ _))
example : Spec.Avoids (fun o => [UInt8.ofNat o]) [] [] exampleOps := by decide +kernel

/-- **C33 fails** for deleting from a large dictionary: after setting sixteen keys and deleting one of them, the
length is still sixteen and iterating dereferences a null pointer. -/
theorem dicts_del_counterexample :
    ∃ (env : Env) (ops : List Op) (ms : List Spec.Map) (st : State) (d : Nat), Spec.run env.str [] ops = some ms ∧ run env {} ops = some st ∧
      st.vars[0]? = some d ∧ ms.map List.length = [15] ∧ (st.heap.obj d).len = 16 ∧ contents env st.heap d = none := by
  let env : Env := ⟨fun _ => 0, fun o => [UInt8.ofNat o]⟩
  let ops : List Op := .new :: (List.range 16).map (fun i => .set 0 i i) ++ [.del 0 [3]]
  have h1 : (Spec.run env.str [] ops).map (·.map List.length) = some [15] := by decide +kernel
  have h2 : (run env {} ops).map (fun st => (st.vars[0]?, (st.heap.obj 0).len, (contents env st.heap 0).isNone)) = some (some 0, 16, true) := by decide +kernel
  cases e1 : Spec.run env.str [] ops with
  | none => rw [e1] at h1; cases h1
  | some ms =>
    cases e2 : run env {} ops with
    | none => rw [e2] at h2; cases h2
    | some st =>
      rw [e1] at h1
      rw [e2] at h2
      have h2 := Option.some.inj h2
      exact ⟨env, ops, ms, st, 0, e1, e2, congrArg (·.1) h2, Option.some.inj h1, congrArg (·.2.1) h2, Option.isNone_iff_eq_none.1 (congrArg (·.2.2) h2)⟩

end Muon.Dict
