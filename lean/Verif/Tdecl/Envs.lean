import Verif.Tdecl.Props
/-
C112: the environments of tests and run targets.
-/
namespace Muon.Tdecl
open Muon Muon.Tdecl.Spec

/-- Objects of variables exist. -/
def WF (st : St) : Prop := ∀ i, Ref.dict i ∈ st.vars → i < st.dicts.length

theorem setVar_dicts (st : St) (r : Ref) (k v : Bytes) : (setVar st r k v).dicts.length = st.dicts.length ∧
    ∀ j, (setVar st r k v).dicts[j]? = if r = .dict j then st.dicts[j]?.map (fun d => Env.dictSet d k v) else st.dicts[j]? := by
  cases r with
  | env i => exact ⟨rfl, fun j => by simp [setVar]⟩
  | dict i =>
    refine ⟨by simp [setVar], fun j => ?_⟩
    by_cases h : i = j <;> simp [setVar, h]

theorem setVar_envs (st : St) (r : Ref) (k v : Bytes) :
    ∀ j, (setVar st r k v).envs[j]? = if r = .env j then st.envs[j]?.map (fun a => Env.envSet a .set k [v] none) else st.envs[j]? := by
  cases r with
  | dict i => exact fun j => by simp [setVar]
  | env i =>
    intro j
    by_cases h : i = j <;> simp [setVar, h]

/-- The dictionary with the variables every command gets. -/
def withDefaults (E : World) (sub : Option Bytes) (d : List (Bytes × Bytes)) : List (Bytes × Bytes) :=
  let d := Env.dictSet (Env.dictSet (Env.dictSet d (ascii "MUON_PATH") E.argv0) (ascii "MESON_BUILD_ROOT") E.build) (ascii "MESON_SOURCE_ROOT") E.source
  match sub with
  | none => d
  | some s => Env.dictSet d (ascii "MESON_SUBDIR") s

theorem defaults_dicts (E : World) (sub : Option Bytes) (r : Ref) (st : St) : (defaults E sub r st).dicts.length = st.dicts.length ∧
    ∀ j, (defaults E sub r st).dicts[j]? = if r = .dict j then st.dicts[j]?.map (withDefaults E sub) else st.dicts[j]? := by
  unfold defaults withDefaults
  cases sub with
  | none =>
    refine ⟨by simp [setVar_dicts], fun j => ?_⟩
    by_cases h : r = .dict j
    · simp [(setVar_dicts _ _ _ _).2, h, Function.comp_def]
    · simp [(setVar_dicts _ _ _ _).2, h]
  | some s =>
    refine ⟨by simp [setVar_dicts], fun j => ?_⟩
    by_cases h : r = .dict j
    · simp [(setVar_dicts _ _ _ _).2, h, Function.comp_def]
    · simp [(setVar_dicts _ _ _ _).2, h]

theorem index_withDefaults (E : World) (sub : Option Bytes) (d : List (Bytes × Bytes)) (k : Bytes) :
    Env.index (withDefaults E sub d) k = if sub.isSome ∧ k = ascii "MESON_SUBDIR" then sub else value E (Env.index d) k := by
  have base : ∀ k, Env.index (withDefaults E none d) k = value E (Env.index d) k := by
    intro k
    unfold withDefaults value given
    simp only [Env.index_dictSet]
    by_cases h1 : k = ascii "MUON_PATH"
    · subst h1
      rw [if_neg (by decide +kernel), if_neg (by decide +kernel), if_pos rfl, if_pos rfl]
    · rw [if_neg h1]
      by_cases h2 : k = ascii "MESON_BUILD_ROOT"
      · subst h2
        rw [if_neg (by decide +kernel), if_pos rfl, if_pos rfl]
      · rw [if_neg h2]
        by_cases h3 : k = ascii "MESON_SOURCE_ROOT"
        · subst h3; rw [if_pos rfl, if_pos rfl]
        · rw [if_neg h3, if_neg (Ne.symm h3), if_neg (Ne.symm h2), if_neg (Ne.symm h1)]
  cases sub with
  | none => simpa using base k
  | some s =>
    show Env.index (Env.dictSet (withDefaults E none d) _ s) k = _
    rw [Env.index_dictSet, base k]
    by_cases h : k = ascii "MESON_SUBDIR"
    · rw [if_pos h.symm, if_pos ⟨rfl, h⟩]
    · rw [if_neg (Ne.symm h), if_neg (fun x => h x.2)]

/-- What `env:` gives: a new dictionary, or the object of a variable. -/
theorem coerceEnv_cases (st : St) (a : EnvArg) (r : St × Ref) (h : coerceEnv st a = .ok r) :
    (∃ l d, strings a = some l ∧ items [] l = .ok d ∧ r = st.newDict d) ∨ ∃ v, a = .var v ∧ st.vars[v]? = some r.2 ∧ r.1 = st := by
  cases a with
  | none => cases h; exact .inl ⟨[], [], rfl, rfl, rfl⟩
  | str s =>
    obtain ⟨d, h1, h2⟩ := Res.bind_eq_ok.1 h
    exact .inl ⟨[s], d, rfl, by rw [items, h1]; rfl, (Res.ok.inj h2).symm⟩
  | arr l =>
    obtain ⟨d, h1, h2⟩ := Res.bind_eq_ok.1 h
    exact .inl ⟨l, d, rfl, h1, (Res.ok.inj h2).symm⟩
  | var v =>
    refine .inr ⟨v, rfl, ?_⟩
    rw [coerceEnv] at h
    split at h
    · cases h
    · rename_i hv; cases h; exact ⟨hv, rfl⟩
    · rename_i hv
      split at h
      · cases h; exact ⟨hv, rfl⟩
      · cases h

/-- Dictionaries that stay as they are: not of a variable. -/
def Private (st : St) (j : Nat) (d : List (Bytes × Bytes)) : Prop := .dict j ∉ st.vars ∧ st.dicts[j]? = some d

theorem envOf_keeps (E : World) (sub : Option Bytes) (a : EnvArg) (st : St) (r : St × Ref) (h : envOf E sub a st = .ok r) :
    (WF st → WF r.1) ∧ ∀ j d, Private st j d → Private r.1 j d := by
  have hvars := (envOf_tests E sub a st r h).2.1
  unfold envOf at h
  obtain ⟨x, h1, h2⟩ := Res.bind_eq_ok.1 h
  cases h2
  obtain ⟨hl, hg⟩ := defaults_dicts E sub x.2 x.1
  rcases coerceEnv_cases st a x h1 with ⟨l, d, _, _, rfl⟩ | ⟨v, _, hv, hx⟩
  · constructor
    · intro hw i hi
      rw [hvars] at hi
      have := hw i hi
      rw [hl]
      simp only [St.newDict, List.length_append, List.length_singleton]
      omega
    · rintro j d' ⟨p1, p2⟩
      have hj : j < st.dicts.length := (List.getElem?_eq_some_iff.1 p2).1
      refine ⟨by rw [hvars]; exact p1, ?_⟩
      rw [hg, if_neg (by simp only [St.newDict, Ref.dict.injEq]; omega)]
      simp only [St.newDict]
      rw [List.getElem?_append_left hj, p2]
  · constructor
    · intro hw i hi
      rw [hvars] at hi
      have := hw i hi
      rw [hl, hx]; exact this
    · rintro j d' ⟨p1, p2⟩
      refine ⟨by rw [hvars]; exact p1, ?_⟩
      rw [hg, hx, if_neg, p2]
      rintro he
      rw [he] at hv
      exact p1 (List.mem_of_getElem? hv)

theorem exec_keeps (E : World) (s : Stmt) (st st' : St) (h : exec E s st = .ok st') :
    (WF st → WF st') ∧ (WF st → ∀ j d, Private st j d → Private st' j d) := by
  cases s with
  | dict d =>
    cases h
    constructor
    · intro hw i hi
      simp only [List.length_append, List.length_singleton]
      rcases List.mem_append.1 hi with hi | hi
      · have := hw i hi; omega
      · simp only [List.mem_singleton, Ref.dict.injEq] at hi; omega
    · rintro hw j d ⟨p1, p2⟩
      have hj : j < st.dicts.length := (List.getElem?_eq_some_iff.1 p2).1
      refine ⟨?_, by simp only; rw [List.getElem?_append_left hj, p2]⟩
      intro hm
      rcases List.mem_append.1 hm with hm | hm
      · exact p1 hm
      · simp only [List.mem_singleton, Ref.dict.injEq] at hm; omega
  | environment d =>
    cases h
    constructor
    · intro hw i hi
      rcases List.mem_append.1 hi with hi | hi
      · exact hw i hi
      · simp at hi
    · rintro hw j d ⟨p1, p2⟩
      refine ⟨?_, p2⟩
      intro hm
      rcases List.mem_append.1 hm with hm | hm
      · exact p1 hm
      · simp at hm
  | same v =>
    simp only [exec] at h
    split at h
    · cases h
    · rename_i r hv
      cases h
      constructor
      · intro hw i hi
        rcases List.mem_append.1 hi with hi | hi
        · exact hw i hi
        · exact hw i (by rw [List.mem_singleton.1 hi]; exact List.mem_of_getElem? hv)
      · rintro hw j d ⟨p1, p2⟩
        refine ⟨?_, p2⟩
        intro hm
        rcases List.mem_append.1 hm with hm | hm
        · exact p1 hm
        · rw [List.mem_singleton.1 hm] at p1
          exact p1 (List.mem_of_getElem? hv)
  | call v c =>
    simp only [exec] at h
    split at h
    · obtain ⟨a, _, h2⟩ := Res.bind_eq_ok.1 h
      cases h2
      exact ⟨fun hw => hw, fun _ j d hp => hp⟩
    · cases h
  | test bench c =>
    obtain ⟨_, tap, x, args, e, d1, d2, d3, h1, h2, h3, h4, h5, h6, h7, rfl⟩ := addTest_parts h
    have := envOf_keeps E none c.env st e h4
    exact ⟨this.1, fun _ => this.2⟩
  | runTarget sub a =>
    obtain ⟨e, h1, h2⟩ := Res.bind_eq_ok.1 h
    cases h2
    have := envOf_keeps E (some sub) a st e h1
    exact ⟨this.1, fun _ => this.2⟩

theorem run_keeps (E : World) : ∀ (ss : List Stmt) (st st' : St), run E ss st = .ok st' →
    (WF st → WF st') ∧ (WF st → ∀ j d, Private st j d → Private st' j d)
  | [], st, st', h => by cases h; exact ⟨id, fun _ _ _ => id⟩
  | s :: ss, st, st', h => by
    obtain ⟨x, h1, h2⟩ := Res.bind_eq_ok.1 h
    have a := exec_keeps E s st x h1
    have b := run_keeps E ss x st' h2
    exact ⟨fun w => b.1 (a.1 w), fun w j d p => b.2 (a.1 w) j d (a.2 w j d p)⟩

theorem split_eq : ∀ (s : Bytes), 61 ∈ s → s = s.takeWhile (· ≠ 61) ++ 61 :: (s.dropWhile (· ≠ 61)).tail
  | c :: s, h => by
    by_cases hc : c = 61
    · subst hc; simp
    · have := split_eq s (by simpa [Ne.symm hc] using h)
      simp only [List.takeWhile_cons, List.dropWhile_cons, ne_eq, hc, not_false_eq_true, decide_true, if_true, List.cons_append]
      exact congrArg _ this

theorem not_mem_takeWhile : ∀ (s : Bytes), 61 ∉ s.takeWhile (· ≠ 61)
  | [] => by simp
  | c :: s => by
    by_cases hc : c = 61
    · simp [hc]
    · have := not_mem_takeWhile s
      simp only [List.takeWhile_cons, ne_eq, hc, not_false_eq_true, decide_true, if_true, List.mem_cons, not_or]
      exact ⟨fun h => hc h.symm, this⟩

theorem last_cons (k : Bytes) (e : Bytes × Bytes) (ps : List (Bytes × Bytes)) :
    last k (e :: ps) = match last k ps with | some v => some v | none => if e.1 = k then some e.2 else none := by
  unfold last
  by_cases hk : e.1 = k
  · rw [List.filter_cons, if_pos (by simpa using hk), List.map_cons, List.getLast?_cons]
    cases (((ps.filter fun e => e.1 = k).map (·.2)).getLast?) <;> simp [hk]
  · rw [List.filter_cons, if_neg (by simpa using hk)]
    cases (((ps.filter fun e => e.1 = k).map (·.2)).getLast?) <;> simp [hk]

theorem items_spec : ∀ (l : List Bytes) (d d' : List (Bytes × Bytes)), items d l = .ok d' →
    ∃ ps, Pairs l ps ∧ ∀ k, Env.index d' k = match last k ps with | some v => some v | none => Env.index d k
  | [], d, d', h => by cases h; exact ⟨[], ⟨rfl, by simp⟩, fun k => rfl⟩
  | s :: l, d, d', h => by
    obtain ⟨x, h1, h2⟩ := Res.bind_eq_ok.1 h
    unfold item at h1
    split at h1
    · cases h1
    · split at h1
      · cases h1
      · rename_i _ hm
        have hm : 61 ∈ s := Classical.not_not.1 hm
        cases h1
        obtain ⟨ps, ⟨p1, p2⟩, p3⟩ := items_spec l _ d' h2
        refine ⟨(s.takeWhile (· ≠ 61), (s.dropWhile (· ≠ 61)).tail) :: ps, ⟨?_, ?_⟩, ?_⟩
        · simp only [List.map_cons, p1, ← split_eq s hm]
        · intro e he
          rcases List.mem_cons.1 he with rfl | he
          · intro hx
            exact absurd hx (not_mem_takeWhile s)
          · exact p2 e he
        · intro k
          rw [p3 k, Env.index_dictSet, last_cons]
          cases last k ps with
          | some v => rfl
          | none =>
            show (if s.takeWhile (· ≠ 61) = k then some (s.dropWhile (· ≠ 61)).tail else Env.index d k) = match (if s.takeWhile (· ≠ 61) = k then some (s.dropWhile (· ≠ 61)).tail else none) with | some v => some v | none => Env.index d k
            by_cases hk : s.takeWhile (· ≠ 61) = k
            · rw [if_pos hk, if_pos hk]
            · rw [if_neg hk, if_neg hk]

theorem envOf_own (E : World) (sub : Option Bytes) (a : EnvArg) (l : List Bytes) (st : St) (r : St × Ref) (hw : WF st) (hl : strings a = some l) (h : envOf E sub a st = .ok r) :
    ∃ ps d j, Pairs l ps ∧ r.2 = .dict j ∧ Private r.1 j d ∧
      ∀ k, Env.index d k = if sub.isSome ∧ k = ascii "MESON_SUBDIR" then sub else value E (last · ps) k := by
  have hvars := (envOf_tests E sub a st r h).2.1
  unfold envOf at h
  obtain ⟨x, h1, h2⟩ := Res.bind_eq_ok.1 h
  cases h2
  rcases coerceEnv_cases st a x h1 with ⟨l', d, e1, e2, rfl⟩ | ⟨v, rfl, _⟩
  · rw [hl] at e1; cases e1
    obtain ⟨ps, p1, p2⟩ := items_spec l [] d e2
    refine ⟨ps, withDefaults E sub d, st.dicts.length, p1, rfl, ⟨?_, ?_⟩, ?_⟩
    · rw [hvars]; intro hm; have := hw _ hm; omega
    · rw [(defaults_dicts E sub _ _).2]
      simp [St.newDict]
    · intro k
      rw [index_withDefaults]
      have : Env.index d = fun k => last k ps := by
        funext k
        rw [p2 k]
        cases last k ps <;> rfl
      rw [this]
  · cases hl

theorem start_wf : WF {} := fun i hi => by cases hi

/-- C112: a test whose `env:` is missing, a string or an array is run with the variables every command gets and those the strings name, the last value of each; whatever the
build file does before and afterwards. -/
theorem test_environment {E : World} {pre post : List Stmt} {bench : Bool} {c : Call} {l : List Bytes} {st st1 st2 : St} (h0 : run E pre {} = .ok st)
    (hl : strings c.env = some l) (h1 : exec E (.test bench c) st = .ok st1) (h2 : run E post st1 = .ok st2) :
    ∃ t ps d, st1.tests = st.tests ++ [t] ∧ Pairs l ps ∧ valuesOf E st2 t.env = .ok d ∧ ∀ k, Env.index d k = value E (last · ps) k := by
  have w0 := (run_keeps E pre {} st h0).1 start_wf
  have w1 := (exec_keeps E _ st st1 h1).1 w0
  obtain ⟨_, tap, x, args, e, d1, d2, d3, i1, i2, i3, i4, i5, i6, i7, rfl⟩ := addTest_parts h1
  obtain ⟨ps, d, j, p1, p2, p3, p4⟩ := envOf_own E none c.env l st e w0 hl i4
  have := (run_keeps E post _ st2 h2).2 w1 j d p3
  refine ⟨_, ps, d, by rw [(envOf_tests E none c.env st e i4).1], p1, ?_, fun k => by simpa using p4 k⟩
  show valuesOf E st2 e.2 = _
  rw [p2, valuesOf, List.getD_eq_getElem?_getD, this.2]; rfl

/-- C112: and so is a run target, with `MESON_SUBDIR`, the directory of its declaration. -/
theorem run_environment {E : World} {pre post : List Stmt} {sub : Bytes} {a : EnvArg} {l : List Bytes} {st st1 st2 : St} (h0 : run E pre {} = .ok st)
    (hl : strings a = some l) (h1 : exec E (.runTarget sub a) st = .ok st1) (h2 : run E post st1 = .ok st2) :
    ∃ r ps d, st1.runs = st.runs ++ [(sub, r)] ∧ Pairs l ps ∧ valuesOf E st2 r = .ok d ∧
      ∀ k, Env.index d k = if k = ascii "MESON_SUBDIR" then some sub else value E (last · ps) k := by
  have w0 := (run_keeps E pre {} st h0).1 start_wf
  have w1 := (exec_keeps E _ st st1 h1).1 w0
  obtain ⟨e, i1, i2⟩ := Res.bind_eq_ok.1 h1
  cases i2
  obtain ⟨ps, d, j, p1, p2, p3, p4⟩ := envOf_own E (some sub) a l st e w0 hl i1
  have := (run_keeps E post _ st2 h2).2 w1 j d p3
  refine ⟨_, ps, d, by rw [(envOf_tests E _ a st e i1).2.2], p1, ?_, fun k => by simpa using p4 k⟩
  rw [p2, valuesOf, List.getD_eq_getElem?_getD, this.2]; rfl

/-! ### Objects of variables -/

/-- How a dictionary of a variable changes. -/
def Grown (E : World) (d d' : List (Bytes × Bytes)) : Prop :=
  ∀ k, k ≠ ascii "MESON_SUBDIR" → Env.index d' k = Env.index d k ∨ ∃ v, given E k = some v ∧ Env.index d' k = some v

theorem Grown.refl (E : World) (d : List (Bytes × Bytes)) : Grown E d d := fun _ _ => .inl rfl

theorem Grown.trans {E : World} {a b c : List (Bytes × Bytes)} (h : Grown E a b) (h' : Grown E b c) : Grown E a c := fun k hk => by
  rcases h' k hk with h1 | h1
  · rw [h1]; exact h k hk
  · exact .inr h1

theorem Grown.defaults (E : World) (sub : Option Bytes) (d : List (Bytes × Bytes)) : Grown E d (withDefaults E sub d) := fun k hk => by
  rw [index_withDefaults, if_neg (fun h => hk h.2), value]
  cases hg : given E k with
  | none => exact .inl rfl
  | some v => exact .inr ⟨v, rfl, rfl⟩

theorem envOf_grown (E : World) (sub : Option Bytes) (a : EnvArg) (st : St) (r : St × Ref) (h : envOf E sub a st = .ok r) (j : Nat) (d : List (Bytes × Bytes))
    (hd : st.dicts[j]? = some d) : ∃ d', r.1.dicts[j]? = some d' ∧ Grown E d d' := by
  unfold envOf at h
  obtain ⟨x, h1, h2⟩ := Res.bind_eq_ok.1 h
  cases h2
  have hx : x.1.dicts[j]? = some d := by
    rcases coerceEnv_cases st a x h1 with ⟨l', _, e1, e2, rfl⟩ | ⟨v, rfl, _, hx⟩
    · simp only [St.newDict]
      rw [List.getElem?_append_left (List.getElem?_eq_some_iff.1 hd).1, hd]
    · rw [hx, hd]
  show ∃ d', (defaults E sub x.2 x.1).dicts[j]? = some d' ∧ _
  rw [(defaults_dicts E sub x.2 x.1).2, hx]
  split
  · exact ⟨_, rfl, .defaults E sub d⟩
  · exact ⟨_, rfl, .refl E d⟩

theorem exec_grown (E : World) (s : Stmt) (st st' : St) (h : exec E s st = .ok st') (j : Nat) (d : List (Bytes × Bytes))
    (hd : st.dicts[j]? = some d) : ∃ d', st'.dicts[j]? = some d' ∧ Grown E d d' := by
  have hj := (List.getElem?_eq_some_iff.1 hd).1
  cases s with
  | dict x => cases h; exact ⟨d, by simp only; rw [List.getElem?_append_left hj, hd], .refl E d⟩
  | environment x => cases h; exact ⟨d, hd, .refl E d⟩
  | same v =>
    simp only [exec] at h
    split at h
    · cases h
    · cases h; exact ⟨d, hd, .refl E d⟩
  | call v c =>
    simp only [exec] at h
    split at h
    · obtain ⟨a, _, h2⟩ := Res.bind_eq_ok.1 h
      cases h2
      exact ⟨d, hd, .refl E d⟩
    · cases h
  | test bench c =>
    obtain ⟨_, tap, x, args, e, d1, d2, d3, h1, h2, h3, h4, h5, h6, h7, rfl⟩ := addTest_parts h
    exact envOf_grown E none c.env st e h4 j d hd
  | runTarget sub a =>
    obtain ⟨e, h1, h2⟩ := Res.bind_eq_ok.1 h
    cases h2
    exact envOf_grown E _ a st e h1 j d hd

theorem run_grown (E : World) : ∀ (ss : List Stmt) (st st' : St), run E ss st = .ok st' → ∀ (j : Nat) (d : List (Bytes × Bytes)),
    st.dicts[j]? = some d → ∃ d', st'.dicts[j]? = some d' ∧ Grown E d d'
  | [], st, st', h, j, d, hd => by cases h; exact ⟨d, hd, .refl E d⟩
  | s :: ss, st, st', h, j, d, hd => by
    obtain ⟨x, h1, h2⟩ := Res.bind_eq_ok.1 h
    obtain ⟨d1, e1, g1⟩ := exec_grown E s st x h1 j d hd
    obtain ⟨d2, e2, g2⟩ := run_grown E ss x st' h2 j d1 e1
    exact ⟨d2, e2, g1.trans g2⟩

/-- C112: a test whose `env:` is a variable with a dictionary is run with the variables every command gets and those of the dictionary, whatever the build file does afterwards.
Missing: `MESON_SUBDIR`, and that the dictionary itself is left alone (`dict_grows_counterexample`). -/
theorem test_dictionary_partial {E : World} {pre post : List Stmt} {bench : Bool} {c : Call} {v i : Nat} {d : List (Bytes × Bytes)} {st st1 st2 : St} (h0 : run E pre {} = .ok st)
    (hv : c.env = .var v) (hi : st.vars[v]? = some (.dict i)) (hd : valuesOf E st (.dict i) = .ok d) (h1 : exec E (.test bench c) st = .ok st1) (h2 : run E post st1 = .ok st2) :
    ∃ t d', st1.tests = st.tests ++ [t] ∧ valuesOf E st2 t.env = .ok d' ∧ ∀ k, k ≠ ascii "MESON_SUBDIR" → Env.index d' k = value E (Env.index d) k := by
  have hlt := (run_keeps E pre {} st h0).1 start_wf i (List.mem_of_getElem? hi)
  have hd0 : st.dicts[i]? = some d := by
    rw [valuesOf, List.getD_eq_getElem?_getD, List.getElem?_eq_getElem hlt] at hd
    rw [List.getElem?_eq_getElem hlt, ← Res.ok.inj hd]; rfl
  obtain ⟨_, tap, x, args, e, d1, d2, d3, i1, i2, i3, i4, i5, i6, i7, rfl⟩ := addTest_parts h1
  have he := i4
  unfold envOf at he
  obtain ⟨y, j1, j2⟩ := Res.bind_eq_ok.1 he
  cases j2
  rcases coerceEnv_cases st c.env y j1 with ⟨l', _, e1, _⟩ | ⟨v', e1, e2, e3⟩
  · rw [hv] at e1; cases e1
  · rw [hv] at e1; cases e1
    rw [hi] at e2
    have e2 := Option.some.inj e2
    have hnow : (defaults E none y.2 y.1).dicts[i]? = some (withDefaults E none d) := by
      rw [(defaults_dicts E none y.2 y.1).2, if_pos e2.symm, e3, hd0]; rfl
    obtain ⟨d', k1, k2⟩ := run_grown E post _ st2 h2 i _ hnow
    refine ⟨_, d', by rw [(envOf_tests E none c.env st _ i4).1], ?_, ?_⟩
    · show valuesOf E st2 y.2 = _
      rw [← e2, valuesOf, List.getD_eq_getElem?_getD, k1]; rfl
    · intro k hk
      rcases k2 k hk with h | ⟨w, h, h'⟩
      · rw [h, index_withDefaults, if_neg (fun h => hk h.2)]
      · rw [h', value, h]

theorem toDict_append (g : Bytes → Option Bytes) : ∀ (a b : List Env.Action) (d : List (Bytes × Bytes)), Env.toDict g d (a ++ b) = Env.toDict g d a >>= fun d => Env.toDict g d b
  | [], b, d => rfl
  | x :: a, b, d => by
    rw [List.cons_append, Env.toDict, Env.toDict]
    cases Env.toDictStep g d x with
    | ok y => exact toDict_append g a b y
    | error => rfl
    | bad => rfl

/-- C112: a test whose `env:` is an environment object is run with the variables every command gets, and what the object gives. Missing: calls of the object's methods after the
test was declared change the test too (`later_call_counterexample`). -/
theorem test_object_partial {E : World} {bench : Bool} {c : Call} {v i : Nat} {d : List (Bytes × Bytes)} {st st1 : St} (hv : c.env = .var v)
    (hi : st.vars[v]? = some (.env i)) (hlt : i < st.envs.length) (hd : Env.toDict E.getenv [] (st.envs.getD i []) = .ok d) (h1 : exec E (.test bench c) st = .ok st1) :
    ∃ t d', st1.tests = st.tests ++ [t] ∧ valuesOf E st1 t.env = .ok d' ∧ ∀ k, Env.index d' k = value E (Env.index d) k := by
  obtain ⟨_, tap, x, args, e, d1, d2, d3, i1, i2, i3, i4, i5, i6, i7, rfl⟩ := addTest_parts h1
  have he := i4
  unfold envOf at he
  obtain ⟨y, j1, j2⟩ := Res.bind_eq_ok.1 he
  cases j2
  rcases coerceEnv_cases st c.env y j1 with ⟨l', _, e1, _⟩ | ⟨v', e1, e2, e3⟩
  · rw [hv] at e1; cases e1
  · rw [hv] at e1; cases e1
    rw [hi] at e2
    have e2 := (Option.some.inj e2).symm
    refine ⟨_, withDefaults E none d, by rw [(envOf_tests E none c.env st _ i4).1], ?_, ?_⟩
    · show valuesOf E _ y.2 = _
      rw [e2, valuesOf, List.getD_eq_getElem?_getD]
      have hg : st.envs[i]? = some (st.envs.getD i []) := by rw [List.getD_eq_getElem?_getD, List.getElem?_eq_getElem hlt]; rfl
      simp only [defaults, setVar_envs, if_true, e3, hg, Option.map_some, Option.getD_some, Env.envSet]
      rw [toDict_append, toDict_append, toDict_append, hd]
      rfl
    · intro k
      rw [index_withDefaults]; simp

/-! ### Counterexamples -/

/-- A world. -/
def w : World := { argv0 := ascii "/usr/bin/muon", build := ascii "/b", source := ascii "/s", getenv := fun _ => none }

/-- C112 fails for `benchmark(…, verbose: true)`: the keyword is not known. -/
theorem bench_verbose_counterexample (E : World) (n p : Bytes) (b : Bool) (st : St) :
    exec E (.test true { name := n, exe := .file p, verbose := some b }) st = .error ∧ ∃ st', exec E (.test false { name := n, exe := .file p, verbose := some b }) st = .ok st' :=
  ⟨rfl, _, rfl⟩

/-- C112 fails for programs among the arguments of a test: the result of `find_program()` is of the right type, but it is an error. -/
theorem program_argument_counterexample (E : World) (n p : Bytes) (f : Bool) (cmd : List Bytes) (st : St) :
    exec E (.test false { name := n, exe := .file p, args := some [.prog f cmd] }) st = .error := rfl

/-- C112 fails for run targets, which are of the right type for `depends:`: muon aborts. -/
theorem run_target_depends_counterexample (E : World) (n p r : Bytes) (st : St) :
    exec E (.test false { name := n, exe := .file p, depends := some [.custom r none] }) st = .bad := rfl

/-- C112 fails for tests with the protocols `gtest` and `rust`: what such a test prints is not looked at, only its exit code. -/
theorem gtest_counterexample (E : World) (n p : Bytes) (st st' : St) (h : exec E (.test false { name := n, exe := .file p, protocol := some (ascii "gtest") }) st = .ok st') :
    ∃ t, st'.tests = st.tests ++ [t] ∧ t.tap = false := by
  have hp : protocolOf (some (ascii "gtest")) = .ok false := by decide +kernel
  obtain ⟨_, tap, x, args, e, d1, d2, d3, h1, h2, h3, h4, h5, h6, h7, rfl⟩ := addTest_parts h
  refine ⟨_, by rw [(envOf_tests E none .none st e h4).1], ?_⟩
  have h1 : protocolOf (some (ascii "gtest")) = .ok tap := h1
  rw [hp] at h1; cases h1; rfl

/-- The dictionaries after a build file. -/
def dictsAfter (ss : List Stmt) : Option (List (List (Bytes × Bytes))) := match run w ss {} with
  | .ok st => some st.dicts
  | _ => none

/-- C112 fails for dictionaries: a test or a run target puts variables into the dictionary itself, so the build file sees entries it did not write. -/
theorem dict_grows_counterexample : dictsAfter [.dict [(ascii "A", ascii "1")], .test false { name := ascii "t", exe := .file (ascii "/s/t"), env := .var 0 }] =
    some [[(ascii "A", ascii "1"), (ascii "MUON_PATH", ascii "/usr/bin/muon"), (ascii "MESON_BUILD_ROOT", ascii "/b"), (ascii "MESON_SOURCE_ROOT", ascii "/s")]] := by decide +kernel

/-- What a variable is for each run target. -/
def runValues (ss : List Stmt) (k : Bytes) : Option (List (Bytes × Option Bytes)) := match run w ss {} with
  | .ok st => some (st.runs.map fun r => (r.1, match valuesOf w st r.2 with | .ok d => Env.index d k | _ => none))
  | _ => none

/-- C112 fails for run targets that share a dictionary: the first, of directory `x`, is run with the directory `y` of the second in `MESON_SUBDIR`. -/
theorem shared_dictionary_counterexample : runValues [.dict [(ascii "A", ascii "1")], .runTarget (ascii "x") (.var 0), .runTarget (ascii "y") (.var 0)] (ascii "MESON_SUBDIR") =
    some [(ascii "x", some (ascii "y")), (ascii "y", some (ascii "y"))] := by decide +kernel

/-- What a variable is for each test. -/
def testValues (ss : List Stmt) (k : Bytes) : Option (List (Option Bytes)) := match run w ss {} with
  | .ok st => some (st.tests.map fun t => match valuesOf w st t.env with | .ok d => Env.index d k | _ => none)
  | _ => none

/-- C112 fails for environment objects: a call after the declaration of a test changes the test. -/
theorem later_call_counterexample :
    testValues [.environment [(ascii "A", ascii "1")], .test false { name := ascii "t", exe := .file (ascii "/s/t"), env := .var 0 }] (ascii "A") = some [some (ascii "1")] ∧
    testValues [.environment [(ascii "A", ascii "1")], .test false { name := ascii "t", exe := .file (ascii "/s/t"), env := .var 0 }, .call 0 ⟨.set, ascii "A", [ascii "2"], none⟩]
      (ascii "A") = some [some (ascii "2")] := by decide +kernel

/-- C112 fails for variables without a name in strings: `env: '=x'` is accepted, though `env: {'': 'x'}` is not. -/
theorem empty_name_counterexample :
    testValues [.test false { name := ascii "t", exe := .file (ascii "/s/t"), env := .str (ascii "=x") }] [] = some [some (ascii "x")] ∧
    testValues [.dict [([], ascii "x")], .test false { name := ascii "t", exe := .file (ascii "/s/t"), env := .var 0 }] [] = none := by decide +kernel

/-! ### The hypotheses hold -/

/-- A build file with an environment in every form. -/
def sample : List Stmt := [.dict [(ascii "A", ascii "1")], .environment [(ascii "B", ascii "2")],
  .test false { name := ascii "t", exe := .target (ascii "/b/x") (ascii "t") (ascii "/b/x/t"), args := some [.str (ascii "-v"), .custom (ascii "c") (some [ascii "/b/o"])],
                env := .arr [ascii "K=a", ascii "K=b=c"], suite := some [ascii "s"] },
  .test true { name := ascii "b", exe := .prog true [ascii "/bin/sh", ascii "-e"], env := .var 0, protocol := some (ascii "tap") },
  .test false { name := ascii "e", exe := .file (ascii "/s/e"), env := .var 1, shouldFail := some true }, .runTarget (ascii "x") (.str (ascii "K=d"))]

/-- The tests of a build file. -/
def testsAfter (ss : List Stmt) : Option (List Test) := match run w ss {} with
  | .ok st => some st.tests
  | _ => none

example : (testsAfter sample).map (·.map (·.exe)) = some [ascii "x/t", ascii "/bin/sh", ascii "/s/e"] ∧
    (testsAfter sample).map (·.map (·.args)) = some [[ascii "-v", ascii "/b/o"], [ascii "-e"], []] ∧
    (testsAfter sample).map (·.map (·.depends)) = some [[ascii "x/t", ascii "o"], [], []] ∧
    (testsAfter sample).map (·.map (·.parallel)) = some [true, false, true] ∧ (testsAfter sample).map (·.map (·.tap)) = some [false, true, false] := by decide +kernel

example : testValues sample (ascii "K") = some [some (ascii "b=c"), none, none] ∧ testValues sample (ascii "A") = some [none, some (ascii "1"), none] ∧
    testValues sample (ascii "B") = some [none, none, some (ascii "2")] ∧ testValues sample (ascii "MESON_BUILD_ROOT") = some [some (ascii "/b"), some (ascii "/b"), some (ascii "/b")] ∧
    runValues sample (ascii "MESON_SUBDIR") = some [(ascii "x", some (ascii "x"))] := by decide +kernel

example : Cmdline.Spec.Abs w.build ∧ Usable (.target (ascii "/b/x") (ascii "t") (ascii "/b/x/t")) ∧ PlainArg (.custom (ascii "c") (some [ascii "/b/o"])) ∧
    strings (.arr [ascii "K=a"]) ≠ none := by
  refine ⟨by unfold Cmdline.Spec.Abs; decide +kernel, ?_, ?_, nofun⟩
  · unfold Usable Cmdline.Spec.Abs; decide +kernel
  · refine ⟨?_, trivial⟩
    intro p hp
    cases List.mem_singleton.1 hp
    unfold Cmdline.Spec.Abs; decide +kernel

end Muon.Tdecl
