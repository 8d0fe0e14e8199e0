import Verif.Env.Spec
/-
Environment objects: properties.
-/
namespace Muon.Env
open Muon Muon.Env.Spec

theorem index_dictSet (d : List (Bytes × Bytes)) (k v k' : Bytes) :
    index (dictSet d k v) k' = if k = k' then some v else index d k' := by
  induction d with
  | nil =>
    by_cases h : k = k' <;> simp [dictSet, index, List.find?, h]
  | cons e d ih =>
    unfold dictSet
    by_cases h1 : e.1 = k
    · by_cases h2 : k = k'
      · simp [h1, h2, index]
      · have hb : (k == k') = false := by simpa using h2
        simp [h1, h2, index, List.find?, hb]
    · rw [if_neg (by simpa using h1)]
      by_cases h3 : e.1 = k'
      · have h2 : k ≠ k' := fun h => h1 (h3.trans h.symm)
        simp [index, List.find?, h3, h2]
      · have hb : (e.1 == k') = false := by simpa using h3
        have hi : ∀ d', index (e :: d') k' = index d' k' := by
          intro d'; simp [index, List.find?, hb]
        rw [hi, hi, ih]

theorem dictSet_keys (d : List (Bytes × Bytes)) (k v : Bytes) :
    (dictSet d k v).map (·.1) = if k ∈ d.map (·.1) then d.map (·.1) else d.map (·.1) ++ [k] := by
  induction d with
  | nil => simp [dictSet]
  | cons e d ih =>
    unfold dictSet
    by_cases h : e.1 = k
    · simp [h]
    · have h' : k ≠ e.1 := Ne.symm h
      rw [if_neg (by simpa using h)]
      simp only [List.map_cons, ih, List.mem_cons, h', false_or]
      split <;> simp

theorem joinLoop_eq (sep : Bytes) (len : Nat) : ∀ (l : List Bytes) (i : Nat) (res : Bytes), i + l.length = len →
    joinLoop sep len i res l = res ++ joined sep l := by
  intro l
  induction l with
  | nil => intro i res _; simp [joinLoop, joined]
  | cons s l ih =>
    intro i res h
    simp only [List.length_cons] at h
    unfold joinLoop
    rw [ih (i + 1) _ (by omega)]
    cases l with
    | nil =>
      rw [if_neg (by simp at h; omega)]
      simp [joined]
    | cons t l =>
      rw [if_pos (by simp at h; omega)]
      simp [joined]

theorem join_eq (l : List Bytes) (sep : Bytes) : join l sep = joined sep l := by
  simp [join, joinLoop_eq sep l.length l 0 [] (by omega)]

/-- The action recorded for a call. -/
def act (c : Call) : Action := ⟨c.mode, c.key, joined (sepOf c) c.vals, sepOf c⟩

theorem call_eq (acts : List Action) (c : Call) : call acts c = if c.vals = [] then .error else .ok (acts ++ [act c]) := by
  unfold call
  split
  · rfl
  · have : c.sep.getD (ascii ":") = sepOf c := by
      unfold sepOf
      cases c.sep with
      | none => decide
      | some s => rfl
    simp [envSet, act, join_eq, this]

theorem calls_ok : ∀ (cs : List Call) (acts r : List Action), calls acts cs = .ok r →
    r = acts ++ cs.map act ∧ ∀ c ∈ cs, c.vals ≠ [] := by
  intro cs
  induction cs with
  | nil => intro acts r h; cases h; simp
  | cons c cs ih =>
    intro acts r h
    unfold calls at h
    obtain ⟨a, h1, h2⟩ := Res.bind_eq_ok.mp h
    rw [call_eq] at h1
    split at h1
    · cases h1
    · next hv =>
      cases h1
      obtain ⟨h3, h4⟩ := ih _ _ h2
      refine ⟨by simp [h3], ?_⟩
      intro c' hc'
      rcases List.mem_cons.mp hc' with rfl | h
      · exact hv
      · exact h4 _ h

theorem cstr_ok {b v : Bytes} (h : cstr b = .ok v) : v = b ∧ 0 ∉ b := by
  unfold cstr at h
  split at h
  · cases h
  · next h0 => cases h; exact ⟨rfl, by simpa using h0⟩

theorem cstr_of {b : Bytes} (h : 0 ∉ b) : cstr b = .ok b := by
  unfold cstr; rw [if_neg (by simpa using h)]

/-- The value a variable has at some point: the one in the dictionary, or the inherited one. -/
def cur (getenv : Bytes → Option Bytes) (env : List (Bytes × Bytes)) (k : Bytes) : Option Bytes :=
  match index env k with
  | some v => some v
  | none => getenv k

theorem oldVal_ok {getenv : Bytes → Option Bytes} {env : List (Bytes × Bytes)} {k : Bytes} {old : Option Bytes}
    (h : oldVal getenv env k = .ok old) : old = cur getenv env k := by
  unfold oldVal at h
  unfold cur
  cases hi : index env k with
  | some v =>
    simp only [hi] at h
    obtain ⟨v', h3, h4⟩ := Res.bind_eq_ok.mp h
    cases h4; rw [(cstr_ok h3).1]
  | none =>
    simp only [hi] at h
    obtain ⟨v', h3, h4⟩ := Res.bind_eq_ok.mp h
    cases h4; rw [(cstr_ok h3).1]

theorem step_ok (getenv : Bytes → Option Bytes) (env env' : List (Bytes × Bytes)) (c : Call)
    (h : toDictStep getenv env (act c) = .ok env') : env' = dictSet env c.key (after c (cur getenv env c.key)) := by
  unfold toDictStep at h
  cases hm : c.mode with
  | set =>
    simp only [act, hm] at h
    cases h
    unfold after
    cases cur getenv env c.key <;> simp [hm]
  | append =>
    simp only [act, hm] at h
    obtain ⟨old, h1, h2⟩ := Res.bind_eq_ok.mp h
    have hc : old = cur getenv env c.key := oldVal_ok h1
    rw [← hc]
    cases old with
    | none => cases h2; rfl
    | some oval =>
      simp only at h2
      obtain ⟨s, h5, h6⟩ := Res.bind_eq_ok.mp h2
      obtain ⟨v, h7, h8⟩ := Res.bind_eq_ok.mp h6
      cases h8
      simp [after, hm, (cstr_ok h5).1, (cstr_ok h7).1]
  | prepend =>
    simp only [act, hm] at h
    obtain ⟨old, h1, h2⟩ := Res.bind_eq_ok.mp h
    have hc : old = cur getenv env c.key := oldVal_ok h1
    rw [← hc]
    cases old with
    | none => cases h2; rfl
    | some oval =>
      simp only at h2
      obtain ⟨s, h5, h6⟩ := Res.bind_eq_ok.mp h2
      obtain ⟨v, h7, h8⟩ := Res.bind_eq_ok.mp h6
      cases h8
      simp [after, hm, (cstr_ok h5).1, (cstr_ok h7).1]

theorem toDict_index (getenv : Bytes → Option Bytes) (k : Bytes) : ∀ (cs : List Call) (env d : List (Bytes × Bytes)),
    toDict getenv env (cs.map act) = .ok d →
    index d k = if naming k cs = [] then index env k else afterAll (cur getenv env k) (naming k cs) := by
  intro cs
  induction cs with
  | nil => intro env d h; cases h; simp [naming]
  | cons c cs ih =>
    intro env d h
    rw [List.map_cons, toDict] at h
    obtain ⟨e, h1, h2⟩ := Res.bind_eq_ok.mp h
    have he := step_ok getenv env e c h1
    have hi := ih e d h2
    have hx : index e k = if c.key = k then some (after c (cur getenv env c.key)) else index env k := by
      rw [he, index_dictSet]
    by_cases hk : c.key = k
    · have hn : naming k (c :: cs) = c :: naming k cs := by simp [naming, hk]
      rw [hn, if_neg (by simp), afterAll]
      rw [if_pos hk] at hx
      have hcur : cur getenv e k = some (after c (cur getenv env k)) := by
        simp [cur, hx, hk]
      rw [hi]
      by_cases hne : naming k cs = []
      · rw [if_pos hne, hne, hx]; simp [afterAll, hk]
      · rw [if_neg hne, hcur]
    · have hn : naming k (c :: cs) = naming k cs := by simp [naming, hk]
      rw [if_neg hk] at hx
      rw [hn, hi, hx]
      have : cur getenv e k = cur getenv env k := by simp [cur, hx]
      rw [this]

theorem toDict_keys (getenv : Bytes → Option Bytes) : ∀ (cs : List Call) (env d : List (Bytes × Bytes)),
    toDict getenv env (cs.map act) = .ok d →
    d.map (·.1) = env.map (·.1) ++ (names cs).filter (fun k => k ∉ env.map (·.1)) := by
  intro cs
  induction cs with
  | nil => intro env d h; cases h; simp [names]
  | cons c cs ih =>
    intro env d h
    rw [List.map_cons, toDict] at h
    obtain ⟨e, h1, h2⟩ := Res.bind_eq_ok.mp h
    have he := step_ok getenv env e c h1
    have hk := dictSet_keys env c.key (after c (cur getenv env c.key))
    rw [← he] at hk
    rw [ih e d h2, hk, names]
    generalize env.map (·.1) = K
    by_cases hm : c.key ∈ K
    · rw [if_pos hm]
      rw [List.filter_cons, if_neg (by simpa using hm), List.filter_filter]
      congr 1
      apply List.filter_congr
      intro x _
      by_cases hx : x ∈ K
      · simp [hx]
      · have : x ≠ c.key := fun h => hx (h ▸ hm)
        simp [hx, this]
    · rw [if_neg hm]
      rw [List.filter_cons, if_pos (by simpa using hm), List.filter_filter, List.append_assoc, List.singleton_append]
      congr 2
      apply List.filter_congr
      intro x _
      simp [List.mem_append]

/-- **C39**: the environment made from an environment object assigns to each variable named by a call the value
obtained by applying the calls that name it, in order, to the value inherited from muon's own environment; `append`
and `prepend` put their separator between the old value and the new ones, and a variable that is not set, or `set`,
just gets the new ones. Variables that no call names are not in it, and those named are in the order of their first
call. -/
theorem env_value (getenv : Bytes → Option Bytes) (cs : List Call) (acts : List Action) (d : List (Bytes × Bytes))
    (h : calls [] cs = .ok acts) (hd : toDict getenv [] acts = .ok d) :
    (∀ k, index d k = if naming k cs = [] then none else afterAll (getenv k) (naming k cs)) ∧
      d.map (·.1) = names cs := by
  obtain ⟨rfl, _⟩ := calls_ok cs [] acts h
  simp only [List.nil_append] at hd
  refine ⟨fun k => ?_, ?_⟩
  · have := toDict_index getenv k cs [] d hd
    simpa [cur, index] using this
  · have := toDict_keys getenv cs [] d hd
    rw [this]
    simp

theorem mem_joined {sep : Bytes} {b : UInt8} : ∀ {l : List Bytes}, b ∈ joined sep l → b ∈ sep ∨ ∃ v ∈ l, b ∈ v := by
  intro l
  induction l with
  | nil => intro h; simp [joined] at h
  | cons v l ih =>
    intro h
    cases l with
    | nil => simp [joined] at h; exact .inr ⟨v, by simp, h⟩
    | cons w l =>
      simp only [joined, List.mem_append] at h
      rcases h with (h | h) | h
      · exact .inr ⟨v, by simp, h⟩
      · exact .inl h
      · rcases ih h with h | ⟨x, hx, h⟩
        · exact .inl h
        · exact .inr ⟨x, by simp [hx], h⟩

theorem toDict_total (getenv : Bytes → Option Bytes) (hg : ∀ k v, getenv k = some v → 0 ∉ v) :
    ∀ (cs : List Call) (env : List (Bytes × Bytes)), (∀ c ∈ cs, NoNul c) → (∀ k v, index env k = some v → 0 ∉ v) →
    ∃ d, toDict getenv env (cs.map act) = .ok d := by
  intro cs
  induction cs with
  | nil => intro env _ _; exact ⟨env, rfl⟩
  | cons c cs ih =>
    intro env hn he
    obtain ⟨h1, h2, h3⟩ := hn c (by simp)
    have hj : 0 ∉ joined (sepOf c) c.vals := by
      intro h
      rcases mem_joined h with h | ⟨v, hv, h⟩
      · exact h3 h
      · exact h2 v hv h
    have hcur : ∀ v, cur getenv env c.key = some v → 0 ∉ v := by
      intro v hv
      unfold cur at hv
      cases hi : index env c.key with
      | some w => rw [hi] at hv; cases hv; exact he _ _ hi
      | none => rw [hi] at hv; exact hg _ _ hv
    have hstep : ∃ e, toDictStep getenv env (act c) = .ok e := by
      unfold toDictStep
      have hold : oldVal getenv env c.key = Res.ok (cur getenv env c.key) := by
        unfold oldVal
        cases hi : index env c.key with
        | some w => simp [cstr_of (he _ _ hi), cur, hi]
        | none => simp [cstr_of h1, cur, hi]
      cases hm : c.mode with
      | set => simp only [act, hm]; exact ⟨_, rfl⟩
      | append =>
        simp only [act, hm]
        rw [hold]
        cases hc : cur getenv env c.key with
        | none => exact ⟨_, rfl⟩
        | some o => simp [cstr_of h3, cstr_of hj]
      | prepend =>
        simp only [act, hm]
        rw [hold]
        cases hc : cur getenv env c.key with
        | none => exact ⟨_, rfl⟩
        | some o => simp [cstr_of h3, cstr_of hj]
    obtain ⟨e, hstep⟩ := hstep
    have hee := step_ok getenv env e c hstep
    rw [List.map_cons, toDict, hstep]
    apply ih e (fun c' hc' => hn c' (by simp [hc']))
    intro k v hv
    rw [hee, index_dictSet] at hv
    split at hv
    · cases hv
      have hs : 0 ∉ sepOf c := h3
      unfold after
      cases hc : cur getenv env c.key with
      | none => exact hj
      | some o =>
        have ho := hcur o hc
        cases c.mode <;> simp [hj, hs, ho]
    · exact he _ _ hv

/-- **C39**: the calls of an environment object succeed if each of them has a value, and then, if there are no NUL
bytes, so does making the environment of a command. -/
theorem env_total (getenv : Bytes → Option Bytes) (hg : ∀ k v, getenv k = some v → 0 ∉ v) (cs : List Call) :
    (calls [] cs = .error ↔ ∃ c ∈ cs, c.vals = []) ∧ calls [] cs ≠ .bad ∧
      ∀ acts, calls [] cs = .ok acts → (∀ c ∈ cs, NoNul c) → ∃ d, toDict getenv [] acts = .ok d := by
  have key : ∀ acts, (calls acts cs = .error ↔ ∃ c ∈ cs, c.vals = []) ∧ calls acts cs ≠ .bad := by
    induction cs with
    | nil => intro acts; simp [calls]
    | cons c cs ih =>
      intro acts
      unfold calls
      rw [call_eq]
      by_cases h : c.vals = []
      · rw [if_pos h]; simp [h]
      · rw [if_neg h]
        have := ih (acts ++ [act c])
        simpa [h] using this
  refine ⟨(key []).1, (key []).2, fun acts h hn => ?_⟩
  obtain ⟨rfl, _⟩ := calls_ok cs [] acts h
  rw [List.nil_append]
  exact toDict_total getenv hg cs [] hn (by simp [index])

/-- A NUL byte in a value that is appended to a variable ends the program instead of being an error of the build
definition. -/
theorem env_nul_counterexample : toDict (fun _ => some [97]) [] [⟨.append, [65], [0], [58]⟩] = .bad := by decide +kernel

/-! The hypotheses of the theorems hold for `env.append('P', 'a', 'b'); env.set('Q', 'c', separator: ','); env.prepend('P', 'd')`
when `P` is inherited. -/
def exCalls : List Call :=
  [⟨.append, ascii "P", [ascii "a", ascii "b"], none⟩, ⟨.set, ascii "Q", [ascii "c"], some (ascii ",")⟩,
    ⟨.prepend, ascii "P", [ascii "d"], some (ascii ";")⟩, ⟨.append, ascii "Q", [ascii "e", ascii "f"], some (ascii ",")⟩]

example : ∃ acts, calls [] exCalls = .ok acts ∧
    toDict (fun k => if k = ascii "P" then some (ascii "x") else none) [] acts =
      .ok [(ascii "P", ascii "d;x:a:b"), (ascii "Q", ascii "c,e,f")] := ⟨_, rfl, by decide +kernel⟩

end Muon.Env
