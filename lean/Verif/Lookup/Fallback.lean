import Verif.Lookup.Props
/-
C96: when fallbacks are used, what they give, and what an override changes.
-/
namespace Muon.Lookup
open Muon Spec

/-- Nothing is known of a name: not in the cache of this project, not overridden, not a package of pkg-config. -/
structure Unknown (E : Env) (c : Call) (st : St) (n : Bytes) : Prop where
  cacheS : st.cacheS E.proj n = none
  cacheD : st.cacheD E.proj n = none
  ovS : st.ovS n = none
  ovD : st.ovD n = none
  pkg : E.pkg n (c.static == some true) = none

theorem mode_static (c : Call) : (modeOf c == .static) = (c.static == some true) := by
  unfold modeOf
  cases c.static with
  | none => rfl
  | some b => cases b <;> rfl

theorem unknown_cached {E : Env} {c : Call} {st : St} {n : Bytes} (h : Unknown E c st n) (m : Mode) : cached E st m n = none := by
  simp [cached, h.cacheS, h.cacheD]

theorem unknown_override {E : Env} {c : Call} {st : St} {n : Bytes} (hn : c.names = [n]) (h : Unknown E c st n) (m : Mode) :
    override st m c.names = none := by
  simp [hn, override, h.ovS, h.ovD]

theorem unknown_pkg {E : Env} {c : Call} {st : St} {n : Bytes} (h : Unknown E c st n) : usePkg E c (modeOf c) st n = .ok (st, none) := by
  unfold usePkg
  rw [mode_static, h.pkg]

theorem lookName_plain {E : Env} {c : Call} {m : Mode} {fb : Option (List Bytes)} {second : Bool} {st : St} {n : Bytes}
    (hsp : ¬ Special n) : lookName E c m fb second st n = getDep E c m st n fb second := by
  unfold lookName
  have hs : n ≠ ascii "threads" ∧ n ≠ ascii "curses" ∧ n ≠ ascii "appleframeworks" ∧ n ≠ [] := by
    refine ⟨?_, ?_, ?_, ?_⟩ <;> (intro e; apply hsp; unfold Special; simp [e])
  rw [if_neg hs.1, if_neg hs.2.1, if_neg hs.2.2.1, if_neg hs.2.2.2]

theorem unknown_name {E : Env} {c : Call} {st : St} {n : Bytes} {fb : Option (List Bytes)} {second : Bool} {f : List Bytes}
    (hn : c.names = [n]) (hsp : ¬ Special n) (h : Unknown E c st n) (hf : fallbackOf E fb second n = some f) (hne : f ≠ []) :
    lookNames E c (modeOf c) fb second st c.names = fresh (useFallback E c (modeOf c) st f) := by
  have h1 : lookFresh E c (modeOf c) st n fb second = useFallback E c (modeOf c) st f := by
    unfold lookFresh
    rw [unknown_override hn h, hf]
    simp only
    cases f with
    | nil => exact absurd rfl hne
    | cons s r =>
      simp only [forced]
      split
      · rfl
      · unfold pkgThen
        rw [unknown_pkg h]
  rw [hn]
  simp only [lookNames, lookName_plain hsp, getDep, unknown_cached h, h1]
  generalize fresh (useFallback E c (modeOf c) st f) = r
  rcases r with ⟨st', _ | x⟩ | _ | _ <;> rfl

theorem dependency_eq {E : Env} {c : Call} {st : St} {n : Bytes} (hn : c.names = [n]) (hr : c.req ≠ .skip) {st' : St} {h : Hit}
    (hl : look E c st = .ok (st', some h)) : dependency E c st = deliver E c st' h := by
  unfold dependency
  rw [hn]
  simp only
  rw [if_neg hr, hl]

/-- C96: with `fallback: [s, v]`, where nothing is known of the dependency and `s` was not evaluated before, `s` is
evaluated and the dependency its variable `v` holds is what the call returns, provided that the version of `s` meets the
constraint (or the dependency is optional). -/
theorem fallback_used {E : Env} {c : Call} {st st' : St} {n s v ver : Bytes} {vars : Bytes → Option Var} {i : Nat} {d : Dep}
    (hn : c.names = [n]) (hsp : ¬ Special n) (hr : c.req ≠ .skip) (ha : c.allow ≠ some false) (hfb : c.fallback = some [s, v])
    (hw : E.wrap ≠ .nofallback) (h : Unknown E c st n) (hs : st.subs s = none)
    (he : E.eval st c.req s (modeOf c) = (st', some (ver, vars))) (hver : c.req = .required → Meets (some ver) c.versions ∧ c.versions ≠ some [])
    (hv : vars v = some (.dep i)) (hi : Is st' i d) :
    ∃ st'', dependency E c st = .ok (st'', .dep i) ∧ Is st'' i { d with inc := c.inc } ∧ st''.subs s = some vars := by
  have hall : allowed c = true := by
    unfold allowed
    cases hc : c.allow with
    | none => simp [hfb]
    | some b => cases b <;> simp [hc] at ha ⊢
  have hex : fallbackOf E (explicit c) false n = some [s, v] := by simp [explicit, hall, hfb, fallbackOf]
  have hok : (!subVersionOk c ver && c.req == .required) = false := by
    by_cases hq : c.req = .required
    · obtain ⟨h1, h2⟩ := hver hq
      have := versionOk_of h1 h2
      have : subVersionOk c ver = true := by
        unfold subVersionOk
        unfold versionOk at this
        cases hv : c.versions with
        | none => rfl
        | some cs => rw [hv] at this; simpa using this
      simp [this]
    · simp [hq]
  let su : St := { st' with subs := fun k => if k = s then some vars else st'.subs k }
  have hu : useFallback E c (modeOf c) st [s, v] = .ok (su, some (i, modeOf c)) := by
    simp only [useFallback, if_neg hw, useSub, subproject, hs, he, hok, Bool.false_eq_true, if_false, hv, su]
  have hl : look E c st = .ok (su, some ⟨i, modeOf c, false⟩) := by
    unfold look
    rw [unknown_name hn hsp h hex (by simp), hu]
    rfl
  rw [dependency_eq hn hr hl]
  have hi' : su.heap[i]? = some d := hi
  unfold deliver
  simp only [hi']
  have hlt : i < su.heap.length := (List.getElem?_eq_some_iff.1 hi').1
  refine ⟨_, rfl, ?_, ?_⟩
  · unfold Is
    cases d.found <;> simp [setCache, List.getElem?_set_self hlt]
  · cases d.found <;> simp [setCache, su]

/-- C96: without the keyword, a dependency that is required (or for which fallbacks are allowed) and of which nothing is
known is looked for in the subproject of the same name; what that overrides it with is what the call returns. -/
theorem implicit_fallback {E : Env} {c : Call} {st st' : St} {n ver : Bytes} {vars : Bytes → Option Var} {i : Nat} {d : Dep}
    (hn : c.names = [n]) (hsp : ¬ Special n) (hr : c.req ≠ .skip) (ha : c.allow = some true ∨ c.allow = none ∧ c.req = .required)
    (hfb : c.fallback = none) (hp : E.provides n = none)
    (hw : E.wrap ≠ .nofallback) (h : Unknown E c st n) (hs : st.subs n = none)
    (he : E.eval st c.req n (modeOf c) = (st', some (ver, vars))) (hver : c.req = .required → Meets (some ver) c.versions ∧ c.versions ≠ some [])
    (ho : st'.ovS n = none ∧ c.static ≠ some true ∧ st'.ovD n = some i ∨ c.static ≠ some false ∧ st'.ovS n = some i) (hi : Is st' i d) :
    ∃ st'', dependency E c st = .ok (st'', .dep i) ∧ Is st'' i { d with inc := c.inc } ∧ st''.subs n = some vars := by
  have hall : allowed c = true := by
    unfold allowed
    rcases ha with e | ⟨e, e'⟩
    · rw [e]
    · rw [e, e']; rfl
  have hex0 : fallbackOf E (explicit c) false n = none := by simp [explicit, hfb, fallbackOf, hp]
  have hex : fallbackOf E (explicit c) true n = some [n] := by simp [explicit, hfb, fallbackOf, hp]
  have hok : (!subVersionOk c ver && c.req == .required) = false := by
    by_cases hq : c.req = .required
    · obtain ⟨h1, h2⟩ := hver hq
      have := versionOk_of h1 h2
      have : subVersionOk c ver = true := by
        unfold subVersionOk
        unfold versionOk at this
        cases hv : c.versions with
        | none => rfl
        | some cs => rw [hv] at this; simpa using this
      simp [this]
    · simp [hq]
  let su : St := { st' with subs := fun k => if k = n then some vars else st'.subs k }
  have hov : ∃ m, override su (modeOf c) c.names = some (i, m) := by
    rw [hn]
    unfold override
    have e1 : su.ovS n = st'.ovS n := rfl
    have e2 : su.ovD n = st'.ovD n := rfl
    rw [e1, e2]
    rcases ho with ⟨a, b, e⟩ | ⟨b, e⟩
    · have : modeOf c ≠ .static := by
        unfold modeOf
        cases hc : c.static with
        | none => simp
        | some x => cases x <;> simp [hc] at b ⊢
      refine ⟨.shared, ?_⟩
      simp [a, e, this]
    · have : modeOf c ≠ .shared := by
        unfold modeOf
        cases hc : c.static with
        | none => simp
        | some x => cases x <;> simp [hc] at b ⊢
      refine ⟨.static, ?_⟩
      simp [e, this]
  obtain ⟨m, hov⟩ := hov
  have hu : useFallback E c (modeOf c) st [n] = .ok (su, some (i, m)) := by
    simp only [useFallback, if_neg hw, useSub, subproject, hs, he, hok, Bool.false_eq_true, if_false]
    exact congrArg (fun r => Res.ok (su, r)) hov
  have h0 : lookNames E c (modeOf c) (explicit c) false st c.names = .ok (st, none) := by
    have h1 : lookFresh E c (modeOf c) st n (explicit c) false = .ok (st, none) := by
      unfold lookFresh
      rw [unknown_override hn h, hex0]
      simp only [pkgThen, unknown_pkg h]
    rw [hn]
    simp only [lookNames, lookName_plain hsp, getDep, unknown_cached h, h1, fresh]
  have hl : look E c st = .ok (su, some ⟨i, m, false⟩) := by
    unfold look
    rw [h0]
    simp only [hall, if_true]
    rw [unknown_name hn hsp h hex (by simp), hu]
    rfl
  rw [dependency_eq hn hr hl]
  have hi' : su.heap[i]? = some d := hi
  unfold deliver
  simp only [hi']
  have hlt : i < su.heap.length := (List.getElem?_eq_some_iff.1 hi').1
  refine ⟨_, rfl, ?_, ?_⟩
  · unfold Is
    cases d.found <;> simp [setCache, List.getElem?_set_self hlt]
  · cases d.found <;> simp [setCache, su]

/-- C96: a required dependency of which nothing is known is not taken from a subproject whose version does not meet the
constraint, here one that overrides nothing (see `fallback_version_counterexample`). -/
theorem fallback_version_partial {E : Env} {c : Call} {st st' : St} {n s v ver : Bytes} {vars : Bytes → Option Var}
    (hn : c.names = [n]) (hsp : ¬ Special n) (hr : c.req = .required) (hfb : c.fallback = some [s, v]) (hal : c.allow ≠ some false)
    (h : Unknown E c st n) (hs : st.subs s = none) (he : E.eval st .required s (modeOf c) = (st', some (ver, vars)))
    (h' : Unknown E c st' n) (hs' : st'.subs s = none)
    (he' : ∃ st2 ver2 vars2, E.eval st' .required s (modeOf c) = (st2, some (ver2, vars2)) ∧ ¬ Meets (some ver2) c.versions)
    (hver : ¬ Meets (some ver) c.versions) : ending (dependency E c st) = .error := by
  have bad : ∀ w, ¬ Meets (some w) c.versions → (!subVersionOk c w && c.req == .required) = true := by
    intro w hw
    have : subVersionOk c w = false := by
      rw [Bool.eq_false_iff]
      intro e
      apply hw
      unfold subVersionOk at e
      have : versionOk (some w) c.versions = .ok true := by
        unfold versionOk
        cases hv : c.versions with
        | none => rfl
        | some cs => rw [hv] at e; simpa using e
      exact meets_of this
    simp [this, hr]
  have hall : allowed c = true := by
    unfold allowed
    cases hc : c.allow with
    | none => simp [hr]
    | some b => cases b <;> simp [hc] at hal ⊢
  have hex : ∀ b, fallbackOf E (explicit c) b n = some [s, v] := fun b => by simp [explicit, hall, hfb, fallbackOf]
  rw [← hr] at he
  obtain ⟨st2, ver2, vars2, he', hver2⟩ := he'
  rw [← hr] at he'
  have key : ∃ st3, look E c st = .ok (st3, none) := by
    unfold look
    rw [unknown_name hn hsp h (hex _) (by simp)]
    by_cases hw : E.wrap = .nofallback
    · simp only [useFallback, if_pos hw, fresh, hall, if_true]
      rw [unknown_name hn hsp h (hex _) (by simp)]
      simp only [useFallback, if_pos hw, fresh]
      exact ⟨_, rfl⟩
    · simp only [useFallback, if_neg hw, useSub, subproject, hs, he, bad _ hver, if_true, fresh, hall]
      rw [unknown_name hn hsp h' (hex _) (by simp)]
      simp only [useFallback, if_neg hw, useSub, subproject, hs', he', bad _ hver2, if_true, fresh]
      exact ⟨_, rfl⟩
  obtain ⟨st3, hk⟩ := key
  unfold dependency
  rw [hn]
  simp only
  rw [if_neg (by rw [hr]; simp), hk]
  simp only [hr, if_true, ending]

/-- What a function does to the state is done to the one in a result. -/
def onState (f : St → St) {α : Type} : Res (St × α) → Res (St × α)
  | .ok (st, a) => .ok (f st, a)
  | .error => .error
  | .bad => .bad

section
variable (s : Bool) (n : Bytes) (i : Nat)

local notation "O" => overrideDependency s n i

theorem over_heap (st : St) : (O st).heap = st.heap := by cases s <;> rfl
theorem over_cacheS (st : St) : (O st).cacheS = st.cacheS := by cases s <;> rfl
theorem over_cacheD (st : St) : (O st).cacheD = st.cacheD := by cases s <;> rfl
theorem over_subs (st : St) : (O st).subs = st.subs := by cases s <;> rfl
theorem over_set (st : St) (h : List Dep) : ({ O st with heap := h } : St) = O { st with heap := h } := by cases s <;> rfl

theorem over_override (st : St) (m : Mode) : ∀ ns : List Bytes, n ∉ ns → override (O st) m ns = override st m ns := by
  intro ns
  induction ns with
  | nil => intro _; rfl
  | cons k ns ih =>
    intro h
    have hk : k ≠ n := fun e => h (by simp [e])
    have h1 : (O st).ovS k = st.ovS k := by cases s <;> simp [overrideDependency, hk]
    have h2 : (O st).ovD k = st.ovD k := by cases s <;> simp [overrideDependency, hk]
    simp only [override, h1, h2, ih (fun e => h (by simp [e]))]

theorem over_cached (E : Env) (st : St) (m : Mode) (k : Bytes) : cached E (O st) m k = cached E st m k := by
  simp only [cached, over_cacheS, over_cacheD]

theorem over_pkg (E : Env) (c : Call) (m : Mode) (st : St) (k : Bytes) : usePkg E c m (O st) k = onState (O) (usePkg E c m st k) := by
  unfold usePkg
  cases E.pkg k (m == .static) with
  | none => rfl
  | some v =>
    simp only
    rcases versionOk (some v) c.versions with (_ | _) | _ | _
    · rfl
    · simp only [onState, over_heap, over_set]
    · rfl
    · rfl

theorem over_use (E : Env) (c : Call) (m : Mode) (st : St) (f : List Bytes) (hw : E.wrap = .nofallback) :
    useFallback E c m (O st) f = onState (O) (useFallback E c m st f) := by
  simp only [useFallback, if_pos hw, onState]

theorem over_then (E : Env) (c : Call) (m : Mode) (st : St) (k : Bytes) (fb : Option (List Bytes)) (hw : E.wrap = .nofallback) :
    pkgThen E c m (O st) k fb = onState (O) (pkgThen E c m st k fb) := by
  unfold pkgThen
  rw [over_pkg]
  rcases usePkg E c m st k with ⟨st', _ | x⟩ | _ | _
  · cases fb with
    | none => rfl
    | some f => exact over_use s n i E c m st' f hw
  · rfl
  · rfl
  · rfl

theorem over_fresh (E : Env) (c : Call) (m : Mode) (st : St) (k : Bytes) (fb : Option (List Bytes)) (b : Bool) (hw : E.wrap = .nofallback)
    (hn : n ∉ c.names) : lookFresh E c m (O st) k fb b = onState (O) (lookFresh E c m st k fb b) := by
  unfold lookFresh
  rw [over_override s n i st m _ hn]
  cases override st m c.names with
  | some h => rfl
  | none =>
    simp only
    cases fallbackOf E fb b k with
    | none => exact over_then s n i E c m st k none hw
    | some f =>
      simp only
      have : forced E (O st) f k = forced E st f k := by cases f <;> simp [forced, over_subs]
      rw [this]
      rcases forced E st f k with x | _ | _
      · simp only
        split
        · exact over_use s n i E c m st f hw
        · exact over_then s n i E c m st k _ hw
      · rfl
      · rfl

theorem over_get (E : Env) (c : Call) (m : Mode) (st : St) (k : Bytes) (fb : Option (List Bytes)) (b : Bool) (hw : E.wrap = .nofallback)
    (hn : n ∉ c.names) : getDep E c m (O st) k fb b = onState (O) (getDep E c m st k fb b) := by
  unfold getDep
  rw [over_cached]
  cases cached E st m k with
  | none =>
    simp only
    rw [over_fresh s n i E c m st k fb b hw hn]
    rcases lookFresh E c m st k fb b with ⟨st', _ | ⟨_, _⟩⟩ | _ | _ <;> rfl
  | some p =>
    obtain ⟨j, m'⟩ := p
    simp only [over_heap]
    cases st.heap[j]? with
    | none => rfl
    | some d =>
      simp only
      rcases versionOk d.version c.versions with (_ | _) | _ | _ <;> rfl

theorem over_made (m : Mode) (st : St) (d : Dep) : made m (O st) d = onState (O) (made m st d) := by
  simp only [made, onState, over_heap, over_set]

theorem over_name (E : Env) (c : Call) (m : Mode) (fb : Option (List Bytes)) (b : Bool) (st : St) (k : Bytes) (hw : E.wrap = .nofallback)
    (hn : n ∉ c.names) : lookName E c m fb b (O st) k = onState (O) (lookName E c m fb b st k) := by
  unfold lookName
  split
  · exact over_made s n i _ _ _
  split
  · rw [over_get s n i E c m st _ fb b hw hn]
    rcases getDep E c m st (ascii "ncurses") fb b with ⟨st', _ | x⟩ | _ | _
    · exact over_get s n i E c m st' _ fb b hw hn
    · rfl
    · rfl
    · rfl
  split
  · split
    · rfl
    · split <;> exact over_made s n i _ _ _
  split
  · split
    · rfl
    · exact over_made s n i _ _ _
  · exact over_get s n i E c m st k fb b hw hn

theorem over_names (E : Env) (c : Call) (m : Mode) (fb : Option (List Bytes)) (b : Bool) (hw : E.wrap = .nofallback)
    (hn : n ∉ c.names) : ∀ (ks : List Bytes) (st : St), lookNames E c m fb b (O st) ks = onState (O) (lookNames E c m fb b st ks) := by
  intro ks
  induction ks with
  | nil => intro st; rfl
  | cons k ks ih =>
    intro st
    unfold lookNames
    rw [over_name s n i E c m fb b st k hw hn]
    rcases lookName E c m fb b st k with ⟨st', _ | x⟩ | _ | _
    · exact ih st'
    · rfl
    · rfl
    · rfl

/-- C96: an override changes only the lookups of the name it is for: a lookup that does not mention the name ends in the
same way and returns the same dependency. (Where fallbacks are disabled: a subproject may look at everything.) -/
theorem override_others (E : Env) (c : Call) (st : St) (hw : E.wrap = .nofallback) (hn : n ∉ c.names) :
    ending (dependency E c (O st)) = ending (dependency E c st) ∧ returned (dependency E c (O st)) = returned (dependency E c st) := by
  have hl : look E c (O st) = onState (O) (look E c st) := by
    unfold look
    rw [over_names s n i E c _ _ _ hw hn]
    rcases lookNames E c (modeOf c) (explicit c) false st c.names with ⟨st', _ | x⟩ | _ | _
    · simp only [onState]
      split
      · exact over_names s n i E c _ _ _ hw hn _ _
      · rfl
    · rfl
    · rfl
    · rfl
  unfold dependency
  cases c.names with
  | nil => exact ⟨rfl, rfl⟩
  | cons k ks =>
    simp only
    split
    · simp only [ending, returned, over_heap, and_self]
    rw [hl]
    rcases look E c st with ⟨st', _ | x⟩ | _ | _
    · simp only [onState]
      split
      · exact ⟨rfl, rfl⟩
      split
      · exact ⟨rfl, rfl⟩
      · simp only [ending, returned, over_heap, and_self]
    · simp only [onState, deliver, over_heap]
      cases st'.heap[x.id]? with
      | none => exact ⟨rfl, rfl⟩
      | some d =>
        simp only
        split
        · exact ⟨rfl, rfl⟩
        · refine ⟨rfl, ?_⟩
          cases d.found <;> rfl
    · exact ⟨rfl, rfl⟩
    · exact ⟨rfl, rfl⟩

end

/-- C96: an override is what a lookup of that name returns, if it was not looked up before. -/
theorem override_used (E : Env) (c : Call) (st : St) (n : Bytes) (i : Nat) (d : Dep) (s : Bool) (hn : c.names = [n]) (hsp : ¬ Special n)
    (hr : c.req ≠ .skip) (hcS : st.cacheS E.proj n = none) (hcD : st.cacheD E.proj n = none) (hi : Is st i d)
    (hs : c.static = some s ∨ c.static = none ∧ (s = true ∨ st.ovS n = none)) :
    ∃ st', dependency E c (overrideDependency s n i st) = .ok (st', .dep i) ∧ Is st' i { d with inc := c.inc } := by
  have hov : ∃ m, override (overrideDependency s n i st) (modeOf c) c.names = some (i, m) := by
    rw [hn]
    unfold override
    cases s with
    | true =>
      refine ⟨.static, ?_⟩
      rcases hs with h | ⟨h, _⟩ <;> simp [modeOf, h, overrideDependency]
    | false =>
      refine ⟨.shared, ?_⟩
      rcases hs with h | ⟨h, h' | h'⟩
      · simp [modeOf, h, overrideDependency]
      · cases h'
      · simp [modeOf, h, overrideDependency, h']
  obtain ⟨m, hov⟩ := hov
  have hc : cached E (overrideDependency s n i st) (modeOf c) n = none := by
    rw [over_cached]; simp [cached, hcS, hcD]
  have hl : look E c (overrideDependency s n i st) = .ok (overrideDependency s n i st, some ⟨i, m, false⟩) := by
    unfold look
    have : lookNames E c (modeOf c) (explicit c) false (overrideDependency s n i st) c.names = .ok (overrideDependency s n i st, some ⟨i, m, false⟩) := by
      have h1 : lookFresh E c (modeOf c) (overrideDependency s n i st) n (explicit c) false = .ok (overrideDependency s n i st, some (i, m)) := by
        unfold lookFresh
        rw [hov]
      conv => lhs; rw [hn]
      simp only [lookNames, lookName_plain hsp, getDep, hc, h1, fresh]
    rw [this]
  rw [dependency_eq hn hr hl]
  have hi' : (overrideDependency s n i st).heap[i]? = some d := by rw [over_heap]; exact hi
  unfold deliver
  simp only [hi']
  have hlt : i < (overrideDependency s n i st).heap.length := (List.getElem?_eq_some_iff.1 hi').1
  refine ⟨_, rfl, ?_⟩
  unfold Is
  cases d.found <;> simp [setCache, List.getElem?_set_self hlt]

/-! ### Cases that meet the hypotheses -/

/-- A subproject `s` of version 1, whose variable `v` holds a dependency. -/
def subVar : Env :=
  ⟨0, .nodownload, [], fun _ => none, fun _ _ => none, false, fun st _ n _ =>
    if n = ascii "s" then
      ({ st with heap := st.heap ++ [⟨ascii "d", some (ascii "3"), true, .declared, .preserve⟩] },
        some (ascii "1", fun v => if v = ascii "v" then some (.dep st.heap.length) else none))
    else (st, none)⟩

example : returned (dependency subVar { names := [ascii "z"], fallback := some [ascii "s", ascii "v"] } (blank [])) =
    some ⟨ascii "d", some (ascii "3"), true, .declared, .preserve⟩ := by
  obtain ⟨st', h1, h2, _⟩ := fallback_used (E := subVar) (c := { names := [ascii "z"], fallback := some [ascii "s", ascii "v"] })
    (st := blank []) (n := ascii "z") rfl (by unfold Special; decide +kernel) (by decide) (by decide) rfl (by decide)
    ⟨rfl, rfl, rfl, rfl, rfl⟩ rfl rfl (fun _ => ⟨(fun _ h => nomatch h), by decide⟩) (show _ = some (Var.dep 0) from by decide +kernel)
    (show Is _ 0 ⟨ascii "d", some (ascii "3"), true, .declared, .preserve⟩ from rfl)
  rw [h1]
  exact h2

/-- The subproject is of version 1, which is not what is asked for. -/
example : ending (dependency subVar { names := [ascii "z"], fallback := some [ascii "s", ascii "v"], versions := some [ascii ">=2"] } (blank [])) = .error := by
  decide +kernel

/-- A subproject `s` that overrides `s`. -/
def subOver : Env :=
  ⟨0, .nodownload, [], fun _ => none, fun _ _ => none, false, fun st _ n _ =>
    if n = ascii "s" then
      ({ overrideDependency false (ascii "s") st.heap.length st with
          heap := st.heap ++ [⟨ascii "d", some (ascii "3"), true, .declared, .preserve⟩] },
        some (ascii "1", fun _ => none))
    else (st, none)⟩

example : returned (dependency subOver { names := [ascii "s"] } (blank [])) =
    some ⟨ascii "d", some (ascii "3"), true, .declared, .preserve⟩ := by
  obtain ⟨st', h1, h2, _⟩ := implicit_fallback (E := subOver) (c := { names := [ascii "s"] })
    (st := blank []) (n := ascii "s") rfl (by unfold Special; decide +kernel) (by decide) (Or.inr ⟨rfl, rfl⟩) rfl rfl (by decide)
    ⟨rfl, rfl, rfl, rfl, rfl⟩ rfl rfl (fun _ => ⟨(fun _ h => nomatch h), by decide⟩)
    (Or.inl ⟨rfl, by decide, show _ = some 0 from by decide +kernel⟩)
    (show Is _ 0 ⟨ascii "d", some (ascii "3"), true, .declared, .preserve⟩ from rfl)
  rw [h1]
  exact h2

end Muon.Lookup
