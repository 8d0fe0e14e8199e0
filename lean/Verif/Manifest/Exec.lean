import Verif.Manifest.Eval
/-
What every accepted manifest satisfies.
-/
namespace Muon.Manifest
open Muon Esc Spec

theorem extends_refl (env : Nat) (s : St) : Extends env s s :=
  ⟨List.prefix_rfl, List.prefix_rfl, List.suffix_rfl, Nat.le_refl _, fun _ _ _ => rfl,
    fun e h => ⟨e, h, rfl, List.suffix_rfl, List.suffix_rfl⟩⟩

theorem extends_trans {env : Nat} {a b c : St} (h : Extends env a b) (h2 : Extends env b c) : Extends env a c where
  edges := h.edges.trans h2.edges
  defaults := h.defaults.trans h2.defaults
  pools := h.pools.trans h2.pools
  envs := Nat.le_trans h.envs h2.envs
  others i hi hne := by rw [h2.others i (Nat.lt_of_lt_of_le hi h.envs) hne, h.others i hi hne]
  parent e he := by
    obtain ⟨e1, h3, h4, h5, h6⟩ := h.parent e he
    obtain ⟨e2, h7, h8, h9, h10⟩ := h2.parent e1 h3
    exact ⟨e2, h7, h8.trans h4, h5.trans h9, h6.trans h10⟩

theorem find_mem {α : Type} {l : List (Bytes × α)} {k : Bytes} (h : (find l k).isSome = true) : ∃ d, (k, d) ∈ l := by
  unfold find at h
  cases hf : l.find? (fun x => x.1 == k) with
  | none => rw [hf] at h; cases h
  | some x =>
    have h1 := List.find?_some hf
    have h2 := List.mem_of_find?_eq_some hf
    obtain ⟨a, b⟩ := x
    simp at h1
    subst h1
    exact ⟨b, h2⟩

theorem modEnv_length (s : St) (i : Nat) (f : Env → Env) : (s.modEnv i f).envs.length = s.envs.length := by simp [St.modEnv]

theorem modEnv_get (s : St) (i j : Nat) (f : Env → Env) : (s.modEnv i f).envs[j]? = if i = j then (s.envs[j]?).map f else s.envs[j]? := by
  simp only [St.modEnv, List.getElem?_modify]
  by_cases h : i = j
  · rw [if_pos h]; cases s.envs[j]? <;> simp [h]
  · rw [if_neg h]; cases s.envs[j]? <;> simp [h]

theorem sound_modEnv {s : St} (h : Sound s) (i : Nat) (f : Env → Env) (hf : ∀ e, (f e).parent = e.parent) : Sound (s.modEnv i f) where
  unique := h.unique
  counts := h.counts
  pools := h.pools
  depths := h.depths
  defaults := h.defaults
  nested j e p h1 h2 := by
    rw [modEnv_get] at h1
    split at h1
    · cases he : s.envs[j]? with
      | none => rw [he] at h1; cases h1
      | some e' => rw [he] at h1; cases h1; exact h.nested j e' p he (by rw [← hf]; exact h2)
    · exact h.nested j e p h1 h2
  inScope e he := by rw [modEnv_length]; exact h.inScope e he

theorem extends_modEnv (s : St) (i : Nat) (f : Env → Env) (hf : ∀ e, (f e).parent = e.parent ∧ e.vars <:+ (f e).vars ∧ e.rules <:+ (f e).rules) :
    Extends i s (s.modEnv i f) where
  edges := List.prefix_rfl
  defaults := List.prefix_rfl
  pools := List.suffix_rfl
  envs := by rw [modEnv_length]; exact Nat.le_refl _
  others j hj hne := by rw [modEnv_get, if_neg (fun e => hne e.symm)]
  parent e he := by
    refine ⟨f e, ?_, hf e⟩
    rw [modEnv_get, if_pos rfl, he]; rfl

theorem evalPaths_length (env : Bytes → Option Bytes) : ∀ (ps : List (List Part)) (xs : List Bytes), evalPaths env ps = .ok xs → xs.length = ps.length := by
  intro ps
  induction ps with
  | nil => intro xs h; rw [evalPaths] at h; cases h; rfl
  | cons p ps ih =>
    intro xs h
    rw [evalPaths] at h
    obtain ⟨x, _, h⟩ := Res.bind_eq_ok.1 h
    obtain ⟨ys, hy, h⟩ := Res.bind_eq_ok.1 h
    cases h
    simp [ih ys hy]

theorem noDup_spec (s : St) (ps : List Bytes) (h : noDup s ps = true) : ps.Nodup ∧ ∀ p ∈ ps, ∀ e ∈ s.edges, p ∉ e.outs := by
  induction ps with
  | nil => simp
  | cons p ps ih =>
    simp only [noDup, Bool.and_eq_true, Bool.not_eq_true', St.generated] at h
    obtain ⟨⟨h1, h2⟩, h3⟩ := h
    obtain ⟨h4, h5⟩ := ih h3
    refine ⟨List.nodup_cons.2 ⟨by simpa using h2, h4⟩, ?_⟩
    intro q hq e he
    rcases List.mem_cons.1 hq with rfl | hq
    · intro hm
      have : s.edges.any (fun e => e.outs.contains q) = true := List.any_eq_true.2 ⟨e, he, by simpa using hm⟩
      rw [this] at h1; cases h1
    · exact h5 q hq e he

/-- The edge a `build` statement adds. -/
theorem execBuild_ok {s s' : St} {env : Nat} {o oi : List (List Part)} {rn : Bytes} {i ii io : List (List Part)} {ls : List Let}
    (h : execBuild s env o oi rn i ii io ls = .ok s') :
    ∃ (r : Rule) (os is : List Bytes) (pool : Option Bytes),
      envRule s.envs s.envs.length env rn = some r ∧
      evalPaths (s.edgeEnv (evalLets (s.var env) ls) env) (o ++ oi) = .ok os ∧
      noDup s os = true ∧
      evalPaths (s.edgeEnv (evalLets (s.var env) ls) env) (i ++ ii ++ io) = .ok is ∧
      s.edgeVar ⟨os, o.length, is, i.length, i.length + ii.length, r, evalLets (s.var env) ls, env, none⟩ true (ascii "pool") = .ok pool ∧
      (∀ p, pool = some p → (find s.pools p).isSome = true) ∧
      s' = { s with edges := s.edges ++ [⟨os, o.length, is, i.length, i.length + ii.length, r, evalLets (s.var env) ls, env, pool⟩] } := by
  unfold execBuild at h
  cases hr : envRule s.envs s.envs.length env rn with
  | none => rw [hr] at h; cases h
  | some r =>
    rw [hr] at h
    dsimp only at h
    obtain ⟨os, hos, h⟩ := Res.bind_eq_ok.1 h
    by_cases hd : noDup s os = true
    · rw [hd] at h
      simp only [Bool.not_true, Bool.false_eq_true, if_false] at h
      obtain ⟨is, his, h⟩ := Res.bind_eq_ok.1 h
      obtain ⟨p, hp, h⟩ := Res.bind_eq_ok.1 h
      refine ⟨r, os, is, p, rfl, hos, hd, his, hp, ?_, ?_⟩
      · intro q hq
        subst hq
        dsimp only at h
        split at h
        · next h1 => exact h1
        · cases h
      · cases p with
        | none => cases h; rfl
        | some p =>
          dsimp only at h
          split at h
          · cases h; rfl
          · cases h
    · simp only [Bool.not_eq_true] at hd
      rw [hd] at h
      cases h

theorem execBuild_sound {s s' : St} {env : Nat} {o oi : List (List Part)} {rn : Bytes} {i ii io : List (List Part)} {ls : List Let}
    (h : execBuild s env o oi rn i ii io ls = .ok s') (hs : Sound s) (he : env < s.envs.length) : Sound s' ∧ Extends env s s' := by
  obtain ⟨r, os, is, pool, h1, h2, h3, h4, h5, h6, rfl⟩ := execBuild_ok h
  have hlo := evalPaths_length _ _ _ h2
  have hli := evalPaths_length _ _ _ h4
  simp only [List.length_append] at hlo hli
  obtain ⟨n1, n2⟩ := noDup_spec s os h3
  refine ⟨?_, ?_⟩
  · constructor
    · simp only [List.flatMap_append, List.flatMap_cons, List.flatMap_nil, List.append_nil]
      rw [List.nodup_append]
      refine ⟨hs.unique, n1, ?_⟩
      intro a ha b hb hab
      subst hab
      obtain ⟨e, he1, he2⟩ := List.mem_flatMap.1 ha
      exact n2 a hb e he1 he2
    · intro e hm
      rcases List.mem_append.1 hm with hm | hm
      · exact hs.counts e hm
      · simp at hm; subst hm; simp; omega
    · intro e hm p hp
      rcases List.mem_append.1 hm with hm | hm
      · exact hs.pools e hm p hp
      · simp at hm; subst hm; exact find_mem (h6 p hp)
    · exact hs.depths
    · intro p hp
      obtain ⟨e, h1, h2⟩ := hs.defaults p hp
      exact ⟨e, List.mem_append_left _ h1, h2⟩
    · exact hs.nested
    · intro e hm
      rcases List.mem_append.1 hm with hm | hm
      · exact hs.inScope e hm
      · simp at hm; subst hm; exact he
  · exact ⟨List.prefix_append _ _, List.prefix_rfl, List.suffix_rfl, Nat.le_refl _, fun _ _ _ => rfl,
      fun e h => ⟨e, h, rfl, List.suffix_rfl, List.suffix_rfl⟩⟩

theorem poolDepth_ne (number : Bytes → Option Int) (env : Bytes → Option Bytes) : ∀ (ls : List Let) (a d : Int),
    poolDepth number env ls a = .ok d → d ≠ 0 := by
  intro ls
  induction ls with
  | nil =>
    intro a d h
    rw [poolDepth] at h
    split at h
    · cases h
    · cases h; assumption
  | cons l ls ih =>
    intro a d h
    rw [poolDepth] at h
    split at h
    · split at h
      · cases h
      · exact ih _ _ h
    · cases h

theorem sound_newEnv {s : St} (h : Sound s) (env : Nat) (he : env < s.envs.length) :
    Sound { s with envs := s.envs ++ [⟨some env, [], []⟩] } where
  unique := h.unique
  counts := h.counts
  pools := h.pools
  depths := h.depths
  defaults := h.defaults
  nested j e p h1 h2 := by
    dsimp only at h1
    by_cases hj : j < s.envs.length
    · rw [List.getElem?_append_left hj] at h1; exact h.nested j e p h1 h2
    · rw [List.getElem?_append_right (by omega)] at h1
      have hj0 : j - s.envs.length = 0 := by
        cases hk : j - s.envs.length with
        | zero => rfl
        | succ k => rw [hk] at h1; simp at h1
      rw [hj0] at h1
      simp at h1
      subst h1
      cases h2
      omega
  inScope e hm := by have := h.inScope e hm; simp; omega

theorem execAll_nil (w : World) (f : Nat) (s : St) (env : Nat) : execAll w f s env [] = .ok s := rfl
theorem execAll_cons (w : World) (f : Nat) (s : St) (env : Nat) (x : Stmt) (xs : List Stmt) :
    execAll w f s env (x :: xs) = (exec w f s env x >>= fun s => execAll w f s env xs) := rfl

theorem exec_plain (w : World) (f : Nat) (s : St) (env : Nat) (x : Stmt) (hx : ∀ p b, x ≠ .incl p b) (inc : St → Nat → List Part → Bool → Res St) :
    exec w f s env x = execWith w inc s env x := by
  cases f <;> cases x <;> first | rfl | exact absurd rfl (hx _ _)

theorem exec_incl0 (w : World) (s : St) (env : Nat) (p : List Part) (b : Bool) : exec w 0 s env (.incl p b) = .bad := rfl

theorem exec_incl (w : World) (f : Nat) (s : St) (env : Nat) (p : List Part) (b : Bool) :
    exec w (f + 1) s env (.incl p b) = match w.read (envEval (s.var env) p) with
      | none => .error
      | some txt => file txt >>= fun xs =>
        if b then execAll w f { s with envs := s.envs ++ [⟨some env, [], []⟩] } s.envs.length xs else execAll w f s env xs := by
  show inclFile w (exec w f) s env p b = _
  unfold inclFile
  cases w.read (envEval (s.var env) p) <;> rfl

theorem exec_sound (w : World) : ∀ (f : Nat),
    (∀ (s : St) (env : Nat) (x : Stmt) (s' : St), Sound s → env < s.envs.length → exec w f s env x = .ok s' → Sound s' ∧ Extends env s s') := by
  have all : ∀ (f : Nat), (∀ (s : St) (env : Nat) (x : Stmt) (s' : St), Sound s → env < s.envs.length → exec w f s env x = .ok s' →
      Sound s' ∧ Extends env s s') → ∀ (xs : List Stmt) (s : St) (env : Nat) (s' : St), Sound s → env < s.envs.length →
      execAll w f s env xs = .ok s' → Sound s' ∧ Extends env s s' := by
    intro f ih xs
    induction xs with
    | nil => intro s env s' hs _ h; rw [execAll_nil] at h; cases h; exact ⟨hs, extends_refl env s⟩
    | cons x xs ihx =>
      intro s env s' hs he h
      rw [execAll_cons] at h
      obtain ⟨s1, h1, h⟩ := Res.bind_eq_ok.1 h
      obtain ⟨a1, a2⟩ := ih s env x s1 hs he h1
      obtain ⟨b1, b2⟩ := ihx s1 env s' a1 (Nat.lt_of_lt_of_le he a2.envs) h
      exact ⟨b1, extends_trans a2 b2⟩
  have plain : ∀ (f : Nat) (s : St) (env : Nat) (x : Stmt) (s' : St), (∀ p b, x ≠ .incl p b) → Sound s → env < s.envs.length →
      exec w f s env x = .ok s' → Sound s' ∧ Extends env s s' := by
    intro f s env x s' hx hs he h
    rw [exec_plain w f s env x hx (fun _ _ _ _ => .bad)] at h
    cases x with
    | assign l =>
      rw [execWith] at h
      split at h
      · cases h
      · cases h
        exact ⟨sound_modEnv hs env _ (fun _ => rfl), extends_modEnv s env _ (fun e => ⟨rfl, List.suffix_cons _ _, List.suffix_rfl⟩)⟩
    | rule n ls =>
      rw [execWith] at h
      split at h
      · cases h
      · split at h
        · cases h
        · split at h
          · cases h
          · split at h
            · cases h
            · cases h
              exact ⟨sound_modEnv hs env _ (fun _ => rfl), extends_modEnv s env _ (fun e => ⟨rfl, List.suffix_rfl, List.suffix_cons _ _⟩)⟩
    | build o oi r i ii io ls => rw [execWith] at h; exact execBuild_sound h hs he
    | default ps =>
      rw [execWith] at h
      obtain ⟨xs, hxs, h⟩ := Res.bind_eq_ok.1 h
      split at h
      · next hall =>
        cases h
        refine ⟨⟨hs.unique, hs.counts, hs.pools, hs.depths, ?_, hs.nested, hs.inScope⟩,
          ⟨List.prefix_rfl, List.prefix_append _ _, List.suffix_rfl, Nat.le_refl _, fun _ _ _ => rfl,
            fun e h => ⟨e, h, rfl, List.suffix_rfl, List.suffix_rfl⟩⟩⟩
        intro p hp
        rcases List.mem_append.1 hp with hp | hp
        · exact hs.defaults p hp
        · have := List.all_eq_true.1 hall p hp
          unfold St.known at this
          obtain ⟨e, h1, h2⟩ := List.any_eq_true.1 this
          exact ⟨e, h1, by simpa using h2⟩
      · cases h
    | pool n ls =>
      rw [execWith] at h
      split at h
      · cases h
      · obtain ⟨d, hd, h⟩ := Res.bind_eq_ok.1 h
        cases h
        refine ⟨⟨hs.unique, hs.counts, ?_, ?_, hs.defaults, hs.nested, hs.inScope⟩,
          ⟨List.prefix_rfl, List.prefix_rfl, List.suffix_cons _ _, Nat.le_refl _, fun _ _ _ => rfl,
            fun e h => ⟨e, h, rfl, List.suffix_rfl, List.suffix_rfl⟩⟩⟩
        · intro e hm p hp
          obtain ⟨d', h'⟩ := hs.pools e hm p hp
          exact ⟨d', List.mem_cons_of_mem _ h'⟩
        · intro p hp
          rcases List.mem_cons.1 hp with rfl | hp
          · exact poolDepth_ne _ _ _ _ _ hd
          · exact hs.depths p hp
    | incl p b => exact absurd rfl (hx p b)
  intro f
  induction f with
  | zero =>
    intro s env x s' hs he h
    cases x with
    | incl p b => rw [exec_incl0] at h; cases h
    | _ => exact plain 0 s env _ s' (by intro _ _ hh; cases hh) hs he h
  | succ f ih =>
    intro s env x s' hs he h
    cases x with
    | incl p b =>
      rw [exec_incl] at h
      cases hw : w.read (envEval (s.var env) p) with
      | none => rw [hw] at h; cases h
      | some txt =>
        rw [hw] at h
        dsimp only at h
        obtain ⟨xs, hxs, h⟩ := Res.bind_eq_ok.1 h
        cases b with
        | false =>
          simp only [Bool.false_eq_true, if_false] at h
          exact all f ih xs s env s' hs he h
        | true =>
          simp only [if_true] at h
          obtain ⟨a1, a2⟩ := all f ih xs { s with envs := s.envs ++ [⟨some env, [], []⟩] } s.envs.length s' (sound_newEnv hs env he) (by simp) h
          refine ⟨a1, a2.edges, a2.defaults, a2.pools, ?_, ?_, ?_⟩
          · have := a2.envs; simp at this; omega
          · intro i hi _
            have := a2.others i (by simp; omega) (by omega)
            rw [this]
            exact List.getElem?_append_left hi
          · intro e hee
            refine ⟨e, ?_, rfl, List.suffix_rfl, List.suffix_rfl⟩
            rw [a2.others env (by simp; omega) (by omega)]
            dsimp only
            rw [List.getElem?_append_left he]; exact hee
    | _ => exact plain (f + 1) s env _ s' (by intro _ _ hh; cases hh) hs he h

theorem execAll_sound (w : World) (f : Nat) : ∀ (xs : List Stmt) (s : St) (env : Nat) (s' : St), Sound s → env < s.envs.length →
    execAll w f s env xs = .ok s' → Sound s' ∧ Extends env s s' := by
  intro xs
  induction xs with
  | nil => intro s env s' hs _ h; rw [execAll_nil] at h; cases h; exact ⟨hs, extends_refl env s⟩
  | cons x xs ihx =>
    intro s env s' hs he h
    rw [execAll_cons] at h
    obtain ⟨s1, h1, h⟩ := Res.bind_eq_ok.1 h
    obtain ⟨a1, a2⟩ := exec_sound w f s env x s1 hs he h1
    obtain ⟨b1, b2⟩ := ihx s1 env s' a1 (Nat.lt_of_lt_of_le he a2.envs) h
    exact ⟨b1, extends_trans a2 b2⟩

theorem sound_init : Sound init where
  unique := by simp [init]
  counts := by simp [init]
  pools := by simp [init]
  depths := by simp [init]
  defaults := by simp [init]
  nested i e p h1 h2 := by
    cases i with
    | zero => simp [init] at h1; subst h1; cases h2
    | succ i => simp [init] at h1
  inScope := by simp [init]

/-! ### Scopes -/

theorem envVar_fuel {envs : List Env} (hn : ∀ (i : Nat) (e : Env) (p : Nat), envs[i]? = some e → e.parent = some p → p < i) (v : Bytes) :
    ∀ (i f f' : Nat), i < f → i < f' → envVar envs f i v = envVar envs f' i v := by
  intro i
  induction i using Nat.strongRecOn with
  | ind i ih =>
    intro f f' h1 h2
    obtain ⟨g, rfl⟩ : ∃ g, f = g + 1 := ⟨f - 1, by omega⟩
    obtain ⟨g', rfl⟩ : ∃ g, f' = g + 1 := ⟨f' - 1, by omega⟩
    rw [envVar, envVar]
    cases he : envs[i]? with
    | none => rfl
    | some e =>
      dsimp only
      cases find e.vars v with
      | some x => rfl
      | none =>
        dsimp only
        cases hp : e.parent with
        | none => rfl
        | some p => exact ih p (hn i e p he hp) g g' (by have := hn i e p he hp; omega) (by have := hn i e p he hp; omega)

theorem envVar_sees {envs : List Env} (hn : ∀ (i : Nat) (e : Env) (p : Nat), envs[i]? = some e → e.parent = some p → p < i) (v x : Bytes) :
    ∀ (i f : Nat), i < f → (envVar envs f i v = some x ↔ Sees envs i v x) := by
  intro i
  induction i using Nat.strongRecOn with
  | ind i ih =>
    intro f hf
    obtain ⟨g, rfl⟩ : ∃ g, f = g + 1 := ⟨f - 1, by omega⟩
    rw [envVar]
    have hl : ∀ e : Env, find e.vars v = lastOf e.vars.reverse v := fun e => by rw [← find_lastOf, List.reverse_reverse]
    cases he : envs[i]? with
    | none =>
      dsimp only
      refine ⟨(fun h => by cases h), fun h => ?_⟩
      cases h with
      | here _ e _ _ h1 _ => rw [he] at h1; cases h1
      | around _ e _ _ _ h1 _ _ _ => rw [he] at h1; cases h1
    | some e =>
      dsimp only
      rw [hl e]
      cases hv : lastOf e.vars.reverse v with
      | some y =>
        dsimp only
        refine ⟨fun h => ?_, fun h => ?_⟩
        · cases h; exact .here i e v _ he hv
        · cases h with
          | here _ e' _ _ h1 h2 => rw [he] at h1; cases h1; rw [hv] at h2; exact h2
          | around _ e' _ _ _ h1 h2 _ _ => rw [he] at h1; cases h1; rw [hv] at h2; cases h2
      | none =>
        dsimp only
        cases hp : e.parent with
        | none =>
          dsimp only
          refine ⟨(fun h => by cases h), fun h => ?_⟩
          cases h with
          | here _ e' _ _ h1 h2 => rw [he] at h1; cases h1; rw [hv] at h2; cases h2
          | around _ e' _ _ _ h1 _ h3 _ => rw [he] at h1; cases h1; rw [hp] at h3; cases h3
        | some p =>
          dsimp only
          have hlt := hn i e p he hp
          rw [ih p hlt g (by omega)]
          refine ⟨fun h => .around i e p v x he hv hp h, fun h => ?_⟩
          cases h with
          | here _ e' _ _ h1 h2 => rw [he] at h1; cases h1; rw [hv] at h2; cases h2
          | around _ e' _ _ _ h1 _ h3 h4 => rw [he] at h1; cases h1; rw [hp] at h3; cases h3; exact h4

theorem envVar_agree {envs envs' : List Env} (hn : ∀ (i : Nat) (e : Env) (p : Nat), envs[i]? = some e → e.parent = some p → p < i) (v : Bytes) (n : Nat)
    (h : ∀ i, i ≤ n → envs'[i]? = envs[i]?) : ∀ (i f : Nat), i ≤ n → i < f → envVar envs' f i v = envVar envs f i v := by
  intro i
  induction i using Nat.strongRecOn with
  | ind i ih =>
    intro f hi hf
    obtain ⟨g, rfl⟩ : ∃ g, f = g + 1 := ⟨f - 1, by omega⟩
    rw [envVar, envVar, h i hi]
    cases he : envs[i]? with
    | none => rfl
    | some e =>
      dsimp only
      cases find e.vars v with
      | some x => rfl
      | none =>
        dsimp only
        cases hp : e.parent with
        | none => rfl
        | some p => have := hn i e p he hp; exact ih p this g (by omega) (by omega)

theorem envRule_agree {envs envs' : List Env} (hn : ∀ (i : Nat) (e : Env) (p : Nat), envs[i]? = some e → e.parent = some p → p < i) (v : Bytes) (n : Nat)
    (h : ∀ i, i ≤ n → envs'[i]? = envs[i]?) : ∀ (i f f' : Nat), i ≤ n → i < f → i < f' → envRule envs' f' i v = envRule envs f i v := by
  intro i
  induction i using Nat.strongRecOn with
  | ind i ih =>
    intro f f' hi hf hf'
    obtain ⟨g, rfl⟩ : ∃ g, f = g + 1 := ⟨f - 1, by omega⟩
    obtain ⟨g', rfl⟩ : ∃ g, f' = g + 1 := ⟨f' - 1, by omega⟩
    rw [envRule, envRule, h i hi]
    cases he : envs[i]? with
    | none => rfl
    | some e =>
      dsimp only
      cases find e.rules v with
      | some x => rfl
      | none =>
        dsimp only
        cases hp : e.parent with
        | none => rfl
        | some p => have := hn i e p he hp; exact ih p this g g' (by omega) (by omega) (by omega)

/-- What is below a scope depends on nothing else. -/
theorem var_agree {s s' : St} (hs : Sound s) (n : Nat) (hn : n < s.envs.length) (hl : s.envs.length ≤ s'.envs.length)
    (h : ∀ i, i ≤ n → s'.envs[i]? = s.envs[i]?) (v : Bytes) : s'.var n v = s.var n v := by
  unfold St.var
  rw [envVar_agree hs.nested v n h n _ (Nat.le_refl _) (by omega)]
  exact envVar_fuel hs.nested v n _ _ (by omega) hn

end Muon.Manifest
