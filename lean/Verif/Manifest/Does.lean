import Verif.Manifest.Exec
/-
Running statements does what the specification says, and nothing else.
-/
namespace Muon.Manifest
open Muon Esc Spec

theorem expands_fwd {R : Bytes → Bytes → Prop} {look : Bytes → Option Bytes} (hR : ∀ v x, look v = some x ↔ R v x) (ps : List Part) :
    Expands R ps (envEval look ps) := by
  induction ps with
  | nil => exact .nil
  | cons p ps ih =>
    cases p with
    | lit x => exact .lit x ps _ ih
    | var v =>
      cases hv : look v with
      | some x =>
        have : envEval look (.var v :: ps) = x ++ envEval look ps := by simp [envEval, hv]
        rw [this]; exact .bound v x ps _ ((hR v x).1 hv) ih
      | none =>
        have : envEval look (.var v :: ps) = envEval look ps := by simp [envEval, hv]
        rw [this]
        exact .unbound v ps _ (fun x hx => by rw [(hR v x).2 hx] at hv; cases hv) ih

theorem expands_bwd {R : Bytes → Bytes → Prop} {look : Bytes → Option Bytes} (hR : ∀ v x, look v = some x ↔ R v x) {ps : List Part} {t : Bytes}
    (h : Expands R ps t) : envEval look ps = t := by
  induction h with
  | nil => rfl
  | lit x ps y _ ih => simp only [envEval] at ih ⊢; rw [List.flatMap_cons, ih]
  | bound v x ps y h1 _ ih =>
    simp only [envEval] at ih ⊢
    rw [List.flatMap_cons, ih]
    dsimp only
    rw [(hR v x).2 h1]; rfl
  | unbound v ps y h1 _ ih =>
    simp only [envEval] at ih ⊢
    rw [List.flatMap_cons, ih]
    dsimp only
    cases hv : look v with
    | none => rfl
    | some x => exact absurd ((hR v x).1 hv) (h1 x)

theorem expands_iff {R : Bytes → Bytes → Prop} {look : Bytes → Option Bytes} (hR : ∀ v x, look v = some x ↔ R v x) (ps : List Part) (t : Bytes) :
    Expands R ps t ↔ envEval look ps = t :=
  ⟨expands_bwd hR, fun h => h ▸ expands_fwd hR ps⟩

theorem paths_iff {R : Bytes → Bytes → Prop} {look : Bytes → Option Bytes} (hR : ∀ v x, look v = some x ↔ R v x) (ps : List (List Part)) (xs : List Bytes) :
    Paths R ps xs ↔ evalPaths look ps = .ok xs := by
  induction ps generalizing xs with
  | nil =>
    rw [evalPaths]
    refine ⟨(fun h => by cases h; rfl), (fun h => by cases h; exact .nil)⟩
  | cons p ps ih =>
    rw [evalPaths]
    constructor
    · intro h
      cases h with
      | cons _ t x _ ys h1 h2 h3 =>
        rw [(expands_iff hR p t).1 h1, h2, Res.ok_bind, (ih ys).1 h3, Res.ok_bind]
    · intro h
      obtain ⟨x, h1, h⟩ := Res.bind_eq_ok.1 h
      obtain ⟨ys, h2, h⟩ := Res.bind_eq_ok.1 h
      cases h
      exact .cons p _ x ps ys ((expands_iff hR p _).2 rfl) h1 ((ih ys).2 h2)

theorem binds_iff {R : Bytes → Bytes → Prop} {look : Bytes → Option Bytes} (hR : ∀ v x, look v = some x ↔ R v x) (ls : List Let) (bs : List (Bytes × Bytes)) :
    Binds R ls bs ↔ ls.map (fun l => (l.name, envEval look l.val)) = bs := by
  induction ls generalizing bs with
  | nil => exact ⟨(fun h => by cases h; rfl), (fun h => by cases h; exact .nil)⟩
  | cons l ls ih =>
    constructor
    · intro h
      cases h with
      | cons _ x _ cs h1 h2 => rw [List.map_cons, (ih cs).1 h2, (expands_iff hR _ _).1 h1]
    · intro h
      cases h
      exact .cons l _ ls _ ((expands_iff hR _ _).2 rfl) ((ih _).2 rfl)

theorem evalLets_reverse {R : Bytes → Bytes → Prop} {look : Bytes → Option Bytes} (hR : ∀ v x, look v = some x ↔ R v x) (ls : List Let) (bs : List (Bytes × Bytes))
    (h : Binds R ls bs) : evalLets look ls = bs.reverse := by
  unfold evalLets
  rw [(binds_iff hR ls bs).1 h]

theorem var_sees {s : St} (hs : Sound s) {env : Nat} (he : env < s.envs.length) (v x : Bytes) : s.var env v = some x ↔ Sees s.envs env v x :=
  envVar_sees hs.nested v x env _ he

theorem edgeEnv_sees {s : St} (hs : Sound s) {env : Nat} (he : env < s.envs.length) (bs : List (Bytes × Bytes)) (v x : Bytes) :
    s.edgeEnv bs.reverse env v = some x ↔ InEdge s.envs env bs v x := by
  unfold St.edgeEnv InEdge
  rw [find_lastOf]
  cases lastOf bs v with
  | some y => simp
  | none => simp [var_sees hs he]

theorem envRule_sees {envs : List Env} (hn : ∀ (i : Nat) (e : Env) (p : Nat), envs[i]? = some e → e.parent = some p → p < i) (v : Bytes) (x : Rule) :
    ∀ (i f : Nat), i < f → (envRule envs f i v = some x ↔ SeesRule envs i v x) := by
  intro i
  induction i using Nat.strongRecOn with
  | ind i ih =>
    intro f hf
    obtain ⟨g, rfl⟩ : ∃ g, f = g + 1 := ⟨f - 1, by omega⟩
    rw [envRule]
    have hl : ∀ e : Env, find e.rules v = lastOf e.rules.reverse v := fun e => by rw [← find_lastOf, List.reverse_reverse]
    cases he : envs[i]? with
    | none =>
      dsimp only
      refine ⟨(fun h => by cases h), fun h => ?_⟩
      cases h with
      | here _ e _ _ h1 _ => rw [he] at h1; cases h1
      | around _ e _ _ _ h1 _ _ _ => rw [he] at h1; cases h1
    | some e =>
      dsimp only
      rw [hl e]
      cases hv : lastOf e.rules.reverse v with
      | some y =>
        dsimp only
        refine ⟨fun h => ?_, fun h => ?_⟩
        · cases h; exact .here i e v _ he hv
        · cases h with
          | here _ e' _ _ h1 h2 => rw [he] at h1; cases h1; rw [hv] at h2; exact h2
          | around _ e' _ _ _ h1 h2 _ _ => rw [he] at h1; cases h1; rw [hv] at h2; cases h2
      | none =>
        dsimp only
        cases hp : e.parent with
        | none =>
          dsimp only
          refine ⟨(fun h => by cases h), fun h => ?_⟩
          cases h with
          | here _ e' _ _ h1 h2 => rw [he] at h1; cases h1; rw [hv] at h2; cases h2
          | around _ e' _ _ _ h1 _ h3 _ => rw [he] at h1; cases h1; rw [hp] at h3; cases h3
        | some p =>
          dsimp only
          have hlt := hn i e p he hp
          rw [ih p hlt g (by omega)]
          refine ⟨fun h => .around i e p v x he hv hp h, fun h => ?_⟩
          cases h with
          | here _ e' _ _ h1 h2 => rw [he] at h1; cases h1; rw [hv] at h2; cases h2
          | around _ e' _ _ _ h1 _ h3 h4 => rw [he] at h1; cases h1; rw [hp] at h3; cases h3; exact h4

theorem noDup_iff (s : St) (ps : List Bytes) : noDup s ps = true ↔ ps.Nodup ∧ ∀ p ∈ ps, ∀ e ∈ s.edges, p ∉ e.outs := by
  refine ⟨noDup_spec s ps, fun h => ?_⟩
  induction ps with
  | nil => rfl
  | cons p ps ih =>
    obtain ⟨h1, h2⟩ := h
    obtain ⟨h3, h4⟩ := List.nodup_cons.1 h1
    simp only [noDup, Bool.and_eq_true, Bool.not_eq_true', St.generated]
    refine ⟨⟨?_, by simpa using h3⟩, ih ⟨h4, fun q hq => h2 q (List.mem_cons_of_mem _ hq)⟩⟩
    rw [List.any_eq_false]
    intro e he hc
    exact h2 p List.mem_cons_self e he (by simpa using hc)

theorem find_isSome {α : Type} (l : List (Bytes × α)) (k : Bytes) : (find l k).isSome = true ↔ ∃ d, (k, d) ∈ l := by
  refine ⟨find_mem, ?_⟩
  rintro ⟨d, hd⟩
  unfold find
  rw [Option.isSome_map, List.find?_isSome]
  exact ⟨(k, d), hd, by simp⟩

theorem find_not {α : Type} (l : List (Bytes × α)) (k : Bytes) : (find l k).isSome = false ↔ ∀ d, (k, d) ∉ l := by
  rw [← Bool.not_eq_true, find_isSome]; simp

theorem has_iff (n : Bytes) (ls : List Let) (v : Bytes) : Rule.has ⟨n, ls⟩ v = true ↔ Given ls v := by
  unfold Rule.has Given
  rw [List.any_eq_true]
  simp

theorem modEnv_set (s : St) (i : Nat) (f : Env → Env) (e : Env) (h : s.envs[i]? = some e) : s.modEnv i f = { s with envs := s.envs.set i (f e) } := by
  unfold St.modEnv
  congr 1
  apply List.ext_getElem?
  intro j
  rw [List.getElem?_modify, List.getElem?_set]
  by_cases hj : i = j
  · subst hj
    have hlt : i < s.envs.length := by
      rcases Nat.lt_or_ge i s.envs.length with hh | hh
      · exact hh
      · rw [List.getElem?_eq_none hh] at h; cases h
    rw [h]; simp [hlt]
  · rw [if_neg hj]; cases s.envs[j]? <;> simp [hj]

theorem poolDepth_iff (number : Bytes → Option Int) (look : Bytes → Option Bytes) (d : Int) : ∀ (ls : List Let) (a : Int),
    poolDepth number look ls a = .ok d ↔
      (∀ l ∈ ls, l.name = ascii "depth" ∧ (number (envEval look l.val)).isSome = true) ∧ d ≠ 0 ∧
      (ls = [] ∧ d = a ∨ ∃ l, ls.getLast? = some l ∧ number (envEval look l.val) = some d) := by
  intro ls
  induction ls with
  | nil =>
    intro a
    rw [poolDepth]
    by_cases h : a = 0
    · rw [if_pos h]; subst h
      refine ⟨(fun h => by cases h), ?_⟩
      rintro ⟨_, h1, ⟨_, h2⟩ | ⟨l, h2, _⟩⟩
      · exact absurd h2 h1
      · cases h2
    · rw [if_neg h]
      refine ⟨(fun e => by cases e; exact ⟨by simp, h, Or.inl ⟨rfl, rfl⟩⟩), ?_⟩
      rintro ⟨_, h1, ⟨_, h2⟩ | ⟨l, h2, _⟩⟩
      · rw [h2]
      · cases h2
  | cons l ls ih =>
    intro a
    rw [poolDepth]
    by_cases hn : l.name = ascii "depth"
    · rw [if_pos hn]
      cases hd : number (envEval look l.val) with
      | none =>
        dsimp only
        refine ⟨(fun h => by cases h), ?_⟩
        rintro ⟨h1, _⟩
        have := (h1 l List.mem_cons_self).2
        rw [hd] at this; cases this
      | some y =>
        dsimp only
        rw [ih y]
        constructor
        · rintro ⟨h1, h2, h3⟩
          refine ⟨?_, h2, Or.inr ?_⟩
          · intro k hk
            rcases List.mem_cons.1 hk with rfl | hk
            · exact ⟨hn, by rw [hd]; rfl⟩
            · exact h1 k hk
          · rcases h3 with ⟨rfl, rfl⟩ | ⟨k, h3, h4⟩
            · exact ⟨l, rfl, hd⟩
            · refine ⟨k, ?_, h4⟩
              cases ls with
              | nil => cases h3
              | cons m ms => rw [List.getLast?_cons_cons]; exact h3
        · rintro ⟨h1, h2, h3⟩
          refine ⟨fun k hk => h1 k (List.mem_cons_of_mem _ hk), h2, ?_⟩
          rcases h3 with ⟨h3, _⟩ | ⟨k, h3, h4⟩
          · cases h3
          · cases ls with
            | nil =>
              rw [List.getLast?_singleton] at h3
              cases h3
              rw [hd] at h4; cases h4
              exact Or.inl ⟨rfl, rfl⟩
            | cons m ms => rw [List.getLast?_cons_cons] at h3; exact Or.inr ⟨k, h3, h4⟩
    · rw [if_neg hn]
      refine ⟨(fun h => by cases h), ?_⟩
      rintro ⟨h1, _⟩
      exact absurd (h1 l List.mem_cons_self).1 hn

theorem get_env {s : St} {env : Nat} (he : env < s.envs.length) : ∃ e, s.envs[env]? = some e := ⟨_, List.getElem?_eq_getElem he⟩

/-- Statements other than inclusions. -/
theorem exec_iff (w : World) (f : Nat) {s : St} (hs : Sound s) {env : Nat} (he : env < s.envs.length) (x : Stmt) (hx : ∀ p b, x ≠ .incl p b) (s' : St) :
    exec w f s env x = .ok s' ↔ Step w s env x s' := by
  have hv := var_sees hs he
  obtain ⟨e0, he0⟩ := get_env he
  rw [exec_plain w f s env x hx (fun _ _ _ _ => .bad)]
  cases x with
  | incl p b => exact absurd rfl (hx p b)
  | assign l =>
    rw [execWith]
    constructor
    · intro h
      split at h
      · cases h
      · next hn =>
        cases h
        rw [modEnv_set s env _ e0 he0]
        refine .assign l _ e0 (expands_fwd hv _) ?_ he0
        intro hnm
        cases hok : w.versionOk (envEval (s.var env) l.val) with
        | true => rfl
        | false => exact absurd ⟨hnm, hok⟩ hn
    · intro h
      cases h with
      | assign _ x e h1 h2 h3 =>
        rw [(expands_iff hv _ _).1 h1]
        have hn : ¬ (l.name = ascii "ninja_required_version" ∧ w.versionOk x = false) := by
          rintro ⟨h4, h5⟩; rw [h2 h4] at h5; cases h5
        rw [if_neg hn, modEnv_set s env _ e h3]
  | rule n ls =>
    rw [execWith]
    rw [he0]
    dsimp only
    have hb : ∀ v, (Rule.has ⟨n, ls⟩ v = false ↔ ¬ Given ls v) := fun v => by rw [← has_iff n ls v]; simp
    constructor
    · intro h
      split at h
      · cases h
      · next h1 =>
        split at h
        · cases h
        · next h2 =>
          split at h
          · cases h
          · next h3 =>
            cases h
            rw [modEnv_set s env _ e0 he0]
            refine .rule n ls e0 ?_ ?_ he0 ((find_not _ _).1 (by simpa using h3))
            · exact (has_iff n ls _).1 (by simpa using h1)
            · simp only [ne_eq, Decidable.not_not] at h2
              rw [← has_iff n ls, ← has_iff n ls, h2]
    · intro h
      cases h with
      | rule _ _ e h1 h2 h3 h4 =>
        rw [he0] at h3; cases h3
        have g1 : ¬ (Rule.has ⟨n, ls⟩ (ascii "command") = false) := by rw [hb]; simpa using h1
        have g2 : ¬ (Rule.has ⟨n, ls⟩ (ascii "rspfile") ≠ Rule.has ⟨n, ls⟩ (ascii "rspfile_content")) := by
          rw [← has_iff n ls, ← has_iff n ls] at h2
          rw [Decidable.not_not]
          exact Bool.eq_iff_iff.2 h2
        have g3 : ¬ ((find e0.rules n).isSome = true) := by rw [(find_not _ _).2 h4]; simp
        rw [if_neg g1, if_neg g2, if_neg g3, modEnv_set s env _ e0 he0]
  | build o oi rn i ii io ls =>
    rw [execWith]
    have hbl : Binds (Sees s.envs env) ls (ls.map (fun l => (l.name, envEval (s.var env) l.val))) := (binds_iff hv _ _).2 rfl
    constructor
    · intro h
      obtain ⟨r, os, is, pool, h1, h2, h3, h4, h5, h6, rfl⟩ := execBuild_ok h
      have hev := evalLets_reverse hv ls _ hbl
      rw [hev] at h2 h4 h5 ⊢
      obtain ⟨n1, n2⟩ := noDup_spec s os h3
      exact .build o oi rn i ii io ls r _ os is pool (s.var env) ((envRule_sees hs.nested rn r env _ he).1 h1) hbl
        ((paths_iff (edgeEnv_sees hs he _) _ _).2 h2) ((paths_iff (edgeEnv_sees hs he _) _ _).2 h4) n1 n2 hv
        ((edgeVar_spec s _ true _).1 pool |>.1 h5) (fun p hp => find_mem (h6 p hp))
    · intro h
      cases h with
      | build _ _ _ _ _ _ _ r bs os is pool scope h1 h2 h3 h4 h5 h6 h7 h8 h9 =>
        have hev := evalLets_reverse hv ls bs h2
        have hsc : scope = s.var env := by
          funext v
          cases hsv : scope v with
          | some x => exact ((hv v x).2 ((h7 v x).1 hsv)).symm
          | none =>
            cases hsv2 : s.var env v with
            | none => rfl
            | some x => rw [(h7 v x).2 ((hv v x).1 hsv2)] at hsv; cases hsv
        subst hsc
        unfold execBuild
        rw [(envRule_sees hs.nested rn r env _ he).2 h1]
        dsimp only
        rw [hev, (paths_iff (edgeEnv_sees hs he bs) _ _).1 h3, Res.ok_bind, (noDup_iff s os).2 ⟨h5, h6⟩]
        simp only [Bool.not_true, Bool.false_eq_true, if_false]
        rw [(paths_iff (edgeEnv_sees hs he bs) _ _).1 h4, Res.ok_bind, ((edgeVar_spec s _ true _).1 pool).2 h8, Res.ok_bind]
        cases pool with
        | none => rfl
        | some p => dsimp only; rw [if_pos ((find_isSome _ _).2 (h9 p rfl))]
  | default ps =>
    rw [execWith]
    have hk : ∀ xs : List Bytes, xs.all s.known = true ↔ ∀ x ∈ xs, ∃ e ∈ s.edges, x ∈ e.outs ∨ x ∈ e.ins := by
      intro xs
      rw [List.all_eq_true]
      unfold St.known
      simp
    constructor
    · intro h
      obtain ⟨xs, hxs, h⟩ := Res.bind_eq_ok.1 h
      split at h
      · next hall =>
        cases h
        exact .default ps xs ((paths_iff hv _ _).2 hxs) ((hk xs).1 hall)
      · cases h
    · intro h
      cases h with
      | default _ xs h1 h2 => rw [(paths_iff hv _ _).1 h1, Res.ok_bind, if_pos ((hk xs).2 h2)]
  | pool n ls =>
    rw [execWith]
    have hbl : Binds (Sees s.envs env) ls (ls.map (fun l => (l.name, envEval (s.var env) l.val))) := (binds_iff hv _ _).2 rfl
    constructor
    · intro h
      split at h
      · cases h
      · next hn =>
        obtain ⟨d, hd, h⟩ := Res.bind_eq_ok.1 h
        cases h
        obtain ⟨h1, h2, h3⟩ := (poolDepth_iff _ _ d ls 0).1 hd
        rcases h3 with ⟨_, h3⟩ | ⟨l, h3, h4⟩
        · exact absurd h3 h2
        · refine .pool n ls _ _ d ((find_not _ _).1 (by simpa using hn)) hbl ?_ ?_ h4 h2
          · intro b hb
            obtain ⟨k, hk, rfl⟩ := List.mem_map.1 hb
            exact h1 k hk
          · rw [List.getLast?_map, h3]; rfl
    · intro h
      cases h with
      | pool _ _ bs l d h1 h2 h3 h4 h5 h6 =>
        have hb := (binds_iff hv ls bs).1 h2
        subst hb
        have g1 : ¬ ((find s.pools n).isSome = true) := by rw [(find_not _ _).2 h1]; simp
        have g2 : poolDepth w.number (s.var env) ls 0 = .ok d := by
          refine (poolDepth_iff _ _ d ls 0).2 ⟨?_, h6, Or.inr ?_⟩
          · intro k hk
            exact h3 _ (List.mem_map_of_mem hk)
          · rw [List.getLast?_map] at h4
            cases hl : ls.getLast? with
            | none => rw [hl] at h4; cases h4
            | some k => rw [hl] at h4; cases h4; exact ⟨k, rfl, h5⟩
        rw [if_neg g1, g2, Res.ok_bind]

/-- What was accepted does what the specification says. -/
theorem execAll_does (w : World) : ∀ (f : Nat) (xs : List Stmt) (s : St) (env : Nat) (s' : St), Sound s → env < s.envs.length →
    execAll w f s env xs = .ok s' → Does w s env xs s' := by
  intro f
  induction f with
  | zero =>
    intro xs
    induction xs with
    | nil => intro s env s' _ _ h; rw [execAll_nil] at h; cases h; exact .nil s env
    | cons x xs ih =>
      intro s env s' hs he h
      rw [execAll_cons] at h
      obtain ⟨s1, h1, h⟩ := Res.bind_eq_ok.1 h
      have hx : ∀ p b, x ≠ .incl p b := by rintro p b rfl; rw [exec_incl0] at h1; cases h1
      obtain ⟨a1, a2⟩ := exec_sound w 0 s env x s1 hs he h1
      exact .step s s1 s' env x xs ((exec_iff w 0 hs he x hx s1).1 h1) (ih s1 env s' a1 (Nat.lt_of_lt_of_le he a2.envs) h)
  | succ f ihf =>
    intro xs
    induction xs with
    | nil => intro s env s' _ _ h; rw [execAll_nil] at h; cases h; exact .nil s env
    | cons x xs ih =>
      intro s env s' hs he h
      rw [execAll_cons] at h
      obtain ⟨s1, h1, h⟩ := Res.bind_eq_ok.1 h
      obtain ⟨a1, a2⟩ := exec_sound w (f + 1) s env x s1 hs he h1
      have rest := ih s1 env s' a1 (Nat.lt_of_lt_of_le he a2.envs) h
      by_cases hx : ∀ p b, x ≠ .incl p b
      · exact .step s s1 s' env x xs ((exec_iff w _ hs he x hx s1).1 h1) rest
      · obtain ⟨p, b, rfl⟩ : ∃ p b, x = .incl p b := by
          cases x with
          | incl p b => exact ⟨p, b, rfl⟩
          | _ => exact absurd (by intro _ _ hh; cases hh) hx
        rw [exec_incl] at h1
        cases hr : w.read (envEval (s.var env) p) with
        | none => rw [hr] at h1; cases h1
        | some txt =>
          rw [hr] at h1
          dsimp only at h1
          obtain ⟨ys, hy, h1⟩ := Res.bind_eq_ok.1 h1
          cases b with
          | false =>
            simp only [Bool.false_eq_true, if_false] at h1
            exact .incl s s1 s' env p _ txt ys xs (expands_fwd (var_sees hs he) p) hr hy (ihf ys s env s1 hs he h1) rest
          | true =>
            simp only [if_true] at h1
            exact .sub s s1 s' env p _ txt ys xs (expands_fwd (var_sees hs he) p) hr hy
              (ihf ys _ _ s1 (sound_newEnv hs env he) (by simp) h1) rest

/-- With more depth the result is the same. -/
theorem exec_more (w : World) : ∀ (f g : Nat), f ≤ g → (∀ (s : St) (env : Nat) (x : Stmt) (s' : St), exec w f s env x = .ok s' → exec w g s env x = .ok s') := by
  intro f
  induction f with
  | zero =>
    intro g _ s env x s' h
    cases x with
    | incl p b => rw [exec_incl0] at h; cases h
    | _ => exact (exec_plain w _ s env _ (by intro _ _ hh; cases hh) (fun _ _ _ _ => .bad)).trans ((exec_plain w _ s env _ (by intro _ _ hh; cases hh) (fun _ _ _ _ => .bad)).symm.trans h)
  | succ f ih =>
    intro g hg s env x s' h
    obtain ⟨g, rfl⟩ : ∃ k, g = k + 1 := ⟨g - 1, by omega⟩
    have all : ∀ (xs : List Stmt) (s : St) (env : Nat) (s' : St), execAll w f s env xs = .ok s' → execAll w g s env xs = .ok s' := by
      intro xs
      induction xs with
      | nil => intro s env s' h; rw [execAll_nil] at h ⊢; exact h
      | cons x xs ihx =>
        intro s env s' h
        rw [execAll_cons] at h ⊢
        obtain ⟨s1, h1, h⟩ := Res.bind_eq_ok.1 h
        rw [ih g (by omega) s env x s1 h1, Res.ok_bind]
        exact ihx s1 env s' h
    cases x with
    | incl p b =>
      rw [exec_incl] at h ⊢
      cases hr : w.read (envEval (s.var env) p) with
      | none => rw [hr] at h; cases h
      | some txt =>
        rw [hr] at h
        dsimp only at h ⊢
        obtain ⟨ys, hy, h⟩ := Res.bind_eq_ok.1 h
        rw [hy, Res.ok_bind]
        cases b with
        | false => simp only [Bool.false_eq_true, if_false] at h ⊢; exact all _ _ _ _ h
        | true => simp only [if_true] at h ⊢; exact all _ _ _ _ h
    | _ => exact (exec_plain w _ s env _ (by intro _ _ hh; cases hh) (fun _ _ _ _ => .bad)).trans ((exec_plain w _ s env _ (by intro _ _ hh; cases hh) (fun _ _ _ _ => .bad)).symm.trans h)

theorem execAll_more (w : World) (f g : Nat) (hg : f ≤ g) : ∀ (xs : List Stmt) (s : St) (env : Nat) (s' : St),
    execAll w f s env xs = .ok s' → execAll w g s env xs = .ok s' := by
  intro xs
  induction xs with
  | nil => intro s env s' h; rw [execAll_nil] at h ⊢; exact h
  | cons x xs ihx =>
    intro s env s' h
    rw [execAll_cons] at h ⊢
    obtain ⟨s1, h1, h⟩ := Res.bind_eq_ok.1 h
    rw [exec_more w f g hg s env x s1 h1, Res.ok_bind]
    exact ihx s1 env s' h

/-- What the specification allows is accepted. -/
theorem does_execAll (w : World) {xs : List Stmt} {s : St} {env : Nat} {s' : St} (h : Does w s env xs s') : Sound s → env < s.envs.length →
    ∃ f, execAll w f s env xs = .ok s' := by
  induction h with
  | nil s env => intro _ _; exact ⟨0, execAll_nil _ _ _ _⟩
  | step s s1 s2 env x xs h1 _ ih =>
    intro hs he
    have hx : ∀ p b, x ≠ .incl p b := by rintro p b rfl; cases h1
    have e1 : ∀ f, exec w f s env x = .ok s1 := fun f => (exec_iff w f hs he x hx s1).2 h1
    obtain ⟨a1, a2⟩ := exec_sound w 0 s env x s1 hs he (e1 0)
    obtain ⟨f, hf⟩ := ih a1 (Nat.lt_of_lt_of_le he a2.envs)
    exact ⟨f, by rw [execAll_cons, e1 f, Res.ok_bind, hf]⟩
  | incl s s1 s2 env p path txt ys xs h1 h2 h3 _ _ ih1 ih2 =>
    intro hs he
    obtain ⟨f, hf⟩ := ih1 hs he
    obtain ⟨a1, a2⟩ := execAll_sound w f ys s env s1 hs he hf
    obtain ⟨g, hg⟩ := ih2 a1 (Nat.lt_of_lt_of_le he a2.envs)
    refine ⟨f + g + 1, ?_⟩
    rw [execAll_cons, exec_incl, (expands_iff (var_sees hs he) p path).1 h1, h2]
    dsimp only
    rw [h3, Res.ok_bind]
    simp only [Bool.false_eq_true, if_false]
    rw [execAll_more w f (f + g) (by omega) _ _ _ _ hf, Res.ok_bind]
    exact execAll_more w g (f + g + 1) (by omega) _ _ _ _ hg
  | sub s s1 s2 env p path txt ys xs h1 h2 h3 _ _ ih1 ih2 =>
    intro hs he
    obtain ⟨f, hf⟩ := ih1 (sound_newEnv hs env he) (by simp)
    obtain ⟨a1, a2⟩ := execAll_sound w f ys _ _ s1 (sound_newEnv hs env he) (by simp) hf
    obtain ⟨g, hg⟩ := ih2 a1 (by have := a2.envs; simp at this; omega)
    refine ⟨f + g + 1, ?_⟩
    rw [execAll_cons, exec_incl, (expands_iff (var_sees hs he) p path).1 h1, h2]
    dsimp only
    rw [h3, Res.ok_bind]
    simp only [if_true]
    rw [execAll_more w f (f + g) (by omega) _ _ _ _ hf, Res.ok_bind]
    exact execAll_more w g (f + g + 1) (by omega) _ _ _ _ hg

end Muon.Manifest
