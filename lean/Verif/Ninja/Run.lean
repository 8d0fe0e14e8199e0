import Verif.Ninja.Head
/-
Running the statements of build.ninja.
-/
namespace Muon.Ninja
open Muon Esc Esc.Spec Manifest Manifest.Spec Spec

/-- A state with one scope and the pool `console`. -/
def mk (V : List (Bytes × Bytes)) (R : List (Bytes × Rule)) (E : List Manifest.Edge) (D : List Bytes) : St :=
  ⟨[⟨none, V, R⟩], [(ascii "console", 1)], E, D⟩

theorem mk_var (V : List (Bytes × Bytes)) (R : List (Bytes × Rule)) (E : List Manifest.Edge) (D : List Bytes) (v : Bytes) : (mk V R E D).var 0 v = find V v := by
  simp only [St.var, mk, List.length_cons, List.length_nil, envVar, List.getElem?_cons_zero]
  cases find V v <;> rfl

theorem mk_rule (V : List (Bytes × Bytes)) (R : List (Bytes × Rule)) (E : List Manifest.Edge) (D : List Bytes) (v : Bytes) :
    envRule (mk V R E D).envs (mk V R E D).envs.length 0 v = find R v := by
  simp only [mk, List.length_cons, List.length_nil, envRule, List.getElem?_cons_zero]
  cases find R v <;> rfl

theorem eval_lit (env : Bytes → Option Bytes) (v : Bytes) : envEval env (lit v) = v := by
  unfold lit
  split
  · rename_i h; rw [h]; rfl
  · simp [envEval]

section
variable {w : World} {V : List (Bytes × Bytes)} {R : List (Bytes × Rule)} {E : List Manifest.Edge} {D : List Bytes}

theorem step_assign (n v : Bytes) (h : n = ascii "ninja_required_version" → w.versionOk v = true) :
    exec w 0 (mk V R E D) 0 (X.assign n v).stmt = .ok (mk ((n, v) :: V) R E D) := by
  show execWith w _ (mk V R E D) 0 (.assign ⟨n, lit v⟩) = _
  simp only [execWith, eval_lit]
  rw [if_neg (fun hn => by rw [h hn.1] at hn; exact absurd hn.2 (by simp))]
  rfl

theorem step_rule (n : Bytes) (ls : List Let) (h1 : Rule.has ⟨n, ls⟩ (ascii "command") = true) (h2 : Rule.has ⟨n, ls⟩ (ascii "rspfile") = false)
    (h3 : Rule.has ⟨n, ls⟩ (ascii "rspfile_content") = false) (h4 : ∀ r, (n, r) ∉ R) :
    exec w 0 (mk V R E D) 0 (X.rule n ls).stmt = .ok (mk V ((n, ⟨n, ls⟩) :: R) E D) := by
  show execWith w _ (mk V R E D) 0 (.rule n ls) = _
  simp only [execWith, h1, h2, h3]
  have : (find R n).isSome = false := (find_not R n).2 h4
  simp [mk, this, St.modEnv]

/-- How an edge chooses its pool. -/
def PoolOk (V : List (Bytes × Bytes)) (r : Rule) (e : BEdge) : Prop :=
  find V (ascii "pool") = none ∧ r.find (ascii "pool") = none ∧ (lastOf e.vars (ascii "pool") = none ∨ lastOf e.vars (ascii "pool") = some (ascii "console"))

theorem evalPaths_lit (env : Bytes → Option Bytes) (c : Bytes → Bytes) : ∀ (ps : List Bytes), (∀ p ∈ ps, Canon.canonpath p = .ok (c p)) →
    evalPaths env (ps.map lit) = .ok (ps.map c)
  | [], _ => rfl
  | p :: ps, h => by
    rw [List.map_cons, evalPaths, eval_lit, h p (by simp), Res.ok_bind, evalPaths_lit env c ps (fun q hq => h q (by simp [hq])), Res.ok_bind]; rfl

theorem evalLets_lit (env : Bytes → Option Bytes) (vs : List (Bytes × Bytes)) : evalLets env (vs.map (fun v => ⟨v.1, lit v.2⟩)) = vs.reverse := by
  simp only [evalLets, List.map_map]
  congr 1
  induction vs with
  | nil => rfl
  | cons v vs ih => rw [List.map_cons, ih]; simp [eval_lit]

theorem step_edge (c : Bytes → Bytes) (e : BEdge) (r : Rule) (h1 : find R e.rule = some r) (h2 : ∀ p ∈ e.paths, Canon.canonpath p = .ok (c p))
    (h3 : (e.outs.map c).Nodup) (h4 : ∀ p ∈ e.outs.map c, ∀ x ∈ E, p ∉ x.outs) (h5 : PoolOk V r e) :
    exec w 0 (mk V R E D) 0 (X.edge e).stmt = .ok (mk V R (E ++ [e.real c r]) D) := by
  show execWith w _ (mk V R E D) 0 (edgeStmt e) = _
  simp only [edgeStmt, execWith, execBuild, mk_rule, h1, List.append_nil]
  have ho : ∀ p ∈ e.outs, Canon.canonpath p = .ok (c p) := fun p hp => h2 p (List.mem_append.2 (Or.inl hp))
  have hi : ∀ p ∈ e.ins ++ e.imp ++ e.ord, Canon.canonpath p = .ok (c p) := fun p hp => h2 p (List.mem_append.2 (Or.inr hp))
  rw [evalPaths_lit _ c _ ho, Res.ok_bind]
  have hnd : noDup (mk V R E D) (e.outs.map c) = true := (noDup_iff _ _).2 ⟨h3, h4⟩
  have hm : e.ins.map lit ++ e.imp.map lit ++ e.ord.map lit = (e.ins ++ e.imp ++ e.ord).map lit := by simp
  rw [hnd, hm, evalPaths_lit _ c _ hi, Res.ok_bind, evalLets_lit]
  simp only [Bool.not_true, Bool.false_eq_true, if_false, List.length_map]
  obtain ⟨p1, p2, p3⟩ := h5
  have hv : (mk V R E D).edgeVar ⟨e.outs.map c, e.outs.length, (e.ins ++ e.imp ++ e.ord).map c, e.ins.length, e.ins.length + e.imp.length, r, e.vars.reverse, 0, none⟩
      true (ascii "pool") = .ok (lastOf e.vars (ascii "pool")) := by
    apply ((edge_variable _ _ _ _).1 _).2
    left
    have n1 : ascii "pool" ≠ ascii "in" := by decide
    have n2 : ascii "pool" ≠ ascii "in_newline" := by decide
    have n3 : ascii "pool" ≠ ascii "out" := by decide
    simp only [direct, if_neg n1, if_neg n2, if_neg n3, List.reverse_reverse]
    cases hl : lastOf e.vars (ascii "pool") with
    | some x => rfl
    | none =>
      rw [rule_find] at p2
      simp only [p2, mk_var, p1]
  rw [hv, Res.ok_bind]
  rcases p3 with p3 | p3
  · rw [p3]; simp [mk, BEdge.real, p3]
  · rw [p3]
    have : (find (mk V R E D).pools (ascii "console")).isSome = true := by
      show (find [(ascii "console", (1 : Int))] (ascii "console")).isSome = true
      decide
    simp only [this, if_true]
    simp [mk, BEdge.real, p3]

theorem step_default (c : Bytes → Bytes) (ps : List Bytes) (h1 : ∀ p ∈ ps, Canon.canonpath p = .ok (c p)) (h2 : ∀ p ∈ ps, ∃ x ∈ E, c p ∈ x.outs) :
    exec w 0 (mk V R E D) 0 (X.default ps).stmt = .ok (mk V R E (D ++ ps.map c)) := by
  show execWith w _ (mk V R E D) 0 (.default (ps.map lit)) = _
  simp only [execWith]
  rw [evalPaths_lit _ c _ h1, Res.ok_bind]
  have : (ps.map c).all (mk V R E D).known = true := by
    rw [List.all_eq_true]
    intro x hx
    obtain ⟨p, hp, rfl⟩ := List.mem_map.1 hx
    obtain ⟨y, hy, h⟩ := h2 p hp
    simp only [St.known, List.any_eq_true]
    exact ⟨y, hy, by simp [h]⟩
  rw [this]; rfl

end

/-! ### Edges and defaults -/

def edgeOf : X → Option BEdge
  | .edge e => some e
  | _ => none
def defaultOf : X → List Bytes
  | .default ps => ps
  | _ => []

/-- A rule of this name. -/
def look (R : List (Bytes × Rule)) (n : Bytes) : Rule := (find R n).getD ⟨[], []⟩

/-- Edges and defaults that can be run: `known` are the outputs before them. -/
def Fits (c : Bytes → Bytes) (V : List (Bytes × Bytes)) (R : List (Bytes × Rule)) : List Bytes → List X → Prop
  | _, [] => True
  | known, .edge e :: xs => (∃ r, find R e.rule = some r ∧ PoolOk V r e) ∧ (∀ p ∈ e.paths, Canon.canonpath p = .ok (c p)) ∧ Fits c V R (known ++ e.outs) xs
  | known, .default ps :: xs => (∀ p ∈ ps, p ∈ known ∧ Canon.canonpath p = .ok (c p)) ∧ Fits c V R known xs
  | _, _ :: _ => False

theorem execAll_append (w : World) (f : Nat) : ∀ (xs ys : List Stmt) (s s1 : St) (env : Nat), execAll w f s env xs = .ok s1 →
    execAll w f s env (xs ++ ys) = execAll w f s1 env ys
  | [], ys, s, s1, env, h => by rw [execAll_nil] at h; cases h; rfl
  | x :: xs, ys, s, s1, env, h => by
    rw [execAll_cons] at h
    obtain ⟨s2, h1, h2⟩ := Res.bind_eq_ok.1 h
    rw [List.cons_append, execAll_cons, h1, Res.ok_bind, execAll_append w f xs ys s2 s1 env h2]

theorem run_fits (w : World) (c : Bytes → Bytes) (V : List (Bytes × Bytes)) (R : List (Bytes × Rule)) : ∀ (xs : List X) (known : List Bytes) (E : List Manifest.Edge) (D : List Bytes),
    Fits c V R known xs → (∀ p ∈ known, ∃ x ∈ E, c p ∈ x.outs) → (E.flatMap (·.outs) ++ (xs.filterMap edgeOf).flatMap (fun e => e.outs.map c)).Nodup →
    execAll w 0 (mk V R E D) 0 (xs.map X.stmt) = .ok (mk V R (E ++ (xs.filterMap edgeOf).map (fun e => e.real c (look R e.rule))) (D ++ (xs.flatMap defaultOf).map c))
  | [], known, E, D, _, _, _ => by simp [execAll_nil]
  | .assign n v :: xs, known, E, D, h, _, _ => h.elim
  | .rule n v :: xs, known, E, D, h, _, _ => h.elim
  | .default ps :: xs, known, E, D, h, hk, hn => by
    have ih := run_fits w c V R xs known E (D ++ ps.map c) h.2 hk hn
    rw [List.map_cons, execAll_cons, step_default c ps (fun p hp => (h.1 p hp).2) (fun p hp => hk p (h.1 p hp).1), Res.ok_bind, ih]
    simp [defaultOf]
    rfl
  | .edge e :: xs, known, E, D, h, hk, hn => by
    obtain ⟨⟨r, hr, hp⟩, h2, h3⟩ := h
    have hn' : (E.flatMap (·.outs) ++ (e.outs.map c ++ (xs.filterMap edgeOf).flatMap (fun e => e.outs.map c))).Nodup := by simpa [edgeOf] using hn
    rw [List.nodup_append] at hn'
    obtain ⟨n1, n2, n3⟩ := hn'
    have n2' := List.nodup_append.1 n2
    have hfr : ∀ p ∈ e.outs.map c, ∀ x ∈ E, p ∉ x.outs := by
      intro p hp x hx hpx
      exact n3 p (List.mem_flatMap.2 ⟨x, hx, hpx⟩) p (List.mem_append.2 (Or.inl hp)) rfl
    have ih := run_fits w c V R xs (known ++ e.outs) (E ++ [e.real c r]) D h3 (by
      intro p hp
      rcases List.mem_append.1 hp with hp | hp
      · obtain ⟨x, hx, h⟩ := hk p hp
        exact ⟨x, List.mem_append.2 (Or.inl hx), h⟩
      · exact ⟨e.real c r, by simp, List.mem_map.2 ⟨p, hp, rfl⟩⟩) (by
      rw [List.flatMap_append, List.append_assoc]
      simpa [BEdge.real, edgeOf] using hn)
    rw [List.map_cons, execAll_cons, step_edge c e r hr h2 n2'.1 hfr hp, Res.ok_bind, ih]
    have hl : look R e.rule = r := by rw [look, hr]; rfl
    simp [edgeOf, defaultOf, hl]

end Muon.Ninja
