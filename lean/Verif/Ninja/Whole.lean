import Verif.Ninja.Run
/-
The graph that is read from a whole build.ninja.
-/
namespace Muon.Ninja
open Muon Esc Esc.Spec Manifest Manifest.Spec Spec

theorem find_cons {α : Type} (k : Bytes) (x : Bytes × α) (l : List (Bytes × α)) : find (x :: l) k = if x.1 = k then some x.2 else find l k := by
  simp only [find, List.find?_cons]
  by_cases h : x.1 = k
  · simp [h]
  · rw [if_neg h, show (x.1 == k) = false from by simpa using h]

theorem find_append {α : Type} (k : Bytes) (l m : List (Bytes × α)) (h : ∀ x ∈ l, x.1 ≠ k) : find (l ++ m) k = find m k := by
  induction l with
  | nil => rfl
  | cons x l ih => rw [List.cons_append, find_cons, if_neg (h x (by simp)), ih (fun y hy => h y (by simp [hy]))]

/-- With different names, what is found is what is there. -/
theorem find_nodup {α : Type} (l : List (Bytes × α)) (hn : (l.map (·.1)).Nodup) {k : Bytes} {a : α} (h : (k, a) ∈ l) : find l k = some a := by
  induction l with
  | nil => cases h
  | cons x l ih =>
    rw [find_cons]
    rw [List.map_cons, List.nodup_cons] at hn
    rcases List.mem_cons.1 h with h | h
    · rw [← h]; simp
    · rw [if_neg, ih hn.2 h]
      intro he
      exact hn.1 (List.mem_map.2 ⟨(k, a), h, he.symm⟩)

/-! ### Rules -/

def ruleDef (r : RuleText) (cs : List CWord) : Bytes × Rule := (r.name, ⟨r.name, (ruleLets r.deps r.description cs).map WLet.meaning⟩)
def fixedDefs (regen : List Bytes) : List (Bytes × Rule) :=
  [(ascii "CUSTOM_COMMAND_DEP", ⟨ascii "CUSTOM_COMMAND_DEP", customDepLets.map WLet.meaning⟩),
   (ascii "CUSTOM_COMMAND", ⟨ascii "CUSTOM_COMMAND", customLets.map WLet.meaning⟩),
   (ascii "REGENERATE_BUILD", ⟨ascii "REGENERATE_BUILD", (regenLets regen).map WLet.meaning⟩), (ascii "phony", ⟨ascii "phony", []⟩)]
def allDefs (b : Build) (css : List (List CWord)) : List (Bytes × Rule) := ((b.rules.zip css).map (fun r => ruleDef r.1 r.2)).reverse ++ fixedDefs b.regenCmd
def theVars : List (Bytes × Bytes) := [(ascii "builddir", ascii ".muon"), (ascii "ninja_required_version", ascii "1.7.1")]

theorem ruleLets_names (deps : Bool) (desc : Bytes) (cs : List CWord) : (ruleLets deps desc cs).map (·.name) =
    [ascii "command"] ++ (if deps then [ascii "deps", ascii "depfile"] else []) ++ [ascii "description"] := by
  cases deps <;> rfl

theorem not_has {n : Bytes} {ls : List WLet} {v : Bytes} (h : v ∉ ls.map (·.name)) : Rule.has ⟨n, ls.map WLet.meaning⟩ v = false := by
  rw [← Bool.not_eq_true, has_iff]
  rintro ⟨l, hl, hn, -⟩
  obtain ⟨x, hx, rfl⟩ := List.mem_map.1 hl
  exact h (List.mem_map.2 ⟨x, hx, hn⟩)

theorem not_find {n : Bytes} {ls : List WLet} {v : Bytes} (h : v ∉ ls.map (·.name)) : Rule.find ⟨n, ls.map WLet.meaning⟩ v = none := by
  simp only [Rule.find, Option.map_eq_none_iff, List.find?_eq_none]
  intro l hl
  obtain ⟨x, hx, rfl⟩ := List.mem_map.1 (List.mem_reverse.1 hl)
  simp only [beq_iff_eq]
  exact fun hn => h (List.mem_map.2 ⟨x, hx, hn⟩)

theorem run_rule {w : World} {V : List (Bytes × Bytes)} {R : List (Bytes × Rule)} {E : List Manifest.Edge} {D : List Bytes} (n : Bytes) (ls : List WLet)
    (h1 : ∃ l ∈ ls, l.name = ascii "command" ∧ parts l.val ≠ []) (h2 : ascii "rspfile" ∉ ls.map (·.name)) (h3 : ascii "rspfile_content" ∉ ls.map (·.name))
    (h4 : n ∉ R.map (·.1)) :
    exec w 0 (mk V R E D) 0 (X.rule n (ls.map WLet.meaning)).stmt = .ok (mk V ((n, ⟨n, ls.map WLet.meaning⟩) :: R) E D) := by
  refine step_rule n _ ?_ (not_has h2) (not_has h3) (fun r hr => h4 (List.mem_map.2 ⟨_, hr, rfl⟩))
  rw [has_iff]
  obtain ⟨l, hl, hn, hp⟩ := h1
  exact ⟨l.meaning, List.mem_map.2 ⟨l, hl, rfl⟩, hn, hp⟩

theorem run_rules (w : World) (V : List (Bytes × Bytes)) (E : List Manifest.Edge) (D : List Bytes) : ∀ (rs : List RuleText) (css : List (List CWord)) (R : List (Bytes × Rule)),
    RulesOk rs css → (R.map (·.1) ++ rs.map (·.name)).Nodup →
    execAll w 0 (mk V R E D) 0 (((rs.zip css).map (fun r => ruleX r.1 r.2)).map X.stmt) = .ok (mk V (((rs.zip css).map (fun r => ruleDef r.1 r.2)).reverse ++ R) E D)
  | [], [], R, _, _ => by simp [execAll_nil]
  | [], _ :: _, _, h, _ => by have := h.1; simp at this
  | _ :: _, [], _, h, _ => by have := h.1; simp at this
  | r :: rs, cs :: css, R, h, hn => by
    obtain ⟨a1, a2, a3, a4, a5, a6, ⟨u, cs', a7, a8, a9⟩, a10⟩ := h.2 (r, cs) (by simp)
    have hn2 := List.nodup_append.1 hn
    have hstep := run_rule (w := w) (V := V) (R := R) (E := E) (D := D) r.name (ruleLets r.deps r.description cs)
      ⟨letT (ascii "command") (cmdToks cs), by simp [ruleLets], rfl, by
        show parts (cmdToks cs) ≠ []
        have a7' : cs = .text u :: cs' := a7
        obtain ⟨rest, hrest⟩ := cmdToks_first u cs'
        rw [a7', hrest]
        refine parts_ne _ (start_wf a8 a9 rest) ?_
        cases u with
        | nil => exact absurd rfl a8
        | cons x u => simp [valToks]⟩
      (by rw [ruleLets_names]; cases r.deps <;> decide) (by rw [ruleLets_names]; cases r.deps <;> decide)
      (fun hm => hn2.2.2 _ hm r.name (by simp) rfl)
    have ih := run_rules w V E D rs css (ruleDef r cs :: R) ⟨by have := h.1; simpa using this, fun x hx => h.2 x (by simp [hx])⟩ (by
      have : (R.map (·.1) ++ r.name :: rs.map (·.name)).Nodup := by simpa using hn
      have := (List.perm_middle (a := r.name) (l₁ := R.map (·.1)) (l₂ := rs.map (·.name))).nodup_iff.1 this
      simpa [ruleDef] using this)
    rw [List.zip_cons_cons, List.map_cons, List.map_cons, execAll_cons]
    have e : ruleX r cs = X.rule r.name ((ruleLets r.deps r.description cs).map WLet.meaning) := rfl
    rw [e, hstep, Res.ok_bind]
    show execAll w 0 (mk V (ruleDef r cs :: R) E D) 0 _ = _
    rw [ih]
    simp

theorem noPool {b : Build} {css : List (List CWord)} {n : Bytes} {r : Rule} (h : (n, r) ∈ allDefs b css) : r.find (ascii "pool") = none := by
  rcases List.mem_append.1 h with h | h
  · obtain ⟨x, -, hx⟩ := List.mem_map.1 (List.mem_reverse.1 h)
    cases hx
    refine not_find ?_
    rw [ruleLets_names]; cases x.1.deps <;> decide
  · simp only [fixedDefs, List.mem_cons, List.not_mem_nil, or_false] at h
    rcases h with h | h | h | h <;> cases h
    · exact not_find (by decide)
    · exact not_find (by decide)
    · refine not_find ?_
      show ascii "pool" ∉ [ascii "command", ascii "description", ascii "generator"]
      decide
    · rfl

theorem zip_names {rs : List RuleText} {css : List (List CWord)} (h : rs.length = css.length) :
    ((rs.zip css).map (fun r => ruleDef r.1 r.2)).map (·.1) = rs.map (·.name) := by
  induction rs generalizing css with
  | nil => rfl
  | cons r rs ih =>
    cases css with
    | nil => simp at h
    | cons c css => simp only [List.zip_cons_cons, List.map_cons, ih (by simpa using h)]; rfl

theorem allDefs_names (b : Build) (css : List (List CWord)) (hl : b.rules.length = css.length) :
    ((allDefs b css).map (·.1)) = (b.rules.map (·.name)).reverse ++ fixedRules.reverse := by
  rw [allDefs, List.map_append, List.map_reverse, zip_names hl]
  rfl

theorem allDefs_nodup {b : Build} {css : List (List CWord)} (hl : b.rules.length = css.length) (h : (fixedRules ++ b.rules.map (·.name)).Nodup) :
    ((allDefs b css).map (·.1)).Nodup := by
  rw [allDefs_names b css hl, ← List.reverse_append]
  exact (List.reverse_perm _).nodup_iff.2 h

/-! ### Edges and defaults of targets -/

theorem fits_known {c : Bytes → Bytes} {V : List (Bytes × Bytes)} {R : List (Bytes × Rule)} : ∀ {xs : List X} {k k' : List Bytes}, (∀ p ∈ k, p ∈ k') → Fits c V R k xs → Fits c V R k' xs
  | [], _, _, _, _ => trivial
  | .assign _ _ :: _, _, _, _, h => h.elim
  | .rule _ _ :: _, _, _, _, h => h.elim
  | .edge e :: xs, k, k', hk, h => ⟨h.1, h.2.1, fits_known (fun p hp => by
      rcases List.mem_append.1 hp with hp | hp
      · exact List.mem_append.2 (Or.inl (hk p hp))
      · exact List.mem_append.2 (Or.inr hp)) h.2.2⟩
  | .default ps :: xs, k, k', hk, h => ⟨fun p hp => ⟨hk p (h.1 p hp).1, (h.1 p hp).2⟩, fits_known hk h.2⟩

theorem fits_append {c : Bytes → Bytes} {V : List (Bytes × Bytes)} {R : List (Bytes × Rule)} : ∀ {xs ys : List X} {k : List Bytes}, Fits c V R k xs → Fits c V R k ys → Fits c V R k (xs ++ ys)
  | [], _, _, _, h => h
  | .assign _ _ :: _, _, _, h, _ => h.elim
  | .rule _ _ :: _, _, _, h, _ => h.elim
  | .edge e :: xs, ys, k, h, hy => ⟨h.1, h.2.1, fits_append h.2.2 (fits_known (fun p hp => List.mem_append.2 (Or.inl hp)) hy)⟩
  | .default ps :: xs, ys, k, h, hy => ⟨h.1, fits_append h.2 hy⟩

theorem fits_flatMap {α : Type} {c : Bytes → Bytes} {V : List (Bytes × Bytes)} {R : List (Bytes × Rule)} {k : List Bytes} (f : α → List X) : ∀ (l : List α),
    (∀ x ∈ l, Fits c V R k (f x)) → Fits c V R k (l.flatMap f)
  | [], _ => trivial
  | x :: l, h => by rw [List.flatMap_cons]; exact fits_append (h x (by simp)) (fits_flatMap f l (fun y hy => h y (by simp [hy])))

theorem lastOf_none {α : Type} {l : List (Bytes × α)} {v : Bytes} (h : ∀ x ∈ l, x.1 ≠ v) : lastOf l v = none := by
  simp only [lastOf, Option.map_eq_none_iff, List.getLast?_eq_none_iff, List.filter_eq_nil_iff, decide_eq_true_eq]
  exact h

theorem lastOf_append_some {α : Type} (l : List (Bytes × α)) (v : Bytes) (a : α) : lastOf (l ++ [(v, a)]) v = some a := by
  simp [lastOf, List.filter_append]

theorem custom_pool (t : Custom) (cmd : Bytes) : lastOf (customEdge t cmd).vars (ascii "pool") = if t.console then some (ascii "console") else none := by
  have key : ∀ x ∈ (ascii "COMMAND", cmd) :: t.depfile.toList.map (fun d => (ascii "DEPFILE", d)), x.1 ≠ ascii "pool" := by
    intro x hx
    rcases List.mem_cons.1 hx with rfl | hx
    · show ascii "COMMAND" ≠ ascii "pool"; decide
    · obtain ⟨d, -, rfl⟩ := List.mem_map.1 hx
      show ascii "DEPFILE" ≠ ascii "pool"; decide
  cases hc : t.console with
  | true =>
    simp only [customEdge, hc, if_true]
    rw [← List.cons_append]
    exact lastOf_append_some _ _ _
  | false =>
    simp only [customEdge, hc, if_false, List.append_nil, Bool.false_eq_true]
    exact lastOf_none key

theorem args_pool (n : Bytes) (hn : n ≠ ascii "pool") (a : Option Bytes) : lastOf (a.toList.map (fun x => (n, x))) (ascii "pool") = none := by
  refine lastOf_none ?_
  intro x hx
  obtain ⟨d, -, rfl⟩ := List.mem_map.1 hx
  exact hn

theorem vars_pool : find theVars (ascii "pool") = none := by decide

section
variable {b : Build} {c : Bytes → Bytes} {css : List (List CWord)}

theorem found (hl : b.rules.length = css.length) (hn : (fixedRules ++ b.rules.map (·.name)).Nodup) {n : Bytes} (h : n ∈ fixedRules ++ b.rules.map (·.name)) :
    ∃ r, find (allDefs b css) n = some r ∧ (n, r) ∈ allDefs b css := by
  have : n ∈ (allDefs b css).map (·.1) := by
    rw [allDefs_names b css hl]
    rcases List.mem_append.1 h with h | h
    · exact List.mem_append.2 (Or.inr (List.mem_reverse.2 h))
    · exact List.mem_append.2 (Or.inl (List.mem_reverse.2 h))
  obtain ⟨x, hx, rfl⟩ := List.mem_map.1 this
  exact ⟨x.2, find_nodup _ (allDefs_nodup hl hn) hx, hx⟩

theorem edge_rule (hl : b.rules.length = css.length) (hn : (fixedRules ++ b.rules.map (·.name)).Nodup) {e : BEdge} (h : e.rule ∈ fixedRules ++ b.rules.map (·.name))
    (hp : lastOf e.vars (ascii "pool") = none ∨ lastOf e.vars (ascii "pool") = some (ascii "console")) :
    ∃ r, find (allDefs b css) e.rule = some r ∧ PoolOk theVars r e := by
  obtain ⟨r, h1, h2⟩ := found hl hn h
  exact ⟨r, h1, vars_pool, noPool h2, hp⟩

theorem fits_tgt (hg : Good b c) (hl : b.rules.length = css.length) (t : Tgt) (ht : t ∈ b.targets) : Fits c theVars (allDefs b css) [] (tgtXs t) := by
  have hout : ∀ p ∈ Tgt.outs t, Canon.canonpath p = .ok (c p) := fun p hp =>
    hg.canon p (Or.inl (List.mem_append.2 (Or.inl (List.mem_append.2 (Or.inr (List.mem_flatMap.2 ⟨t, ht, hp⟩))))))
  have hin : ∀ p ∈ Tgt.ins t, Canon.canonpath p = .ok (c p) := fun p hp => hg.canon p (Or.inr (Or.inl ⟨t, ht, hp⟩))
  have hfix : ∀ n ∈ fixedRules, n ∈ fixedRules ++ b.rules.map (·.name) := fun n hn => List.mem_append.2 (Or.inl hn)
  have hphony : ascii "phony" ∈ fixedRules := by decide
  have hrule : ∀ r ∈ Tgt.rules t, r ∈ fixedRules ++ b.rules.map (·.name) := fun r hr => List.mem_append.2 (Or.inr (hg.has t ht r hr))
  cases t with
  | alias t =>
    refine ⟨edge_rule hl hg.names (hfix _ hphony) (Or.inl rfl), ?_, trivial⟩
    intro p hp
    simp only [BEdge.paths, aliasEdge, List.nil_append, List.append_nil] at hp
    rcases List.mem_append.1 hp with hp | hp
    · exact hout p hp
    · exact hin p hp
  | custom t =>
    refine ⟨edge_rule hl hg.names (hfix _ ?_) ?_, ?_, ?_⟩
    · show (if t.depfile.isSome then ascii "CUSTOM_COMMAND_DEP" else ascii "CUSTOM_COMMAND") ∈ fixedRules
      split <;> decide
    · rw [custom_pool]; split <;> simp
    · intro p hp
      simp only [BEdge.paths, customEdge, List.append_nil] at hp
      rcases List.mem_append.1 hp with hp | hp
      · exact hout p hp
      · rcases List.mem_append.1 hp with hp | hp
        · exact hin p (List.mem_append.2 (Or.inl hp))
        · rcases List.mem_append.1 hp with hp | hp
          · exact hin p (List.mem_append.2 (Or.inr hp))
          · have hst : t.stale = true := by
              cases hs : t.stale with
              | true => rfl
              | false => rw [hs] at hp; simp at hp
            rw [hst, if_pos rfl, List.mem_singleton] at hp
            subst hp
            refine hg.canon _ (Or.inl ?_)
            unfold Build.outs
            rw [if_pos (List.any_eq_true.2 ⟨.custom t, ht, hst⟩)]
            simp
    · split
      · exact ⟨fun p hp => ⟨List.mem_append.2 (Or.inr hp), hout p hp⟩, trivial⟩
      · trivial
  | build t =>
    have hord : 1 < t.order.length → Canon.canonpath (orderName t) = .ok (c (orderName t)) := fun h =>
      hout _ (by simp only [Tgt.outs, if_pos h]; simp)
    have hpath : Canon.canonpath t.path = .ok (c t.path) := hout _ (by simp [Tgt.outs])
    have hmany : ∀ p ∈ (if 1 < t.order.length then [orderName t] else []), Canon.canonpath p = .ok (c p) := by
      intro p hp
      split at hp
      · rw [List.mem_singleton.1 hp]; exact hord (by assumption)
      · cases hp
    have hone : ∀ p ∈ (if 1 < t.order.length then [] else t.order), Canon.canonpath p = .ok (c p) := by
      intro p hp
      split at hp
      · cases hp
      · exact hin p (by simp [Tgt.ins, hp])
    simp only [tgtXs, List.append_assoc]
    refine fits_append ?_ (fits_append ?_ ?_)
    · split
      · rename_i h
        refine ⟨edge_rule hl hg.names (hfix _ hphony) (Or.inl rfl), ?_, trivial⟩
        intro p hp
        simp only [BEdge.paths, orderEdge, List.nil_append] at hp
        rcases List.mem_append.1 hp with hp | hp
        · rw [List.mem_singleton.1 hp]; exact hord h
        · exact hin p (by simp [Tgt.ins, hp])
      · trivial
    · rw [show t.sources.map (fun s => X.edge (sourceEdge t s (s.args.map shellText))) = t.sources.flatMap (fun s => [X.edge (sourceEdge t s (s.args.map shellText))]) from by
        rw [List.map_eq_flatMap]]
      refine fits_flatMap _ _ (fun s hs => ?_)
      refine ⟨edge_rule hl hg.names (hrule _ ?_) (Or.inl (args_pool _ (by decide) _)), ?_, trivial⟩
      · show s.rule ∈ _
        exact List.mem_append.2 (Or.inl (List.mem_map.2 ⟨s, hs, rfl⟩))
      · intro p hp
        simp only [BEdge.paths, sourceEdge] at hp
        rcases List.mem_append.1 hp with hp | hp
        · rw [List.mem_singleton.1 hp]
          exact hout _ (by simp only [Tgt.outs]; exact List.mem_append.2 (Or.inl (List.mem_append.2 (Or.inr (List.mem_map.2 ⟨s, hs, rfl⟩)))))
        · rcases List.mem_append.1 hp with hp | hp
          · rcases List.mem_append.1 hp with hp | hp
            · rw [List.mem_singleton.1 hp]
              have : s.src ∈ t.sources.map (·.src) := List.mem_map.2 ⟨s, hs, rfl⟩
              exact hin _ (by simp only [Tgt.ins, List.mem_append]; exact Or.inl (Or.inl (Or.inr this)))
            · exact hmany p hp
          · exact hone p hp
    · refine ⟨edge_rule hl hg.names (hrule _ ?_) (Or.inl (args_pool _ (by decide) _)), ?_, ?_⟩
      · exact List.mem_append.2 (Or.inr (List.mem_singleton.2 rfl))
      · intro p hp
        simp only [BEdge.paths, linkEdge] at hp
        rcases List.mem_append.1 hp with hp | hp
        · rw [List.mem_singleton.1 hp]; exact hpath
        · rcases List.mem_append.1 hp with hp | hp
          · rcases List.mem_append.1 hp with hp | hp
            · rcases List.mem_append.1 hp with hp | hp
              · exact hin p (by simp [Tgt.ins, hp])
              · exact hout p (by simp only [Tgt.outs]; exact List.mem_append.2 (Or.inl (List.mem_append.2 (Or.inr hp))))
            · rcases List.mem_append.1 hp with hp | hp
              · exact hmany p hp
              · exact hin p (by simp [Tgt.ins, hp])
          · exact hone p hp
      · split
        · refine ⟨fun p hp => ?_, trivial⟩
          rw [List.mem_singleton.1 hp]
          exact ⟨List.mem_append.2 (Or.inr (List.mem_singleton.2 rfl)), hpath⟩
        · trivial

end

/-! ### The file -/

/-- The edges of a target. -/
def tgtEdges : Tgt → List BEdge
  | .custom t => [customEdge t (shellText t.cmdline)]
  | .alias t => [aliasEdge t]
  | .build t => (if 1 < t.order.length then [orderEdge t] else []) ++ t.sources.map (fun s => sourceEdge t s (s.args.map shellText)) ++ [linkEdge t (t.linkArgs.map shellText)]

theorem tgtXs_edges (t : Tgt) : (tgtXs t).filterMap edgeOf = tgtEdges t := by
  cases t with
  | custom t => simp only [tgtXs, tgtEdges]; cases t.byDefault <;> rfl
  | alias t => rfl
  | build t =>
    simp only [tgtXs, tgtEdges, List.filterMap_append, List.filterMap_map]
    have h1 : (if 1 < t.order.length then [X.edge (orderEdge t)] else []).filterMap edgeOf = if 1 < t.order.length then [orderEdge t] else [] := by split <;> rfl
    have h2 : (if t.byDefault then [X.default [t.path]] else []).filterMap edgeOf = [] := by split <;> rfl
    have h3 : t.sources.filterMap (edgeOf ∘ fun s => X.edge (sourceEdge t s (s.args.map shellText))) = t.sources.map (fun s => sourceEdge t s (s.args.map shellText)) := by
      rw [show (edgeOf ∘ fun s => X.edge (sourceEdge t s (s.args.map shellText))) = fun s => some (sourceEdge t s (s.args.map shellText)) from rfl]
      rw [List.filterMap_eq_map']
    rw [h1, h2, h3, List.append_nil]; rfl

theorem tgtXs_defaults (t : Tgt) : (tgtXs t).flatMap defaultOf = defaultsOf t := by
  cases t with
  | custom t => simp only [tgtXs, defaultsOf]; cases t.byDefault <;> simp [defaultOf]
  | alias t => rfl
  | build t =>
    simp only [tgtXs, defaultsOf, List.flatMap_append]
    have h1 : (if 1 < t.order.length then [X.edge (orderEdge t)] else []).flatMap defaultOf = [] := by split <;> rfl
    have h3 : (t.sources.map (fun s => X.edge (sourceEdge t s (s.args.map shellText)))).flatMap defaultOf = [] := by
      rw [List.flatMap_map]; simp [defaultOf]
    rw [h1, h3]
    cases t.byDefault <;> simp [defaultOf]

theorem tgtEdges_outs (t : Tgt) : (tgtEdges t).flatMap (·.outs) = Tgt.outs t := by
  cases t with
  | custom t => simp [tgtEdges, Tgt.outs, customEdge]
  | alias t => simp [tgtEdges, Tgt.outs, aliasEdge]
  | build t =>
    simp only [tgtEdges, Tgt.outs, List.flatMap_append]
    have h1 : (if 1 < t.order.length then [orderEdge t] else []).flatMap (·.outs) = if 1 < t.order.length then [orderName t] else [] := by split <;> rfl
    rw [h1]
    simp [List.flatMap_map, sourceEdge, linkEdge, ← List.map_eq_flatMap]

theorem defaults_none (b : Build) (c : Bytes → Bytes) (hg : Good b c) : b.targets.any Tgt.isDefault = true ↔ b.targets.flatMap defaultsOf ≠ [] := by
  rw [List.any_eq_true, Ne, List.flatMap_eq_nil_iff]
  constructor
  · rintro ⟨t, ht, hd⟩ h
    have := h t ht
    have ho := (hg.outs t ht).1
    cases t with
    | custom t => simp only [Tgt.isDefault] at hd; simp only [defaultsOf, hd, if_true] at this; exact ho this
    | alias t => cases hd
    | build t => simp only [Tgt.isDefault] at hd; simp [defaultsOf, hd] at this
  · intro h
    apply Classical.byContradiction
    intro hn
    refine h (fun t ht => ?_)
    have : Tgt.isDefault t ≠ true := fun hd => hn ⟨t, ht, hd⟩
    cases t with
    | custom t => simp only [Tgt.isDefault] at this; simp [defaultsOf, this]
    | alias t => rfl
    | build t => simp only [Tgt.isDefault] at this; simp [defaultsOf, this]

def staleEdges (s : Bool) : List BEdge := if s then [phonyEdge (ascii "build_always_stale")] else []
def tailEdges (d : Bool) : List BEdge := if d then [] else [phonyEdge (ascii "muon_do_nothing")]

/-- All edges. -/
def buildEdges (b : Build) : List BEdge :=
  [regenEdge b.regenDeps] ++ staleEdges (b.targets.any Tgt.isStale) ++ b.targets.flatMap tgtEdges ++ tailEdges (b.targets.any Tgt.isDefault)
/-- All defaults. -/
def buildDefaults (b : Build) : List Bytes := b.targets.flatMap defaultsOf ++ if b.targets.any Tgt.isDefault then [] else [ascii "muon_do_nothing"]

theorem filterMap_flatMap {α β γ : Type} (f : β → Option γ) (g : α → List β) (l : List α) : (l.flatMap g).filterMap f = l.flatMap (fun x => (g x).filterMap f) := by
  induction l with
  | nil => rfl
  | cons x l ih => rw [List.flatMap_cons, List.filterMap_append, ih, List.flatMap_cons]

theorem stale_eq (b : Build) : b.targets.any Tgt.always = b.targets.any Tgt.isStale := by
  congr 1; funext t; cases t <;> rfl

theorem edges_outs (b : Build) (c : Bytes → Bytes) (hg : Good b c) : (buildEdges b).flatMap (·.outs) = Build.outs b := by
  have h1 : (staleEdges (b.targets.any Tgt.isStale)).flatMap (·.outs) = if b.targets.any Tgt.isStale then [ascii "build_always_stale"] else [] := by
    unfold staleEdges; split <;> rfl
  have h2 : (tailEdges (b.targets.any Tgt.isDefault)).flatMap (·.outs) = if b.targets.flatMap defaultsOf = [] then [ascii "muon_do_nothing"] else [] := by
    have := defaults_none b c hg
    unfold tailEdges
    split
    · rename_i h; rw [if_neg (this.1 h)]; rfl
    · rename_i h
      rw [if_pos (Classical.byContradiction (fun hn => h (this.2 hn)))]; rfl
  unfold Build.outs
  rw [stale_eq]
  rw [buildEdges, List.flatMap_append, List.flatMap_append, List.flatMap_append, h1, h2, List.flatMap_assoc]
  congr 2
  congr 1
  funext t
  exact tgtEdges_outs t

/-- The graph. -/
def graph (b : Build) (c : Bytes → Bytes) (css : List (List CWord)) : St :=
  mk theVars (allDefs b css) ((buildEdges b).map (fun e => e.real c (look (allDefs b css) e.rule))) ((buildDefaults b).map c)

theorem shellText_ne {as : List Bytes} (h : as ≠ []) : shellText as ≠ [] := by
  have hs : ∀ a, shellEscape a ≠ [] := by
    intro a
    unfold shellEscape
    split
    · simp
    · split
      · assumption
      · simp
  cases as with
  | nil => exact absurd rfl h
  | cons a as =>
    cases as with
    | nil => simpa [shellText] using hs a
    | cons b as => simp [shellText, hs a]

theorem execAll_one {w : World} {s s' : St} {x : Stmt} {xs : List Stmt} (h : exec w 0 s 0 x = .ok s') : execAll w 0 s 0 (x :: xs) = execAll w 0 s' 0 xs := by
  rw [execAll_cons, h, Res.ok_bind]

theorem head_defs {b : Build} {css : List (List CWord)} (hl : b.rules.length = css.length) (hn : (fixedRules ++ b.rules.map (·.name)).Nodup) {n : Bytes} {r : Rule}
    (h : (n, r) ∈ fixedDefs b.regenCmd) : look (allDefs b css) n = r := by
  rw [look, find_nodup _ (allDefs_nodup hl hn) (List.mem_append.2 (Or.inr h))]; rfl

theorem run_head (w : World) (b : Build) (c : Bytes → Bytes) (hg : Good b c) (css : List (List CWord)) (hl : b.rules.length = css.length)
    (hw : w.versionOk (ascii "1.7.1") = true) : execAll w 0 init 0 ((headXs b.regenCmd b.regenDeps (b.targets.any Tgt.isStale)).map X.stmt) =
    .ok (mk theVars (fixedDefs b.regenCmd) (([regenEdge b.regenDeps] ++ staleEdges (b.targets.any Tgt.isStale)).map (fun e => e.real c (look (allDefs b css) e.rule))) []) := by
  have hout : ∀ p ∈ Build.outs b, Canon.canonpath p = .ok (c p) := fun p hp => hg.canon p (Or.inl hp)
  have hcanon : ∀ p ∈ (regenEdge b.regenDeps).paths, Canon.canonpath p = .ok (c p) := by
    intro p hp
    simp only [BEdge.paths, regenEdge, List.append_nil] at hp
    rcases List.mem_append.1 hp with hp | hp
    · rw [List.mem_singleton.1 hp]
      exact hout _ (by unfold Build.outs; simp)
    · exact hg.canon p (Or.inr (Or.inr hp))
  have hdist : ((ascii "build.ninja" :: if b.targets.any Tgt.isStale then [ascii "build_always_stale"] else []).map c).Nodup := by
    have hu := hg.unique
    unfold Build.outs at hu
    rw [stale_eq, List.map_append, List.map_append] at hu
    simpa using (List.nodup_append.1 (List.nodup_append.1 hu).1).1
  have i1 : init = mk [] [(ascii "phony", ⟨ascii "phony", []⟩)] [] [] := rfl
  rw [i1]
  simp only [headXs, List.map_append, List.map_cons, List.map_nil, List.cons_append, List.nil_append]
  rw [execAll_one (step_assign _ _ (fun _ => hw)), execAll_one (step_assign _ _ (fun h => absurd h (by decide)))]
  rw [execAll_one (run_rule (ascii "REGENERATE_BUILD") (regenLets b.regenCmd) ⟨letT (ascii "command") (valToks (shellText b.regenCmd)), by simp [regenLets], rfl, by
    show parts (valToks (shellText b.regenCmd)) ≠ []
    have hne : shellText b.regenCmd ≠ [] := by
      intro h0
      have hr := hg.regenCmd.1
      exact shellText_ne hr h0
    have := start_wf hne (shellText_start b.regenCmd) []
    rw [List.append_nil] at this
    refine parts_ne _ this ?_
    cases hs : shellText b.regenCmd with
    | nil => exact absurd hs hne
    | cons x u => simp [valToks]⟩ (by
      show ascii "rspfile" ∉ [ascii "command", ascii "description", ascii "generator"]; decide) (by
      show ascii "rspfile_content" ∉ [ascii "command", ascii "description", ascii "generator"]; decide) (by decide))]
  rw [execAll_one (step_edge c (regenEdge b.regenDeps) ⟨ascii "REGENERATE_BUILD", (regenLets b.regenCmd).map WLet.meaning⟩ rfl hcanon (by simp [regenEdge]) (by simp)
    ⟨by decide, not_find (by show ascii "pool" ∉ [ascii "command", ascii "description", ascii "generator"]; decide), Or.inr rfl⟩)]
  rw [execAll_one (run_rule (ascii "CUSTOM_COMMAND") customLets ⟨letT (ascii "command") [.bare (ascii "COMMAND")], by simp [customLets], rfl, by decide⟩ (by decide) (by decide) (by
    show ascii "CUSTOM_COMMAND" ∉ [ascii "REGENERATE_BUILD", ascii "phony"]; decide))]
  rw [execAll_one (run_rule (ascii "CUSTOM_COMMAND_DEP") customDepLets ⟨letT (ascii "command") [.bare (ascii "COMMAND")], by simp [customDepLets], rfl, by decide⟩ (by decide) (by decide) (by
    show ascii "CUSTOM_COMMAND_DEP" ∉ [ascii "CUSTOM_COMMAND", ascii "REGENERATE_BUILD", ascii "phony"]; decide))]
  have r1 : look (allDefs b css) (regenEdge b.regenDeps).rule = ⟨ascii "REGENERATE_BUILD", (regenLets b.regenCmd).map WLet.meaning⟩ :=
    head_defs hl hg.names (by simp [fixedDefs, regenEdge])
  have r2 : look (allDefs b css) (phonyEdge (ascii "build_always_stale")).rule = ⟨ascii "phony", []⟩ := head_defs hl hg.names (by simp [fixedDefs, phonyEdge])
  simp only [List.map_append, List.map_cons, List.map_nil, r1]
  cases hs : b.targets.any Tgt.isStale with
  | false => simp [staleEdges, execAll_nil, fixedDefs, theVars]
  | true =>
    rw [hs] at hdist
    have hst : Canon.canonpath (ascii "build_always_stale") = .ok (c (ascii "build_always_stale")) := hout _ (by unfold Build.outs; rw [stale_eq, hs]; simp)
    simp only [if_true, List.map_cons, List.map_nil, staleEdges, r2]
    rw [execAll_one (step_edge c (phonyEdge (ascii "build_always_stale")) ⟨ascii "phony", []⟩ rfl (by
      intro p hp
      simp only [BEdge.paths, phonyEdge, List.append_nil, List.mem_singleton] at hp
      rw [hp]; exact hst) (by simp [phonyEdge]) (by
      intro p hp x hx hpx
      simp only [phonyEdge, List.map_cons, List.map_nil, List.mem_singleton] at hp
      simp only [List.nil_append, List.mem_singleton] at hx
      subst hx; subst hp
      simp only [BEdge.real, regenEdge, List.map_cons, List.map_nil, List.mem_singleton] at hpx
      simp only [if_true, List.map_cons, List.map_nil, List.nodup_cons, List.mem_singleton] at hdist
      exact hdist.1 hpx.symm) ⟨by decide, rfl, Or.inl rfl⟩)]
    simp [execAll_nil, fixedDefs, theVars]

theorem tail_edges (d : Bool) : (tailXs d).filterMap edgeOf = tailEdges d := by cases d <;> rfl
theorem tail_defaults (d : Bool) : (tailXs d).flatMap defaultOf = if d then [] else [ascii "muon_do_nothing"] := by cases d <;> rfl

/-- Reading the file gives the graph. -/
theorem run_build (w : World) (b : Build) (c : Bytes → Bytes) (hg : Good b c) (css : List (List CWord)) (hr : RulesOk b.rules css)
    (hw : w.versionOk (ascii "1.7.1") = true) : ∃ txt, b.text = .ok txt ∧ Manifest.parse w 0 txt = .ok (graph b c css) := by
  refine ⟨_, build_text b c hg css hr, ?_⟩
  have hne : File.written (buildItems b css) ≠ [] := by
    simp only [buildItems, headItems, List.cons_append, List.append_assoc]
    rw [written_cons, commentW_text]
    simp [ascii]
  rw [Manifest.parse, read_written _ (build_wf b c hg css hr) hne, Res.ok_bind, build_says]
  have h0 := run_head w b c hg css hr.1 hw
  have h1 := run_rules w theVars (([regenEdge b.regenDeps] ++ staleEdges (b.targets.any Tgt.isStale)).map (fun e => e.real c (look (allDefs b css) e.rule))) [] b.rules css
    (fixedDefs b.regenCmd) hr (by
      have : (fixedDefs b.regenCmd).map (·.1) = fixedRules.reverse := rfl
      rw [this]
      exact ((List.reverse_perm fixedRules).append_right _).nodup_iff.2 hg.names)
  have hfit : Fits c theVars (allDefs b css) [] (b.targets.flatMap tgtXs ++ tailXs (b.targets.any Tgt.isDefault)) := by
    refine fits_append (fits_flatMap _ _ (fun t ht => fits_tgt hg hr.1 t ht)) ?_
    cases hd : b.targets.any Tgt.isDefault with
    | true => trivial
    | false =>
      have hc : Canon.canonpath (ascii "muon_do_nothing") = .ok (c (ascii "muon_do_nothing")) := by
        refine hg.canon _ (Or.inl ?_)
        have hno : b.targets.flatMap defaultsOf = [] := by
          apply Classical.byContradiction
          intro hn
          rw [(defaults_none b c hg).2 hn] at hd
          cases hd
        unfold Build.outs
        rw [if_pos hno]; simp
      refine ⟨edge_rule hr.1 hg.names (by simp [phonyEdge, fixedRules]) (Or.inl rfl), ?_, ?_, trivial⟩
      · intro p hp
        simp only [BEdge.paths, phonyEdge, List.append_nil, List.mem_singleton] at hp
        rw [hp]; exact hc
      · intro p hp
        rw [List.mem_singleton.1 hp]
        exact ⟨by simp [phonyEdge], hc⟩
  have hedges : (b.targets.flatMap tgtXs ++ tailXs (b.targets.any Tgt.isDefault)).filterMap edgeOf = b.targets.flatMap tgtEdges ++ tailEdges (b.targets.any Tgt.isDefault) := by
    rw [List.filterMap_append, filterMap_flatMap, tail_edges]
    congr 2; funext t; exact tgtXs_edges t
  have hdefs : (b.targets.flatMap tgtXs ++ tailXs (b.targets.any Tgt.isDefault)).flatMap defaultOf = buildDefaults b := by
    rw [List.flatMap_append, List.flatMap_assoc, tail_defaults, buildDefaults]
    congr 2; funext t; exact tgtXs_defaults t
  have h2 := run_fits w c theVars (allDefs b css) _ [] (([regenEdge b.regenDeps] ++ staleEdges (b.targets.any Tgt.isStale)).map (fun e => e.real c (look (allDefs b css) e.rule))) []
    hfit (by simp) (by
      rw [hedges]
      have : (((buildEdges b).flatMap (·.outs)).map c).Nodup := by rw [edges_outs b c hg]; exact hg.unique
      have e : (List.map (fun e => e.real c (look (allDefs b css) e.rule)) ([regenEdge b.regenDeps] ++ staleEdges (b.targets.any Tgt.isStale))).flatMap (·.outs)
          = (([regenEdge b.regenDeps] ++ staleEdges (b.targets.any Tgt.isStale)).flatMap (·.outs)).map c := by
        rw [List.flatMap_map, List.map_flatMap]; rfl
      rw [e, show List.flatMap (fun e => List.map c e.outs) (b.targets.flatMap tgtEdges ++ tailEdges (b.targets.any Tgt.isDefault))
        = ((b.targets.flatMap tgtEdges ++ tailEdges (b.targets.any Tgt.isDefault)).flatMap (·.outs)).map c from by rw [List.map_flatMap], ← List.map_append, ← List.flatMap_append]
      rw [buildEdges, List.append_assoc] at this
      exact this)
  rw [buildXs, List.append_assoc, List.map_append, List.map_append]
  rw [execAll_append w 0 _ _ _ _ 0 (by rw [execAll_append w 0 _ _ _ _ 0 h0]; exact h1)]
  refine h2.trans ?_
  rw [hedges, hdefs, ← List.map_append, graph, buildEdges, List.append_assoc, List.append_assoc, List.append_assoc, List.nil_append]

end Muon.Ninja
