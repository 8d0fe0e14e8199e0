import Verif.Ninja.Cmd
/-
Variables of the edges of the graph.
-/
namespace Muon.Ninja
open Muon Esc Esc.Spec Manifest Manifest.Spec Spec

theorem graph_scope (b : Build) (c : Bytes → Bytes) (css : List (List CWord)) (v : Bytes) : (graph b c css).var 0 v = find theVars v := mk_var _ _ _ _ _

/-- The value of a variable that is not one of the rule. -/
def edgeVal (c : Bytes → Bytes) (esc : Bool) (e : BEdge) (v : Bytes) : Bytes :=
  if v = ascii "in" then (listOf esc 32 (e.ins.map c)).getD []
  else if v = ascii "out" then (listOf esc 32 (e.outs.map c)).getD []
  else (lastOf e.vars v).getD []

theorem direct_val {b : Build} {c : Bytes → Bytes} {css : List (List CWord)} (n : Bytes) (ls : List WLet) (e : BEdge) (esc : Bool) (v : Bytes)
    (h1 : v ∉ ls.map (·.name)) (h2 : find theVars v = none) (h3 : v ≠ ascii "in_newline") :
    ∃ x, direct ((graph b c css).var 0) (e.real c ⟨n, ls.map WLet.meaning⟩) esc v = some x ∧ edgeVal c esc e v = x.getD [] := by
  unfold direct edgeVal
  split
  · refine ⟨_, rfl, ?_⟩
    simp [BEdge.real]
  · split
    · refine ⟨listOf esc 32 (e.outs.map c), ?_, rfl⟩
      have hm : (e.outs.map c).take e.outs.length = e.outs.map c := List.take_of_length_le (by simp)
      simp only [BEdge.real, hm]
    · have hn := not_find (n := n) h1
      rw [rule_find] at hn
      simp only [BEdge.real, List.reverse_reverse] at hn ⊢
      rw [hn, graph_scope, h2]
      cases lastOf e.vars v with
      | some x => exact ⟨some x, by simp, rfl⟩
      | none => exact ⟨none, by simp, rfl⟩

/-- The value of a variable of the rule. -/
theorem rule_val {b : Build} {c : Bytes → Bytes} {css : List (List CWord)} (n : Bytes) (ls : List WLet) (e : BEdge) (esc : Bool) (v : Bytes) (ts : List Tok)
    (h0 : v ∉ [ascii "in", ascii "in_newline", ascii "out"]) (h1 : lastOf e.vars v = none) (h2 : lastOf (ls.map (fun l => (l.name, parts l.val))) v = some (parts ts))
    (h3 : ∀ u ∈ tokVars ts, u ∉ ls.map (·.name) ∧ find theVars u = none ∧ u ≠ ascii "in_newline") :
    (graph b c css).edgeVar (e.real c ⟨n, ls.map WLet.meaning⟩) esc v = .ok (some (tokVal (edgeVal c esc e) ts)) := by
  apply ((edge_variable _ _ _ _).1 _).2
  right
  refine ⟨parts ts, _, ⟨?_, ?_⟩, text_toks (edgeVal c esc e) ts (fun u hu => direct_val n ls e esc u (h3 u hu).1 (h3 u hu).2.1 (h3 u hu).2.2), rfl⟩
  · simp only [List.mem_cons, List.not_mem_nil, or_false, not_or] at h0
    have h2' : lastOf (List.map (fun l => (l.name, l.val)) (ls.map WLet.meaning)) v = some (parts ts) := by
      rw [List.map_map]; exact h2
    simp only [direct, if_neg h0.1, if_neg h0.2.1, if_neg h0.2.2, BEdge.real, List.reverse_reverse, h1, h2']
  · show lastOf (List.map (fun l => (l.name, l.val)) (ls.map WLet.meaning)) v = some (parts ts)
    rw [List.map_map]; exact h2

theorem real_mem {b : Build} {c : Bytes → Bytes} {css : List (List CWord)} (hl : b.rules.length = css.length) (hn : (fixedRules ++ b.rules.map (·.name)).Nodup)
    {e : BEdge} (he : e ∈ buildEdges b) {r : Rule} (hr : (e.rule, r) ∈ allDefs b css) : e.real c r ∈ (graph b c css).edges := by
  refine List.mem_map.2 ⟨e, he, ?_⟩
  show e.real c (look (allDefs b css) e.rule) = _
  rw [look, find_nodup _ (allDefs_nodup hl hn) hr]; rfl

theorem mem_edges {b : Build} {t : Tgt} (ht : t ∈ b.targets) {e : BEdge} (he : e ∈ tgtEdges t) : e ∈ buildEdges b := by
  unfold buildEdges
  exact List.mem_append.2 (Or.inl (List.mem_append.2 (Or.inr (List.mem_flatMap.2 ⟨t, ht, he⟩))))

theorem fixed_mem {b : Build} {css : List (List CWord)} {x : Bytes × Rule} (h : x ∈ fixedDefs b.regenCmd) : x ∈ allDefs b css := List.mem_append.2 (Or.inr h)

theorem lastOf_letT (n : Bytes) (ts : List Tok) (rest : List WLet) (h : ∀ l ∈ rest, l.name ≠ n) :
    lastOf ((letT n ts :: rest).map (fun l => (l.name, parts l.val))) n = some (parts ts) := by
  have : (rest.map (fun l => (l.name, parts l.val))).filter (fun x => decide (x.1 = n)) = [] := by
    rw [List.filter_eq_nil_iff]
    intro x hx
    obtain ⟨l, hl, rfl⟩ := List.mem_map.1 hx
    simpa using h l hl
  simp only [lastOf, List.map_cons]
  rw [List.filter_cons_of_pos (by simp [letT]), this]
  rfl

theorem lastOf_skip {α : Type} (v : Bytes) (x : Bytes × α) (l : List (Bytes × α)) (h : x.1 ≠ v) : lastOf (x :: l) v = lastOf l v := by
  unfold lastOf
  rw [List.filter_cons_of_neg (by simpa using h)]

/-- The rule of a name with its definition. -/
theorem rule_mem : ∀ {rs : List RuleText} {css : List (List CWord)}, rs.length = css.length → ∀ {r : RuleText}, r ∈ rs → ∃ cs, (r, cs) ∈ rs.zip css
  | [], _, _, _, h => by cases h
  | r :: rs, [], h, _, _ => by simp at h
  | r :: rs, cs :: css, h, x, hx => by
    rcases List.mem_cons.1 hx with rfl | hx
    · exact ⟨cs, by simp⟩
    · obtain ⟨ds, hd⟩ := rule_mem (rs := rs) (css := css) (by simpa using h) hx
      exact ⟨ds, by simp [hd]⟩

theorem def_mem {b : Build} {css : List (List CWord)} {r : RuleText} {cs : List CWord} (h : (r, cs) ∈ b.rules.zip css) : (r.name, (ruleDef r cs).2) ∈ allDefs b css :=
  List.mem_append.2 (Or.inl (List.mem_reverse.2 (List.mem_map.2 ⟨(r, cs), h, rfl⟩)))

/-- The command of an edge whose rule is written with these words. -/
theorem rule_command {b : Build} {c : Bytes → Bytes} {css : List (List CWord)} (r : RuleText) (cs : List CWord) (e : BEdge)
    (hv : lastOf e.vars (ascii "command") = none)
    (hvars : ∀ u ∈ cs.flatMap wordVars, u ∈ [ascii "in", ascii "out", ascii "ARGS", ascii "LINK_ARGS"]) :
    (graph b c css).edgeVar (e.real c (ruleDef r cs).2) true (ascii "command") = .ok (some ((cs.map (wordVal (edgeVal c true e))).intersperse [32]).flatten) := by
  rw [← (cmd_val (edgeVal c true e) cs).1]
  refine rule_val r.name (ruleLets r.deps r.description cs) e true (ascii "command") (cmdToks cs) (by decide) hv ?_ ?_
  · rw [ruleLets, List.append_assoc]
    refine lastOf_letT _ _ ((if r.deps then [letT (ascii "deps") (valToks (ascii "gcc")), letT (ascii "depfile") [.braced (ascii "out"), .chr 46, .chr 100]] else [])
      ++ [letT (ascii "description") (valToks r.description ++ [.chr 32, .bare (ascii "out")])]) ?_
    intro l hl
    rcases List.mem_append.1 hl with hl | hl
    · cases hd : r.deps with
      | false => rw [hd] at hl; simp at hl
      | true =>
        rw [hd, if_pos rfl] at hl
        simp only [List.mem_cons, List.not_mem_nil, or_false] at hl
        rcases hl with rfl | rfl
        · show ascii "deps" ≠ ascii "command"; decide
        · show ascii "depfile" ≠ ascii "command"; decide
    · simp only [List.mem_cons, List.not_mem_nil, or_false] at hl
      subst hl
      show ascii "description" ≠ ascii "command"; decide
  · intro u hu
    rw [(cmd_val (edgeVal c true e) cs).2] at hu
    have hu := hvars u hu
    rw [ruleLets_names]
    have key : ∀ d : Bool, ∀ u ∈ [ascii "in", ascii "out", ascii "ARGS", ascii "LINK_ARGS"],
      u ∉ [ascii "command"] ++ (if d then [ascii "deps", ascii "depfile"] else []) ++ [ascii "description"] ∧ find theVars u = none ∧ u ≠ ascii "in_newline" := by
      decide
    exact key r.deps u hu

/-- An output belongs to one edge. -/
theorem same_edge : ∀ {es : List Manifest.Edge}, (es.flatMap (·.outs)).Nodup → ∀ {e e' : Manifest.Edge}, e ∈ es → e' ∈ es → ∀ {p : Bytes}, p ∈ e.outs → p ∈ e'.outs → e = e'
  | [], _, _, _, h, _, _, _, _ => by cases h
  | x :: es, hn, e, e', h, h', p, hp, hp' => by
    rw [List.flatMap_cons, List.nodup_append] at hn
    rcases List.mem_cons.1 h with h | h <;> rcases List.mem_cons.1 h' with h' | h'
    · rw [h, h']
    · rw [h] at hp
      exact (hn.2.2 p hp p (List.mem_flatMap.2 ⟨e', h', hp'⟩) rfl).elim
    · rw [h'] at hp'
      exact (hn.2.2 p hp' p (List.mem_flatMap.2 ⟨e, h, hp⟩) rfl).elim
    · exact same_edge hn.2.1 h h' hp hp'

end Muon.Ninja
