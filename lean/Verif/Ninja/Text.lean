import Verif.Ninja.Lemmas
/-
What is written is a file of the grammar.
-/
namespace Muon.Ninja
open Muon Esc Esc.Spec Manifest Manifest.Spec Spec

theorem sp_text : Gap.written [.sp] = [32] := by decide
theorem nil_text : Gap.written [] = [] := rfl

/-! ### Edges -/

def letW (v : Bytes × Bytes) : WLet := ⟨[], [.sp], v.1, [.sp], [.sp], valToks v.2, .lf⟩

theorem letW_text (v : Bytes × Bytes) : (letW v).written = [32] ++ v.1 ++ ascii " = " ++ escText [36] 36 v.2 ++ [10] := by
  simp only [letW, WLet.written, sp_text, valToks_text, List.flatMap_nil, List.nil_append, Eol.written]
  rw [show ascii " = " = [32, 61, 32] from by decide, show ascii "=" = [61] from by decide]
  simp

theorem letW_wf {v : Bytes × Bytes} (h1 : wfName v.1) (h2 : Clean v.2) (h3 : v.2.head? ≠ some 32) : (letW v).wf :=
  ⟨by simp [letW], rfl, h1, valToks_wf h2 h3⟩

/-- The statement of an edge. -/
def edgeStmt (e : BEdge) : Stmt := .build (e.outs.map lit) [] e.rule (e.ins.map lit) (e.imp.map lit) (e.ord.map lit) (e.vars.map (fun v => ⟨v.1, lit v.2⟩))

/-- An edge in the layout of muon. -/
def edgeW (e : BEdge) (gr : Gap) (useImp : Bool) : WStmt :=
  .build [.sp] (pathsW [] e.outs) none [.sp] e.rule gr (pathsW (if useImp = true ∨ e.ord ≠ [] then [.sp] else []) e.ins)
    (if useImp then some ([.sp], pathsW (if e.ord ≠ [] then [.sp] else []) e.imp) else none)
    (if e.ord = [] then none else some ([.sp], pathsW [] e.ord)) .lf (e.vars.map letW)

theorem edgeW_meaning (e : BEdge) (gr : Gap) (useImp : Bool) (h : useImp = false → e.imp = []) : (edgeW e gr useImp).meaning = edgeStmt e := by
  have h1 : Sec.meaning (if useImp then some ([.sp], pathsW (if e.ord ≠ [] then [.sp] else []) e.imp) else none) = e.imp.map lit := by
    cases useImp with
    | false => rw [h rfl]; rfl
    | true => exact pathsW_meaning _ _
  have h2 : Sec.meaning (if e.ord = [] then none else some (([.sp] : Gap), pathsW [] e.ord)) = e.ord.map lit := by
    by_cases ho : e.ord = []
    · simp [ho, Sec.meaning]
    · rw [if_neg ho]; exact pathsW_meaning _ _
  simp only [edgeW, WStmt.meaning, edgeStmt, pathsW_meaning, h1, h2]
  simp [Sec.meaning, letW, WLet.meaning, valToks_parts, Function.comp_def]

structure EdgeOk (e : BEdge) : Prop where
  notNone : e.outs ≠ []
  outs : ∀ p ∈ e.outs, CleanPath p
  ins : ∀ p ∈ e.ins, CleanPath p
  imp : ∀ p ∈ e.imp, CleanPath p
  ord : ∀ p ∈ e.ord, CleanPath p
  rule : wfName e.rule
  vars : ∀ v ∈ e.vars, wfName v.1 ∧ Clean v.2 ∧ v.2.head? ≠ some 32

theorem edgeW_wf {e : BEdge} (h : EdgeOk e) (gr : Gap) (hg : e.ins = [] ∨ gr ≠ []) (useImp : Bool) : (edgeW e gr useImp).wf := by
  have hgap : ∀ P : Prop, [Decidable P] → (if P then [.sp] else [] : Gap) = [] ∨ Gap.spaced (if P then [.sp] else []) := by
    intro P _
    split
    · exact Or.inr rfl
    · exact Or.inl rfl
  refine ⟨by simp, pathsW_wf _ (Or.inl rfl) _ h.outs, trivial, Or.inl ?_, h.rule, ?_, pathsW_wf _ (hgap _) _ h.ins, ?_, ?_, ?_⟩
  · intro hn; exact h.notNone ((pathsW_nil _ _).1 hn)
  · rw [pathsW_nil]; exact hg
  · cases useImp with
    | false => trivial
    | true => exact ⟨pathsW_wf _ (hgap _) _ h.imp, by simp⟩
  · by_cases ho : e.ord = []
    · rw [if_pos ho]; trivial
    · rw [if_neg ho]; exact ⟨pathsW_wf _ (Or.inl rfl) _ h.ord, by simp⟩
  · intro l hl
    obtain ⟨v, hv, rfl⟩ := List.mem_map.1 hl
    obtain ⟨h1, h2, h3⟩ := h.vars v hv
    exact letW_wf h1 h2 h3

/-- The text after the inputs. -/
def insText (e : BEdge) (useImp : Bool) : Bytes :=
  (if e.ins = [] then [] else if useImp = true ∨ e.ord ≠ [] then [32] else [])
  ++ (if useImp then ascii "| " ++ ninjaText e.imp ++ (if e.imp = [] then [] else if e.ord ≠ [] then [32] else []) else [])
  ++ (if e.ord = [] then [] else ascii "|| " ++ ninjaText e.ord)

theorem edgeW_text (e : BEdge) (gr : Gap) (useImp : Bool) : (edgeW e gr useImp).written =
    ascii "build " ++ ninjaText e.outs ++ ascii ": " ++ e.rule ++ gr.written ++ ninjaText e.ins ++ insText e useImp ++ [10]
    ++ e.vars.flatMap (fun v => [32] ++ v.1 ++ ascii " = " ++ escText [36] 36 v.2 ++ [10]) := by
  have hg : ∀ P : Prop, [Decidable P] → Gap.written (if P then [.sp] else []) = if P then [32] else [] := by
    intro P _
    split
    · exact sp_text
    · rfl
  have hl : lets (e.vars.map letW) = e.vars.flatMap (fun v => [32] ++ v.1 ++ ascii " = " ++ escText [36] 36 v.2 ++ [10]) := by
    rw [lets, List.flatMap_map]
    congr 1; funext v; exact letW_text v
  have h1 : Sec.written (ascii "|") (if useImp then some ([.sp], pathsW (if e.ord ≠ [] then [.sp] else []) e.imp) else none) =
      (if useImp then ascii "| " ++ ninjaText e.imp ++ (if e.imp = [] then [] else if e.ord ≠ [] then [32] else []) else []) := by
    cases useImp with
    | false => rfl
    | true =>
      simp only [if_true, Sec.written, pathsW_text, sp_text, hg]
      rw [show ascii "| " = ascii "|" ++ [32] from by decide]
      simp
  have h2 : Sec.written (ascii "||") (if e.ord = [] then none else some (([.sp] : Gap), pathsW [] e.ord)) =
      (if e.ord = [] then [] else ascii "|| " ++ ninjaText e.ord) := by
    by_cases ho : e.ord = []
    · rw [if_pos ho, if_pos ho]; rfl
    · rw [if_neg ho, if_neg ho]
      simp only [Sec.written, pathsW_text, sp_text, nil_text]
      rw [show ascii "|| " = ascii "||" ++ [32] from by decide]
      simp
  rw [edgeW, WStmt.written, h1, h2, hl, pathsW_text, pathsW_text, sp_text, hg, insText]
  rw [show ascii "build " = ascii "build" ++ [32] from by decide, show ascii ": " = ascii ":" ++ [32] from by decide]
  simp [Sec.written, Gap.written, Eol.written]

/-! ### Targets -/

def emptyW : Item := .filler (.empty none .lf)
theorem stmt_text (w : WStmt) : (Item.stmt w).written = w.written := rfl
theorem emptyW_text : emptyW.written = [10] := rfl

def defaultW (ps : List Bytes) : Item := .stmt (.default [.sp] (pathsW [] ps) .lf)
theorem defaultW_text (ps : List Bytes) : (defaultW ps).written = ascii "default " ++ ninjaText ps ++ [10] := by
  simp only [defaultW, Item.written, WStmt.written, sp_text, pathsW_text, nil_text, Eol.written]
  rw [show ascii "default " = ascii "default" ++ [32] from by decide]
  simp

def customItems (t : Custom) : File :=
  let e := customEdge t (shellText t.cmdline)
  [.stmt (edgeW e (if t.ins = [] then [.sp, .sp] else [.sp]) true)] ++ (if t.byDefault then [defaultW t.outs] else []) ++ [emptyW]

theorem escText_plain (s : Bytes) (h : 36 ∉ s) : escText [36] 36 s = s := by
  induction s with
  | nil => rfl
  | cons c s ih =>
    have hc : c ≠ 36 := fun hc => h (by simp [hc])
    rw [escText_cons, ih (fun hm => h (by simp [hm]))]
    simp [hc]

theorem stale_clean : CleanPath (ascii "build_always_stale") := by
  constructor <;> decide

/-- Literal texts as bytes. -/
theorem t_build : ascii "build " = [98, 117, 105, 108, 100, 32] := by decide
theorem t_colon : ascii ": " = [58, 32] := by decide
theorem t_sp : ascii " " = [32] := by decide
theorem t_pipe : ascii " | " = [32, 124, 32] := by decide
theorem t_pipe' : ascii "| " = [124, 32] := by decide
theorem t_pipes : ascii " || " = [32, 124, 124, 32] := by decide
theorem t_pipes' : ascii "|| " = [124, 124, 32] := by decide
theorem t_nl : ascii "\n" = [10] := by decide
theorem t_nlnl : ascii "\n\n" = [10, 10] := by decide
theorem t_eq : ascii " = " = [32, 61, 32] := by decide
theorem t_command : ascii "\n COMMAND = " = 10 :: 32 :: (ascii "COMMAND" ++ [32, 61, 32]) := by decide
theorem t_depfile : ascii " DEPFILE = " = 32 :: (ascii "DEPFILE" ++ [32, 61, 32]) := by decide
theorem t_pool : ascii " pool = console\n" = 32 :: (ascii "pool" ++ [32, 61, 32] ++ ascii "console" ++ [10]) := by decide
theorem t_console : escText [36] 36 (ascii "console") = ascii "console" := by decide

theorem custom_text (t : Custom) (ho : ∀ p ∈ t.outs, CleanPath p) (hi : ∀ p ∈ t.ins, CleanPath p) (hd : ∀ p ∈ t.depends, CleanPath p)
    (ha : ∀ a ∈ t.cmdline, Clean a) (hf : ∀ d, t.depfile = some d → Clean d ∧ 36 ∉ d) : t.text = .ok (File.written (customItems t)) := by
  have hdd : ∀ p ∈ t.depends ++ (if t.stale then [ascii "build_always_stale"] else []), CleanPath p := by
    intro p hp
    rcases List.mem_append.1 hp with hp | hp
    · exact hd p hp
    · split at hp
      · simp at hp; subst hp; exact stale_clean
      · simp at hp
  have hk : given (fun d => cstr d >>= fun d => .ok (ascii " DEPFILE = " ++ d ++ ascii "\n")) t.depfile =
      .ok (t.depfile.toList.flatMap (fun d => ascii " DEPFILE = " ++ d ++ ascii "\n")) := by
    cases hdf : t.depfile with
    | none => rfl
    | some d => simp [given, cstr_ok (fun h0 => (hf d hdf).1 0 h0 (by decide)), Res.ok_bind]
  rw [Custom.text, joinNinja_ok hdd, Res.ok_bind, joinNinja_ok ho, Res.ok_bind, joinNinja_ok hi, Res.ok_bind, joinShellNinja_ok ha, Res.ok_bind, hk, Res.ok_bind]
  refine congrArg Res.ok ?_
  have hgr : Gap.written (if t.ins = [] then [.sp, .sp] else [.sp]) ++ ninjaText t.ins ++ (if t.ins = [] then [] else [32]) =
      32 :: (ninjaText t.ins ++ [32]) := by
    by_cases h : t.ins = []
    · rw [if_pos h, if_pos h, h]; decide
    · rw [if_neg h, if_neg h]; rfl
  have hdf : t.depfile.toList.flatMap (fun d => 32 :: (ascii "DEPFILE" ++ [32, 61, 32]) ++ d ++ [10]) =
      t.depfile.toList.flatMap (fun d => [32] ++ ascii "DEPFILE" ++ [32, 61, 32] ++ escText [36] 36 d ++ [10]) := by
    cases hdf : t.depfile with
    | none => rfl
    | some d => simp [escText_plain d (hf d hdf).2]
  simp only [customItems, File.written, List.flatMap_append, List.flatMap_cons, List.flatMap_nil, List.append_nil, stmt_text, emptyW_text, edgeW_text]
  simp only [customEdge, insText, t_build, t_colon, t_sp, t_pipe, t_pipe', t_nl, t_eq, t_command, t_depfile, t_pool, hdf, List.flatMap_append, List.flatMap_cons, List.flatMap_map]
  have hd3 : (if t.byDefault then [defaultW t.outs] else []).flatMap Item.written = if t.byDefault then ascii "default " ++ ninjaText t.outs ++ [10] else [] := by
    split
    · simp [defaultW_text]
    · rfl
  have hp3 : (if t.console then [(ascii "pool", ascii "console")] else []).flatMap (fun v => [32] ++ v.1 ++ [32, 61, 32] ++ escText [36] 36 v.2 ++ [10]) =
      if t.console then 32 :: (ascii "pool" ++ [32, 61, 32] ++ ascii "console" ++ [10]) else [] := by
    split
    · simp [t_console]
    · rfl
  rw [hd3, hp3]
  simp at hgr ⊢
  rw [← List.append_assoc (Gap.written _), ← List.append_assoc (Gap.written _ ++ _), List.append_assoc (Gap.written _), hgr]
  simp

/-! ### Aliases and build targets -/

theorem ninjaText_one (p : Bytes) : ninjaText [p] = escText [32, 58, 36] 36 p := by simp [ninjaText]

theorem ninjaEscape_ok {p : Bytes} (h : CleanPath p) : ninjaEscape p = .ok (ninjaText [p]) := by
  rw [ninjaText_one]
  exact simpleEscape_ok _ _ _ (Or.inr (fun hm => h.2 10 hm (by decide)))

def aliasItems (t : Alias) : File := [.stmt (edgeW (aliasEdge t) [.sp] true), emptyW]

theorem t_phony : ascii ": phony | " = [58, 32] ++ ascii "phony" ++ [32, 124, 32] := by decide

theorem alias_text (t : Alias) (hn : CleanPath t.name) (hd : ∀ p ∈ t.depends, CleanPath p) : t.text = .ok (File.written (aliasItems t)) := by
  rw [Alias.text, cstr_ok (fun h0 => hn.2 0 h0 (by decide)), Res.ok_bind, ninjaEscape_ok hn, Res.ok_bind, joinNinja_ok hd, Res.ok_bind]
  refine congrArg Res.ok ?_
  simp only [aliasItems, File.written, List.flatMap_cons, List.flatMap_nil, List.append_nil, stmt_text, emptyW_text, edgeW_text]
  simp only [aliasEdge, insText, t_build, t_colon, t_phony, t_pipe', t_nlnl, sp_text]
  simp [ninjaText]

def sourceItem (t : Target) (s : Source) : Item :=
  .stmt (edgeW (sourceEdge t s (s.args.map shellText)) [.sp] (decide (1 < t.order.length)))

theorem t_args : ascii " ARGS = " = 32 :: (ascii "ARGS" ++ [32, 61, 32]) := by decide
theorem t_order : ascii "-order_deps" = [45, 111, 114, 100, 101, 114, 95, 100, 101, 112, 115] := by decide

theorem orderName_text (t : Target) : ninjaText [orderName t] = ninjaText [t.path] ++ ascii "-order_deps" := by
  rw [ninjaText_one, ninjaText_one, orderName]
  simp only [escText, List.flatMap_append]
  congr 1

theorem order_cases (t : Target) : (1 < t.order.length) ∨ (t.order = []) ∨ ∃ d, t.order = [d] := by
  match t.order with
  | [] => exact Or.inr (Or.inl rfl)
  | [d] => exact Or.inr (Or.inr ⟨d, rfl⟩)
  | _ :: _ :: _ => exact Or.inl (by simp)

def implicitPart (t : Target) : Option Bytes := if 1 < t.order.length then some (ninjaText [t.path] ++ ascii "-order_deps") else none
def orderPart (t : Target) : Option Bytes := if 1 < t.order.length ∨ t.order = [] then none else some (ninjaText t.order)

theorem source_text (t : Target) (s : Source) (hs : CleanPath s.src) (hd : CleanPath s.dest) (hr : 0 ∉ s.rule)
    (ha : ∀ as, s.args = some as → ∀ a ∈ as, Clean a) : s.text (implicitPart t) (orderPart t) = .ok (sourceItem t s).written := by
  have hk : given (fun a => joinArgsShellNinja a >>= cstr >>= fun a => .ok (ascii " ARGS = " ++ a ++ ascii "\n")) s.args =
      .ok (s.args.toList.flatMap (fun a => ascii " ARGS = " ++ escText [36] 36 (shellText a) ++ ascii "\n")) := by
    cases hdf : s.args with
    | none => rfl
    | some d => simp only [given]; rw [joinShellNinja_ok (ha d hdf), Res.ok_bind]; simp
  rw [Source.text, ninjaEscape_ok hd, Res.ok_bind, ninjaEscape_ok hs, Res.ok_bind, cstr_ok hr, Res.ok_bind, hk, Res.ok_bind]
  refine congrArg Res.ok ?_
  simp only [sourceItem, stmt_text, edgeW_text]
  have hv : (s.args.map shellText).toList.map (fun a => (ascii "ARGS", a)) = s.args.toList.map (fun a => (ascii "ARGS", shellText a)) := by
    cases s.args <;> rfl
  simp only [sourceEdge, insText, hv, t_build, t_colon, t_sp, t_nl, t_eq, t_args, List.flatMap_map, t_pipe', t_pipes', t_pipe, t_pipes]
  rcases order_cases t with h | h | ⟨d, h⟩
  · simp [implicitPart, orderPart, h, part, orderName_text, sp_text]
  · simp [implicitPart, orderPart, h, part, sp_text]
  · simp [implicitPart, orderPart, h, part, sp_text]

theorem sources_text (t : Target) : ∀ (ss : List Source), (∀ s ∈ ss, CleanPath s.src ∧ CleanPath s.dest ∧ 0 ∉ s.rule ∧ ∀ as, s.args = some as → ∀ a ∈ as, Clean a) →
    sourcesText (implicitPart t) (orderPart t) ss = .ok (File.written (ss.map (sourceItem t)))
  | [], _ => rfl
  | s :: ss, h => by
    obtain ⟨h1, h2, h3, h4⟩ := h s (by simp)
    rw [sourcesText, source_text t s h1 h2 h3 h4, Res.ok_bind, sources_text t ss (fun x hx => h x (by simp [hx])), Res.ok_bind]
    simp [File.written]

def linkItem (t : Target) : Item :=
  let e := linkEdge t (t.linkArgs.map shellText)
  .stmt (edgeW e (if e.ins = [] ∧ (e.imp ≠ [] ∨ e.ord ≠ []) then [.sp, .sp] else [.sp]) (decide (e.imp ≠ [])))

def targetItems (t : Target) : File :=
  (if 1 < t.order.length then [.stmt (edgeW (orderEdge t) [.sp] false)] else []) ++ t.sources.map (sourceItem t) ++ [linkItem t]
  ++ (if t.byDefault then [defaultW [t.path], emptyW] else [])

theorem t_phony2 : ascii "-order_deps: phony || " = ascii "-order_deps" ++ [58, 32] ++ ascii "phony" ++ [32, 124, 124, 32] := by decide
theorem t_largs : ascii "\n LINK_ARGS = " = 10 :: 32 :: (ascii "LINK_ARGS" ++ [32, 61, 32]) := by decide
theorem t_linker : ascii "_linker " = ascii "_linker" ++ [32] := by decide
theorem t_default : ascii "\ndefault " = 10 :: ascii "default " := by decide

theorem orderName_clean {t : Target} (h : CleanPath t.path) : CleanPath (orderName t) := by
  refine ⟨by simp [orderName, h.1], fun c hc => ?_⟩
  rcases List.mem_append.1 hc with hc | hc
  · exact h.2 c hc
  · have key : ∀ c ∈ ascii "-order_deps", c ∉ ([0, 10, 13, 124, 255] : Bytes) := by decide
    exact key c hc

theorem target_text (t : Target) (hp : CleanPath t.path) (ho : ∀ p ∈ t.order, CleanPath p) (hb : ∀ p ∈ t.objects, CleanPath p)
    (hi : ∀ p ∈ t.implicit, CleanPath p) (hr : 0 ∉ t.rulePrefix)
    (hs : ∀ s ∈ t.sources, CleanPath s.src ∧ CleanPath s.dest ∧ 0 ∉ s.rule ∧ ∀ as, s.args = some as → ∀ a ∈ as, Clean a)
    (ha : ∀ as, t.linkArgs = some as → ∀ a ∈ as, Clean a) : t.text = .ok (File.written (targetItems t)) := by
  have hk : given (fun a => joinArgsShellNinja a >>= cstr >>= fun a => .ok (ascii "\n LINK_ARGS = " ++ a)) t.linkArgs =
      .ok (t.linkArgs.toList.flatMap (fun a => ascii "\n LINK_ARGS = " ++ escText [36] 36 (shellText a))) := by
    cases hdf : t.linkArgs with
    | none => rfl
    | some d => simp only [given]; rw [joinShellNinja_ok (ha d hdf), Res.ok_bind]; simp
  have hobj : ∀ p ∈ t.objects ++ t.sources.map (·.dest), CleanPath p := by
    intro p hp
    rcases List.mem_append.1 hp with hp | hp
    · exact hb p hp
    · obtain ⟨s, hs', rfl⟩ := List.mem_map.1 hp
      exact (hs s hs').2.1
  have himp : ∀ p ∈ (if (decide (1 < t.order.length)) = true then [t.path ++ ascii "-order_deps"] else []) ++ t.implicit, CleanPath p := by
    intro p hp'
    rcases List.mem_append.1 hp' with hp' | hp'
    · split at hp'
      · simp at hp'; subst hp'; exact orderName_clean hp
      · simp at hp'
    · exact hi p hp'
  have e1 : (if (decide (1 < t.order.length) || decide (t.order = [])) = true then none else some (ninjaText t.order)) = orderPart t := by
    simp only [orderPart, Bool.or_eq_true, decide_eq_true_eq]
  have e2 : (if (decide (1 < t.order.length)) = true then some (ninjaText [t.path] ++ ascii "-order_deps") else none) = implicitPart t := by
    simp only [implicitPart, decide_eq_true_eq]
  rw [Target.text, ninjaEscape_ok hp, Res.ok_bind, joinNinja_ok ho, Res.ok_bind]
  dsimp only
  rw [e1, e2, sources_text t t.sources hs, Res.ok_bind, joinNinja_ok hobj, Res.ok_bind, joinNinja_ok himp, Res.ok_bind, cstr_ok hr, Res.ok_bind, hk, Res.ok_bind]
  refine congrArg Res.ok ?_
  simp only [targetItems, File.written, List.flatMap_append, List.flatMap_cons, List.flatMap_nil, List.append_nil]
  have hd3 : (if t.byDefault then [defaultW [t.path], emptyW] else []).flatMap Item.written =
      if t.byDefault then ascii "default " ++ ninjaText [t.path] ++ [10, 10] else [] := by
    split
    · simp [defaultW_text, emptyW_text]
    · rfl
  have ho3 : (if 1 < t.order.length then [Item.stmt (edgeW (orderEdge t) [.sp] false)] else []).flatMap Item.written =
      if 1 < t.order.length then ascii "build " ++ ninjaText [t.path] ++ ascii "-order_deps" ++ [58, 32] ++ ascii "phony" ++ [32, 124, 124, 32] ++ ninjaText t.order ++ [10] else [] := by
    split
    · rename_i h
      have hne : t.order ≠ [] := by intro h'; rw [h'] at h; simp at h
      simp only [List.flatMap_cons, List.flatMap_nil, List.append_nil, stmt_text, edgeW_text]
      have hnil : ninjaText [] = [] := rfl
      simp [orderEdge, insText, orderName_text, hne, t_colon, t_pipes', sp_text, hnil]
    · rfl
  have hl3 : (linkItem t).written = ascii "build " ++ ninjaText [t.path] ++ [58, 32] ++ t.rulePrefix ++ ascii "_" ++ t.linker ++ ascii "_linker" ++ [32]
      ++ ninjaText (t.objects ++ t.sources.map (·.dest))
      ++ part [32, 124, 32] (if ((if 1 < t.order.length then [orderName t] else []) ++ t.implicit) = [] then none
          else some (ninjaText ((if 1 < t.order.length then [orderName t] else []) ++ t.implicit)))
      ++ part [32, 124, 124, 32] (orderPart t)
      ++ t.linkArgs.toList.flatMap (fun a => 10 :: 32 :: (ascii "LINK_ARGS" ++ [32, 61, 32]) ++ escText [36] 36 (shellText a)) ++ [10] := by
    have hv : (t.linkArgs.map shellText).toList.map (fun a => (ascii "LINK_ARGS", a)) = t.linkArgs.toList.map (fun a => (ascii "LINK_ARGS", shellText a)) := by
      cases t.linkArgs <;> rfl
    have hv2 : [10] ++ t.linkArgs.toList.flatMap (fun a => [32] ++ ascii "LINK_ARGS" ++ [32, 61, 32] ++ escText [36] 36 (shellText a) ++ [10]) =
        t.linkArgs.toList.flatMap (fun a => 10 :: 32 :: (ascii "LINK_ARGS" ++ [32, 61, 32]) ++ escText [36] 36 (shellText a)) ++ [10] := by
      cases t.linkArgs <;> simp
    simp only [linkItem, stmt_text, edgeW_text]
    simp only [linkEdge, hv, List.flatMap_map, t_eq, t_colon]
    simp only [List.append_assoc]
    rw [← hv2]
    have hgoal : ∀ (I : List Bytes) (O : List Bytes) (J : List Bytes), O = (if 1 < t.order.length then [] else t.order) →
        Gap.written (if I = [] ∧ (J ≠ [] ∨ O ≠ []) then [.sp, .sp] else [.sp]) ++ (ninjaText I ++
          insText ⟨[t.path], [], I, J, O, []⟩ (decide (J ≠ []))) =
        [32] ++ (ninjaText I ++ (part [32, 124, 32] (if J = [] then none else some (ninjaText J)) ++ part [32, 124, 124, 32] (orderPart t))) := by
      intro I O J hO
      have hOp : orderPart t = if O = [] then none else some (ninjaText O) := by
        rcases order_cases t with h | h | ⟨d, h⟩
        · simp [orderPart, hO, h]
        · simp [orderPart, hO, h]
        · simp [orderPart, hO, h]
      rw [hOp]
      have hspsp : Gap.written [.sp, .sp] = [32, 32] := by decide
      by_cases hI : I = [] <;> by_cases hJ : J = [] <;> by_cases hO' : O = [] <;>
        simp [hI, hJ, hO', insText, part, sp_text, hspsp, t_pipe', t_pipes', ninjaText]
    have := hgoal (t.objects ++ t.sources.map (·.dest)) _ ((if 1 < t.order.length then [orderName t] else []) ++ t.implicit) rfl
    have h2 := congrArg (fun x => ascii "build " ++ (ninjaText [t.path] ++ ([58, 32] ++ (t.rulePrefix ++ (ascii "_" ++ (t.linker ++ (ascii "_linker" ++ (x ++ ([10] ++ t.linkArgs.toList.flatMap (fun a => [32] ++ ascii "LINK_ARGS" ++ [32, 61, 32] ++ escText [36] 36 (shellText a) ++ [10])))))))))) this
    simp only [List.append_assoc] at h2 ⊢
    exact h2
  rw [hd3, ho3, hl3]
  simp only [t_phony2, t_pipe, t_pipes, t_largs, t_linker, t_default, t_nl, t_colon, decide_eq_true_eq, orderName]
  by_cases hm : 1 < t.order.length <;> by_cases hb : t.byDefault = true <;> simp [hm, hb]

end Muon.Ninja
