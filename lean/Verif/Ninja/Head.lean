import Verif.Ninja.Text
/-
Rules, the beginning of the file, and the whole file.
-/
namespace Muon.Ninja
open Muon Esc Esc.Spec Manifest Manifest.Spec Spec

/-! ### Rules -/

def letT (n : Bytes) (ts : List Tok) : WLet := ⟨[], [.sp], n, [.sp], [.sp], ts, .lf⟩

theorem letT_text (n : Bytes) (ts : List Tok) : (letT n ts).written = 32 :: (n ++ [32, 61, 32] ++ toks ts ++ [10]) := by
  simp only [letT, WLet.written, sp_text, List.flatMap_nil, List.nil_append, Eol.written]
  rw [show ascii "=" = [61] from by decide]
  simp

theorem letW_eq (v : Bytes × Bytes) : letW v = letT v.1 (valToks v.2) := rfl

def cwordToks : CWord → List Tok
  | .text u => valToks u
  | .var v => [.bare v]
  | .outD => [.braced (ascii "out"), .chr 46, .chr 100]

def cmdToks : List CWord → List Tok
  | [] => []
  | [w] => cwordToks w
  | w :: x :: ws => cwordToks w ++ .chr 32 :: cmdToks (x :: ws)

theorem dollars_eq (u : Bytes) : dollars u = escText [36] 36 u := by
  simp only [dollars, escText, List.mem_singleton]
  congr 1; funext c
  split
  · rename_i h; rw [h]
  · rfl

theorem toks_append (a b : List Tok) : toks (a ++ b) = toks a ++ toks b := by simp [toks]

theorem cword_text (w : CWord) : toks (cwordToks w) = w.word.text := by
  cases w with
  | text u => rw [cwordToks, valToks_text, CWord.word, Word.text, dollars_eq]
  | var v => simp [cwordToks, toks, Tok.written, CWord.word, Word.text]
  | outD => decide

theorem cmd_text : ∀ (cs : List CWord), toks (cmdToks cs) = ((cs.map (fun w => w.word.text)).intersperse [32]).flatten
  | [] => rfl
  | [w] => by simp [cmdToks, cword_text]
  | w :: x :: ws => by
    rw [cmdToks, toks_append, cword_text]
    have := cmd_text (x :: ws)
    simp only [toks, List.flatMap_cons] at this ⊢
    rw [this]
    simp [Tok.written]

theorem joinPlain_ok (args : List Bytes) : joinArgsPlain args = .ok (args.intersperse [32]).flatten := by
  have := joinArgsFrom_ok (fun s => Res.ok s) (fun s => s) args.length args 0 [] (fun a _ => rfl) (by simp)
  rw [joinArgsPlain, this]; simp

theorem wfToks_val {u : Bytes} (h : Clean u) (rest : List Tok) (hr : wfToks false rest) : wfToks false (valToks u ++ rest) := by
  induction u with
  | nil => exact hr
  | cons c p ih =>
    have hc := h c (by simp)
    simp only [valToks, List.map_cons, List.cons_append]
    have ih' := ih (fun d hd => h d (by simp [hd]))
    rw [valToks] at ih'
    split
    · rename_i h; subst h
      exact ⟨by decide, ih'⟩
    · rename_i h
      refine ⟨?_, (fun h => by cases h), ih'⟩
      simp at h hc ⊢; simp [h, hc]

theorem cword_wf {w : CWord} (h : w.ok) (rest : List Tok) (hr : wfToks false rest) (hh : rest = [] ∨ rest.head? = some (.chr 32)) :
    wfToks false (cwordToks w ++ rest) := by
  cases w with
  | text u => exact wfToks_val h rest hr
  | var v =>
    refine ⟨h.1, h.2, ?_, hr⟩
    intro c hc
    rcases hh with rfl | hh
    · simp [toks] at hc
    · cases rest with
      | nil => simp at hh
      | cons t ts =>
        simp at hh; subst hh
        simp [toks, Tok.written] at hc
        subst hc
        simp only [simpleChar]; decide
  | outD =>
    have key : ∀ c ∈ ascii "out", nameChar c := by simp only [nameChar]; decide
    exact ⟨key, by decide, by decide, by decide, by decide, hr⟩

theorem cmd_wf : ∀ (cs : List CWord), (∀ w ∈ cs, CWord.ok w) → wfToks false (cmdToks cs)
  | [], _ => trivial
  | [w], h => by have := cword_wf (h w (by simp)) [] trivial (Or.inl rfl); simpa [cmdToks] using this
  | w :: x :: ws, h => by
    have ih := cmd_wf (x :: ws) (fun y hy => h y (by simp [hy]))
    exact cword_wf (h w (by simp)) _ ⟨by decide, by decide, ih⟩ (Or.inr rfl)

theorem cmdToks_first (u : Bytes) (cs : List CWord) : ∃ rest, cmdToks (.text u :: cs) = valToks u ++ rest := by
  cases cs with
  | nil => exact ⟨[], by simp [cmdToks, cwordToks]⟩
  | cons x ws => exact ⟨_, rfl⟩

theorem start_wf {u : Bytes} (hu : u ≠ []) (h32 : u.head? ≠ some 32) (rest : List Tok) : wfStart (valToks u ++ rest) := by
  cases u with
  | nil => exact absurd rfl hu
  | cons c p =>
    constructor
    · simp only [valToks, List.map_cons, List.cons_append, List.head?_cons]
      split
      · simp
      · intro h'; cases h'; exact h32 rfl
    · intro e g
      simp only [valToks, List.map_cons, List.cons_append, List.head?_cons]
      split <;> simp

/-- The bindings of a rule. -/
def ruleLets (deps : Bool) (desc : Bytes) (cs : List CWord) : List WLet :=
  [letT (ascii "command") (cmdToks cs)]
  ++ (if deps then [letT (ascii "deps") (valToks (ascii "gcc")), letT (ascii "depfile") [.braced (ascii "out"), .chr 46, .chr 100]] else [])
  ++ [letT (ascii "description") (valToks desc ++ [.chr 32, .bare (ascii "out")])]

def ruleW (n : Bytes) (ls : List WLet) : Item := .stmt (.rule [.sp] n [] .lf ls)

theorem ruleW_text (n : Bytes) (ls : List WLet) : (ruleW n ls).written = ascii "rule " ++ n ++ [10] ++ ls.flatMap WLet.written := by
  simp only [ruleW, stmt_text, WStmt.written, sp_text, nil_text, Eol.written, lets]
  rw [show ascii "rule " = ascii "rule" ++ [32] from by decide]
  simp

def ruleItems (r : RuleText) (cs : List CWord) : File := [ruleW r.name (ruleLets r.deps r.description cs), emptyW]

theorem t_cmd : ascii "\n command = " = 10 :: 32 :: (ascii "command" ++ [32, 61, 32]) := by decide
theorem t_deps : ascii " deps = gcc\n depfile = ${out}.d\n" =
    (letT (ascii "deps") (valToks (ascii "gcc"))).written ++ (letT (ascii "depfile") [.braced (ascii "out"), .chr 46, .chr 100]).written := by decide
theorem t_desc : ascii " description = " = 32 :: (ascii "description" ++ [32, 61, 32]) := by decide
theorem t_out : ascii " $out\n\n" = 32 :: (ascii "$out" ++ [10, 10]) := by decide

theorem word_nul {w : CWord} (h : w.ok) : 0 ∉ w.word.text := by
  cases w with
  | text u =>
    rw [CWord.word, Word.text, dollars_eq]
    intro h0
    rcases escText_mem _ _ _ _ h0 with h0 | h0
    · exact h 0 h0 (by decide)
    · cases h0
  | var v =>
    intro h0
    rcases List.mem_append.1 h0 with h0 | h0
    · revert h0; decide
    · have := h.2 0 h0
      simp only [simpleChar] at this; revert this; decide
  | outD => decide

theorem wfName_nul {n : Bytes} (h : wfName n) : 0 ∉ n := by
  intro h0
  have := h.2 0 h0
  simp only [nameChar] at this; revert this; decide

theorem rule_text (r : RuleText) (cs : List CWord) (hn : wfName r.name) (hd : 36 ∉ r.description) (hc : r.command = cs.map CWord.word)
    (hw : ∀ w ∈ cs, CWord.ok w) : r.text = .ok (File.written (ruleItems r cs)) := by
  have h0 : 0 ∉ ((cs.map (fun w => w.word.text)).intersperse [32]).flatten := by
    intro h0
    have := words_mem id (cs.map (fun w => w.word.text)) 0 (by rw [List.map_id]; exact h0)
    rcases this with h | ⟨a, ha, h⟩
    · cases h
    · obtain ⟨w, hw', rfl⟩ := List.mem_map.1 ha
      exact word_nul (hw w hw') h
  have hm : r.command.map Word.text = cs.map (fun w => w.word.text) := by rw [hc]; simp
  rw [RuleText.text, hm, joinPlain_ok, Res.ok_bind, cstr_ok h0, Res.ok_bind, cstr_ok (wfName_nul hn), Res.ok_bind]
  refine congrArg Res.ok ?_
  simp only [ruleItems, File.written, List.flatMap_cons, List.flatMap_nil, List.append_nil, ruleW_text, emptyW_text, ruleLets, List.flatMap_append]
  have hdeps : (if r.deps then [letT (ascii "deps") (valToks (ascii "gcc")), letT (ascii "depfile") [.braced (ascii "out"), .chr 46, .chr 100]] else []).flatMap WLet.written =
      if r.deps then ascii " deps = gcc\n depfile = ${out}.d\n" else [] := by
    split
    · rw [t_deps]; simp
    · rfl
  have ho : toks [Tok.chr 32, Tok.bare (ascii "out")] = 32 :: ascii "$out" := by decide
  rw [hdeps]
  simp only [letT_text, cmd_text, toks_append, valToks_text, escText_plain _ hd, ho, t_cmd, t_desc, t_out, t_nl]
  simp

theorem name_wf (n : String) (h : (ascii n ≠ [] ∧ ∀ c ∈ ascii n, isAlnum c ∨ c ∈ ascii "_-.")) : wfName (ascii n) := h

theorem rule_wf (r : RuleText) (u : Bytes) (cs : List CWord) (hn : wfName r.name) (hd : Clean r.description) (hd0 : r.description ≠ [])
    (hd32 : r.description.head? ≠ some 32) (hu : u ≠ []) (hu32 : u.head? ≠ some 32) (hw : ∀ w ∈ CWord.text u :: cs, CWord.ok w) :
    File.wf (ruleItems r (.text u :: cs)) := by
  have hout : ∀ c ∈ ascii "out", simpleChar c := by simp only [simpleChar]; decide
  have houtn : ∀ c ∈ ascii "out", nameChar c := by simp only [nameChar]; decide
  intro i hi
  simp only [ruleItems, List.mem_cons, List.not_mem_nil, or_false] at hi
  rcases hi with rfl | rfl
  · refine ⟨by simp, hn, fun l hl => ?_⟩
    simp only [ruleLets, List.mem_append, List.mem_cons, List.not_mem_nil, or_false] at hl
    rcases hl with (rfl | hl) | rfl
    · obtain ⟨rest, hrest⟩ := cmdToks_first u cs
      refine ⟨by simp [letT], rfl, name_wf "command" (by decide), cmd_wf _ hw, ?_⟩
      rw [letT, hrest]
      exact start_wf hu hu32 rest
    · split at hl
      · simp only [List.mem_cons, List.not_mem_nil, or_false] at hl
        rcases hl with rfl | rfl
        · refine ⟨by simp [letT], rfl, name_wf "deps" (by decide), valToks_wf ?_ (by decide)⟩
          unfold Clean; decide
        · exact ⟨by simp [letT], rfl, name_wf "depfile" (by decide), ⟨houtn, by decide, by decide, by decide, by decide, trivial⟩, by simp [wfStart, letT]⟩
      · simp at hl
    · refine ⟨by simp [letT], rfl, name_wf "description" (by decide), wfToks_val hd _ ?_, start_wf hd0 hd32 _⟩
      exact ⟨by decide, by decide, by decide, hout, by simp [toks], trivial⟩
  · intro g hg; cases hg

/-! ### The whole file -/

inductive X
  | assign (n v : Bytes)
  | rule (n : Bytes) (ls : List Let)
  | edge (e : BEdge)
  | default (ps : List Bytes)

def X.stmt : X → Stmt
  | .assign n v => .assign ⟨n, lit v⟩
  | .rule n ls => .rule n ls
  | .edge e => edgeStmt e
  | .default ps => .default (ps.map lit)

def ruleX (r : RuleText) (cs : List CWord) : X := .rule r.name ((ruleLets r.deps r.description cs).map WLet.meaning)

def tgtItems : Tgt → File
  | .custom t => customItems t
  | .alias t => aliasItems t
  | .build t => targetItems t

def tgtXs : Tgt → List X
  | .custom t => .edge (customEdge t (shellText t.cmdline)) :: if t.byDefault then [.default t.outs] else []
  | .alias t => [.edge (aliasEdge t)]
  | .build t => (if 1 < t.order.length then [.edge (orderEdge t)] else []) ++ t.sources.map (fun s => .edge (sourceEdge t s (s.args.map shellText)))
    ++ [.edge (linkEdge t (t.linkArgs.map shellText))] ++ if t.byDefault then [.default [t.path]] else []

def assignW (n v : Bytes) : Item := .stmt (.assign n [.sp] [.sp] (valToks v) .lf)
def commentW (s : Bytes) : Item := .filler (.comment ⟨none, s, .lf⟩)

def regenEdge (deps : List Bytes) : BEdge := ⟨[ascii "build.ninja"], ascii "REGENERATE_BUILD", deps, [], [], [(ascii "pool", ascii "console")]⟩
def phonyEdge (n : Bytes) : BEdge := ⟨[n], ascii "phony", [], [], [], []⟩

def regenLets (cmd : List Bytes) : List WLet :=
  [letT (ascii "command") (valToks (shellText cmd)), letT (ascii "description") (valToks (ascii "Regenerating build files.")),
   letT (ascii "generator") (valToks (ascii "1"))]
def customLets : List WLet :=
  [letT (ascii "command") [.bare (ascii "COMMAND")], letT (ascii "description") [.bare (ascii "COMMAND")], letT (ascii "restat") (valToks (ascii "1"))]
def customDepLets : List WLet :=
  [letT (ascii "command") [.bare (ascii "COMMAND")], letT (ascii "description") [.bare (ascii "COMMAND")], letT (ascii "deps") (valToks (ascii "gcc")),
   letT (ascii "depfile") [.bare (ascii "DEPFILE")], letT (ascii "restat") (valToks (ascii "1"))]

def headItems (name : Bytes) (regen deps : List Bytes) (stale : Bool) : File :=
  [commentW (ascii " This is the build file for project \"" ++ name ++ ascii "\""), commentW (ascii " It is autogenerated by the muon build system."),
   assignW (ascii "ninja_required_version") (ascii "1.7.1"), assignW (ascii "builddir") (ascii ".muon"), emptyW,
   ruleW (ascii "REGENERATE_BUILD") (regenLets regen), emptyW, .stmt (edgeW (regenEdge deps) [.sp] false), emptyW,
   ruleW (ascii "CUSTOM_COMMAND") customLets, emptyW, ruleW (ascii "CUSTOM_COMMAND_DEP") customDepLets, emptyW]
  ++ if stale then [.stmt (edgeW (phonyEdge (ascii "build_always_stale")) [] false), emptyW] else []

def headXs (regen deps : List Bytes) (stale : Bool) : List X :=
  [.assign (ascii "ninja_required_version") (ascii "1.7.1"), .assign (ascii "builddir") (ascii ".muon"),
   .rule (ascii "REGENERATE_BUILD") ((regenLets regen).map WLet.meaning), .edge (regenEdge deps),
   .rule (ascii "CUSTOM_COMMAND") (customLets.map WLet.meaning), .rule (ascii "CUSTOM_COMMAND_DEP") (customDepLets.map WLet.meaning)]
  ++ if stale then [.edge (phonyEdge (ascii "build_always_stale"))] else []

def tailItems (d : Bool) : File := if d then [] else [.stmt (edgeW (phonyEdge (ascii "muon_do_nothing")) [] false), defaultW [ascii "muon_do_nothing"]]
def tailXs (d : Bool) : List X := if d then [] else [.edge (phonyEdge (ascii "muon_do_nothing")), .default [ascii "muon_do_nothing"]]

def buildItems (b : Build) (css : List (List CWord)) : File :=
  headItems b.name b.regenCmd b.regenDeps (b.targets.any Tgt.isStale) ++ (b.rules.zip css).flatMap (fun r => ruleItems r.1 r.2)
  ++ [commentW (ascii " targets"), emptyW] ++ b.targets.flatMap tgtItems ++ tailItems (b.targets.any Tgt.isDefault)

def buildXs (b : Build) (css : List (List CWord)) : List X :=
  headXs b.regenCmd b.regenDeps (b.targets.any Tgt.isStale) ++ (b.rules.zip css).map (fun r => ruleX r.1 r.2) ++ b.targets.flatMap tgtXs
  ++ tailXs (b.targets.any Tgt.isDefault)

theorem written_append (a b : File) : File.written (a ++ b) = File.written a ++ File.written b := by simp [File.written]
theorem written_cons (i : Item) (f : File) : File.written (i :: f) = i.written ++ File.written f := by simp [File.written]
theorem written_nil : File.written [] = [] := rfl
theorem wf_append {a b : File} (ha : File.wf a) (hb : File.wf b) : File.wf (a ++ b) := by
  intro i hi
  rcases List.mem_append.1 hi with hi | hi
  · exact ha i hi
  · exact hb i hi
theorem wf_cons {i : Item} {f : File} (hi : i.wf) (hf : File.wf f) : File.wf (i :: f) := by
  intro j hj
  rcases List.mem_cons.1 hj with rfl | hj
  · exact hi
  · exact hf j hj
theorem wf_nil : File.wf [] := by intro i hi; cases hi
theorem wf_flatMap {α : Type} (f : α → File) (l : List α) (h : ∀ x ∈ l, File.wf (f x)) : File.wf (l.flatMap f) := by
  intro i hi
  obtain ⟨x, hx, hi⟩ := List.mem_flatMap.1 hi
  exact h x hx i hi
theorem meaning_append (a b : File) : File.meaning (a ++ b) = File.meaning a ++ File.meaning b := by simp [File.meaning]
theorem meaning_cons (i : Item) (f : File) : File.meaning (i :: f) = i.meaning.toList ++ File.meaning f := by
  simp only [File.meaning, List.filterMap_cons]
  cases i.meaning <;> rfl
theorem meaning_nil : File.meaning [] = [] := rfl
theorem meaning_flatMap {α : Type} (f : α → File) (l : List α) : File.meaning (l.flatMap f) = l.flatMap (fun x => File.meaning (f x)) := by
  induction l with
  | nil => rfl
  | cons x l ih => rw [List.flatMap_cons, meaning_append, ih, List.flatMap_cons]

theorem textAll_ok {α : Type} (f : α → Res Bytes) (g : α → File) : ∀ (l : List α), (∀ x ∈ l, f x = .ok (File.written (g x))) →
    textAll f l = .ok (File.written (l.flatMap g))
  | [], _ => rfl
  | x :: l, h => by
    rw [textAll, h x (by simp), Res.ok_bind, textAll_ok f g l (fun y hy => h y (by simp [hy])), Res.ok_bind, List.flatMap_cons, written_append]

theorem assignW_text (n v : Bytes) (hv : 36 ∉ v) : (assignW n v).written = n ++ ascii " = " ++ v ++ [10] := by
  simp only [assignW, stmt_text, WStmt.written, sp_text, valToks_text, escText_plain v hv, Eol.written]
  rw [t_eq, show ascii "=" = [61] from by decide]; simp
theorem commentW_text (s : Bytes) : (commentW s).written = ascii "#" ++ s ++ [10] := by
  simp [commentW, Item.written, Filler.written, Comment.written, Eol.written]

theorem shellText_dollar {as : List Bytes} (h : ∀ a ∈ as, 36 ∉ a) : 36 ∉ shellText as := by
  intro h0
  rcases words_mem _ _ _ h0 with h0 | ⟨a, ha, h0⟩
  · cases h0
  · rcases shellEscape_mem a _ h0 with h1 | h1 | h1
    · exact h a ha h1
    · cases h1
    · cases h1

theorem joinShell_ok {as : List Bytes} (h : ∀ a ∈ as, Clean a) : (joinArgsShell as >>= cstr) = .ok (shellText as) := by
  have hj := joinArgsFrom_ok (fun s => Res.ok (shellEscape s)) shellEscape as.length as 0 [] (fun a _ => rfl) (by simp)
  rw [joinArgsShell, hj, Res.ok_bind, List.nil_append]
  exact cstr_ok (fun h0 => shellText_clean h 0 h0 (by decide))

theorem t_head1 : ascii "# This is the build file for project \"" = ascii "#" ++ ascii " This is the build file for project \"" := by decide
theorem t_head2 : ascii "\"\n# It is autogenerated by the muon build system.\nninja_required_version = 1.7.1\nbuilddir = .muon\n\n" =
    ascii "\"" ++ [10] ++ ((commentW (ascii " It is autogenerated by the muon build system.")).written
      ++ (assignW (ascii "ninja_required_version") (ascii "1.7.1")).written ++ (assignW (ascii "builddir") (ascii ".muon")).written ++ [10]) := by decide +kernel
theorem t_head3 : ascii "rule REGENERATE_BUILD\n command = " = ascii "rule " ++ ascii "REGENERATE_BUILD" ++ [10] ++ (32 :: (ascii "command" ++ [32, 61, 32])) := by decide
theorem t_head4 : ascii "\n description = Regenerating build files.\n generator = 1\n\n" =
    [10] ++ ((letT (ascii "description") (valToks (ascii "Regenerating build files."))).written ++ (letT (ascii "generator") (valToks (ascii "1"))).written ++ [10]) := by decide +kernel
theorem t_head5 : ascii "build build.ninja: REGENERATE_BUILD " = ascii "build " ++ ninjaText [ascii "build.ninja"] ++ ascii ": " ++ ascii "REGENERATE_BUILD" ++ [32] := by decide
theorem t_head6 : ascii "\n pool = console\n\n" = [10] ++ ([32] ++ ascii "pool" ++ ascii " = " ++ escText [36] 36 (ascii "console") ++ [10]) ++ [10] := by decide
theorem t_head7 : customRules = (ruleW (ascii "CUSTOM_COMMAND") customLets).written ++ [10] ++ (ruleW (ascii "CUSTOM_COMMAND_DEP") customDepLets).written ++ [10] := by decide +kernel
theorem t_head8 : ascii "build build_always_stale: phony\n\n" = (edgeW (phonyEdge (ascii "build_always_stale")) [] false).written ++ [10] := by decide +kernel
theorem t_tail : ascii "build muon_do_nothing: phony\ndefault muon_do_nothing\n" =
    (edgeW (phonyEdge (ascii "muon_do_nothing")) [] false).written ++ (defaultW [ascii "muon_do_nothing"]).written := by decide +kernel
theorem t_targets : ascii "# targets\n\n" = (commentW (ascii " targets")).written ++ [10] := by decide +kernel

/-- The text of the first lines. -/
def headText (name regen deps : Bytes) (stale : Bool) : Bytes :=
  ascii "# This is the build file for project \"" ++ name ++ ascii "\"\n# It is autogenerated by the muon build system.\nninja_required_version = 1.7.1\nbuilddir = .muon\n\n"
    ++ ascii "rule REGENERATE_BUILD\n command = " ++ regen ++ ascii "\n description = Regenerating build files.\n generator = 1\n\n"
    ++ ascii "build build.ninja: REGENERATE_BUILD " ++ deps ++ ascii "\n pool = console\n\n"
    ++ customRules
    ++ (if stale then ascii "build build_always_stale: phony\n\n" else [])

theorem head_text (name : Bytes) (regen deps : List Bytes) (stale : Bool) (hr : 36 ∉ shellText regen) :
    headText name (shellText regen) (ninjaText deps) stale = File.written (headItems name regen deps stale) := by
  have hs : File.written (if stale then [.stmt (edgeW (phonyEdge (ascii "build_always_stale")) [] false), emptyW] else []) =
      if stale then ascii "build build_always_stale: phony\n\n" else [] := by
    split
    · rw [t_head8, written_cons, written_cons, written_nil, stmt_text, emptyW_text]; rfl
    · rfl
  have hi : insText (regenEdge deps) false = [] := by
    simp [insText, regenEdge]
  rw [headItems, written_append, hs]
  simp only [written_cons, written_nil, emptyW_text, stmt_text, edgeW_text, hi]
  rw [commentW_text (ascii " This is the build file for project \"" ++ name ++ ascii "\"")]
  rw [ruleW_text (ascii "REGENERATE_BUILD")]
  simp only [regenLets, List.flatMap_cons, List.flatMap_nil, List.append_nil]
  rw [letT_text (ascii "command"), valToks_text, escText_plain _ hr]
  simp only [headText]
  rw [t_head1, t_head2, t_head3, t_head4, t_head5, t_head6, t_head7]
  simp only [regenEdge, List.flatMap_cons, List.flatMap_nil, List.append_nil, sp_text, List.append_assoc, List.cons_append, List.nil_append]

theorem tgt_text (t : Tgt) (h1 : ∀ p ∈ Tgt.outs t, CleanPath p) (h2 : ∀ p ∈ Tgt.ins t, CleanPath p) (h3 : ∀ a ∈ Tgt.args t, Clean a)
    (h4 : ∀ k d, t = .custom k → k.depfile = some d → Clean d ∧ 36 ∉ d ∧ d.head? ≠ some 32) (h5 : ∀ r ∈ Tgt.rules t, wfName r) :
    t.text = .ok (File.written (tgtItems t)) := by
  cases t with
  | custom t =>
    exact custom_text t h1 (fun p hp => h2 p (List.mem_append.2 (Or.inl hp))) (fun p hp => h2 p (List.mem_append.2 (Or.inr hp))) h3
      (fun d hd => ⟨(h4 t d rfl hd).1, (h4 t d rfl hd).2.1⟩)
  | alias t => exact alias_text t (h1 _ (by simp [Tgt.outs])) h2
  | build t =>
    simp only [Tgt.outs, Tgt.ins, Tgt.args, Tgt.rules] at h1 h2 h3 h5
    have hr : wfName (t.rulePrefix ++ ascii "_" ++ t.linker ++ ascii "_linker") := h5 _ (by simp)
    refine target_text t (h1 _ (by simp)) (fun p hp => h2 p (by simp [hp])) (fun p hp => h2 p (by simp [hp])) (fun p hp => h2 p (by simp [hp]))
      (fun h0 => wfName_nul hr (by simp [h0])) ?_ ?_
    · intro s hs
      refine ⟨h2 _ ?_, h1 _ ?_, wfName_nul (h5 _ ?_), ?_⟩
      · simp only [List.mem_append, List.mem_map]; exact Or.inl (Or.inl (Or.inr ⟨s, hs, rfl⟩))
      · simp only [List.mem_append, List.mem_map]; exact Or.inl (Or.inr ⟨s, hs, rfl⟩)
      · simp only [List.mem_append, List.mem_map]; exact Or.inl ⟨s, hs, rfl⟩
      · intro as has a ha
        refine h3 a (List.mem_append.2 (Or.inl (List.mem_flatMap.2 ⟨s, hs, ?_⟩)))
        rw [has]; exact ha
    · intro as has a ha
      refine h3 a (List.mem_append.2 (Or.inr ?_))
      rw [has]; exact ha

theorem tail_text (d : Bool) : (if d then [] else ascii "build muon_do_nothing: phony\ndefault muon_do_nothing\n") = File.written (tailItems d) := by
  cases d with
  | true => rfl
  | false => rw [if_neg (by simp), t_tail, tailItems, if_neg (by simp), written_cons, written_cons, written_nil, stmt_text, List.append_nil]

/-- The rules, given what their commands are. -/
def RulesOk (rs : List RuleText) (css : List (List CWord)) : Prop :=
  rs.length = css.length ∧ ∀ x ∈ rs.zip css, wfName x.1.name ∧ Clean x.1.description ∧ 36 ∉ x.1.description ∧ x.1.description ≠ [] ∧ x.1.description.head? ≠ some 32 ∧
    x.1.command = x.2.map CWord.word ∧ (∃ u cs, x.2 = .text u :: cs ∧ u ≠ [] ∧ u.head? ≠ some 32) ∧ ∀ w ∈ x.2, CWord.ok w

theorem rulesOk_of {rs : List RuleText} (h : ∀ r ∈ rs, Manifest.Spec.wfName r.name ∧ Clean r.description ∧ 36 ∉ r.description ∧ r.description ≠ [] ∧ r.description.head? ≠ some 32 ∧
    ∃ u cs, r.command = (CWord.text u :: cs).map CWord.word ∧ u ≠ [] ∧ u.head? ≠ some 32 ∧ ∀ w ∈ CWord.text u :: cs, CWord.ok w) :
    ∃ css, RulesOk rs css := by
  induction rs with
  | nil => exact ⟨[], rfl, by simp⟩
  | cons r rs ih =>
    obtain ⟨css, h1, h2⟩ := ih (fun x hx => h x (by simp [hx]))
    obtain ⟨a1, a2, a3, a4, a5, u, cs, a6, a7, a8, a9⟩ := h r (by simp)
    refine ⟨(.text u :: cs) :: css, by simp [h1], fun x hx => ?_⟩
    rw [List.zip_cons_cons] at hx
    rcases List.mem_cons.1 hx with rfl | hx
    · exact ⟨a1, a2, a3, a4, a5, a6, ⟨u, cs, rfl, a7, a8⟩, a9⟩
    · exact h2 x hx

theorem rules_text : ∀ (rs : List RuleText) (css : List (List CWord)), RulesOk rs css →
    textAll RuleText.text rs = .ok (File.written ((rs.zip css).flatMap (fun r => ruleItems r.1 r.2)))
  | [], [], _ => rfl
  | [], _ :: _, h => by have := h.1; simp at this
  | _ :: _, [], h => by have := h.1; simp at this
  | r :: rs, cs :: css, h => by
    have h1 := h.2 (r, cs) (by simp)
    obtain ⟨a1, a2, a3, a4, a5, a6, a7, a8⟩ := h1
    have ih := rules_text rs css ⟨by have := h.1; simpa using this, fun x hx => h.2 x (by simp [hx])⟩
    rw [textAll, rule_text r cs a1 a3 a6 a8, Res.ok_bind, ih, Res.ok_bind, List.zip_cons_cons, List.flatMap_cons, written_append]

theorem build_text (b : Build) (c : Bytes → Bytes) (hg : Good b c) (css : List (List CWord)) (hr : RulesOk b.rules css) :
    b.text = .ok (File.written (buildItems b css)) := by
  have h1 : cstr b.name = .ok b.name := cstr_ok (fun h0 => hg.name 0 h0 (by decide))
  have h2 := joinShell_ok (fun a ha => (hg.regenCmd.2 a ha).1)
  have h3 := joinNinja_ok hg.regenDeps
  have hrn : ∀ n ∈ b.rules.map (·.name), wfName n := by
    intro n hn
    obtain ⟨r, hr, rfl⟩ := List.mem_map.1 hn
    exact (hg.rules r hr).1
  have h4 : textAll Tgt.text b.targets = .ok (File.written (b.targets.flatMap tgtItems)) := textAll_ok _ _ _ (fun t ht =>
    tgt_text t (hg.outs t ht).2 (hg.ins t ht) (hg.args t ht) (hg.depfile t ht) (fun r hr => hrn r (hg.has t ht r hr)))
  rw [Build.text, h1, Res.ok_bind, h2, Res.ok_bind, h3, Res.ok_bind, rules_text _ _ hr, Res.ok_bind, h4, Res.ok_bind]
  refine congrArg Res.ok ?_
  have h5 := head_text b.name b.regenCmd b.regenDeps (b.targets.any Tgt.isStale) (shellText_dollar (fun a ha => (hg.regenCmd.2 a ha).2))
  simp only [buildItems, written_append, written_cons, written_nil, emptyW_text, List.append_nil]
  rw [← h5, headText, ← tail_text, t_targets]

/-! ### The file is well-formed, and what it says -/

theorem emptyW_wf : emptyW.wf := by intro g hg; cases hg
theorem commentW_wf {s : Bytes} (h : Clean s) : (commentW s).wf :=
  ⟨(fun g hg => by cases hg), fun b hb => ⟨fun h' => h b hb (by rw [h']; decide), fun h' => h b hb (by rw [h']; decide)⟩⟩
theorem defaultW_wf {ps : List Bytes} (h : ∀ p ∈ ps, CleanPath p) : (defaultW ps).wf := ⟨by simp, pathsW_wf _ (Or.inl rfl) _ h⟩
theorem ite_wf {p : Prop} [Decidable p] {a b : File} (ha : p → File.wf a) (hb : ¬ p → File.wf b) : File.wf (if p then a else b) := by
  split
  · exact ha ‹_›
  · exact hb ‹_›

theorem wfName_ascii (s : String) (h : ascii s ≠ [] ∧ ∀ c ∈ ascii s, isAlnum c ∨ c ∈ ascii "_-.") : wfName (ascii s) := h

theorem shellText_ok {as : List Bytes} (h : ∀ a ∈ as, Clean a) : Clean (shellText as) ∧ (shellText as).head? ≠ some 32 := ⟨shellText_clean h, shellText_start as⟩

theorem cleanPath_of {s : String} (h : ascii s ≠ [] ∧ ∀ c ∈ ascii s, c ∉ ([0, 10, 13, 124, 255] : Bytes)) : CleanPath (ascii s) := h

theorem customEdge_ok (t : Custom) (h0 : t.outs ≠ []) (ho : ∀ p ∈ t.outs, CleanPath p) (hi : ∀ p ∈ t.ins ++ t.depends, CleanPath p)
    (ha : ∀ a ∈ t.cmdline, Clean a) (hf : ∀ d, t.depfile = some d → Clean d ∧ 36 ∉ d ∧ d.head? ≠ some 32) :
    EdgeOk (customEdge t (shellText t.cmdline)) := by
  refine ⟨h0, ho, (fun p hp => hi p (List.mem_append.2 (Or.inl hp))), ?_, by simp [customEdge], ?_, ?_⟩
  · intro p hp
    rcases List.mem_append.1 hp with hp | hp
    · exact hi p (List.mem_append.2 (Or.inr hp))
    · split at hp
      · simp at hp; subst hp; exact stale_clean
      · simp at hp
  · simp only [customEdge]
    split
    · exact wfName_ascii _ (by decide)
    · exact wfName_ascii _ (by decide)
  · intro v hv
    simp only [customEdge, List.mem_cons, List.mem_append, List.mem_map, Option.mem_toList] at hv
    rcases hv with rfl | ⟨d, hd, rfl⟩ | hv
    · exact ⟨wfName_ascii _ (by decide), shellText_ok ha⟩
    · exact ⟨wfName_ascii _ (by decide), (hf d hd).1, (hf d hd).2.2⟩
    · split at hv
      · simp at hv; subst hv; exact ⟨wfName_ascii _ (by decide), (by unfold Clean; decide), by decide⟩
      · simp at hv

theorem item_wf {e : BEdge} (h : EdgeOk e) (gr : Gap) (hg : e.ins = [] ∨ gr ≠ []) (u : Bool) : (Item.stmt (edgeW e gr u)).wf := edgeW_wf h gr hg u

theorem sourceEdge_ok (t : Target) (s : Source) (hp : CleanPath t.path) (ho : ∀ p ∈ t.order, CleanPath p) (hs : CleanPath s.src) (hd : CleanPath s.dest)
    (hr : wfName s.rule) (ha : ∀ as, s.args = some as → ∀ a ∈ as, Clean a) : EdgeOk (sourceEdge t s (s.args.map shellText)) := by
  refine ⟨by simp [sourceEdge], by simpa [sourceEdge] using hd, by simpa [sourceEdge] using hs, ?_, ?_, hr, ?_⟩
  · intro p h
    simp only [sourceEdge] at h
    split at h
    · simp at h; subst h; exact orderName_clean hp
    · simp at h
  · intro p h
    simp only [sourceEdge] at h
    split at h
    · simp at h
    · exact ho p h
  · intro v hv
    simp only [sourceEdge, List.mem_map, Option.mem_toList, Option.map_eq_some_iff] at hv
    obtain ⟨a, ⟨as, has, rfl⟩, rfl⟩ := hv
    exact ⟨wfName_ascii _ (by decide), shellText_ok (ha as has)⟩

theorem linkEdge_ok (t : Target) (hp : CleanPath t.path) (ho : ∀ p ∈ t.order, CleanPath p) (hb : ∀ p ∈ t.objects, CleanPath p)
    (hi : ∀ p ∈ t.implicit, CleanPath p) (hs : ∀ s ∈ t.sources, CleanPath s.dest)
    (hr : wfName (t.rulePrefix ++ ascii "_" ++ t.linker ++ ascii "_linker")) (ha : ∀ as, t.linkArgs = some as → ∀ a ∈ as, Clean a) :
    EdgeOk (linkEdge t (t.linkArgs.map shellText)) := by
  refine ⟨by simp [linkEdge], by simpa [linkEdge] using hp, ?_, ?_, ?_, hr, ?_⟩
  · intro p h
    rcases List.mem_append.1 h with h | h
    · exact hb p h
    · obtain ⟨s, hs', rfl⟩ := List.mem_map.1 h
      exact hs s hs'
  · intro p h
    rcases List.mem_append.1 h with h | h
    · split at h
      · simp at h; subst h; exact orderName_clean hp
      · simp at h
    · exact hi p h
  · intro p h
    simp only [linkEdge] at h
    split at h
    · simp at h
    · exact ho p h
  · intro v hv
    simp only [linkEdge, List.mem_map, Option.mem_toList, Option.map_eq_some_iff] at hv
    obtain ⟨a, ⟨as, has, rfl⟩, rfl⟩ := hv
    exact ⟨wfName_ascii _ (by decide), shellText_ok (ha as has)⟩

theorem tgt_wf (t : Tgt) (h0 : Tgt.outs t ≠ []) (h1 : ∀ p ∈ Tgt.outs t, CleanPath p) (h2 : ∀ p ∈ Tgt.ins t, CleanPath p) (h3 : ∀ a ∈ Tgt.args t, Clean a)
    (h4 : ∀ k d, t = .custom k → k.depfile = some d → Clean d ∧ 36 ∉ d ∧ d.head? ≠ some 32) (h5 : ∀ r ∈ Tgt.rules t, wfName r) : File.wf (tgtItems t) := by
  cases t with
  | custom t =>
    have he := customEdge_ok t h0 h1 h2 h3 (fun d hd => h4 t d rfl hd)
    refine wf_append (wf_append (wf_cons (item_wf he _ ?_ _) wf_nil) (ite_wf (fun _ => wf_cons (defaultW_wf h1) wf_nil) (fun _ => wf_nil))) (wf_cons emptyW_wf wf_nil)
    right; split <;> simp
  | alias t =>
    have he : EdgeOk (aliasEdge t) := ⟨by simp [aliasEdge], h1, by simp [aliasEdge], h2, by simp [aliasEdge], wfName_ascii _ (by decide), by simp [aliasEdge]⟩
    exact wf_cons (item_wf he _ (Or.inl rfl) _) (wf_cons emptyW_wf wf_nil)
  | build t =>
    simp only [Tgt.outs, Tgt.ins, Tgt.args, Tgt.rules] at h1 h2 h3 h5
    have hp : CleanPath t.path := h1 _ (by simp)
    have ho : ∀ p ∈ t.order, CleanPath p := fun p hp => h2 p (by simp [hp])
    have hdest : ∀ s ∈ t.sources, CleanPath s.dest := fun s hs => h1 _ (by
      simp only [List.mem_append, List.mem_map]; exact Or.inl (Or.inr ⟨s, hs, rfl⟩))
    refine wf_append (wf_append (wf_append (ite_wf (fun hm => wf_cons (item_wf ?_ _ (Or.inl rfl) _) wf_nil) (fun _ => wf_nil)) ?_) (wf_cons ?_ wf_nil))
      (ite_wf (fun _ => wf_cons (defaultW_wf (by simpa using hp)) (wf_cons emptyW_wf wf_nil)) (fun _ => wf_nil))
    · exact ⟨by simp [orderEdge], by simpa [orderEdge] using orderName_clean hp, by simp [orderEdge], by simp [orderEdge], ho, wfName_ascii _ (by decide), by simp [orderEdge]⟩
    · intro i hi
      obtain ⟨s, hs, rfl⟩ := List.mem_map.1 hi
      refine item_wf (sourceEdge_ok t s hp ho (h2 _ ?_) (hdest s hs) (h5 _ ?_) ?_) _ (Or.inr (by simp)) _
      · simp only [List.mem_append, List.mem_map]; exact Or.inl (Or.inl (Or.inr ⟨s, hs, rfl⟩))
      · simp only [List.mem_append, List.mem_map]; exact Or.inl ⟨s, hs, rfl⟩
      · intro as has a ha
        refine h3 a (List.mem_append.2 (Or.inl (List.mem_flatMap.2 ⟨s, hs, ?_⟩)))
        rw [has]; exact ha
    · refine item_wf (linkEdge_ok t hp ho (fun p hp => h2 p (by simp [hp])) (fun p hp => h2 p (by simp [hp])) hdest (h5 _ (by simp)) ?_) _ ?_ _
      · intro as has a ha
        refine h3 a (List.mem_append.2 (Or.inr ?_))
        rw [has]; exact ha
      · right; split <;> simp

theorem letT_wf {n : Bytes} {ts : List Tok} (h1 : wfName n) (h2 : wfValue ts) : (letT n ts).wf := ⟨by simp [letT], rfl, h1, h2⟩

theorem val_wf (s : String) (h : (∀ c ∈ ascii s, c ∉ ([0, 10, 13, 255] : Bytes)) ∧ (ascii s).head? ≠ some 32) : wfValue (valToks (ascii s)) := valToks_wf h.1 h.2
theorem bare_wf (s : String) (h : ascii s ≠ [] ∧ ∀ c ∈ ascii s, isAlnum c ∨ c ∈ ascii "_-") : wfValue [.bare (ascii s)] :=
  ⟨⟨h.1, h.2, by simp [toks], trivial⟩, by simp [wfStart]⟩

theorem phonyEdge_ok {n : Bytes} (h : CleanPath n) : EdgeOk (phonyEdge n) :=
  ⟨by simp [phonyEdge], by simpa [phonyEdge] using h, by simp [phonyEdge], by simp [phonyEdge], by simp [phonyEdge], wfName_ascii _ (by decide), by simp [phonyEdge]⟩

theorem head_wf (name : Bytes) (regen deps : List Bytes) (stale : Bool) (hn : Clean name) (hr : ∀ a ∈ regen, Clean a) (hd : ∀ p ∈ deps, CleanPath p) :
    File.wf (headItems name regen deps stale) := by
  have hc1 : Clean (ascii " This is the build file for project \"" ++ name ++ ascii "\"") := by
    intro c hc
    have k1 : Clean (ascii " This is the build file for project \"") := by unfold Clean; decide
    have k2 : Clean (ascii "\"") := by unfold Clean; decide
    rcases List.mem_append.1 hc with hc | hc
    · rcases List.mem_append.1 hc with hc | hc
      · exact k1 c hc
      · exact hn c hc
    · exact k2 c hc
  have hc2 : Clean (ascii " It is autogenerated by the muon build system.") := by unfold Clean; decide
  have hreg : EdgeOk (regenEdge deps) := by
    refine ⟨by simp [regenEdge], ?_, hd, by simp [regenEdge], by simp [regenEdge], wfName_ascii _ (by decide), ?_⟩
    · intro p hp; simp [regenEdge] at hp; subst hp; exact cleanPath_of (by decide)
    · intro v hv; simp [regenEdge] at hv; subst hv; exact ⟨wfName_ascii _ (by decide), (by unfold Clean; decide), by decide⟩
  have hassign : ∀ n v : String, (ascii n ≠ [] ∧ ∀ c ∈ ascii n, isAlnum c ∨ c ∈ ascii "_-.") → ascii n ∉ keywords →
      ((∀ c ∈ ascii v, c ∉ ([0, 10, 13, 255] : Bytes)) ∧ (ascii v).head? ≠ some 32) → (assignW (ascii n) (ascii v)).wf :=
    fun n v h1 h2 h3 => ⟨h1, h2, val_wf v h3⟩
  refine wf_append ?_ (ite_wf (fun _ => wf_cons (item_wf (phonyEdge_ok (cleanPath_of (by decide))) _ (Or.inl rfl) _) (wf_cons emptyW_wf wf_nil)) (fun _ => wf_nil))
  refine wf_cons (commentW_wf hc1) (wf_cons (commentW_wf hc2) (wf_cons (hassign _ _ (by decide) (by decide) (by decide)) (wf_cons (hassign _ _ (by decide) (by decide) (by decide))
    (wf_cons emptyW_wf (wf_cons ?_ (wf_cons emptyW_wf (wf_cons (item_wf hreg _ (Or.inr (by simp)) _) (wf_cons emptyW_wf (wf_cons ?_ (wf_cons emptyW_wf
    (wf_cons ?_ (wf_cons emptyW_wf wf_nil))))))))))))
  · refine ⟨by simp, wfName_ascii _ (by decide), fun l hl => ?_⟩
    simp only [regenLets, List.mem_cons, List.not_mem_nil, or_false] at hl
    rcases hl with rfl | rfl | rfl
    · exact letT_wf (wfName_ascii _ (by decide)) (valToks_wf (shellText_clean hr) (shellText_start _))
    · exact letT_wf (wfName_ascii _ (by decide)) (val_wf _ (by decide))
    · exact letT_wf (wfName_ascii _ (by decide)) (val_wf _ (by decide))
  · refine ⟨by simp, wfName_ascii _ (by decide), fun l hl => ?_⟩
    simp only [customLets, List.mem_cons, List.not_mem_nil, or_false] at hl
    rcases hl with rfl | rfl | rfl
    · exact letT_wf (wfName_ascii _ (by decide)) (bare_wf _ (by decide))
    · exact letT_wf (wfName_ascii _ (by decide)) (bare_wf _ (by decide))
    · exact letT_wf (wfName_ascii _ (by decide)) (val_wf _ (by decide))
  · refine ⟨by simp, wfName_ascii _ (by decide), fun l hl => ?_⟩
    simp only [customDepLets, List.mem_cons, List.not_mem_nil, or_false] at hl
    rcases hl with rfl | rfl | rfl | rfl | rfl
    · exact letT_wf (wfName_ascii _ (by decide)) (bare_wf _ (by decide))
    · exact letT_wf (wfName_ascii _ (by decide)) (bare_wf _ (by decide))
    · exact letT_wf (wfName_ascii _ (by decide)) (val_wf _ (by decide))
    · exact letT_wf (wfName_ascii _ (by decide)) (bare_wf _ (by decide))
    · exact letT_wf (wfName_ascii _ (by decide)) (val_wf _ (by decide))

theorem build_wf (b : Build) (c : Bytes → Bytes) (hg : Good b c) (css : List (List CWord)) (hr : RulesOk b.rules css) : File.wf (buildItems b css) := by
  have hrn : ∀ n ∈ b.rules.map (·.name), wfName n := by
    intro n hn
    obtain ⟨r, hr, rfl⟩ := List.mem_map.1 hn
    exact (hg.rules r hr).1
  refine wf_append (wf_append (wf_append (wf_append (head_wf _ _ _ _ hg.name (fun a ha => (hg.regenCmd.2 a ha).1) hg.regenDeps) (wf_flatMap _ _ ?_))
    (wf_cons (commentW_wf (by unfold Clean; decide)) (wf_cons emptyW_wf wf_nil))) (wf_flatMap _ _ ?_)) ?_
  · intro x hx
    obtain ⟨a1, a2, a3, a4, a5, a6, ⟨u, cs, a7, a8, a9⟩, a10⟩ := hr.2 x hx
    rw [a7] at a10 ⊢
    exact rule_wf x.1 u cs a1 a2 a4 a5 a8 a9 a10
  · intro t ht
    exact tgt_wf t (hg.outs t ht).1 (hg.outs t ht).2 (hg.ins t ht) (hg.args t ht) (hg.depfile t ht) (fun r hr => hrn r (hg.has t ht r hr))
  · exact ite_wf (fun _ => wf_nil) (fun _ => wf_cons (item_wf (phonyEdge_ok (cleanPath_of (by decide))) _ (Or.inl rfl) _)
      (wf_cons (defaultW_wf (by intro p hp; simp at hp; subst hp; exact cleanPath_of (by decide))) wf_nil))

theorem edge_says (e : BEdge) (gr : Gap) (u : Bool) (h : u = false → e.imp = []) : (Item.stmt (edgeW e gr u)).meaning = some (edgeStmt e) := by
  rw [Item.meaning, edgeW_meaning e gr u h]
theorem default_says (ps : List Bytes) : (defaultW ps).meaning = some (.default (ps.map lit)) := by
  rw [defaultW, Item.meaning, WStmt.meaning, pathsW_meaning]
theorem assign_says (n v : Bytes) : (assignW n v).meaning = some (.assign ⟨n, lit v⟩) := by
  rw [assignW, Item.meaning, WStmt.meaning, valToks_parts]
theorem rule_says (n : Bytes) (ls : List WLet) : (ruleW n ls).meaning = some (.rule n (ls.map WLet.meaning)) := rfl
theorem empty_says : emptyW.meaning = none := rfl
theorem comment_says (s : Bytes) : (commentW s).meaning = none := rfl

theorem ite_says {p : Prop} [Decidable p] {a : File} {xs : List X} (h : File.meaning a = xs.map X.stmt) :
    File.meaning (if p then a else []) = (if p then xs else []).map X.stmt := by
  split
  · exact h
  · rfl

theorem tgt_says (t : Tgt) : File.meaning (tgtItems t) = (tgtXs t).map X.stmt := by
  cases t with
  | custom t =>
    rw [tgtItems, customItems, tgtXs]
    simp only [meaning_append, meaning_cons, meaning_nil, empty_says, Option.toList_none, List.append_nil, List.map_cons]
    rw [edge_says _ _ _ (by simp), ite_says (xs := [.default t.outs]) (by simp [meaning_cons, meaning_nil, default_says, X.stmt])]
    rfl
  | alias t =>
    simp only [tgtItems, aliasItems, tgtXs, meaning_cons, meaning_nil, empty_says]
    rw [edge_says _ _ _ (by simp)]; rfl
  | build t =>
    simp only [tgtItems, targetItems, tgtXs, meaning_append, List.map_append]
    congr 1
    · congr 1
      · congr 1
        · exact ite_says (by rw [meaning_cons, edge_says _ _ _ (by simp [orderEdge])]; rfl)
        · induction t.sources with
          | nil => rfl
          | cons s ss ih =>
            rw [List.map_cons, meaning_cons, ih, sourceItem, edge_says]
            · rfl
            · intro h; simp only [decide_eq_false_iff_not] at h; simp [sourceEdge, h]
      · rw [meaning_cons, linkItem, edge_says]
        · rfl
        · intro h; simpa using h
    · exact ite_says (by simp [meaning_cons, meaning_nil, default_says, X.stmt, empty_says])

theorem build_says (b : Build) (css : List (List CWord)) : File.meaning (buildItems b css) = (buildXs b css).map X.stmt := by
  simp only [buildItems, buildXs, meaning_append, List.map_append]
  have h1 : File.meaning (headItems b.name b.regenCmd b.regenDeps (b.targets.any Tgt.isStale)) = (headXs b.regenCmd b.regenDeps (b.targets.any Tgt.isStale)).map X.stmt := by
    rw [headItems, headXs, meaning_append, List.map_append, ite_says (xs := [.edge (phonyEdge (ascii "build_always_stale"))])]
    · congr 1
      simp only [meaning_cons, meaning_nil, empty_says, comment_says, assign_says, rule_says]
      rw [edge_says _ _ _ (by simp [regenEdge])]
      rfl
    · rw [meaning_cons, edge_says _ _ _ (by simp [phonyEdge]), meaning_cons, empty_says]; rfl
  have h2 : File.meaning ((b.rules.zip css).flatMap (fun r => ruleItems r.1 r.2)) = ((b.rules.zip css).map (fun r => ruleX r.1 r.2)).map X.stmt := by
    rw [meaning_flatMap]
    induction b.rules.zip css with
    | nil => rfl
    | cons x l ih => rw [List.flatMap_cons, ih, ruleItems, meaning_cons, meaning_cons, rule_says, empty_says]; rfl
  have h3 : File.meaning (b.targets.flatMap tgtItems) = (b.targets.flatMap tgtXs).map X.stmt := by
    rw [meaning_flatMap]
    induction b.targets with
    | nil => rfl
    | cons x l ih => rw [List.flatMap_cons, ih, tgt_says, List.flatMap_cons, List.map_append]
  have h4 : File.meaning (tailItems (b.targets.any Tgt.isDefault)) = (tailXs (b.targets.any Tgt.isDefault)).map X.stmt := by
    rw [tailItems, tailXs]
    split
    · rfl
    · rw [meaning_cons, edge_says _ _ _ (by simp [phonyEdge]), meaning_cons, default_says]; rfl
  rw [h1, h2, h3, h4]
  simp [meaning_cons, meaning_nil, empty_says, comment_says]

end Muon.Ninja
