import Verif.Manifest.Does
import Verif.Manifest.Halt
/-
C74-C76: reading ninja files.
-/
namespace Muon.Manifest
open Muon Esc Spec

/-! ### C74: the reader gets what is written, whatever the layout -/

/-- Every file that is written according to the grammar, in whatever layout, is read as what it says. -/
theorem read_written (f : File) (hf : f.wf) (hne : f.written ≠ []) : file f.written = .ok f.meaning := file_written f hf hne

/-- Reading a file that ends with a line end comes to an end. -/
theorem read_ends_partial (r : Bytes) (h : r.getLast? = some 10) : file r ≠ .bad := file_ne_bad r h

/-- A file with a comment in its last line, without line end, is read forever. -/
theorem read_ends_counterexample : file (ascii "build a: phony\n# end") = .bad := by decide +kernel

/-- A byte 0xff is the end of the file, and what is after it is not seen. -/
theorem read_ff_counterexample : file (ascii "build a: phony\n" ++ [255] ++ ascii "build b: phony\n") = file (ascii "build a: phony\n") := by decide +kernel

/-- A file without anything in it is refused. -/
theorem read_empty_counterexample : file [] = .error := rfl

/-- A file with a comment, both kinds of line ends, a line that goes on after `$`, escapes and variables. -/
def sampleFile : File :=
  [.filler (.comment ⟨none, ascii " c", .crlf⟩),
   .stmt (.assign (ascii "x") [.sp] [] [.chr 97, .esc 36, .bare (ascii "y"), .chr 33] .lf),
   .filler (.empty (some [.sp, .cont .crlf]) .lf),
   .stmt (.build [.sp] [([.chr 97, .esc 58], [])] (some ([], [([.chr 98], [.sp])])) [] (ascii "cc") [.sp]
     [([.chr 99, .braced (ascii "a.b")], [.sp, .sp]), ([.chr 100], [])] none (some ([.cont .lf], [([.chr 101], [])])) .crlf
     [⟨[⟨some [.sp], ascii "k", .lf⟩], [.sp, .sp], ascii "opt", [.sp], [.sp], [.chr 58, .chr 32, .cont .lf [.sp], .chr 124], .lf⟩])]

example : sampleFile.wf := by
  intro i hi
  simp only [sampleFile, List.mem_cons, List.not_mem_nil, or_false] at hi
  rcases hi with rfl | rfl | rfl | rfl
  · simp only [Item.wf, Filler.wf, Comment.wf]
    refine ⟨(fun g h => by cases h), by decide⟩
  · simp only [Item.wf, WStmt.wf, wfName, wfValue, wfToks, wfStart, nameChar, simpleChar]
    refine ⟨⟨by decide, by decide⟩, by decide, ⟨by decide, by simp, by decide, by decide, by decide, ?_, by decide, by simp, trivial⟩, by simp, by simp⟩
    intro c hc
    simp [toks, Tok.written] at hc
    subst hc
    decide
  · simp only [Item.wf, Filler.wf]
    intro g h; cases h; rfl
  · simp only [Item.wf, WStmt.wf, WPaths.wf, wfPath, wfToks, wfStart, wfName, Sec.wf, Sec.meaning, nameChar]
    refine ⟨by simp, ⟨⟨⟨by decide, by decide, by decide, trivial⟩, by simp, by simp⟩, Or.inl trivial⟩,
      ⟨⟨⟨⟨by decide, by decide, trivial⟩, by simp, by simp⟩, Or.inr rfl⟩, by simp⟩, Or.inl (by simp), ⟨by decide, by decide⟩, Or.inr (by simp),
      ⟨⟨⟨by decide, by decide, by decide, trivial⟩, by simp, by simp⟩, rfl, ⟨⟨by decide, by decide, trivial⟩, by simp, by simp⟩, Or.inl trivial⟩, trivial,
      ⟨⟨⟨⟨by decide, by decide, trivial⟩, by simp, by simp⟩, Or.inl trivial⟩, by simp⟩, ?_⟩
    intro l hl
    simp only [List.mem_cons, List.not_mem_nil, or_false] at hl
    subst hl
    simp only [WLet.wf, Comment.wf, wfName, wfValue, wfToks, wfStart, nameChar]
    refine ⟨?_, rfl, ⟨by decide, by decide⟩, ⟨by decide, by decide, by decide, by decide, by decide, by simp, by simp, by decide, by decide, trivial⟩, by simp, by simp⟩
    intro c hc
    simp only [List.mem_cons, List.not_mem_nil, or_false] at hc
    subst hc
    exact ⟨(fun g h => by cases h; rfl), by decide⟩

example : sampleFile.written = ascii "# c\r\nx =a$$$y!\n $\r\n\nbuild a$:|b :cc c${a.b}  d||$\ne\r\n #k\n  opt = : $\n |\n" := by decide
example : sampleFile.meaning =
    [.assign ⟨ascii "x", [.lit (ascii "a$"), .var (ascii "y"), .lit (ascii "!")]⟩,
     .build [[.lit (ascii "a:")]] [[.lit (ascii "b")]] (ascii "cc") [[.lit (ascii "c"), .var (ascii "a.b")], [.lit (ascii "d")]] []
       [[.lit (ascii "e")]] [⟨ascii "opt", [.lit (ascii ": |")]⟩]] := by decide

/-! ### C75: what statements do, scopes and variables -/

/-- A manifest is accepted if and only if it can be read and its statements can be run one after the other, and the result is what
they do. (`depth` bounds how deep files include each other.) -/
theorem parse_does (w : World) (txt : Bytes) (s : St) :
    (∃ depth, parse w depth txt = .ok s) ↔ ∃ xs, file txt = .ok xs ∧ Does w init 0 xs s := by
  constructor
  · rintro ⟨d, h⟩
    obtain ⟨xs, h1, h2⟩ := Res.bind_eq_ok.1 h
    exact ⟨xs, h1, execAll_does w d xs init 0 s sound_init (by simp [init]) h2⟩
  · rintro ⟨xs, h1, h2⟩
    obtain ⟨d, hd⟩ := does_execAll w h2 sound_init (by simp [init])
    exact ⟨d, by rw [parse, h1, Res.ok_bind, hd]⟩

/-- There is only one result. -/
theorem parse_one (w : World) (d d' : Nat) (txt : Bytes) (s s' : St) (h : parse w d txt = .ok s) (h' : parse w d' txt = .ok s') : s = s' := by
  obtain ⟨xs, h1, h2⟩ := Res.bind_eq_ok.1 h
  obtain ⟨ys, h3, h4⟩ := Res.bind_eq_ok.1 h'
  rw [h1] at h3; cases h3
  have a := execAll_more w d (d + d') (by omega) xs init 0 s h2
  have b := execAll_more w d' (d + d') (by omega) xs init 0 s' h4
  rw [a] at b; cases b; rfl

/-- The variables of an edge have the values the specification gives them; the only error is a variable of the rule that needs itself. -/
theorem edge_variable (s : St) (e : Edge) (esc : Bool) (v : Bytes) :
    (∀ x, s.edgeVar e esc v = .ok x ↔ Value (s.var e.env) e esc v x) ∧
    (s.edgeVar e esc v = .error ↔ ∃ w, (v = w ∨ Steps (Mentions (s.var e.env) e esc) v w) ∧ Steps (Mentions (s.var e.env) e esc) w w) ∧
    s.edgeVar e esc v ≠ .bad := edgeVar_spec s e esc v

/-- A variable in a scope: the last value given there, or else that of the scope around it. -/
theorem scope_variable {s : St} (hs : Sound s) {env : Nat} (he : env < s.envs.length) (v x : Bytes) : s.var env v = some x ↔ Sees s.envs env v x :=
  var_sees hs he v x

/-- Whatever is in a `subninja` file, the variables and rules of the file it is in are the same after it. -/
theorem subninja_scope (w : World) (s s' : St) (hs : Sound s) (env : Nat) (he : env < s.envs.length) (p : List Part)
    (h : Does w s env [.incl p true] s') : ∀ i, i < s.envs.length → s'.envs[i]? = s.envs[i]? ∧ ∀ v, s'.var i v = s.var i v := by
  have key : (∀ i, i < s.envs.length → s'.envs[i]? = s.envs[i]?) ∧ s.envs.length ≤ s'.envs.length := by
    cases h with
    | step _ s1 _ _ _ _ h1 _ => cases h1
    | sub _ s1 _ _ _ path txt ys _ h1 h2 h3 h4 h5 =>
      cases h5 with
      | nil =>
        obtain ⟨f, hf⟩ := does_execAll w h4 (sound_newEnv hs env he) (by simp)
        obtain ⟨_, a2⟩ := execAll_sound w f ys _ _ s' (sound_newEnv hs env he) (by simp) hf
        have hl := a2.envs
        simp only [List.length_append, List.length_cons, List.length_nil] at hl
        refine ⟨fun i hi => ?_, by omega⟩
        rw [a2.others i (by simp; omega) (by omega)]
        exact List.getElem?_append_left hi
  intro i hi
  exact ⟨key.1 i hi, fun v => var_agree hs i hi key.2 (fun j hj => key.1 j (by omega)) v⟩

/-- Running statements in a scope changes no other scope, and keeps what there is. -/
theorem does_extends (w : World) (s s' : St) (hs : Sound s) (env : Nat) (he : env < s.envs.length) (xs : List Stmt) (h : Does w s env xs s') :
    Sound s' ∧ Extends env s s' := by
  obtain ⟨f, hf⟩ := does_execAll w h hs he
  exact execAll_sound w f xs s env s' hs he hf

/-! ### C76: accepted manifests -/

/-- In every manifest that is accepted no path is an output twice, default targets are known, pools exist, and so on (`Sound`). -/
theorem accepted_sound (w : World) (depth : Nat) (txt : Bytes) (s : St) (h : parse w depth txt = .ok s) : Sound s := by
  obtain ⟨xs, h1, h2⟩ := Res.bind_eq_ok.1 h
  exact (execAll_sound w depth xs init 0 s sound_init (by simp [init]) h2).1

/-- In every manifest there are the pool `console` of depth 1 and, unless the manifest says otherwise, which it cannot, the rule `phony` without
bindings; everything else comes from the manifest. -/
theorem builtin (w : World) (depth : Nat) (txt : Bytes) (s : St) (h : parse w depth txt = .ok s) :
    (ascii "console", 1) ∈ s.pools ∧ (∃ e, s.envs[0]? = some e ∧ (ascii "phony", ⟨ascii "phony", []⟩) ∈ e.rules) ∧
    (file txt = .ok [] → s.edges = [] ∧ s.defaults = [] ∧ s.pools = [(ascii "console", 1)] ∧ s.envs.length = 1 ∧
      ∀ e, s.envs[0]? = some e → e.vars = [] ∧ e.rules = [(ascii "phony", ⟨ascii "phony", []⟩)]) := by
  obtain ⟨xs, h1, h2⟩ := Res.bind_eq_ok.1 h
  have hx := (execAll_sound w depth xs init 0 s sound_init (by simp [init]) h2).2
  refine ⟨hx.pools.subset (by simp [init]), ?_, ?_⟩
  · obtain ⟨e', he', -, -, hr⟩ := hx.parent ⟨none, [], [(ascii "phony", ⟨ascii "phony", []⟩)]⟩ rfl
    exact ⟨e', he', hr.subset (by simp)⟩
  · intro h0
    rw [h1] at h0; cases h0
    rw [execAll_nil] at h2; cases h2
    refine ⟨rfl, rfl, rfl, rfl, ?_⟩
    intro e he
    cases he
    exact ⟨rfl, rfl⟩

example : file [10] = .ok [] := by decide +kernel

/-- A pool without a name in a binding is refused, although it is how ninja files say that an edge is in no pool. -/
theorem pool_empty_counterexample : exec ⟨fun _ => none, fun _ => none, fun _ => true⟩ 0 init 0
    (.build [[.lit (ascii "a")]] [] (ascii "phony") [] [] [] [⟨ascii "pool", []⟩]) = .error := by decide +kernel

def sampleText : Bytes := ascii "cflags = -O2\nrule cc\n command = cc $cflags $opt -o $out $in\n description = $command\nbuild a.o: cc a.c | a.h || gen\n opt = -g $cflags\nsubninja sub.ninja\nbuild b.o: cc ./x/../b.c\ndefault a.o b.o\n"
def sampleSub : Bytes := ascii "cflags = -O0\nbuild c.o: cc c.c\n"
def sampleWorld : World := ⟨fun p => if p = ascii "sub.ninja" then some sampleSub else none, fun _ => none, fun _ => true⟩

def holds (p : St → Bool) : Res St → Bool
  | .ok s => p s
  | _ => false

/-- An accepted manifest with a `subninja` file: its `cflags` hold only for its own edge. -/
example : holds (fun s => s.edges.length == 3 && s.defaults == [ascii "a.o", ascii "b.o"] &&
    (s.edges.map (fun e => s.edgeVar e true (ascii "command"))) ==
      [.ok (some (ascii "cc -O2 -g -O2 -o a.o a.c")), .ok (some (ascii "cc -O0  -o c.o c.c")), .ok (some (ascii "cc -O2  -o b.o b.c"))] &&
    s.edges.map (fun e => (e.ins, e.nIn, e.nImp)) == [([ascii "a.c", ascii "a.h", ascii "gen"], 1, 2), ([ascii "c.c"], 1, 1), ([ascii "b.c"], 1, 1)])
    (parse sampleWorld 1 sampleText) = true := by decide +kernel

/-- A variable that needs itself. -/
example : init.edgeVar ⟨[ascii "o"], 1, [], 0, 0, ⟨ascii "r", [⟨ascii "a", [.var (ascii "b")]⟩, ⟨ascii "b", [.lit (ascii "x"), .var (ascii "a")]⟩]⟩, [], 0, none⟩
    true (ascii "a") = .error := by decide +kernel

/-- Two edges with the same output, written in different ways. -/
example : parse sampleWorld 0 (ascii "build a/b: phony\nbuild a/./b: phony\n") = .error := by decide +kernel

end Muon.Manifest
