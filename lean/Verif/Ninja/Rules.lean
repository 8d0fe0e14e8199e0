import Verif.Ninja.Props
import Verif.Ninja.Names
import Verif.Lex.Round
/-
C79, names of rules; what is wrong with build.ninja; an example.
-/
namespace Muon.Ninja
open Muon Esc Esc.Spec Manifest Manifest.Spec Spec

/-- Naming the rules ends, and gives names of ninja, all different: those of the compilers of all projects, those of the linkers, and the fixed ones. This holds
unless a target that has its own rule has a name like `t_c_linker`. -/
theorem rule_names_partial (digits : Nat → Bytes) (hd : Digits digits) (names : List Bytes) (langs : List (List Bytes)) (hlen : langs.length = names.length)
    (hlang : ∀ ls ∈ langs, ls.Nodup ∧ ∀ l ∈ ls, l ∈ linkLangs) (wanted : List (Bytes × Bytes × Option Bytes))
    (ht : ∀ x ∈ wanted, ∀ t, x.2.2 = some t → ∀ l ∈ linkLangs, ¬ (95 :: l ++ ascii "_linker") <:+ (95 :: escapeRule t)) :
    ∃ ps rs, nameAll digits [] names = .ok ps ∧ nameAll digits [] (wanted.map (fun x => compilerRule x.1 x.2.1 x.2.2)) = .ok rs ∧
      ps.length = names.length ∧ rs.length = wanted.length ∧
      (∀ (i : Nat) (n p : Bytes), names[i]? = some n → ps[i]? = some p → escapeRule n <+: p) ∧
      (fixedRules ++ rs ++ linkers (ps.zip langs)).Nodup ∧ ∀ n ∈ rs ++ linkers (ps.zip langs), wfName n := by
  obtain ⟨ps, p1, p2, p3, p4⟩ := nameAll_ok hd names [] (by simp)
  obtain ⟨rs, r1, r2, r3, r4⟩ := nameAll_ok hd (wanted.map (fun x => compilerRule x.1 x.2.1 x.2.2)) [] (by simp)
  simp only [List.nil_append] at p1 p2 r1 r2
  have hesc : ∀ x : Bytes × Bytes × Option Bytes, escapeRule (compilerRule x.1 x.2.1 x.2.2) = compilerRule x.1 x.2.1 x.2.2 := fun x => escape_twice _
  have hr : ∀ r ∈ rs, ∃ x ∈ wanted, ∃ ds, r = compilerRule x.1 x.2.1 x.2.2 ++ ds ∧ ∀ c ∈ ds, 48 ≤ c ∧ c ≤ 57 := by
    intro r hr
    obtain ⟨i, hi⟩ := List.mem_iff_getElem?.1 hr
    have hlt : i < wanted.length := by
      have := (List.getElem?_eq_some_iff.1 hi).1
      rw [r3, List.length_map] at this; exact this
    obtain ⟨ds, h1, h2⟩ := r4 i (compilerRule wanted[i].1 wanted[i].2.1 wanted[i].2.2) r (by simp [hlt]) hi
    exact ⟨wanted[i], List.getElem_mem hlt, ds, by rw [h1, hesc], h2⟩
  have hp : ∀ p ∈ ps, ∀ c ∈ p, nameChar c := by
    intro p hp
    obtain ⟨i, hi⟩ := List.mem_iff_getElem?.1 hp
    have hlt : i < names.length := by
      have := (List.getElem?_eq_some_iff.1 hi).1
      rw [p3] at this; exact this
    obtain ⟨ds, h1, h2⟩ := p4 i names[i] p (by simp [hlt]) hi
    intro c hc
    rw [h1] at hc
    rcases List.mem_append.1 hc with hc | hc
    · exact escape_name _ c hc
    · exact digit_name c (h2 c hc)
  have hz : (ps.zip langs).map (·.1) = ps := by
    rw [List.map_fst_zip]; omega
  have hl : ∀ p ∈ ps.zip langs, p.2.Nodup ∧ ∀ l ∈ p.2, l ∈ linkLangs := fun p hp => hlang p.2 (List.of_mem_zip hp).2
  have hlink : ∀ x ∈ linkers (ps.zip langs), ∃ p ∈ ps, ∃ l ∈ linkLangs, x = linkerRule p l := by
    intro x hx
    obtain ⟨p, hpm, hx⟩ := List.mem_flatMap.1 hx
    obtain ⟨l, hlm, rfl⟩ := List.mem_map.1 hx
    exact ⟨p.1, (List.of_mem_zip hpm).1, l, (hl p hpm).2 l hlm, rfl⟩
  have hm : ∀ r ∈ rs, 109 ∈ r := by
    intro r hrm
    obtain ⟨x, -, ds, rfl, -⟩ := hr r hrm
    refine List.mem_append.2 (Or.inl ?_)
    obtain ⟨pre, lang, tgt⟩ := x
    have k1 : 109 ∈ escapeRule (ascii "_compiler") := by decide
    have k2 : 109 ∈ escapeRule (ascii "_compiler_for_") := by decide
    cases tgt with
    | none => simp only [compilerRule]; rw [escape_append]; exact List.mem_append.2 (Or.inr k1)
    | some t =>
      simp only [compilerRule]
      rw [escape_append, escape_append]
      exact List.mem_append.2 (Or.inl (List.mem_append.2 (Or.inr k2)))
  have hk : ∀ x ∈ linkers (ps.zip langs), 107 ∈ x := by
    intro x hx
    obtain ⟨p, -, l, -, rfl⟩ := hlink x hx
    have : 107 ∈ ascii "_linker" := by decide
    exact List.mem_append.2 (Or.inr this)
  have hf : ∀ f ∈ fixedRules, 109 ∉ f ∧ 107 ∉ f := by decide
  refine ⟨ps, rs, p1, r1, p3, by rw [r3, List.length_map], ?_, ?_, ?_⟩
  · intro i n p hn hpi
    obtain ⟨ds, h1, -⟩ := p4 i n p hn hpi
    exact ⟨ds, h1.symm⟩
  · rw [List.nodup_append]
    refine ⟨List.nodup_append.2 ⟨by decide, r2, ?_⟩, linkers_nodup _ (by rw [hz]; exact p2) hl, ?_⟩
    · intro a ha b hb he
      subst he
      exact (hf a ha).1 (hm a hb)
    · intro a ha b hb he
      subst he
      rcases List.mem_append.1 ha with ha | ha
      · exact (hf a ha).2 (hk a hb)
      · obtain ⟨x, hx, ds, h1, h2⟩ := hr a ha
        obtain ⟨p, -, l, hll, h3⟩ := hlink a hb
        exact compiler_not_linker h2 hll (fun t htt => ht x hx t htt l hll) (h1 ▸ h3)
  · intro n hn
    rcases List.mem_append.1 hn with hn | hn
    · obtain ⟨x, -, ds, rfl, h2⟩ := hr n hn
      refine ⟨List.ne_nil_of_mem (hm _ hn), ?_⟩
      intro c hc
      rcases List.mem_append.1 hc with hc | hc
      · exact escape_name _ c hc
      · exact digit_name c (h2 c hc)
    · refine ⟨List.ne_nil_of_mem (hk _ hn), ?_⟩
      obtain ⟨p, hpm, l, hll, rfl⟩ := hlink n hn
      have k1 : ∀ l ∈ linkLangs, ∀ c ∈ ascii "_" ++ l ++ ascii "_linker", nameChar c := by
        unfold nameChar; decide
      intro c hc
      rw [linkerRule, List.append_assoc, List.append_assoc] at hc
      rcases List.mem_append.1 hc with hc | hc
      · exact hp p hpm c hc
      · exact k1 l hll c (by simpa using hc)

/-- Decimal digits, as `%d` writes them. -/
theorem digits_ok : Digits (Lex.Spec.digits 10) := by
  intro n
  obtain ⟨h1, h2, -, -⟩ := Lex.digits_spec 10 (by omega) (by omega) n
  refine ⟨h1, fun c hc => ?_⟩
  have key : ∀ c : UInt8, Lex.digitVal c < 10 → 48 ≤ c ∧ c ≤ 57 := forall_byte (by decide +kernel)
  exact key c (h2 c hc)

/-- Three projects with the same name after escaping: the third gets the number of the first attempt and that of the second. -/
example : nameAll (fun n => [UInt8.ofNat (48 + n % 10)]) [] [ascii "a b", ascii "a-b", ascii "a_b"] = .ok [ascii "a_b", ascii "a_b1", ascii "a_b12"] := by decide +kernel

/-- Hypotheses of `rule_names_partial`. -/
example : (∀ ls ∈ [[ascii "c", ascii "static"], [ascii "cpp"]], ls.Nodup ∧ ∀ l ∈ ls, l ∈ linkLangs) ∧
    (∀ x ∈ [(ascii "a_b", ascii "c", some (ascii "prog")), (ascii "a_b1", ascii "cpp", none)], ∀ t, x.2.2 = some t → ∀ l ∈ linkLangs, ¬ (95 :: l ++ ascii "_linker") <:+ (95 :: escapeRule t)) := by
  refine ⟨by decide, ?_⟩
  have k : ∀ l ∈ linkLangs, ¬ (95 :: l ++ ascii "_linker") <:+ (95 :: escapeRule (ascii "prog")) := by decide
  intro x hx t ht
  simp only [List.mem_cons, List.not_mem_nil, or_false] at hx
  rcases hx with rfl | rfl
  · cases ht; exact k
  · cases ht

/-! ### Build files that are read otherwise -/

def version : World := ⟨fun _ => none, fun _ => none, fun _ => true⟩
def small : Build := ⟨ascii "p", [ascii "muon"], [ascii "meson.build"], [], []⟩

/-- What a test says about the graph that is read. -/
def gives (b : Build) (p : St → Bool) : Bool :=
  match b.text >>= Manifest.parse version 0 with
  | .ok st => p st
  | _ => false

theorem gives_written {b : Build} {p : St → Bool} (h : gives b p = true) : ∃ st, Written version b st ∧ p st = true := by
  unfold gives at h
  cases hb : (b.text >>= Manifest.parse version 0) with
  | ok st =>
    rw [hb] at h
    obtain ⟨txt, h3, h4⟩ := Res.bind_eq_ok.1 hb
    exact ⟨st, ⟨txt, h3, 0, h4⟩, h⟩
  | error => rw [hb] at h; cases h
  | bad => rw [hb] at h; cases h

/-- No graph is read. -/
theorem refused {b : Build} (h : (b.text >>= Manifest.parse version 0) = .error) (txt : Bytes) (ht : b.text = .ok txt) : Manifest.parse version 0 txt = .error := by
  rw [ht] at h; exact h

/-- A rule of a compiler gets the name of one of a linker: project `x` with a target `t_c_linker` of more than one source, and a subproject `x_c_compiler_for_t`.
Ninja refuses the file. -/
theorem rule_names_counterexample : compilerRule (ascii "x") (ascii "c") (some (ascii "t_c_linker")) = linkerRule (ascii "x_c_compiler_for_t") (ascii "c") ∧
    (({ small with rules := [⟨compilerRule (ascii "x") (ascii "c") (some (ascii "t_c_linker")), compileWords [ascii "cc"] (.raw (ascii "-g")) false, false, ascii "compiling c"⟩,
      ⟨linkerRule (ascii "x_c_compiler_for_t") (ascii "c"), linkWords [ascii "cc"], false, ascii "linking"⟩] }.text) >>= Manifest.parse version 0) = .error := by decide +kernel

def touch : Custom :=
  { outs := [ascii "o"], ins := [], depends := [], argv0 := ascii "muon", capture := none, feed := none, env := none, args := [ascii "touch"], argsDat := ascii "x",
    stale := false, console := false, byDefault := false, depfile := none }

/-- The name of a depfile is not escaped: ninja looks for another file. -/
theorem depfile_counterexample : ∃ st, Written version { small with targets := [.custom { touch with depfile := some (ascii "a$b.d") }] } st ∧
    ∃ e ∈ st.edges, e.outs = [ascii "o"] ∧ st.edgeVar e false (ascii "depfile") = .ok (some (ascii "a.d")) := by
  obtain ⟨st, h1, h2⟩ := gives_written (b := { small with targets := [.custom { touch with depfile := some (ascii "a$b.d") }] })
    (p := fun st => st.edges.any (fun e => decide (e.outs = [ascii "o"] ∧ st.edgeVar e false (ascii "depfile") = .ok (some (ascii "a.d"))))) (by decide +kernel)
  obtain ⟨e, he, h3⟩ := List.any_eq_true.1 h2
  exact ⟨st, h1, e, he, of_decide_eq_true h3⟩

/-- The name of the project is not escaped: a newline in it ends the comment, and what follows is read. -/
theorem project_name_counterexample : ∃ st, Written version { small with name := ascii "p\nbuild all: phony\ndefault all\n#" } st ∧ ascii "all" ∈ st.defaults ∧
    ascii "all" ∉ Build.outs { small with name := ascii "p\nbuild all: phony\ndefault all\n#" } := by
  obtain ⟨st, h1, h2⟩ := gives_written (b := { small with name := ascii "p\nbuild all: phony\ndefault all\n#" })
    (p := fun st => decide (ascii "all" ∈ st.defaults)) (by decide +kernel)
  exact ⟨st, h1, of_decide_eq_true h2, by decide⟩

/-- The command that regenerates the file is escaped for the shell and not for ninja: `$` is read as the start of a variable. -/
theorem regenerate_counterexample : ∃ st, Written version { small with regenCmd := [ascii "muon", ascii "setup", ascii "a$b"] } st ∧
    ∃ e ∈ st.edges, e.outs = [ascii "build.ninja"] ∧ ∃ line, st.edgeVar e true (ascii "command") = .ok (some line) ∧ shellWords line = some [ascii "muon", ascii "setup", ascii "a"] := by
  obtain ⟨st, h1, h2⟩ := gives_written (b := { small with regenCmd := [ascii "muon", ascii "setup", ascii "a$b"] })
    (p := fun st => st.edges.any (fun e => decide (e.outs = [ascii "build.ninja"] ∧ st.edgeVar e true (ascii "command") = .ok (some (ascii "muon setup 'a'"))))) (by decide +kernel)
  obtain ⟨e, he, h3⟩ := List.any_eq_true.1 h2
  obtain ⟨h4, h5⟩ := of_decide_eq_true h3
  exact ⟨st, h1, e, he, h4, _, h5, by decide +kernel⟩

/-- An argument with a carriage return makes the whole file unreadable. -/
theorem return_counterexample : ∃ txt, { small with targets := [.custom { touch with args := [ascii "a\rb"] }] }.text = .ok txt ∧ Manifest.parse version 0 txt = .error := by
  have h : ({ small with targets := [.custom { touch with args := [ascii "a\rb"] }] }.text >>= Manifest.parse version 0) = .error := by decide +kernel
  have h2 : ({ small with targets := [.custom { touch with args := [ascii "a\rb"] }] }.text >>= fun _ => Res.ok ()) = .ok () := by decide +kernel
  cases ht : { small with targets := [.custom { touch with args := [ascii "a\rb"] }] }.text with
  | ok txt => exact ⟨txt, rfl, refused h txt ht⟩
  | error => rw [ht] at h2; cases h2
  | bad => rw [ht] at h2; cases h2

def hello (cmd : List Bytes) : Build :=
  { small with
    rules := [⟨ascii "p_c_compiler_for_hello", compileWords cmd (.raw (ascii "-g '-DX=$$y'")) true, true, ascii "compiling c"⟩,
      ⟨ascii "p_c_compiler", compileWords cmd (.var (ascii "ARGS")) true, true, ascii "compiling c"⟩,
      ⟨ascii "p_c_linker", linkWords [ascii "cc"], false, ascii "linking"⟩,
      ⟨ascii "p_static_linker", staticLinkWords (ascii "muon") [ascii "ar"] (ascii "csrD"), false, ascii "linking static"⟩]
    targets := [.custom { touch with outs := [ascii "gen/a.h"], ins := [ascii "../a b.in"], args := [ascii "gen", ascii "it's $x"], capture := some (ascii "gen/a.h"), depfile := some (ascii "a.d"), stale := true },
      .custom { touch with outs := [ascii "b.h"], byDefault := true, console := true },
      .alias ⟨ascii "headers", [ascii "gen/a.h", ascii "b.h"]⟩,
      .build ⟨ascii "hello", [ascii "gen/a.h", ascii "b.h"], [ascii "x.o"], [⟨ascii "../a.c", ascii "hello.p/a.c.o", ascii "p_c_compiler", some [ascii "-DX=$y", ascii "a b"]⟩], [ascii "libfoo.a"],
        ascii "p", ascii "c", some [ascii "-lm", ascii "libfoo.a"], true⟩,
      .build ⟨ascii "libfoo.a", [ascii "b.h"], [], [⟨ascii "../foo.c", ascii "foo.p/foo.c.o", ascii "p_c_compiler", some []⟩], [], ascii "p", ascii "static", none, true⟩] }

/-- The command of a compiler is not escaped: a path with a space is read as two words. -/
theorem compiler_path_counterexample : ∃ st, Written version (hello [ascii "/my cc"]) st ∧
    ∃ e ∈ st.edges, e.outs = [ascii "foo.p/foo.c.o"] ∧ ∃ line, st.edgeVar e true (ascii "command") = .ok (some line) ∧ (shellWords line).map (List.take 2) = some [ascii "/my", ascii "cc"] := by
  obtain ⟨st, h1, h2⟩ := gives_written (b := hello [ascii "/my cc"])
    (p := fun st => st.edges.any (fun e => decide (e.outs = [ascii "foo.p/foo.c.o"] ∧ st.edgeVar e true (ascii "command") =
      .ok (some (ascii "/my cc  -MD -MQ foo.p/foo.c.o -MF foo.p/foo.c.o.d -o foo.p/foo.c.o -c ../foo.c"))))) (by decide +kernel)
  obtain ⟨e, he, h3⟩ := List.any_eq_true.1 h2
  obtain ⟨h4, h5⟩ := of_decide_eq_true h3
  exact ⟨st, h1, e, he, h4, _, h5, by decide +kernel⟩

/-- What the paths are called. -/
def called (p : Bytes) : Bytes :=
  match Canon.canonpath p with
  | .ok q => q
  | _ => []

instance : DecidablePred CWord.ok
  | .text u => inferInstanceAs (Decidable (∀ c ∈ u, c ∉ ([0, 10, 13, 255] : Bytes)))
  | .var v => inferInstanceAs (Decidable (v ≠ [] ∧ ∀ c ∈ v, isAlnum c = true ∨ c ∈ ascii "_-"))
  | .outD => inferInstanceAs (Decidable True)

/-- A build file with all kinds of targets meets the hypotheses of the theorems. -/
theorem hello_good : Good (hello [ascii "cc"]) called := by
  refine ⟨?_, ?_, ?_, ?_, ?_, ?_, ?_, ?_, ?_, ?_, ?_, ?_⟩
  · unfold Clean; decide +kernel
  · unfold CleanPath; decide +kernel
  · unfold CleanPath; decide +kernel
  · unfold CleanPath; decide +kernel
  · unfold Clean; decide +kernel
  · unfold Clean; decide +kernel
  · have k : ∀ t ∈ (hello [ascii "cc"]).targets, match t with
      | .custom ⟨_, _, _, _, _, _, _, _, _, _, _, _, some d⟩ => Clean d ∧ 36 ∉ d ∧ d.head? ≠ some 32
      | _ => True := by
      simp only [hello, small, touch, List.forall_mem_cons]
      unfold Clean
      refine ⟨by decide, trivial, trivial, trivial, trivial, by simp⟩
    rintro t ht ⟨⟩ d rfl hd
    have := k _ ht
    simp only at hd
    subst hd
    exact this
  · have k : ∀ r ∈ (hello [ascii "cc"]).rules, Manifest.Spec.wfName r.name ∧ Clean r.description ∧ 36 ∉ r.description ∧ r.description ≠ [] ∧ r.description.head? ≠ some 32 := by
      unfold wfName Clean nameChar; decide +kernel
    intro r hr
    obtain ⟨h1, h2, h3, h4, h5⟩ := k r hr
    refine ⟨h1, h2, h3, h4, h5, ?_⟩
    simp only [hello, List.mem_cons, List.not_mem_nil, or_false] at hr
    rcases hr with rfl | rfl | rfl | rfl
    · exact ⟨ascii "cc", [.text (ascii "-g '-DX=$y'"), .text (ascii "-MD"), .text (ascii "-MQ"), .var (ascii "out"), .text (ascii "-MF"), .outD, .text (ascii "-o"), .var (ascii "out"), .text (ascii "-c"), .var (ascii "in")],
        by rfl, by decide, by decide, by decide⟩
    · exact ⟨ascii "cc", [.var (ascii "ARGS"), .text (ascii "-MD"), .text (ascii "-MQ"), .var (ascii "out"), .text (ascii "-MF"), .outD, .text (ascii "-o"), .var (ascii "out"), .text (ascii "-c"), .var (ascii "in")],
        by rfl, by decide, by decide, by decide⟩
    · exact ⟨ascii "cc", [.var (ascii "ARGS"), .text (ascii "-o"), .var (ascii "out"), .var (ascii "in"), .var (ascii "LINK_ARGS")],
        by rfl, by decide, by decide, by decide⟩
    · exact ⟨ascii "muon", [.text (ascii "internal"), .text (ascii "exe"), .text (ascii "-R"), .var (ascii "out"), .text (ascii "--"), .text (ascii "ar"), .text (ascii "csrD"), .var (ascii "out"), .var (ascii "in")],
        by rfl, by decide, by decide, by decide⟩
  · decide +kernel
  · decide +kernel
  · have k1 : ∀ p ∈ Build.outs (hello [ascii "cc"]), Canon.canonpath p = .ok (called p) := by decide +kernel
    have k2 : ∀ t ∈ (hello [ascii "cc"]).targets, ∀ p ∈ Tgt.ins t, Canon.canonpath p = .ok (called p) := by decide +kernel
    have k3 : ∀ p ∈ (hello [ascii "cc"]).regenDeps, Canon.canonpath p = .ok (called p) := by decide +kernel
    rintro p (h | ⟨t, ht, h⟩ | h)
    · exact k1 p h
    · exact k2 t ht p h
    · exact k3 p h
  · decide +kernel

/-- Ninja reads it. -/
example : ∃ st, Written version (hello [ascii "cc"]) st := build_accepted version _ _ hello_good rfl

/-- The hypotheses of `compile_target`, `link_target` and `static_target`: of the second source, of `hello` and of `libfoo.a`. -/
example : ∀ x ∈ [ascii "cc", ascii "muon", ascii "csrD", ascii "ar"], Plain x := by decide
example : ∀ x ∈ [ascii "-DX=$y", ascii "a b", ascii "-lm", ascii "libfoo.a"], ¬ Misquoted x := by unfold Misquoted; decide
example : ∀ x ∈ [ascii "-g", ascii "-DX=$y"], ¬ Misquoted x ∧ Clean x := by unfold Clean Misquoted; decide
example : joinArgsShellNinja [ascii "-g", ascii "-DX=$y"] = .ok (ascii "-g '-DX=$$y'") := by decide +kernel

end Muon.Ninja
