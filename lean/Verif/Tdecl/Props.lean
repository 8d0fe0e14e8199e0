import Verif.Tdecl.Spec
import Verif.Env.Props
import Verif.Ctgt.Props
/-
C112: declarations of tests, and environments of commands.
-/
namespace Muon.Tdecl
open Muon Muon.Tdecl.Spec
open Muon.Cmdline.Spec (Abs Leads)

/-! ### Programs, arguments and dependencies -/

theorem argWords_eq (o : Obj) (w : List Bytes) (h : argWords o = .ok w) : w = words o := by
  cases o with
  | custom n outs => cases outs <;> (cases h; rfl)
  | str | file | target | both => cases h; rfl
  | prog | python => cases h

theorem allWords_eq : ∀ (os : List Obj) (w : List Bytes), allWords os = .ok w → w = os.flatMap words
  | [], w, h => by cases h; rfl
  | o :: os, w, h => by
    rw [allWords] at h
    obtain ⟨a, h1, h2⟩ := Res.bind_eq_ok.1 h
    obtain ⟨b, h3, h4⟩ := Res.bind_eq_ok.1 h2
    cases h4
    rw [argWords_eq o a h1, allWords_eq os b h3]; rfl

/-- Paths that lead to files, one for each. -/
inductive AllLead (build : Bytes) : List Bytes → List Bytes → Prop
  | nil : AllLead build [] []
  | cons {d p : Bytes} {ds ps : List Bytes} : Leads build d p → AllLead build ds ps → AllLead build (d :: ds) (p :: ps)

theorem AllLead.append {build : Bytes} {a b c d : List Bytes} (h : AllLead build a b) (h' : AllLead build c d) : AllLead build (a ++ c) (b ++ d) := by
  induction h with
  | nil => exact h'
  | cons x _ ih => exact .cons x ih

theorem relAll_leads (E : World) (hb : Abs E.build) : ∀ (ps : List Bytes), (∀ p ∈ ps, Abs p) → ∃ rs, relAll E ps = .ok rs ∧ AllLead E.build rs ps
  | [], _ => ⟨[], rfl, .nil⟩
  | p :: ps, h => by
    obtain ⟨r, h1, h2⟩ := Cmdline.relative_leads E.build p hb (h p (by simp))
    obtain ⟨rs, h3, h4⟩ := relAll_leads E hb ps (fun q hq => h q (by simp [hq]))
    exact ⟨r :: rs, by rw [relAll, h1, Res.ok_bind, h3]; rfl, .cons h2 h4⟩

/-- Not a run target. -/
def notRun : Obj → Prop
  | .custom _ none => False
  | _ => True

theorem depOf_leads (E : World) (hb : Abs E.build) (o : Obj) (ho : ∀ p ∈ needed o, Abs p) (hr : notRun o) : ∃ rs, depOf E o = .ok rs ∧ AllLead E.build rs (needed o) := by
  cases o with
  | custom n outs => cases outs with
    | none => exact hr.elim
    | some outs => exact relAll_leads E hb outs ho
  | str | file | prog | python => exact ⟨[], rfl, .nil⟩
  | target d n p => exact relAll_leads E hb [p] ho
  | both d n p => exact relAll_leads E hb [p] ho

theorem depsOf_leads (E : World) (hb : Abs E.build) : ∀ (os : List Obj), (∀ o ∈ os, (∀ p ∈ needed o, Abs p) ∧ notRun o) →
    ∃ rs, depsOf E os = .ok rs ∧ AllLead E.build rs (os.flatMap needed)
  | [], _ => ⟨[], rfl, .nil⟩
  | o :: os, h => by
    obtain ⟨r, h1, h2⟩ := depOf_leads E hb o (h o (by simp)).1 (h o (by simp)).2
    obtain ⟨rs, h3, h4⟩ := depsOf_leads E hb os (fun q hq => h q (by simp [hq]))
    exact ⟨r ++ rs, by rw [depsOf, h1, Res.ok_bind, h3]; rfl, h2.append h4⟩

theorem depOf_notRun (E : World) (o : Obj) (r : List Bytes) (h : depOf E o = .ok r) : notRun o := by
  cases o with
  | custom n outs => cases outs with
    | none => cases h
    | some _ => trivial
  | _ => trivial

theorem depsOf_notRun (E : World) : ∀ (os : List Obj) (r : List Bytes), depsOf E os = .ok r → ∀ o ∈ os, notRun o
  | [], _, _, o, ho => by cases ho
  | x :: os, r, h, o, ho => by
    rw [depsOf] at h
    obtain ⟨a, h1, h2⟩ := Res.bind_eq_ok.1 h
    obtain ⟨b, h3, _⟩ := Res.bind_eq_ok.1 h2
    rcases List.mem_cons.1 ho with rfl | ho
    · exact depOf_notRun E _ a h1
    · exact depsOf_notRun E os b h3 o ho

theorem setVar_tests (st : St) (r : Ref) (k v : Bytes) : (setVar st r k v).tests = st.tests ∧ (setVar st r k v).vars = st.vars ∧ (setVar st r k v).runs = st.runs := by
  cases r <;> exact ⟨rfl, rfl, rfl⟩

theorem defaults_tests (E : World) (sub : Option Bytes) (r : Ref) (st : St) :
    (defaults E sub r st).tests = st.tests ∧ (defaults E sub r st).vars = st.vars ∧ (defaults E sub r st).runs = st.runs := by
  unfold defaults
  cases sub <;> simp [setVar_tests]

theorem coerceEnv_tests (st : St) (a : EnvArg) (r : St × Ref) (h : coerceEnv st a = .ok r) : r.1.tests = st.tests ∧ r.1.vars = st.vars ∧ r.1.runs = st.runs := by
  cases a with
  | none => cases h; exact ⟨rfl, rfl, rfl⟩
  | str s =>
    obtain ⟨d, _, h2⟩ := Res.bind_eq_ok.1 h
    cases h2; exact ⟨rfl, rfl, rfl⟩
  | arr l =>
    obtain ⟨d, _, h2⟩ := Res.bind_eq_ok.1 h
    cases h2; exact ⟨rfl, rfl, rfl⟩
  | var v =>
    rw [coerceEnv] at h
    split at h
    · cases h
    · cases h; exact ⟨rfl, rfl, rfl⟩
    · split at h
      · cases h; exact ⟨rfl, rfl, rfl⟩
      · cases h

theorem envOf_tests (E : World) (sub : Option Bytes) (a : EnvArg) (st : St) (r : St × Ref) (h : envOf E sub a st = .ok r) :
    r.1.tests = st.tests ∧ r.1.vars = st.vars ∧ r.1.runs = st.runs := by
  unfold envOf at h
  obtain ⟨x, h1, h2⟩ := Res.bind_eq_ok.1 h
  cases h2
  obtain ⟨a1, a2, a3⟩ := coerceEnv_tests st a x h1
  obtain ⟨b1, b2, b3⟩ := defaults_tests E sub x.2 x.1
  exact ⟨b1.trans a1, b2.trans a2, b3.trans a3⟩

/-- A call that works, in parts. -/
theorem addTest_parts {E : World} {bench : Bool} {c : Call} {st st' : St} (h : addTest E bench c st = .ok st') :
    keywordsOk bench c = true ∧ ∃ tap x args e d1 d2 d3, protocolOf c.protocol = .ok tap ∧ coerceExe E c.exe = .ok x ∧ allWords (c.args.getD []) = .ok args ∧
      envOf E none c.env st = .ok e ∧ depOf E c.exe = .ok d1 ∧ depsOf E (c.depends.getD []) = .ok d2 ∧ depsOf E (c.args.getD []) = .ok d3 ∧
      st' = { e.1 with tests := e.1.tests ++ [
        { name := c.name, exe := x.1, args := x.2 ++ args, env := e.2, suites := c.suite.getD [], workdir := c.workdir, depends := d1 ++ d2 ++ d3,
          timeout := c.timeout, priority := c.priority, bench := bench, shouldFail := c.shouldFail.getD false, parallel := !bench && c.parallel.getD true,
          verbose := c.verbose.getD false, tap := tap }] } := by
  unfold addTest at h
  split at h
  · cases h
  · rename_i hk
    split at h
    · cases h
    · obtain ⟨tap, h1, h⟩ := Res.bind_eq_ok.1 h
      obtain ⟨x, h2, h⟩ := Res.bind_eq_ok.1 h
      obtain ⟨args, h3, h⟩ := Res.bind_eq_ok.1 h
      obtain ⟨e, h4, h⟩ := Res.bind_eq_ok.1 h
      obtain ⟨d1, h5, h⟩ := Res.bind_eq_ok.1 h
      obtain ⟨d2, h6, h⟩ := Res.bind_eq_ok.1 h
      obtain ⟨d3, h7, h⟩ := Res.bind_eq_ok.1 h
      exact ⟨by simpa using hk, tap, x, args, e, d1, d2, d3, h1, h2, h3, h4, h5, h6, h7, (Res.ok.inj h).symm⟩

/-- C112: a test is declared with what the call says: the arguments are those the program comes with and the words of `args:`; defaults for what is not said. -/
theorem test_declared {E : World} {bench : Bool} {c : Call} {st st' : St} (h : exec E (.test bench c) st = .ok st') :
    ∃ t, st'.tests = st.tests ++ [t] ∧ t.name = c.name ∧ t.args = own c.exe ++ (c.args.getD []).flatMap words ∧ t.suites = c.suite.getD [] ∧ t.workdir = c.workdir ∧
      t.timeout = c.timeout ∧ t.priority = c.priority ∧ t.bench = bench ∧ (t.shouldFail = true ↔ c.shouldFail = some true) ∧
      (t.parallel = true ↔ bench = false ∧ c.parallel ≠ some false) ∧ (t.verbose = true ↔ c.verbose = some true) ∧ (t.tap = true ↔ c.protocol = some (ascii "tap")) := by
  obtain ⟨_, tap, x, args, e, d1, d2, d3, h1, h2, h3, h4, h5, h6, h7, rfl⟩ := addTest_parts h
  refine ⟨_, by rw [(envOf_tests E none c.env st e h4).1], rfl, ?_, rfl, rfl, rfl, rfl, rfl, ?_, ?_, ?_, ?_⟩
  · have : x.2 = own c.exe := by
      cases hx : c.exe with
      | file p => rw [hx] at h2; cases h2; rfl
      | target d n p =>
        rw [hx] at h2
        obtain ⟨r, _, h8⟩ := Res.bind_eq_ok.1 h2
        cases h8; rfl
      | prog f cmd | python f cmd =>
        rw [hx] at h2
        cases f with
        | false => cases h2
        | true => cases cmd with
          | nil => cases h2
          | cons y l => cases h2; rfl
      | str | both | custom => rw [hx] at h2; cases h2
    show x.2 ++ args = _
    rw [this, allWords_eq _ _ h3]
  · cases c.shouldFail with
    | none => simp
    | some b => cases b <;> simp
  · cases bench <;> cases c.parallel with
    | none => simp
    | some b => cases b <;> simp
  · cases c.verbose with
    | none => simp
    | some b => cases b <;> simp
  · show tap = true ↔ _
    cases hp : c.protocol with
    | none => rw [hp] at h1; cases h1; simp
    | some p =>
      rw [hp] at h1
      rw [protocolOf] at h1
      split at h1
      · rename_i hq; cases h1; simp [hq]
      · rename_i hq
        split at h1
        · cases h1; simp [hq]
        · cases h1

/-- C112: the program of a test is the file, the program that was found, or a path that leads from the build directory, where tests are run, to the file of the target; it
has a slash in it, so that it is not looked for in `PATH`. -/
theorem test_program {E : World} {bench : Bool} {c : Call} {st st' : St} (hb : Abs E.build) (h : exec E (.test bench c) st = .ok st') :
    ∃ t, st'.tests = st.tests ++ [t] ∧ match c.exe with
      | .file p => t.exe = p
      | .prog found cmd => found = true ∧ cmd.head? = some t.exe
      | .python found cmd => found = true ∧ cmd.head? = some t.exe
      | .target dir name _ => Abs dir → 0 ∉ name → Leads E.build t.exe (Path.join dir name) ∧ 47 ∈ t.exe
      | _ => False := by
  obtain ⟨_, tap, x, args, e, d1, d2, d3, h1, h2, h3, h4, h5, h6, h7, rfl⟩ := addTest_parts h
  refine ⟨_, by rw [(envOf_tests E none c.env st e h4).1], ?_⟩
  cases hx : c.exe with
  | file p => rw [hx] at h2; cases h2; rfl
  | target d n p =>
    rw [hx] at h2
    obtain ⟨r, h8, h9⟩ := Res.bind_eq_ok.1 h2
    cases h9
    intro hd hn
    obtain ⟨j1, j2, j3⟩ := Path.join_facts d n hd.2 hn
    have hj : Abs (Path.join d n) := ⟨by rw [j2, hd.1]; simp, j3⟩
    refine ⟨Ctgt.word_leads hb hj ?_, ?_⟩
    · unfold Ctgt.Spec.Word
      rw [if_pos ⟨rfl, by simpa [Path.Spec.isAbs] using hj.1⟩]
      exact ⟨r, h8, .inr rfl⟩
    · show 47 ∈ Path.executable r
      unfold Path.executable
      split
      · simp
      · rename_i hn
        have hm : 47 ∈ r := by simpa [Path.isBasename] using hn
        have hc : (∃ t, 0 ∉ t ∧ r = Path.Spec.canon false t) ∨ r = [46] := by
          rcases Path.relativeTo_cases E.build (Path.join d n) hb.2 j3 hb.1 hj.1 with ⟨_, h⟩ | h | ⟨_, _, _, t, _, _, h, t0, _⟩
          · rw [h] at h8; cases h8; exact .inr rfl
          · rw [h] at h8; cases h8; exact .inl ⟨_, Path.canon_no0 _ _ j3, rfl⟩
          · rw [h] at h8; cases h8; exact .inl ⟨t, t0, rfl⟩
        rcases hc with ⟨t, t0, rfl⟩ | rfl
        · unfold Path.copy
          rw [Path.normalize_canon _ _ (Path.canon_no0 _ _ t0), Path.canon_canon _ _ t0]
          exact hm
        · simp at hm
  | prog f cmd | python f cmd =>
    rw [hx] at h2
    cases f with
    | false => cases h2
    | true => cases cmd with
      | nil => cases h2
      | cons y l => cases h2; exact ⟨rfl, rfl⟩
  | str | both | custom => rw [hx] at h2; cases h2

/-- C112: before a test is run, exactly these files are built: the target it runs, those of `depends:`, and those among the arguments. -/
theorem test_depends {E : World} {bench : Bool} {c : Call} {st st' : St} (hb : Abs E.build) (h : exec E (.test bench c) st = .ok st')
    (ha : ∀ o ∈ c.exe :: c.depends.getD [] ++ c.args.getD [], ∀ p ∈ needed o, Abs p) :
    ∃ t, st'.tests = st.tests ++ [t] ∧ AllLead E.build t.depends ((c.exe :: c.depends.getD [] ++ c.args.getD []).flatMap needed) := by
  obtain ⟨_, tap, x, args, e, d1, d2, d3, h1, h2, h3, h4, h5, h6, h7, rfl⟩ := addTest_parts h
  refine ⟨_, by rw [(envOf_tests E none c.env st e h4).1], ?_⟩
  show AllLead E.build (d1 ++ d2 ++ d3) _
  obtain ⟨r1, e1, l1⟩ := depOf_leads E hb c.exe (ha _ (by simp)) (depOf_notRun E _ _ h5)
  obtain ⟨r2, e2, l2⟩ := depsOf_leads E hb (c.depends.getD []) (fun o ho => ⟨ha o (by simp [ho]), depsOf_notRun E _ _ h6 o ho⟩)
  obtain ⟨r3, e3, l3⟩ := depsOf_leads E hb (c.args.getD []) (fun o ho => ⟨ha o (by simp [ho]), depsOf_notRun E _ _ h7 o ho⟩)
  rw [h5] at e1; cases e1
  rw [h6] at e2; cases e2
  rw [h7] at e3; cases e3
  simpa using (l1.append l2).append l3

/-- A program that can be run. -/
def Usable : Obj → Prop
  | .file _ => True
  | .target d n p => Abs d ∧ 0 ∉ n ∧ Abs p
  | .prog f cmd => f = true ∧ cmd ≠ []
  | .python f cmd => f = true ∧ cmd ≠ []
  | _ => False

/-- An argument that is no program and no run target. -/
def PlainArg (o : Obj) : Prop := (∀ p ∈ needed o, Abs p) ∧ match o with
  | .prog _ _ => False
  | .python _ _ => False
  | .custom _ none => False
  | _ => True

/-- A target that can be built. -/
def Buildable : Obj → Prop
  | .target _ _ p => Abs p
  | .both _ _ p => Abs p
  | .custom _ (some outs) => ∀ p ∈ outs, Abs p
  | _ => False

/-- C112: a call is accepted if its program is usable, its arguments are strings, files, targets and outputs, and its protocol is known. Missing: programs and run targets among the
arguments, run targets as dependencies, `verbose:` of benchmarks. -/
theorem test_accepted_partial (E : World) (bench : Bool) (c : Call) (st : St) (hb : Abs E.build) (hx : Usable c.exe) (ha : ∀ o ∈ c.args.getD [], PlainArg o)
    (hd : ∀ o ∈ c.depends.getD [], Buildable o)
    (hp : ∀ p, c.protocol = some p → p ∈ ["exitcode", "tap", "gtest", "rust"].map ascii) (hk : bench = true → c.parallel = none ∧ c.verbose = none)
    (he : ∀ l, strings c.env = some l → ∀ s ∈ l, 0 ∉ s ∧ 61 ∈ s) (hv : strings c.env ≠ none) : ∃ st', exec E (.test bench c) st = .ok st' := by
  have run : ∀ o, PlainArg o → notRun o := by
    intro o ho
    cases o with
    | custom n outs => cases outs with
      | none => exact ho.2.elim
      | some _ => trivial
    | _ => trivial
  have hd : ∀ o ∈ c.depends.getD [], dependsOk o = true ∧ PlainArg o := by
    intro o ho
    have hb := hd o ho
    cases o with
    | target d n p => exact ⟨rfl, fun q hq => by cases List.mem_singleton.1 hq; exact hb, trivial⟩
    | both d n p => exact ⟨rfl, fun q hq => by cases List.mem_singleton.1 hq; exact hb, trivial⟩
    | custom n outs => cases outs with
      | none => exact hb.elim
      | some outs => exact ⟨rfl, hb, trivial⟩
    | str | file | prog | python => exact hb.elim
  have k1 : keywordsOk bench c = true := by
    cases bench with
    | false => rfl
    | true => simp [keywordsOk, hk rfl]
  have k2 : (c.depends.getD []).all dependsOk = true := by
    rw [List.all_eq_true]; exact fun o ho => (hd o ho).1
  obtain ⟨tap, h1⟩ : ∃ tap, protocolOf c.protocol = .ok tap := by
    cases hq : c.protocol with
    | none => exact ⟨false, rfl⟩
    | some p =>
      have := hp p hq
      rw [protocolOf]
      split
      · exact ⟨_, rfl⟩
      · rename_i hne
        rw [if_pos]
        · exact ⟨_, rfl⟩
        · simp only [List.map_cons, List.map_nil, List.mem_cons, List.not_mem_nil, or_false] at this ⊢
          rcases this with h | h | h | h
          · exact .inl h
          · exact absurd h hne
          · exact .inr (.inl h)
          · exact .inr (.inr h)
  obtain ⟨x, h2⟩ : ∃ x, coerceExe E c.exe = .ok x := by
    cases hq : c.exe with
    | file p => exact ⟨_, rfl⟩
    | target d n p =>
      rw [hq] at hx
      obtain ⟨j1, j2, j3⟩ := Path.join_facts d n hx.1.2 hx.2.1
      obtain ⟨r, h8, _⟩ := Cmdline.relative_leads E.build (Path.join d n) hb ⟨by rw [j2, hx.1.1]; simp, j3⟩
      exact ⟨_, by rw [coerceExe, h8]; rfl⟩
    | prog f cmd | python f cmd =>
      rw [hq] at hx
      obtain ⟨y, l, rfl⟩ := List.exists_cons_of_ne_nil hx.2
      have hf : f = true := hx.1
      subst hf
      exact ⟨(y, l), rfl⟩
    | str | both | custom => rw [hq] at hx; exact hx.elim
  have words_ok : ∀ os : List Obj, (∀ o ∈ os, PlainArg o) → ∃ w, allWords os = .ok w := by
    intro os
    induction os with
    | nil => intro _; exact ⟨[], rfl⟩
    | cons o os ih =>
      intro h
      obtain ⟨w, hw⟩ := ih (fun q hq => h q (by simp [hq]))
      obtain ⟨v, hv⟩ : ∃ v, argWords o = .ok v := by
        have := (h o (by simp)).2
        cases o with
        | custom n outs => cases outs <;> exact ⟨_, rfl⟩
        | prog | python => exact this.elim
        | _ => exact ⟨_, rfl⟩
      exact ⟨v ++ w, by rw [allWords, hv, Res.ok_bind, hw]; rfl⟩
  obtain ⟨args, h3⟩ := words_ok _ ha
  have items_ok : ∀ (l : List Bytes) d, (∀ s ∈ l, 0 ∉ s ∧ 61 ∈ s) → ∃ d', items d l = .ok d' := by
    intro l
    induction l with
    | nil => intro d _; exact ⟨d, rfl⟩
    | cons s l ih =>
      intro d h
      obtain ⟨h1, h2⟩ := h s (by simp)
      obtain ⟨d', hd'⟩ := ih (Env.dictSet d (s.takeWhile (· ≠ 61)) (s.dropWhile (· ≠ 61)).tail) (fun q hq => h q (by simp [hq]))
      exact ⟨d', by rw [items, item, if_neg h1, if_neg (by simp [h2])]; exact hd'⟩
  obtain ⟨e, h4⟩ : ∃ e, envOf E none c.env st = .ok e := by
    unfold envOf
    cases hq : c.env with
    | none => exact ⟨_, rfl⟩
    | str s =>
      obtain ⟨i1, i2⟩ := he [s] (by rw [hq]; rfl) s (by simp)
      exact ⟨_, by rw [coerceEnv, item, if_neg i1, if_neg (by simp [i2])]; rfl⟩
    | arr l =>
      obtain ⟨d, hd⟩ := items_ok l [] (he l (by rw [hq]; rfl))
      exact ⟨_, by rw [coerceEnv, hd]; rfl⟩
    | var v => rw [hq] at hv; exact absurd rfl hv
  obtain ⟨d1, h5, _⟩ := depOf_leads E hb c.exe (by
    intro p hp
    cases hq : c.exe with
    | target d n q => rw [hq] at hp hx; cases List.mem_singleton.1 hp; exact hx.2.2
    | both | custom => rw [hq] at hx; exact hx.elim
    | _ => rw [hq] at hp; cases hp) (by
    cases hq : c.exe with
    | custom => rw [hq] at hx; exact hx.elim
    | _ => trivial)
  obtain ⟨d2, h6, _⟩ := depsOf_leads E hb (c.depends.getD []) (fun o ho => ⟨(hd o ho).2.1, run o (hd o ho).2⟩)
  obtain ⟨d3, h7, _⟩ := depsOf_leads E hb (c.args.getD []) (fun o ho => ⟨(ha o ho).1, run o (ha o ho)⟩)
  exact ⟨_, by
    show addTest E bench c st = _
    unfold addTest
    rw [if_neg (by simp [k1]), if_neg (by simp only [k2]; decide), h1, Res.ok_bind, h2, Res.ok_bind, h3, Res.ok_bind, h4, Res.ok_bind, h5, Res.ok_bind, h6, Res.ok_bind, h7, Res.ok_bind]⟩

end Muon.Tdecl
