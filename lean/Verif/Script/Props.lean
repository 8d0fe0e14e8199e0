import Verif.Script.Spec
import Verif.Tdecl.Props
/-
C113: scripts that are run when configuring and installing.
-/
namespace Muon.Script
open Muon Muon.Script.Spec
open Muon.Tdecl (Obj World)
open Muon.Cmdline.Spec (Abs Leads)

theorem executable_leads (E : World) (hb : Abs E.build) (d n : Bytes) (hd : Abs d) (hn : 0 ∉ n) :
    ∃ r, Path.relativeTo E.build (Path.join d n) = .ok r ∧ Leads E.build (Path.executable r) (Path.join d n) ∧ 47 ∈ Path.executable r := by
  obtain ⟨j1, j2, j3⟩ := Path.join_facts d n hd.2 hn
  have hj : Abs (Path.join d n) := ⟨by rw [j2, hd.1]; simp, j3⟩
  obtain ⟨r, h8, _⟩ := Cmdline.relative_leads E.build (Path.join d n) hb hj
  refine ⟨r, h8, Ctgt.word_leads hb hj ?_, ?_⟩
  · unfold Ctgt.Spec.Word
    rw [if_pos ⟨rfl, by simpa [Path.Spec.isAbs] using hj.1⟩]
    exact ⟨r, h8, .inr rfl⟩
  · unfold Path.executable
    split
    · simp
    · rename_i hn
      have hm : 47 ∈ r := by simpa [Path.isBasename] using hn
      have hc : (∃ t, 0 ∉ t ∧ r = Path.Spec.canon false t) ∨ r = [46] := by
        rcases Path.relativeTo_cases E.build (Path.join d n) hb.2 j3 hb.1 hj.1 with ⟨_, h⟩ | h | ⟨_, _, _, t, _, _, h, t0, _⟩
        · rw [h] at h8; cases h8; exact .inr rfl
        · rw [h] at h8; cases h8; exact .inl ⟨_, Path.canon_no0 _ _ j3, rfl⟩
        · rw [h] at h8; cases h8; exact .inl ⟨t, t0, rfl⟩
      rcases hc with ⟨t, t0, rfl⟩ | rfl
      · unfold Path.copy
        rw [Path.normalize_canon _ _ (Path.canon_no0 _ _ t0), Path.canon_canon _ _ t0]
        exact hm
      · simp at hm

/-- Targets are in directories with absolute paths. -/
def Placed : Obj → Prop
  | .target d n _ => Abs d ∧ 0 ∉ n
  | _ => True

/-- One argument that is accepted. -/
theorem step_words {E : World} {cwd : Bytes} {unbuilt mark : Bool} {o : Obj} {c c' : Ctx} (hb : Abs E.build) (hp : Placed o) (h : step E cwd unbuilt mark o c = .ok c') :
    ∃ w, c'.arr = c.arr ++ w ∧ c'.made = c.made ++ (if mark then [o].filter made else []) ∧ (made o = true → unbuilt = true) ∧ (c.first = false → c'.first = false ∧ Words E o w) ∧
      (c.first = true → First E cwd o w ∧ (¬ wordy o → c'.first = false)) := by
  have nomark : ∀ (b : Bool) (l : List Obj), l = l ++ (if b then [] else []) := by intro b l; cases b <;> simp
  have hprog : ∀ (f : Bool) (cmd : List Bytes) (p : Obj), (p = .prog f cmd ∨ p = .python f cmd) → program E p >>= (fun x =>
      if x.2.isEmpty then .ok { c with first := false, arr := c.arr ++ [x.1] } else .ok { c with arr := c.arr ++ x.1 :: x.2 }) = .ok c' →
      f = true ∧ c'.arr = c.arr ++ cmd ∧ c'.made = c.made ∧ (c.first = false → c'.first = false) ∧ (¬ 2 ≤ cmd.length → c'.first = false) := by
    intro f cmd p hq h
    cases f with
    | false => rcases hq with rfl | rfl <;> cases h
    | true =>
      cases cmd with
      | nil => rcases hq with rfl | rfl <;> cases h
      | cons x l =>
        cases l with
        | nil => rcases hq with rfl | rfl <;> (cases h; exact ⟨rfl, rfl, rfl, fun _ => rfl, fun _ => rfl⟩)
        | cons y l => rcases hq with rfl | rfl <;> (cases h; exact ⟨rfl, rfl, rfl, id, fun hl => absurd (by simp) hl⟩)
  cases o with
  | str s =>
    rw [step] at h
    cases hf : c.first with
    | false =>
      rw [hf] at h
      cases h
      exact ⟨[s], rfl, nomark mark _, nofun, fun _ => ⟨rfl, rfl⟩, nofun⟩
    | true =>
      rw [hf, if_neg (by decide)] at h
      split at h
      · cases h
      · cases h
        refine ⟨_, rfl, nomark mark _, nofun, nofun, fun _ => ⟨?_, fun _ => rfl⟩⟩
        show [_] = [_]
        have : Path.isAbsolute s = true ↔ s.head? = some 47 := by rw [Path.isAbsolute_eq]; simp [Path.Spec.isAbs]
        by_cases ha : s.head? = some 47
        · rw [if_pos (this.2 ha), if_pos ha]
        · rw [if_neg (fun x => ha (this.1 x)), if_neg ha]
  | file p =>
    cases h
    exact ⟨[p], rfl, nomark mark _, nofun, fun _ => ⟨rfl, rfl⟩, fun _ => ⟨rfl, fun _ => rfl⟩⟩
  | both d n p => cases h
  | custom n outs =>
    cases unbuilt with
    | false => cases h
    | true =>
      cases outs with
      | none => cases h
      | some outs =>
        cases h
        refine ⟨outs, rfl, ?_, fun _ => rfl, fun _ => ⟨rfl, rfl⟩, fun _ => ⟨rfl, fun _ => rfl⟩⟩
        cases mark <;> first | rfl | simp
  | target d n p =>
    cases unbuilt with
    | false => cases h
    | true =>
      obtain ⟨r, h1, h2, h3⟩ := executable_leads E hb d n hp.1 hp.2
      have hx : program E (.target d n p) = .ok (Path.executable r, []) := by rw [program, h1]; rfl
      change program E (.target d n p) >>= _ = _ at h
      rw [hx] at h
      cases h
      refine ⟨_, rfl, ?_, fun _ => rfl, fun _ => ⟨rfl, _, rfl, h2, h3⟩, fun _ => ⟨⟨_, rfl, h2, h3⟩, fun _ => rfl⟩⟩
      cases mark <;> first | rfl | simp
  | prog f cmd =>
    obtain ⟨a, b, d, e, g⟩ := hprog f cmd _ (.inl rfl) h
    exact ⟨cmd, b, by rw [d]; exact nomark mark _, nofun, fun x => ⟨e x, a, rfl⟩, fun _ => ⟨⟨a, rfl⟩, g⟩⟩
  | python f cmd =>
    obtain ⟨a, b, d, e, g⟩ := hprog f cmd _ (.inr rfl) h
    exact ⟨cmd, b, by rw [d]; exact nomark mark _, nofun, fun x => ⟨e x, a, rfl⟩, fun _ => ⟨⟨a, rfl⟩, g⟩⟩

theorem steps_rest {E : World} {cwd : Bytes} {unbuilt mark : Bool} (hb : Abs E.build) : ∀ (os : List Obj) (c c' : Ctx), (∀ o ∈ os, Placed o) → c.first = false →
    steps E cwd unbuilt mark os c = .ok c' →
    ∃ ws, c'.arr = c.arr ++ ws ∧ Rest E os ws ∧ c'.made = c.made ++ (if mark then os.filter made else []) ∧ ∀ o ∈ os, made o = true → unbuilt = true
  | [], c, c', _, _, h => by cases h; exact ⟨[], by simp, .nil, by cases mark <;> simp, by simp⟩
  | o :: os, c, c', hp, hf, h => by
    obtain ⟨x, h1, h2⟩ := Res.bind_eq_ok.1 h
    obtain ⟨w, a1, a2, a3, a4, _⟩ := step_words hb (hp o (by simp)) h1
    obtain ⟨f1, w1⟩ := a4 hf
    obtain ⟨ws, b1, b2, b3, b4⟩ := steps_rest hb os x c' (fun q hq => hp q (by simp [hq])) f1 h2
    refine ⟨w ++ ws, by rw [b1, a1, List.append_assoc], .cons w1 b2, ?_, ?_⟩
    · rw [b3, a2]
      cases mark <;> cases hm : made o <;> simp [hm]
    · intro q hq
      rcases List.mem_cons.1 hq with rfl | hq
      · exact a3
      · exact b4 q hq

theorem steps_line {E : World} {cwd : Bytes} {unbuilt mark : Bool} {o : Obj} {os : List Obj} {c' : Ctx} (hb : Abs E.build) (hp : ∀ q ∈ o :: os, Placed q) (hw : ¬ wordy o)
    (h : steps E cwd unbuilt mark (o :: os) {} = .ok c') :
    ∃ w ws, c'.arr = w ++ ws ∧ First E cwd o w ∧ Rest E os ws ∧ c'.made = (if mark then (o :: os).filter made else []) ∧ ∀ q ∈ o :: os, made q = true → unbuilt = true := by
  obtain ⟨x, h1, h2⟩ := Res.bind_eq_ok.1 h
  obtain ⟨w, a1, a2, a3, _, a4⟩ := step_words hb (hp o (by simp)) h1
  obtain ⟨f1, w1⟩ := a4 rfl
  obtain ⟨ws, b1, b2, b3, b4⟩ := steps_rest hb os x c' (fun q hq => hp q (by simp [hq])) (w1 hw) h2
  refine ⟨w, ws, by rw [b1, a1]; simp, f1, b2, ?_, ?_⟩
  · rw [b3, a2]
    cases mark <;> cases hm : made o <;> simp [hm]
  · intro q hq
    rcases List.mem_cons.1 hq with rfl | hq
    · exact a3
    · exact b4 q hq

/-- C113: an install script is run with the words of its arguments, the first of which is the program; the targets among them are built by default, so they exist when it is run;
and it is run in a dry run exactly if `dry_run: true` says so. Missing: programs that have arguments of their own (`interpreter_counterexample`). -/
theorem install_script_partial {E : World} {cwd : Bytes} {o : Obj} {os : List Obj} {dry : Option Bool} {st st' : St} (hb : Abs E.build) (hp : ∀ q ∈ o :: os, Placed q)
    (hw : ¬ wordy o) (h : exec E st (.install cwd (o :: os) dry) = .ok st') :
    ∃ b w ws, st'.install = st.install ++ [(b, w ++ ws)] ∧ (b = true ↔ dry = some true) ∧ First E cwd o w ∧ Rest E os ws ∧ st'.made = st.made ++ (o :: os).filter made ∧
      st'.postconf = st.postconf := by
  obtain ⟨c, h1, h2⟩ := Res.bind_eq_ok.1 h
  cases h2
  obtain ⟨w, ws, a1, a2, a3, a4, _⟩ := steps_line hb hp hw h1
  refine ⟨dry.getD false, w, ws, by rw [a1], ?_, a2, a3, by rw [a4]; rfl, rfl⟩
  cases dry with
  | none => simp
  | some b => cases b <;> simp

/-- C113: a script that is run after configuring has the words of its arguments; nothing among them has to be built first. Missing: as above. -/
theorem postconf_script_partial {E : World} {cwd : Bytes} {o : Obj} {os : List Obj} {st st' : St} (hb : Abs E.build) (hp : ∀ q ∈ o :: os, Placed q)
    (hw : ¬ wordy o) (h : exec E st (.postconf cwd (o :: os)) = .ok st') :
    ∃ w ws, st'.postconf = st.postconf ++ [w ++ ws] ∧ First E cwd o w ∧ Rest E os ws ∧ (∀ q ∈ o :: os, made q = false) ∧ st'.made = st.made ∧ st'.install = st.install := by
  obtain ⟨c, h1, h2⟩ := Res.bind_eq_ok.1 h
  cases h2
  obtain ⟨w, ws, a1, a2, a3, a4, a5⟩ := steps_line hb hp hw h1
  refine ⟨w, ws, by rw [a1], a2, a3, ?_, by rw [a4]; simp, rfl⟩
  intro q hq
  cases hm : made q with
  | false => rfl
  | true => exact nomatch a5 q hq hm

/-- An argument that can be used. -/
def Fine (unbuilt : Bool) : Obj → Prop
  | .str s => 0 ∉ s
  | .file _ => True
  | .target d n _ => unbuilt = true ∧ Abs d ∧ 0 ∉ n
  | .custom _ outs => unbuilt = true ∧ outs ≠ none
  | .prog f cmd => f = true ∧ cmd ≠ []
  | .python f cmd => f = true ∧ cmd ≠ []
  | .both _ _ _ => False

theorem step_fine (E : World) (cwd : Bytes) (unbuilt mark : Bool) (hb : Abs E.build) (o : Obj) (h : Fine unbuilt o) (c : Ctx) : ∃ c', step E cwd unbuilt mark o c = .ok c' := by
  cases o with
  | str s =>
    rw [step]
    cases c.first with
    | false => exact ⟨_, rfl⟩
    | true => exact ⟨_, by rw [if_neg (by decide), if_neg h]⟩
  | file p => exact ⟨_, rfl⟩
  | target d n p =>
    obtain ⟨r, h1, _, _⟩ := executable_leads E hb d n h.2.1 h.2.2
    have hu : unbuilt = true := h.1
    subst hu
    exact ⟨_, by show program E (.target d n p) >>= _ = _; rw [program, h1]; rfl⟩
  | both d n p => exact h.elim
  | custom n outs =>
    have hu : unbuilt = true := h.1
    subst hu
    cases outs with
    | none => exact absurd rfl h.2
    | some outs => exact ⟨_, rfl⟩
  | prog f cmd | python f cmd =>
    obtain ⟨x, l, rfl⟩ := List.exists_cons_of_ne_nil h.2
    have hf : f = true := h.1
    subst hf
    cases l with
    | nil => exact ⟨_, rfl⟩
    | cons y l => exact ⟨_, rfl⟩

/-- C113: calls are accepted if their arguments are strings, files, programs that were found and, except after configuring, targets. Missing: `both_libraries()`, and run targets. -/
theorem script_accepted_partial (E : World) (cwd : Bytes) (args : List Obj) (dry : Option Bool) (st : St) (hb : Abs E.build) :
    ((∀ o ∈ args, Fine true o) → (∃ st', exec E st (.install cwd args dry) = .ok st') ∧ ∃ st', exec E st (.dist cwd args) = .ok st') ∧
    ((∀ o ∈ args, Fine false o) → ∃ st', exec E st (.postconf cwd args) = .ok st') := by
  have all : ∀ (unbuilt mark : Bool) (os : List Obj) (c : Ctx), (∀ o ∈ os, Fine unbuilt o) → ∃ c', steps E cwd unbuilt mark os c = .ok c' := by
    intro unbuilt mark os
    induction os with
    | nil => intro c _; exact ⟨c, rfl⟩
    | cons o os ih =>
      intro c h
      obtain ⟨x, h1⟩ := step_fine E cwd unbuilt mark hb o (h o (by simp)) c
      obtain ⟨y, h2⟩ := ih x (fun q hq => h q (by simp [hq]))
      exact ⟨y, by rw [steps, h1]; exact h2⟩
  refine ⟨fun h => ⟨?_, ?_⟩, fun h => ?_⟩
  · obtain ⟨c, hc⟩ := all true true args {} h
    exact ⟨_, by rw [exec, hc]; rfl⟩
  · obtain ⟨c, hc⟩ := all true false args {} h
    exact ⟨_, by rw [exec, hc]; rfl⟩
  · obtain ⟨c, hc⟩ := all false false args {} h
    exact ⟨_, by rw [exec, hc]; rfl⟩

/-- C113: later calls leave earlier scripts, and their order, alone. -/
theorem scripts_kept (E : World) : ∀ (cs : List Call) (st st' : St), run E cs st = .ok st' → st.install <+: st'.install ∧ st.postconf <+: st'.postconf ∧ st.made <+: st'.made
  | [], st, st', h => by cases h; exact ⟨List.prefix_refl _, List.prefix_refl _, List.prefix_refl _⟩
  | c :: cs, st, st', h => by
    obtain ⟨x, h1, h2⟩ := Res.bind_eq_ok.1 h
    obtain ⟨a1, a2, a3⟩ := scripts_kept E cs x st' h2
    have : st.install <+: x.install ∧ st.postconf <+: x.postconf ∧ st.made <+: x.made := by
      cases c with
      | install cwd args dry =>
        obtain ⟨y, _, h4⟩ := Res.bind_eq_ok.1 h1
        cases h4; exact ⟨List.prefix_append .., List.prefix_refl _, List.prefix_append ..⟩
      | postconf cwd args =>
        obtain ⟨y, _, h4⟩ := Res.bind_eq_ok.1 h1
        cases h4; exact ⟨List.prefix_refl _, List.prefix_append .., List.prefix_append ..⟩
      | dist cwd args =>
        obtain ⟨y, _, h4⟩ := Res.bind_eq_ok.1 h1
        cases h4; exact ⟨List.prefix_refl _, List.prefix_refl _, List.prefix_refl _⟩
    exact ⟨this.1.trans a1, this.2.1.trans a2, this.2.2.trans a3⟩

/-- C113: after configuring, the scripts are run in their order; configuring succeeds exactly if each of them does, and nothing is run after one that fails. -/
theorem postconf_run (ok : List Bytes → Bool) : ∀ (cs : List (List Bytes)),
    ((runAll ok cs).2 = true ∧ (runAll ok cs).1 = cs ∧ ∀ c ∈ cs, ok c = true) ∨
    ∃ pre c post, cs = pre ++ c :: post ∧ (runAll ok cs).2 = false ∧ (runAll ok cs).1 = pre ++ [c] ∧ ok c = false ∧ ∀ p ∈ pre, ok p = true
  | [] => .inl ⟨rfl, rfl, by simp⟩
  | c :: cs => by
    rw [runAll]
    cases hc : ok c with
    | false => exact .inr ⟨[], c, cs, rfl, rfl, rfl, hc, by simp⟩
    | true =>
      rcases postconf_run ok cs with ⟨a, b, d⟩ | ⟨pre, x, post, a, b, d, e, f⟩
      · refine .inl ⟨a, by rw [if_pos rfl, b], ?_⟩
        intro q hq
        rcases List.mem_cons.1 hq with rfl | hq
        · exact hc
        · exact d q hq
      · refine .inr ⟨c :: pre, x, post, by rw [a]; rfl, b, by rw [if_pos rfl, d]; rfl, e, ?_⟩
        intro q hq
        rcases List.mem_cons.1 hq with rfl | hq
        · exact hc
        · exact f q hq

/-! ### Counterexamples -/

/-- A world. -/
def w : World := { argv0 := ascii "/usr/bin/muon", build := ascii "/b", source := ascii "/s", getenv := fun _ => none }

/-- C113 fails for programs with arguments of their own: they are not counted, so the first string after them is taken for the program and made a path. -/
theorem interpreter_counterexample :
    exec w {} (.postconf (ascii "/s") [.prog true [ascii "/bin/env", ascii "sh"], .str (ascii "-c"), .str (ascii "true")]) =
      .ok { postconf := [[ascii "/bin/env", ascii "sh", ascii "/s/-c", ascii "true"]] } ∧
    exec w {} (.postconf (ascii "/s") [.prog true [ascii "/bin/sh"], .str (ascii "-c"), .str (ascii "true")]) =
      .ok { postconf := [[ascii "/bin/sh", ascii "-c", ascii "true"]] } := by decide +kernel

/-- C113 fails for `both_libraries()`: they are of the right type, but an error. -/
theorem both_counterexample (E : World) (cwd s d n p : Bytes) (dry : Option Bool) (st : St) : exec E st (.install cwd [.file s, .both d n p] dry) = .error := rfl

/-- C113 fails for run targets: muon aborts. -/
theorem run_target_counterexample (E : World) (cwd s n : Bytes) (dry : Option Bool) (st : St) : exec E st (.install cwd [.file s, .custom n none] dry) = .bad := rfl

/-- C113 fails for dist scripts: they are forgotten. -/
theorem dist_counterexample (E : World) (cwd s : Bytes) (st : St) : exec E st (.dist cwd [.file s]) = .ok st := rfl

/-! ### The hypotheses hold -/

/-- A build file with scripts. -/
def sample : List Call := [.install (ascii "/s/x") [.str (ascii "do.sh"), .str (ascii "a"), .target (ascii "/b/x") (ascii "t") (ascii "/b/x/t"), .custom (ascii "c") (some [ascii "/b/o"])] (some true),
  .postconf (ascii "/s") [.str (ascii "/bin/true")], .install (ascii "/s") [.target (ascii "/b") (ascii "u") (ascii "/b/u")] none]

example : run w sample {} = .ok ⟨[(true, [ascii "/s/x/do.sh", ascii "a", ascii "x/t", ascii "/b/o"]), (false, [ascii "./u"])], [[ascii "/bin/true"]],
    [.target (ascii "/b/x") (ascii "t") (ascii "/b/x/t"), .custom (ascii "c") (some [ascii "/b/o"]), .target (ascii "/b") (ascii "u") (ascii "/b/u")]⟩ := by decide +kernel

example : Abs w.build ∧ Placed (.target (ascii "/b/x") (ascii "t") (ascii "/b/x/t")) ∧ ¬ wordy (.str (ascii "do.sh")) ∧ Fine true (.target (ascii "/b/x") (ascii "t") (ascii "/b/x/t")) := by
  refine ⟨by unfold Abs; decide +kernel, by unfold Placed Abs; decide +kernel, id, by unfold Fine Abs; decide +kernel⟩

example : runAll (fun c => c ≠ [ascii "b"]) [[ascii "a"], [ascii "b"], [ascii "c"]] = ([[ascii "a"], [ascii "b"]], false) := by decide +kernel

end Muon.Script
