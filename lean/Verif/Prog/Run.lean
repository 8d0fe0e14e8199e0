import Verif.Prog.Props
/-
Property theorems for C106: commands, methods of programs, aborts, and where the claims fail.
-/
namespace Muon.Prog
open Muon
open Muon.Prog.Spec

/-! ### Commands -/

/-- The words of an argument: a string or the path of a file, and the words of a program. -/
inductive Spec.Words : Obj → List Bytes → Prop
  | str (s : Bytes) : Spec.Words (.str s) [s]
  | file (p : Bytes) : Spec.Words (.file p) [p]
  | ext (e : Ext) (cmd : List Bytes) : e.cmd = some cmd → Spec.Words (.ext e) cmd
  | compiler (cmd : List Bytes) : Spec.Words (.compiler cmd) cmd

/-- The words of arguments, one after the other. -/
inductive Spec.AllWords : List Obj → List Bytes → Prop
  | nil : Spec.AllWords [] []
  | cons (o : Obj) (os : List Obj) (w ws : List Bytes) : Spec.Words o w → Spec.AllWords os ws →
      Spec.AllWords (o :: os) (w ++ ws)

theorem words_iff (o : Obj) (w : List Bytes) : words o = .ok w ↔ Spec.Words o w := by
  constructor
  · intro h
    cases o with
    | str s => cases h; exact .str s
    | file p => cases h; exact .file p
    | target i => cases h
    | ext e =>
      simp only [words] at h
      cases hc : e.cmd with
      | none => rw [hc] at h; cases h
      | some cmd => rw [hc] at h; cases h; exact .ext e _ hc
    | python e => cases h
    | compiler cmd => cases h; exact .compiler _
  · intro h
    cases h with
    | ext e cmd hc => simp [words, hc]
    | _ => rfl

theorem allWords_iff (os : List Obj) (ws : List Bytes) : allWords os = .ok ws ↔ Spec.AllWords os ws := by
  induction os generalizing ws with
  | nil =>
    constructor
    · intro h; cases h; exact .nil
    · intro h; cases h; rfl
  | cons o os ih =>
    constructor
    · intro h
      obtain ⟨w, h1, h2⟩ := Res.bind_eq_ok.1 h
      obtain ⟨r, h3, h4⟩ := Res.bind_eq_ok.1 h2
      cases h4
      exact .cons o os w r ((words_iff o w).1 h1) ((ih r).1 h3)
    · intro h
      cases h with
      | cons _ _ w r h1 h2 =>
        rw [allWords, (words_iff o w).2 h1, Res.ok_bind, (ih r).2 h2, Res.ok_bind]

/-- The words of a command: those of the program that is found for the first argument, then those of the others, in
order. -/
theorem command_words (E : Env) (st st' : St) (args : List Obj) (ws : List Bytes)
    (h : commandLine E st args = .ok (st', ws)) :
    ∃ a os o r1 r2, args = a :: os ∧ ws = r1 ++ r2 ∧ Spec.Words o r1 ∧ Spec.AllWords os r2 ∧
      ((∃ cmd, a = .compiler cmd ∧ o = a ∧ st' = st) ∨ From E none none st' a o) := by
  have hgo : ∀ (a : Obj) (os : List Obj), (findOne E none none .auto st a >>= fun r =>
      match r.2 with
      | none => Res.error
      | some o => allWords (o :: os) >>= fun ws => .ok (r.1, ws)) = .ok (st', ws) →
      ∃ a' os' o r1 r2, a :: os = a' :: os' ∧ ws = r1 ++ r2 ∧ Spec.Words o r1 ∧ Spec.AllWords os' r2 ∧
      ((∃ cmd, a' = .compiler cmd ∧ o = a' ∧ st' = st) ∨ From E none none st' a' o) := by
    intro a os h
    obtain ⟨⟨s1, o⟩, h5, h6⟩ := Res.bind_eq_ok.1 h
    cases o with
    | none => cases h6
    | some o =>
      obtain ⟨w, h7, h8⟩ := Res.bind_eq_ok.1 h6
      cases h8
      have hw := (allWords_iff (o :: os) ws).1 h7
      cases hw with
      | cons _ _ r1 r2 g1 g2 =>
        exact ⟨a, os, o, r1, r2, rfl, rfl, g1, g2, .inr (found_from E none none .auto st s1 a o h5)⟩
  cases args with
  | nil => cases h
  | cons a os =>
    cases a with
    | compiler cmd =>
      simp only [commandLine] at h
      obtain ⟨w, h7, h8⟩ := Res.bind_eq_ok.1 h
      cases h8
      have hw := (allWords_iff _ ws).1 h7
      cases hw with
      | cons _ _ r1 r2 g1 g2 =>
        exact ⟨_, os, _, r1, r2, rfl, rfl, g1, g2, .inl ⟨cmd, rfl, rfl, rfl⟩⟩
    | ext e => exact hgo _ os h
    | python e => exact hgo _ os h
    | file p => exact hgo _ os h
    | target i => exact hgo _ os h
    | str s => exact hgo _ os h

/-- The result of a command is what it did: its status, and what it printed unless that was not to be captured. A failure
is an error only if that is asked for. -/
theorem command_result (E : Env) (exec : List Bytes → Option Ran) (check capture : Option Bool) (st st' : St)
    (args : List Obj) (ws : List Bytes) (r : Ran) (hl : commandLine E st args = .ok (st', ws)) (hr : exec ws = some r) :
    (check = some true → r.status ≠ 0 → runCommand E exec check capture st args = .error) ∧
    (check ≠ some true ∨ r.status = 0 → ∃ q, runCommand E exec check capture st args = .ok (st', q) ∧
      q.status = r.status ∧ (capture = some false → q.out = [] ∧ q.err = []) ∧
      (capture ≠ some false → q.out = r.out ∧ q.err = r.err)) := by
  constructor
  · intro h1 h2
    simp only [runCommand, hl, Res.ok_bind, hr]
    rw [if_pos ⟨h1, h2⟩]
  · intro h1
    have hn : ¬ (check = some true ∧ r.status ≠ 0) := by
      rintro ⟨a, b⟩
      rcases h1 with h1 | h1
      · exact h1 a
      · exact b h1
    simp only [runCommand, hl, Res.ok_bind, hr]
    rw [if_neg hn]
    by_cases hc : capture = some false
    · rw [if_pos hc]
      exact ⟨_, rfl, rfl, fun _ => ⟨rfl, rfl⟩, fun h => absurd hc h⟩
    · rw [if_neg hc]
      exact ⟨_, rfl, rfl, fun h => absurd h hc, fun _ => ⟨rfl, rfl⟩⟩

/-- A command that cannot be started is an error. -/
theorem command_not_started (E : Env) (exec : List Bytes → Option Ran) (check capture : Option Bool) (st st' : St)
    (args : List Obj) (ws : List Bytes) (hl : commandLine E st args = .ok (st', ws)) (hr : exec ws = none) :
    runCommand E exec check capture st args = .error := by
  simp only [runCommand, hl, Res.ok_bind, hr]

/-- A program that cannot be found is an error. -/
theorem command_missing (E : Env) (exec : List Bytes → Option Ran) (check capture : Option Bool) (st st' : St) (a : Obj)
    (os : List Obj) (hc : ∀ cmd, a ≠ .compiler cmd) (h : findOne E none none .auto st a = .ok (st', none)) :
    runCommand E exec check capture st (a :: os) = .error := by
  have : commandLine E st (a :: os) = .error := by
    cases a with
    | compiler cmd => exact absurd rfl (hc cmd)
    | _ => simp only [commandLine, h, Res.ok_bind]
  rw [runCommand, this]
  rfl

/-! ### Methods -/

/-- The path of a program found as a file is that file. -/
theorem path_of_file (e : Ext) (p : Bytes) (h : e.cmd = some [p]) : path e = .ok p := by
  simp [path, h]

/-- A program of several words has no path. -/
theorem path_of_words (e : Ext) (a b : Bytes) (ws : List Bytes) (h : e.cmd = some (a :: b :: ws)) : path e = .error := by
  simp [path, h]

/-- The version of a program is what it says; asked again it is the same, without running the program again. -/
theorem version_says (E : Env) (e : Ext) (cmd : List Bytes) (h : e.cmd = some cmd)
    (hg : e.guessed = true → ∀ v, e.ver = some v ↔ Says E cmd v) :
    ∃ e' r, version E e = .ok (e', r) ∧ (∀ v, r = some v ↔ Says E cmd v) ∧
      ∀ E', version E' e' = .ok (e', r) := by
  unfold version
  cases hge : e.guessed with
  | true =>
    rw [if_pos rfl]
    exact ⟨e, e.ver, rfl, hg hge, fun E' => by rw [if_pos hge]⟩
  | false =>
    rw [if_neg (by simp), h]
    refine ⟨_, _, rfl, fun v => guess_says E cmd v, fun E' => ?_⟩
    simp

/-! ### Aborts -/

theorem findFile_ok (E : Env) (dirs vs : Option (List Bytes)) (req : Lookup.Req) (b : Bool) (st : St) (s : Bytes)
    (hs : s ≠ []) (hc : Clean st) (hsub : SubClean E) : ∃ st' r, findFile E dirs vs req b st s = .ok (st', r) ∧ Clean st' := by
  obtain ⟨p, hp⟩ := place_ok E dirs s hs
  unfold findFile
  rw [hp, Res.ok_bind]
  cases p with
  | some p => exact ⟨_, _, rfl, hc⟩
  | none =>
    cases b with
    | false => exact ⟨st, none, rfl, hc⟩
    | true =>
      show ∃ st' r, findLast E vs req st s = .ok (st', r) ∧ Clean st'
      unfold findLast
      split
      · unfold checkFallback
        split
        · exact ⟨_, _, rfl, hc⟩
        · next t ht =>
          have hc' := hsub st t hc
          simp only
          split
          · exact ⟨_, _, rfl, hc'⟩
          · obtain ⟨o, ho⟩ := checkOver_clean E vs (E.sub st t).1 s hc'
            rw [ho]
            cases o with
            | none => exact ⟨_, _, rfl, hc'⟩
            | some o => exact ⟨_, _, rfl, hc'⟩
      · exact ⟨_, _, rfl, hc⟩

theorem findOne_ok (E : Env) (dirs vs : Option (List Bytes)) (req : Lookup.Req) (st : St) (a : Obj)
    (ha : (∃ s, a = .str s ∧ s ≠ []) ∨ ∃ p, a = .file p ∧ p ≠ []) (hc : Clean st) (hsub : SubClean E) :
    ∃ st' r, findOne E dirs vs req st a = .ok (st', r) ∧ Clean st' := by
  rcases ha with ⟨s, rfl, hs⟩ | ⟨p, rfl, hp⟩
  · obtain ⟨o, ho⟩ := checkOver_clean E vs st s hc
    simp only [findOne, ho, Res.ok_bind]
    cases o with
    | some o => exact ⟨_, _, rfl, hc⟩
    | none =>
      simp only [findForced]
      split
      · have : ∃ st1 r, checkFallback E vs st s = .ok (st1, r) ∧ Clean st1 := by
          unfold checkFallback
          split
          · exact ⟨_, _, rfl, hc⟩
          · next t ht =>
            have hc' := hsub st t hc
            simp only
            split
            · exact ⟨_, _, rfl, hc'⟩
            · obtain ⟨o, ho⟩ := checkOver_clean E vs (E.sub st t).1 s hc'
              rw [ho]
              exact ⟨_, _, rfl, hc'⟩
        obtain ⟨st1, r, h1, h2⟩ := this
        rw [h1, Res.ok_bind]
        cases r with
        | some o => exact ⟨_, _, rfl, h2⟩
        | none => exact findFile_ok E dirs vs req true st1 s hs h2 hsub
      · exact findFile_ok E dirs vs req true st s hs hc hsub
  · exact findFile_ok E dirs vs req false st p hp hc hsub

/-- Calls with names that are not empty do not abort, as long as no override is a python installation. -/
theorem find_total_partial (E : Env) (c : Call) (st : St) (hc : Clean st) (hsub : SubClean E)
    (hn : ∀ a ∈ c.names, (∃ s, a = .str s ∧ s ≠ []) ∨ ∃ p, a = .file p ∧ p ≠ []) : findProgram E c st ≠ .bad := by
  have key : ∀ (ns : List Obj) (st : St), Clean st →
      (∀ a ∈ ns, (∃ s, a = .str s ∧ s ≠ []) ∨ ∃ p, a = .file p ∧ p ≠ []) →
      ∃ x, findAll E c.dirs c.versions c.req st ns = .ok x := by
    intro ns
    induction ns with
    | nil => intro st _ _; exact ⟨_, rfl⟩
    | cons a ns ih =>
      intro st hst hns
      obtain ⟨st', r, h1, h2⟩ := findOne_ok E c.dirs c.versions c.req st a (hns a (by simp)) hst hsub
      rw [findAll, h1]
      cases r with
      | some o => exact ⟨_, rfl⟩
      | none => exact ih st' h2 (fun b hb => hns b (by simp [hb]))
  unfold findProgram
  split
  · simp
  · obtain ⟨⟨s1, r⟩, h1⟩ := key c.names st hc hn
    rw [h1, Res.ok_bind]
    cases r with
    | some o => simp
    | none =>
      simp only
      split <;> simp

/-! ### Cases -/

/-- A project in `/s`, with the tool `gen` in `/s` and in `/t`, of versions 1.2 and 2.0, and `cc` in `PATH`. -/
def env : Env :=
  { cwd := ascii "/s",
    isFile := fun p => p == ascii "/s/gen" || p == ascii "/t/gen",
    files := ⟨fun p => p == ascii "/usr/bin/cc" || p == ascii "/usr/bin/gen", fun _ => none, ascii "/s", some (ascii "/bin:/usr/bin")⟩,
    wrap := .nopromote,
    provides := fun n => if n = ascii "tool" then some (ascii "sp") else none,
    sub := fun st s => if s = ascii "sp" then
        (⟨fun n => if n = ascii "tool" then some (.pair (.target 3) (some (ascii "1.0"))) else st.over n⟩, true, true)
      else (st, true, false),
    prints := fun cmd => if cmd = [ascii "/s/gen"] then some (ascii "gen 1.2\n") else some (ascii "gen 2.0\n"),
    samurai := true,
    argv0 := ascii "muon" }

/-- No program is overridden. -/
def none0 : St := ⟨fun _ => none⟩

theorem none0_clean : Clean none0 := by
  intro n w h
  cases h

/-- What is found, without the state. -/
def got (r : Res (St × Option Obj)) : Res (Option Obj) := r >>= fun x => .ok x.2

/-- `find_program('gen')` finds the file in the source tree; with `dirs: '/t'`, the one there; `cc` is in `PATH`; `tool`
comes from the subproject `sp`, and `ninja` is built in. -/
theorem cases_found :
    got (findOne env none none .required none0 (.str (ascii "gen"))) =
      .ok (some (.ext ⟨true, false, some [ascii "/s/gen"], none⟩)) ∧
    got (findOne env (some [ascii "/u", ascii "/t"]) none .required none0 (.str (ascii "gen"))) =
      .ok (some (.ext ⟨true, false, some [ascii "/t/gen"], none⟩)) ∧
    got (findOne env none none .required none0 (.str (ascii "cc"))) =
      .ok (some (.ext ⟨true, false, some [ascii "/usr/bin/cc"], none⟩)) ∧
    got (findOne env none none .required none0 (.str (ascii "tool"))) = .ok (some (.target 3)) ∧
    got (findOne env none none .auto none0 (.str (ascii "tool"))) = .ok none ∧
    got (findOne env none none .auto none0 (.str (ascii "ninja"))) =
      .ok (some (.ext ⟨true, false, some [ascii "muon", ascii "samu"], none⟩)) := by
  decide +kernel

example : At env none (ascii "gen") (ascii "/s/gen") ∧ Meets env (some [ascii ">=1.0"]) [ascii "/s/gen"] ∧
    (∀ o, ¬ Overridden env none none0 (ascii "gen") o) ∧ env.wrap ≠ .forcefallback ∧ SubSound env := by
  have hj : Path.join env.cwd (ascii "gen") = ascii "/s/gen" := by decide +kernel
  refine ⟨?_, ?_, ?_, by decide, ?_⟩
  · rw [← hj]
    exact .tree (by simp) (by decide +kernel)
  · intro l hl
    cases hl
    exact ⟨ascii "1.2", ⟨ascii "gen 1.2\n", by decide +kernel, by decide +kernel⟩, (sat_iff _ _).1 (by decide +kernel)⟩
  · rintro o ⟨w, hw, _⟩
    cases hw
  · intro st s h
    simp only [env] at h ⊢
    split at h <;> cases h

example : Nowhere env none (ascii "tool") := place_none env none (ascii "tool") (by decide +kernel)

example : SubClean env := by
  intro st s h
  simp only [env]
  split
  · intro n w hw
    simp only at hw
    split at hw
    · cases hw
      intro o ho
      cases ho
    · exact h n w hw
  · exact h

example : Overridden env none (env.sub none0 (ascii "sp")).1 (ascii "tool") (.target 3) :=
  ⟨.pair (.target 3) (some (ascii "1.0")), by decide +kernel, .other _ _ (by simp) (by simp)⟩

example : commandLine env none0 [.str (ascii "cc"), .str (ascii "-v")] = .ok (none0, [ascii "/usr/bin/cc", ascii "-v"]) := by
  have h : findOne env none none .auto none0 (.str (ascii "cc")) =
      .ok (none0, some (.ext ⟨true, false, some [ascii "/usr/bin/cc"], none⟩)) := by
    have hs : got (findOne env none none .auto none0 (.str (ascii "cc"))) =
      .ok (some (.ext ⟨true, false, some [ascii "/usr/bin/cc"], none⟩)) := by decide +kernel
    cases hf : findOne env none none .auto none0 (.str (ascii "cc")) with
    | bad => rw [hf] at hs; cases hs
    | error => rw [hf] at hs; cases hs
    | ok r =>
      obtain ⟨s1, o⟩ := r
      rw [hf] at hs
      have hst := no_subproject env none none .auto none0 s1 _ o (.inl ⟨by decide, .inr (by decide)⟩) hf
      cases hs
      rw [hst]
  simp only [commandLine, h, Res.ok_bind]
  rfl

/-! ### Where the claims fail -/

/-- The empty name aborts (an assertion of `fs_find_cmd`). -/
theorem empty_name_counterexample : findProgram env { names := [.str []] } none0 = .bad := by
  unfold findProgram
  rw [if_neg (by decide)]
  have : findOne env none none .required none0 (.str []) = .bad := by
    have h : got (findOne env none none .required none0 (.str [])) = .bad := by decide +kernel
    cases hf : findOne env none none .required none0 (.str []) with
    | bad => rfl
    | error => rw [hf] at h; cases h
    | ok r => rw [hf] at h; cases h
  simp only [findAll, this]
  rfl

/-- A program that is overridden with a python installation cannot be looked for: muon aborts. -/
theorem python_override_counterexample (E : Env) (e : Ext) (st st' : St) (n : Bytes) (dirs vs : Option (List Bytes))
    (req : Lookup.Req) (h : overrideFindProgram none n (.python e) st = .ok st') :
    findOne E dirs vs req st' (.str n) = .bad := by
  cases h
  simp only [findOne, checkOver, if_true]
  rfl

/-- Asking a program that was not found for its path, or for its version, aborts. -/
theorem not_found_counterexample : ∃ st e, findProgram env { names := [.str (ascii "nope")], req := .auto } none0 =
    .ok (st, .obj (.ext e)) ∧ path e = .bad ∧ version env e = .bad := by
  have h0 : got (findOne env none none .auto none0 (.str (ascii "nope"))) = .ok none := by decide +kernel
  obtain ⟨⟨s1, o⟩, h1, h2⟩ := Res.bind_eq_ok.1 h0
  cases h2
  refine ⟨s1, ⟨false, false, none, none⟩, ?_, rfl, rfl⟩
  simp only [findProgram, findAll, h1]
  rfl

/-- A version that is wanted is not always what is found: an override whose version is not known is taken, and so is the
built-in samurai. -/
theorem version_counterexample :
    got (findOne { env with prints := fun _ => none } none (some [ascii ">=99"]) .required
      ⟨fun n => if n = ascii "x" then some (.prog (.ext ⟨true, false, some [ascii "/x"], none⟩)) else none⟩
      (.str (ascii "x"))) = .ok (some (.ext ⟨true, false, some [ascii "/x"], none⟩)) ∧
    got (findOne env none (some [ascii ">=99"]) .auto none0 (.str (ascii "samu"))) =
      .ok (some (.ext ⟨true, false, some [ascii "muon", ascii "samu"], none⟩)) := by
  decide +kernel

/-- The search ends at a file of another version, although there is one that is wanted further on (`/usr/bin/gen`, of
version 2.0). -/
theorem version_ends_counterexample :
    got (findOne env none (some [ascii ">=2.0"]) .required none0 (.str (ascii "gen"))) = .ok none ∧
    got (findOne { env with isFile := fun _ => false } none (some [ascii ">=2.0"]) .required none0 (.str (ascii "gen"))) =
      .ok (some (.ext ⟨true, true, some [ascii "/usr/bin/gen"], some (ascii "2.0")⟩)) := by
  decide +kernel

/-- What a subproject that failed has overridden before is taken. -/
theorem failed_subproject_counterexample :
    got (findOne { env with sub := fun st s => ((env.sub st s).1, true, false) } none none .required none0
      (.str (ascii "tool"))) = .ok (some (.target 3)) := by
  decide +kernel

/-- What is guessed need not be a version: dots alone are taken for one. -/
theorem guess_counterexample : guessVersion (ascii "foo 1.2, loading ...") = some (ascii "...") := by
  decide +kernel

end Muon.Prog
