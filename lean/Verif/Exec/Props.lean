import Verif.Exec.Spec
import Verif.Ninja.Model
import Verif.Ini.Props
/-
C81: `muon internal exe` runs the command of the custom target; C82: options; C83: arguments, environment and interpreter of a program.
-/
namespace Muon.Exec
open Muon Spec

/-! ### Options -/

theorem cluster_flags (spec : UInt8 → Option Bool) (fs r : Bytes) (h : ∀ c ∈ fs, spec c = some false) :
    cluster spec (fs ++ r) = (fs.map (fun c => .opt c []) ++ (cluster spec r).1, (cluster spec r).2) := by
  induction fs with
  | nil => rfl
  | cons c fs ih =>
    rw [List.cons_append, cluster, h c (by simp), ih (fun c hc => h c (by simp [hc]))]
    rfl

theorem getopt_operands (spec : UInt8 → Option Bool) (ops : List Bytes) (h : ∀ a, ops.head? = some a → a.head? ≠ some 45 ∨ a = [45]) :
    getopt spec ops = ([], ops) := by
  cases ops with
  | nil => rfl
  | cons a as =>
    have ha : optChars a = none := by
      rw [optChars, if_neg]
      rintro ⟨h1, h2⟩
      rcases h a rfl with h | h
      · exact h h1
      · rw [h] at h2; simp at h2
    rw [getopt.eq_def]
    simp only
    rw [ha]

/-- `--`. -/
theorem getopt_dashes (spec : UInt8 → Option Bool) (as : List Bytes) : getopt spec ([45, 45] :: as) = ([], as) := by
  rw [getopt.eq_def]
  simp only
  rw [show optChars [45, 45] = some [45] from rfl]
  simp

/-- `-abc`. -/
theorem getopt_cluster (spec : UInt8 → Option Bool) (cs : Bytes) (as : List Bytes) (hne : cs ≠ []) (hd : cs ≠ [45]) :
    getopt spec ((45 :: cs) :: as) = (match (cluster spec cs).2, as with
        | none, as => ((cluster spec cs).1 ++ (getopt spec as).1, (getopt spec as).2)
        | some _, [] => ((cluster spec cs).1 ++ [.unknown], [])
        | some o, x :: as => ((cluster spec cs).1 ++ .opt o x :: (getopt spec as).1, (getopt spec as).2)) := by
  have ho : optChars (45 :: cs) = some cs := by
    have hl : 2 ≤ (45 :: cs).length := Nat.succ_le_succ (List.length_pos_iff.2 hne)
    rw [optChars, if_pos ⟨rfl, hl⟩]; rfl
  rw [getopt.eq_def]
  simp only
  rw [ho]
  simp only
  rw [if_neg hd]
  rfl

theorem says_getopt (spec : UInt8 → Option Bool) {is : List Item} {ops argv : List Bytes} (h : Says spec is ops argv) :
    getopt spec argv = (is, ops) ∧ .unknown ∉ is := by
  induction h with
  | operands ops h => exact ⟨getopt_operands spec ops h, by simp⟩
  | dashes ops => exact ⟨getopt_dashes spec ops, by simp⟩
  | flags fs hne hf hd h ih =>
    have k := cluster_flags spec fs [] hf
    simp only [List.append_nil] at k
    rw [getopt_cluster spec fs _ hne hd, k]
    simp only [cluster, List.append_nil, ih.1]
    refine ⟨trivial, ?_⟩
    simp [ih.2]
  | attached fs hf c hc x hx h ih =>
    have hd : fs ++ c :: x ≠ [45] := by
      intro e
      cases fs with
      | nil => injection e with e1 e2; exact hx e2
      | cons a fs => simp at e
    have k : cluster spec (c :: x) = ([.opt c x], none) := by rw [cluster, hc]; simp [hx]
    rw [getopt_cluster spec _ _ (by simp) hd, cluster_flags spec fs _ hf, k]
    simp only [ih.1]
    refine ⟨by simp, ?_⟩
    simp [ih.2]
  | separate fs hf c hc hd x h ih =>
    have k : cluster spec [c] = ([], some c) := by rw [cluster, hc]; simp
    rw [getopt_cluster spec _ _ (by simp) hd, cluster_flags spec fs _ hf, k]
    simp only [ih.1, List.append_nil]
    refine ⟨trivial, ?_⟩
    simp [ih.2]

/-- An argument with options, all known. -/
theorem cluster_known (spec : UInt8 → Option Bool) : ∀ (cs : Bytes), .unknown ∉ (cluster spec cs).1 →
    ((cluster spec cs).2 = none ∧ (∀ c ∈ cs, spec c = some false) ∧ (cluster spec cs).1 = cs.map (fun c => .opt c [])) ∨
    (∃ fs c x, cs = fs ++ c :: x ∧ (∀ c ∈ fs, spec c = some false) ∧ spec c = some true ∧
      ((x ≠ [] ∧ cluster spec cs = (fs.map (fun c => .opt c []) ++ [.opt c x], none)) ∨ (x = [] ∧ cluster spec cs = (fs.map (fun c => .opt c []), some c)))) := by
  intro cs
  induction cs with
  | nil => intro _; exact Or.inl ⟨rfl, by simp, rfl⟩
  | cons c cs ih =>
    intro h
    cases hs : spec c with
    | none => rw [cluster, hs] at h; simp at h
    | some b =>
      cases b with
      | true =>
        refine Or.inr ⟨[], c, cs, rfl, by simp, hs, ?_⟩
        rw [cluster, hs]
        by_cases hcs : cs = []
        · exact Or.inr ⟨hcs, by simp [hcs]⟩
        · exact Or.inl ⟨hcs, by simp [hcs]⟩
      | false =>
        rw [cluster, hs] at h
        simp only [List.mem_cons, reduceCtorEq, false_or] at h
        rcases ih h with ⟨h1, h2, h3⟩ | ⟨fs, d, x, h1, h2, h3, h4⟩
        · refine Or.inl ?_
          rw [cluster, hs]
          refine ⟨h1, ?_, by simp [h3]⟩
          intro e he
          rcases List.mem_cons.1 he with rfl | he
          · exact hs
          · exact h2 e he
        · refine Or.inr ⟨c :: fs, d, x, by rw [h1]; rfl, ?_, h3, ?_⟩
          · intro e he
            rcases List.mem_cons.1 he with rfl | he
            · exact hs
            · exact h2 e he
          · rw [cluster, hs]
            rcases h4 with ⟨h5, h6⟩ | ⟨h5, h6⟩
            · exact Or.inl ⟨h5, by simp [h6]⟩
            · exact Or.inr ⟨h5, by simp [h6]⟩

theorem getopt_says (spec : UInt8 → Option Bool) : ∀ (n : Nat) (argv : List Bytes), argv.length ≤ n → .unknown ∉ (getopt spec argv).1 →
    Says spec (getopt spec argv).1 (getopt spec argv).2 argv := by
  intro n
  induction n with
  | zero =>
    intro argv hl _
    have : argv = [] := List.eq_nil_of_length_eq_zero (by omega)
    subst this
    exact Says.operands [] (by simp)
  | succ n ih =>
    intro argv hl hu
    by_cases hop : ∀ a, argv.head? = some a → a.head? ≠ some 45 ∨ a = [45]
    · rw [getopt_operands spec argv hop]; exact Says.operands argv hop
    · match argv, hop, hl, hu with
      | [], hop, _, _ => exact absurd (by simp) hop
      | a :: as, hop, hl, hu =>
        obtain ⟨cs, rfl, hne⟩ : ∃ cs, a = 45 :: cs ∧ cs ≠ [] := by
          cases a with
          | nil => exact absurd (by simp) hop
          | cons c cs =>
            by_cases e : c = 45
            · refine ⟨cs, by rw [e], ?_⟩
              rintro rfl
              exact hop (by intro a ha; cases ha; exact Or.inr (by rw [e]))
            · exact absurd (by intro a ha; cases ha; exact Or.inl (by simp [e])) hop
        by_cases hd : cs = [45]
        · subst hd
          rw [getopt_dashes]
          exact Says.dashes as
        · have hl' : as.length ≤ n := by simpa using hl
          rw [getopt_cluster spec cs as hne hd] at hu ⊢
          have hu1 : .unknown ∉ (cluster spec cs).1 := by
            intro hm
            apply hu
            split <;> simp [hm]
          rcases cluster_known spec cs hu1 with ⟨h1, h2, h3⟩ | ⟨fs, c, x, rfl, h2, h3, ⟨h4, h5⟩ | ⟨rfl, h5⟩⟩
          · rw [h1] at hu ⊢
            simp only at hu ⊢
            rw [h3] at hu ⊢
            exact Says.flags cs hne h2 hd (ih as hl' (fun hm => hu (by simp [hm])))
          · rw [h5] at hu ⊢
            simp only at hu ⊢
            have := Says.attached fs h2 c h3 x h4 (ih as hl' (fun hm => hu (by simp [hm])))
            simpa using this
          · rw [h5] at hu ⊢
            cases as with
            | nil => simp at hu
            | cons y as =>
              simp only at hu ⊢
              refine Says.separate fs h2 c h3 hd y (ih as ?_ (fun hm => hu (by simp [hm])))
              simp at hl'; omega

/-- The options and operands that are read are the ones the command line says, and every command line that says something is read without an error. -/
theorem options_read (spec : UInt8 → Option Bool) (argv : List Bytes) (is : List Item) (ops : List Bytes) :
    Says spec is ops argv ↔ getopt spec argv = (is, ops) ∧ .unknown ∉ is := by
  constructor
  · intro h; exact says_getopt spec h
  · rintro ⟨h1, h2⟩
    have := getopt_says spec argv.length argv (by omega) (by rw [h1]; exact h2)
    rw [h1] at this
    exact this

/-- `-vC dir setup`. -/
example : Says optMain [.opt 118 [], .opt 67 (ascii "dir")] [ascii "setup"] [ascii "-vC", ascii "dir", ascii "setup"] :=
  .separate [118] (by decide) 67 (by decide) (by decide) (ascii "dir") (.operands _ (by simp [ascii]))

/-- With the port of `getopt` for Windows every unknown option reads behind the end of the option string. -/
theorem getopt_windows_counterexample : main true [ascii "muon", ascii "-x"] = .bad := by decide +kernel

/-- `meson` without arguments reads a null pointer. -/
theorem meson_counterexample : main false [ascii "/bin/meson"] = .bad := by decide +kernel

/-! ### Strings of arguments and of the environment -/

theorem cstrAt_ok (a r : Bytes) (h : 0 ∉ a) : cstrAt (a ++ 0 :: r) = .ok a := by
  rw [cstrAt, if_pos (by simp), Ini.takeWhile_ne 0 a r h]

theorem pushLoop_skip (argc : Nat) (a m arg : Bytes) (i room : Nat) (h : 0 ∉ a) : pushLoop argc (a ++ m) arg i room = pushLoop argc m arg i room := by
  induction a with
  | nil => rfl
  | cons c a ih =>
    simp only [List.mem_cons, not_or] at h
    rw [List.cons_append, pushLoop, if_neg (fun e => h.1 e.symm), ih h.2]

theorem pushLoop_all (argc : Nat) (tail : Bytes) : ∀ (args : List Bytes) (i : Nat), args ≠ [] → i + args.length = argc → (∀ a ∈ args, 0 ∉ a) →
    pushLoop argc (args.flatMap (fun a => a ++ [0]) ++ tail) (args.flatMap (fun a => a ++ [0]) ++ tail) i args.length = .ok args := by
  intro args
  induction args with
  | nil => intro i h; exact absurd rfl h
  | cons a args ih =>
    intro i _ hi h0
    have ha : 0 ∉ a := h0 a (by simp)
    obtain ⟨m, hm⟩ : ∃ m, m = args.flatMap (fun a => a ++ [0]) ++ tail := ⟨_, rfl⟩
    have e : (a :: args).flatMap (fun a => a ++ [0]) ++ tail = a ++ 0 :: m := by simp [hm]
    rw [e, List.length_cons, pushLoop_skip argc a (0 :: m) _ i _ ha, pushLoop, if_pos rfl, if_neg (by omega)]
    rw [cstrAt_ok a m ha, Res.ok_bind]
    cases args with
    | nil =>
      rw [if_pos (by simp at hi; omega)]
    | cons b args =>
      rw [if_neg (by simp at hi; omega), hm, Nat.add_sub_cancel, ih (i + 1) (by simp) (by simp at hi ⊢; omega) (fun x hx => h0 x (by simp [hx])), Res.ok_bind]

/-- A program gets the arguments that were given, if there are some and they have no NUL. -/
theorem argv_same_partial (args : List Bytes) (hne : args ≠ []) (h0 : ∀ a ∈ args, 0 ∉ a) : argstrToArgv (argstr args) args.length = .ok args := by
  rw [argstrToArgv, argstr]
  exact pushLoop_all args.length [0] args 0 hne (by omega) h0

example : argstrToArgv (argstr [ascii "cc", [], ascii "a b"]) 3 = .ok [ascii "cc", [], ascii "a b"] := by decide +kernel

/-- An argument with a NUL becomes two, and the last is lost. -/
theorem argv_nul_counterexample : argstrToArgv (argstr [ascii "x", [97, 0, 98], ascii "y"]) 3 = .ok [ascii "x", [97], [98]] := by decide +kernel

/-- An empty list of arguments ends the program. -/
theorem argv_empty_counterexample : argstrToArgv (argstr []) 0 = .bad := by decide +kernel

theorem envLoop_skip (envc : Nat) (a m : Bytes) (k : Option Bytes) (i : Nat) (h : 0 ∉ a) : envLoop envc (a ++ m) k i = envLoop envc m k i := by
  induction a with
  | nil => rfl
  | cons c a ih =>
    simp only [List.mem_cons, not_or] at h
    rw [List.cons_append, envLoop.eq_def]
    simp only
    rw [if_neg (fun e => h.1 e.symm), ih h.2]

theorem envLoop_all (envc : Nat) (tail : Bytes) : ∀ (d : List (Bytes × Bytes)) (i : Nat), d ≠ [] → i + d.length = envc →
    (∀ e ∈ d, 0 ∉ e.1 ∧ 0 ∉ e.2 ∧ e.1 ≠ [] ∧ 61 ∉ e.1) →
    envLoop envc (d.flatMap (fun e => e.1 ++ [0] ++ (e.2 ++ [0])) ++ tail) (some (d.flatMap (fun e => e.1 ++ [0] ++ (e.2 ++ [0])) ++ tail)) i = .ok d := by
  intro d
  induction d with
  | nil => intro i h; exact absurd rfl h
  | cons e d ih =>
    intro i _ hi h0
    obtain ⟨k, v⟩ := e
    obtain ⟨hk, hv, hne, heq⟩ := h0 (k, v) (by simp)
    simp only at hk hv hne heq
    obtain ⟨m, hm⟩ : ∃ m, m = d.flatMap (fun e => e.1 ++ [0] ++ (e.2 ++ [0])) ++ tail := ⟨_, rfl⟩
    have e : ((k, v) :: d).flatMap (fun e => e.1 ++ [0] ++ (e.2 ++ [0])) ++ tail = k ++ 0 :: (v ++ 0 :: m) := by simp [hm]
    rw [e, envLoop_skip envc k _ _ i hk, envLoop, if_pos rfl]
    rw [cstrAt_ok k _ hk, Res.ok_bind, cstrAt_ok v m hv, Res.ok_bind, setenv, if_neg (fun h => h.elim hne heq), Res.ok_bind]
    cases d with
    | nil => rw [if_pos (by simp at hi; omega)]
    | cons b d =>
      rw [if_neg (by simp at hi; omega), envLoop_skip envc v _ _ _ hv, envLoop, if_pos rfl]
      rw [hm, ih (i + 1) (by simp) (by simp at hi ⊢; omega) (fun x hx => h0 x (by simp [hx])), Res.ok_bind]

/-- Exactly the variables of the environment object are set, with their values, if there are some and they have no NUL. -/
theorem env_same_partial (d : List (Bytes × Bytes)) (hne : d ≠ []) (h0 : ∀ e ∈ d, 0 ∉ e.1 ∧ 0 ∉ e.2 ∧ e.1 ≠ [] ∧ 61 ∉ e.1) :
    setAll (envstr d) d.length = .ok d := by
  rw [setAll, envstr]
  exact envLoop_all d.length [0] d 0 hne (by omega) h0

example : setAll (envstr [(ascii "A", ascii "x=1"), (ascii "B", [])]) 2 = .ok [(ascii "A", ascii "x=1"), (ascii "B", [])] := by decide +kernel

/-- With an empty environment the memory behind the string is read. -/
theorem env_empty_counterexample : setAll (envstr []) 0 = .bad := by decide +kernel

/-- A value with a NUL: the rest of the value is taken as the name of the next variable. -/
theorem env_nul_counterexample : setAll (envstr [(ascii "A", [97, 0, 98]), (ascii "PATH", ascii "x")]) 2 = .ok [(ascii "A", ascii "a"), (ascii "b", ascii "PATH")] := by decide +kernel

/-! ### `muon internal exe` -/

/-- The command line that muon writes for a custom target asks for `internal exe` with the options of the target. -/
theorem exe_options (win : Bool) (t : Ninja.Custom) (hne : t.args ≠ []) :
    main win t.cmdline = .ok (.exe ⟨t.feed, t.capture, t.env, if (∀ a ∈ t.args, 0 ∉ a ∧ 10 ∉ a) then none else some t.argsDat, none⟩
      (if (∀ a ∈ t.args, 0 ∉ a ∧ 10 ∉ a) then t.args else [])) := by
  have hesc : Ninja.escapable t.args = true ↔ (∀ a ∈ t.args, 0 ∉ a ∧ 10 ∉ a) := by
    simp [Ninja.escapable, List.all_eq_true]
  obtain ⟨tl, htl⟩ : ∃ tl, tl = (if Ninja.escapable t.args then ascii "--" :: t.args else [ascii "-a", t.argsDat]) := ⟨_, rfl⟩
  obtain ⟨is, ops, hs, hopts⟩ : ∃ is ops, Says optExe is ops tl ∧ ∀ f c e, (optLoop win exeOpt ⟨f, c, e, none, none⟩ is = .ok (some ⟨f, c, e, if (∀ a ∈ t.args, 0 ∉ a ∧ 10 ∉ a) then none else some t.argsDat, none⟩) ∧
      ops = (if (∀ a ∈ t.args, 0 ∉ a ∧ 10 ∉ a) then t.args else [])) := by
    by_cases hc : Ninja.escapable t.args = true
    · have h2 := hesc.1 hc
      rw [if_pos hc] at htl
      refine ⟨[], t.args, by rw [htl]; exact Says.dashes _, ?_⟩
      intro f c e
      rw [if_pos h2, if_pos h2]
      exact ⟨rfl, rfl⟩
    · have h2 : ¬ (∀ a ∈ t.args, 0 ∉ a ∧ 10 ∉ a) := fun h => hc (hesc.2 h)
      rw [if_neg hc] at htl
      refine ⟨[.opt 97 t.argsDat], [], by rw [htl]; exact Says.separate [] (by simp) 97 (by decide) (by decide) t.argsDat (Says.operands [] (by simp)), ?_⟩
      intro f c e
      rw [if_neg h2, if_neg h2]
      exact ⟨rfl, rfl⟩
  obtain ⟨is3, hs3, ho3⟩ : ∃ is3, Says optExe is3 ops ((match t.env with | some e => [ascii "-e", e] | none => []) ++ tl) ∧
      ∀ f c, optLoop win exeOpt ⟨f, c, none, none, none⟩ is3 = optLoop win exeOpt ⟨f, c, t.env, none, none⟩ is := by
    cases he : t.env with
    | none => exact ⟨is, hs, fun _ _ => rfl⟩
    | some e => exact ⟨.opt 101 e :: is, Says.separate [] (by simp) 101 (by decide) (by decide) e hs, fun _ _ => rfl⟩
  obtain ⟨is2, hs2, ho2⟩ : ∃ is2, Says optExe is2 ops ((match t.feed with | some i => [ascii "-f", i] | none => []) ++ ((match t.env with | some e => [ascii "-e", e] | none => []) ++ tl)) ∧
      ∀ c, optLoop win exeOpt ⟨none, c, none, none, none⟩ is2 = optLoop win exeOpt ⟨t.feed, c, none, none, none⟩ is3 := by
    cases hf : t.feed with
    | none => exact ⟨is3, hs3, fun _ => rfl⟩
    | some e => exact ⟨.opt 102 e :: is3, Says.separate [] (by simp) 102 (by decide) (by decide) e hs3, fun _ => rfl⟩
  obtain ⟨is1, hs1, ho1⟩ : ∃ is1, Says optExe is1 ops ((match t.capture with | some o => [ascii "-c", o] | none => []) ++ ((match t.feed with | some i => [ascii "-f", i] | none => []) ++ ((match t.env with | some e => [ascii "-e", e] | none => []) ++ tl))) ∧
      optLoop win exeOpt ⟨none, none, none, none, none⟩ is1 = optLoop win exeOpt ⟨none, t.capture, none, none, none⟩ is2 := by
    cases hf : t.capture with
    | none => exact ⟨is2, hs2, rfl⟩
    | some e => exact ⟨.opt 99 e :: is2, Says.separate [] (by simp) 99 (by decide) (by decide) e hs2, rfl⟩
  obtain ⟨rest, hrest⟩ : ∃ rest, rest = (match t.capture with | some o => [ascii "-c", o] | none => []) ++ ((match t.feed with | some i => [ascii "-f", i] | none => []) ++ ((match t.env with | some e => [ascii "-e", e] | none => []) ++ tl)) := ⟨_, rfl⟩
  rw [← hrest] at hs1
  have hcl : t.cmdline = t.argv0 :: ascii "internal" :: ascii "exe" :: rest := by
    rw [hrest, htl, Ninja.Custom.cmdline]
    cases t.capture <;> cases t.feed <;> cases t.env <;> simp
  have hexe : cmdExe win rest = .ok (.exe ⟨t.feed, t.capture, t.env, if (∀ a ∈ t.args, 0 ∉ a ∧ 10 ∉ a) then none else some t.argsDat, none⟩
      (if (∀ a ∈ t.args, 0 ∉ a ∧ 10 ∉ a) then t.args else [])) := by
    have hg := (says_getopt optExe hs1).1
    have ho := (hopts t.feed t.capture t.env).1
    rw [cmdExe, hg]
    dsimp only
    rw [ho1, ho2, ho3, ho, Res.ok_bind]
    dsimp only
    have hops := (hopts none none none).2
    by_cases h2 : ∀ a ∈ t.args, 0 ∉ a ∧ 10 ∉ a
    · rw [if_pos h2] at hops ⊢
      rw [if_pos h2, hops, if_neg (by simp [hne]), if_neg (by simp)]
    · rw [if_neg h2] at hops ⊢
      rw [if_neg h2, hops, if_neg (by simp), if_neg (by simp)]
  have hint : cmdInternal win (ascii "exe" :: rest) = cmdExe win rest := by
    rw [cmdInternal, getopt_operands optH _ (by intro a ha; cases ha; exact Or.inl (by decide))]
    dsimp only
    rw [optLoop, Res.ok_bind]
    dsimp only
    rw [dispatch]
    rfl
  have hmain : cmdMain win (ascii "internal" :: ascii "exe" :: rest) = cmdInternal win (ascii "exe" :: rest) := by
    rw [cmdMain, getopt_operands optMain _ (by intro a ha; cases ha; exact Or.inl (by decide))]
    dsimp only
    rw [optLoop, Res.ok_bind]
    dsimp only
    rw [dispatch]
    rfl
  rw [hcl, main]
  simp only [if_true, ite_self]
  rw [hmain, hint, hexe]

/-- A custom target's command line starts exactly the target's program with its arguments, its environment, its input and its output. The files are those that muon
has written: the arguments that cannot be written to build.ninja, and the environment. -/
theorem custom_runs_partial (t : Ninja.Custom) (loadArgs : Bytes → Option (List Bytes)) (loadEnv : Bytes → Option (List (Bytes × Bytes))) (env : List (Bytes × Bytes))
    (hargs : loadArgs t.argsDat = some t.args) (hne : t.args ≠ []) (h0 : ∀ a ∈ t.args, 0 ∉ a)
    (henv : t.env = none ∧ env = [] ∨ ∃ f, t.env = some f ∧ loadEnv f = some env ∧ env ≠ [])
    (he : ∀ e ∈ env, 0 ∉ e.1 ∧ 0 ∉ e.2 ∧ e.1 ≠ [] ∧ 61 ∉ e.1) :
    ∃ o cmd, main false t.cmdline = .ok (.exe o cmd) ∧ launch loadArgs loadEnv o cmd = .ok ⟨t.args, env, t.feed, t.capture, none⟩ := by
  refine ⟨_, _, exe_options false t hne, ?_⟩
  have h1 : envOf loadEnv t.env = .ok env := by
    rcases henv with ⟨h, h'⟩ | ⟨f, h, h', h2⟩
    · rw [h, h']; rfl
    · rw [h, envOf, h']
      exact env_same_partial env h2 he
  rw [launch]
  dsimp only
  rw [h1, Res.ok_bind]
  by_cases h2 : ∀ a ∈ t.args, 0 ∉ a ∧ 10 ∉ a
  · rw [if_pos h2, if_pos h2]; rfl
  · rw [if_neg h2, if_neg h2, argsOf, hargs]
    simp only
    rw [argv_same_partial t.args hne h0, Res.ok_bind]

/-- Arguments with NUL are written to a file, and read from it, but the program gets others. -/
theorem custom_nul_counterexample : (let t : Ninja.Custom := ⟨[ascii "o"], [], [], ascii "muon", none, none, none, [ascii "cp", [97, 0, 98], ascii "y"], ascii "f", false, false, false, none⟩
    main false t.cmdline >>= fun r => match r with
      | .exe o cmd => launch (fun _ => some t.args) (fun _ => none) o cmd
      | _ => .error) = .ok ⟨[ascii "cp", [97], [98]], [], none, none, none⟩ := by decide +kernel

/-- The command line that muon writes for a static library removes the old library and runs the archiver. -/
theorem archive_runs (argv0 lib : Bytes) (cmd : List Bytes) (hne : cmd ≠ []) (loadArgs : Bytes → Option (List Bytes)) (loadEnv : Bytes → Option (List (Bytes × Bytes))) :
    ∃ o cmd', main false ([argv0, ascii "internal", ascii "exe", ascii "-R", lib, ascii "--"] ++ cmd) = .ok (.exe o cmd') ∧
      launch loadArgs loadEnv o cmd' = .ok ⟨cmd, [], none, none, some lib⟩ := by
  have hs : Says optExe [.opt 82 lib] cmd ([ascii "-R", lib, ascii "--"] ++ cmd) := Says.separate [] (by simp) 82 (by decide) (by decide) lib (Says.dashes cmd)
  refine ⟨⟨none, none, none, none, some lib⟩, cmd, ?_, rfl⟩
  have hexe : cmdExe false ([ascii "-R", lib, ascii "--"] ++ cmd) = .ok (.exe ⟨none, none, none, none, some lib⟩ cmd) := by
    rw [cmdExe, (says_getopt optExe hs).1]
    dsimp only
    rw [show optLoop false exeOpt ⟨none, none, none, none, none⟩ [.opt 82 lib] = .ok (some ⟨none, none, none, none, some lib⟩) from rfl, Res.ok_bind]
    dsimp only
    rw [if_neg (by simp [hne]), if_neg (by simp)]
  have hint : cmdInternal false (ascii "exe" :: ([ascii "-R", lib, ascii "--"] ++ cmd)) = cmdExe false ([ascii "-R", lib, ascii "--"] ++ cmd) := by
    rw [cmdInternal, getopt_operands optH _ (by intro a ha; cases ha; exact Or.inl (by decide))]
    rfl
  have hmain : cmdMain false (ascii "internal" :: ascii "exe" :: ([ascii "-R", lib, ascii "--"] ++ cmd)) = cmdInternal false (ascii "exe" :: ([ascii "-R", lib, ascii "--"] ++ cmd)) := by
    rw [cmdMain, getopt_operands optMain _ (by intro a ha; cases ha; exact Or.inl (by decide))]
    rfl
  rw [show [argv0, ascii "internal", ascii "exe", ascii "-R", lib, ascii "--"] ++ cmd = argv0 :: ascii "internal" :: ascii "exe" :: ([ascii "-R", lib, ascii "--"] ++ cmd) from rfl, main]
  simp only [if_true, ite_self]
  rw [hmain, hint, hexe]

/-! ### Interpreters -/

theorem dropWhile_pre {p : UInt8 → Bool} (a r : Bytes) (h : ∀ c ∈ a, p c = true) : (a ++ r).dropWhile p = r.dropWhile p := by
  induction a with
  | nil => rfl
  | cons c a ih => rw [List.cons_append, List.dropWhile_cons_of_pos (h c (by simp)), ih (fun c hc => h c (by simp [hc]))]

theorem dropWhile_head {p : UInt8 → Bool} (r : Bytes) (h : ∀ c, r.head? = some c → p c = false) : r.dropWhile p = r := by
  cases r with
  | nil => rfl
  | cons c r => rw [List.dropWhile_cons_of_neg (by rw [h c rfl]; simp)]

theorem takeWhile_pre {p : UInt8 → Bool} (a r : Bytes) (h : ∀ c ∈ a, p c = true) : (a ++ r).takeWhile p = a ++ r.takeWhile p := by
  induction a with
  | nil => rfl
  | cons c a ih => rw [List.cons_append, List.takeWhile_cons_of_pos (h c (by simp)), ih (fun c hc => h c (by simp [hc])), List.cons_append]

theorem takeWhile_head {p : UInt8 → Bool} (r : Bytes) (h : ∀ c, r.head? = some c → p c = false) : r.takeWhile p = [] := by
  cases r with
  | nil => rfl
  | cons c r => rw [List.takeWhile_cons_of_neg (by rw [h c rfl]; simp)]

/-- A script that is not executable is run with the interpreter of its first line, with the argument given there, as the system does it for executable scripts; the
line has no NUL or carriage return, and does not end in a blank after an argument. -/
theorem interpreter_partial (line rest name : Bytes) (arg : Option Bytes) (h : ScriptLine line name arg) (hl : ∀ c ∈ line, c ≠ 10 ∧ c ≠ 0 ∧ c ≠ 13)
    (hb : arg.isSome → line.getLast? ≠ some 32 ∧ line.getLast? ≠ some 9) : interpreter (line ++ 10 :: rest) = .ok (name, arg) := by
  obtain ⟨hn, hn2, ha, b1, b2, b3, hbl, hb2, rfl⟩ := h
  have h3 : arg.isSome → b3 = [] := by
    intro hs
    obtain ⟨h5, h6⟩ := hb hs
    cases hb3 : b3.getLast? with
    | none => exact List.getLast?_eq_none_iff.1 hb3
    | some c =>
      have hm : c ∈ b3 := List.mem_of_getLast? hb3
      have : c ∈ ascii " \t" := hbl c (by simp [hm])
      rw [List.getLast?_append, hb3] at h5 h6
      rw [show ascii " \t" = [32, 9] from by decide] at this
      simp at this h5 h6
      rcases this with h | h
      · exact absurd h h5
      · exact absurd h h6
  have bl : ∀ c ∈ ascii " \t", blank c = true := by decide
  have nb : ∀ c, c ∉ ascii " \t" → c ≠ 13 → blank c = false := by
    have : ∀ c : UInt8, c ∉ ascii " \t" → c ≠ 13 → blank c = false := forall_byte (by decide +kernel)
    exact this
  have hname : ∀ c ∈ name, blank c = false := fun c hc => nb c (hn2 c hc) (hl c (by simp [hc])).2.2
  obtain ⟨tl, htl⟩ : ∃ tl, tl = b1 ++ name ++ b2 ++ arg.getD [] ++ b3 := ⟨_, rfl⟩
  have e : ascii "#!" ++ b1 ++ name ++ b2 ++ arg.getD [] ++ b3 ++ 10 :: rest = 35 :: 33 :: (tl ++ 10 :: rest) := by
    rw [htl, show ascii "#!" = [35, 33] from by decide]; simp
  have hsb : shebang (tl ++ 10 :: rest) = tl := by
    rw [shebang, takeWhile_pre, takeWhile_head, List.append_nil]
    · intro c hc; cases hc; decide
    · intro c hc
      have := hl c (by rw [htl] at hc; simp only [List.mem_append] at hc ⊢; grind)
      simp [this.1, this.2.1]
  obtain ⟨n0, name', hn0⟩ : ∃ n0 name', name = n0 :: name' := by
    cases name with
    | nil => exact absurd rfl hn
    | cons a b => exact ⟨a, b, rfl⟩
  have hd1 : tl.dropWhile blank = name ++ (b2 ++ (arg.getD [] ++ b3)) := by
    rw [htl, List.append_assoc, List.append_assoc, List.append_assoc, dropWhile_pre b1 _ (fun c hc => bl c (hbl c (by simp [hc])))]
    refine dropWhile_head _ ?_
    intro c hc
    rw [hn0] at hc; cases hc
    exact hname n0 (by simp [hn0])
  have hrest : ∀ c, (b2 ++ (arg.getD [] ++ b3)).head? = some c → (!blank c) = false := by
    intro c hc
    cases hb2' : b2 with
    | cons x y =>
      rw [hb2'] at hc
      have hcx : x = c := by simpa using hc
      rw [← hcx, bl x (hbl x (by simp [hb2']))]; rfl
    | nil =>
      have : arg = none := by
        cases harg : arg with
        | none => rfl
        | some x => exact absurd hb2' (hb2 (by simp [harg]))
      rw [hb2', this] at hc
      simp only [Option.getD_none, List.nil_append] at hc
      rw [bl c (hbl c (by simp [List.mem_of_head? hc]))]; rfl
  rw [e, interpreter, if_pos (by rfl)]
  simp only [List.drop_succ_cons, List.drop_zero]
  rw [hsb, hd1, if_neg (by simp [hn])]
  have ht : (name ++ (b2 ++ (arg.getD [] ++ b3))).takeWhile (fun c => !blank c) = name := by
    rw [takeWhile_pre name _ (fun c hc => by rw [hname c hc]; rfl), takeWhile_head _ hrest, List.append_nil]
  have hd2 : (name ++ (b2 ++ (arg.getD [] ++ b3))).dropWhile (fun c => !blank c) = b2 ++ (arg.getD [] ++ b3) := by
    rw [dropWhile_pre name _ (fun c hc => by rw [hname c hc]; rfl), dropWhile_head _ hrest]
  rw [ht, hd2]
  have hfin : ((b2 ++ (arg.getD [] ++ b3)).drop 1).dropWhile blank = arg.getD [] := by
    cases harg : arg with
    | none =>
      simp only [Option.getD_none, List.nil_append]
      have : ∀ c ∈ (b2 ++ b3).drop 1, blank c = true := by
        intro c hc
        have := List.mem_of_mem_drop hc
        exact bl c (hbl c (by simp only [List.mem_append] at this ⊢; grind))
      have k := dropWhile_pre ((b2 ++ b3).drop 1) [] this
      simpa using k
    | some x =>
      have hb2n := hb2 (by simp [harg])
      rw [h3 (by simp [harg])]
      obtain ⟨y, ys, hy⟩ : ∃ y ys, b2 = y :: ys := by
        cases b2 with
        | nil => exact absurd rfl hb2n
        | cons a b => exact ⟨a, b, rfl⟩
      rw [hy]
      simp only [Option.getD_some, List.append_nil, List.cons_append, List.drop_succ_cons, List.drop_zero]
      rw [dropWhile_pre ys x (fun c hc => bl c (hbl c (by simp [hy, hc])))]
      obtain ⟨hx1, hx2, hx3, -⟩ := ha x harg
      refine dropWhile_head _ ?_
      intro c hc
      refine nb c ?_ (hl c ?_).2.2
      · rw [show ascii " \t" = [32, 9] from by decide]
        simp only [List.mem_cons, List.not_mem_nil, or_false, not_or]
        exact ⟨fun e => hx2 (by rw [hc, e]), fun e => hx3 (by rw [hc, e])⟩
      · have := List.mem_of_head? hc
        simp [harg, this]
  rw [hfin]
  cases harg : arg with
  | none => rfl
  | some x => simp [(ha x harg).1]

example : ScriptLine (ascii "#! /usr/bin/env\t python3") (ascii "/usr/bin/env") (some (ascii "python3")) := by
  refine ⟨by decide, by decide, by intro x hx; cases hx; decide, ascii " ", ascii "\t ", [], by decide, by decide, by decide⟩

/-- With a blank after the argument, the interpreter gets the blank. -/
theorem interpreter_counterexample : ScriptLine (ascii "#!/usr/bin/env python3 ") (ascii "/usr/bin/env") (some (ascii "python3")) ∧
    interpreter (ascii "#!/usr/bin/env python3 \n") = .ok (ascii "/usr/bin/env", some (ascii "python3 ")) := by
  refine ⟨⟨by decide, by decide, by intro x hx; cases hx; decide, [], ascii " ", ascii " ", by decide, by decide, by decide⟩, by decide +kernel⟩

/-! ### The program -/

theorem findLoop_eq (isExe : Bytes → Bool) (cmd : Bytes) : ∀ (p base : Bytes), findLoop isExe cmd base p =
    (match (match parts p with | [] => [] | q :: qs => (base ++ q) :: qs).find? (fun d => isExe (Path.push d cmd)) with
      | some d => .ok (Path.push d cmd)
      | none => .error) := by
  have hne : ∀ p, ∃ q qs, parts p = q :: qs := by
    intro p
    induction p with
    | nil => exact ⟨_, _, rfl⟩
    | cons c p ih =>
      obtain ⟨q, qs, h⟩ := ih
      rw [parts]
      by_cases hc : c = 58
      · rw [if_pos hc]; exact ⟨_, _, rfl⟩
      · rw [if_neg hc, h]; exact ⟨_, _, rfl⟩
  intro p
  induction p with
  | nil =>
    intro base
    rw [findLoop, parts]
    simp only [List.append_nil, List.find?_cons, List.find?_nil]
    cases isExe (Path.push base cmd) <;> rfl
  | cons c p ih =>
    intro base
    obtain ⟨q, qs, h⟩ := hne p
    rw [findLoop, parts]
    by_cases hc : c = 58
    · rw [if_pos hc, if_pos hc]
      simp only [List.append_nil, List.find?_cons]
      cases isExe (Path.push base cmd) with
      | true => rfl
      | false =>
        rw [ih [], h]
        simp
    · rw [if_neg hc, if_neg hc, ih (base ++ [c]), h]
      simp

/-- A name without a slash is the program in the first directory of `PATH` that has one of this name. -/
theorem path_first (w : Files) (cmd p : Bytes) (hne : cmd ≠ []) (hb : 47 ∉ cmd) (hp : w.path = some p) :
    findCmd w cmd = (match (parts p).find? (fun d => w.isExe (Path.push d cmd)) with
      | some d => .ok (Path.push d cmd)
      | none => .error) := by
  have hb' : Path.isBasename cmd = true := by simp [Path.isBasename, hb]
  rw [findCmd, if_neg hne, if_pos hb', hp]
  simp only
  rw [findLoop_eq]
  cases h : parts p <;> simp

/-- A program that is executable gets exactly its arguments. A path that is not executable is given to the interpreter of its first line, before the arguments. -/
theorem exec_argv (w : Files) (argv : List Bytes) (f : Bytes) (argv' : List Bytes) (h : execve w argv = .ok (f, argv')) :
    w.isExe f = true ∧ (argv' = argv ∨ ∃ a0 rest src i a, argv = a0 :: rest ∧ w.isExe (Path.makeAbsolute w.cwd a0) = false ∧
      w.read (Path.makeAbsolute w.cwd a0) = some src ∧ interpreter src = .ok (i, a) ∧ argv' = i :: (a.toList ++ argv)) := by
  obtain ⟨⟨c, av⟩, h1, h2⟩ := Res.bind_eq_ok.1 h
  obtain ⟨g, h3, h4⟩ := Res.bind_eq_ok.1 h2
  cases h4
  simp only at h3
  constructor
  · unfold findCmd at h3
    split at h3
    · cases h3
    · split at h3
      · split at h3
        · cases h3
        · rw [findLoop_eq] at h3
          split at h3
          · next d hd => cases h3; have := List.find?_some hd; exact this
          · cases h3
      · dsimp only at h3
        split at h3
        · next hx => cases h3; exact hx
        · cases h3
  · unfold buildArgv at h1
    split at h1
    · cases h1
    · next a0 rest =>
      split at h1
      · cases h1
      · split at h1
        · cases h1; exact Or.inl rfl
        · dsimp only at h1
          split at h1
          · cases h1; exact Or.inl rfl
          · next hx =>
            split at h1
            · cases h1
            · next src hr =>
              obtain ⟨⟨i, a⟩, h5, h6⟩ := Res.bind_eq_ok.1 h1
              cases h6
              exact Or.inr ⟨a0, rest, src, i, a, rfl, by simpa using hx, hr, h5, rfl⟩

/-- A script in the working directory. -/
example : execve ⟨fun p => p = ascii "/bin/sh", fun p => if p = ascii "/w/x.sh" then some (ascii "#!/bin/sh\n") else none, ascii "/w", some (ascii "/usr/bin:/bin")⟩ [ascii "./x.sh", ascii "a"]
    = .ok (ascii "/bin/sh", [ascii "/bin/sh", ascii "./x.sh", ascii "a"]) := by decide +kernel

example : execve ⟨fun p => p = ascii "/bin/sh", fun _ => none, ascii "/w", some (ascii "/usr/bin:/bin")⟩ [ascii "sh", ascii "a"] = .ok (ascii "/bin/sh", [ascii "sh", ascii "a"]) := by decide +kernel

end Muon.Exec
