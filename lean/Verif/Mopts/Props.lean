import Verif.Mopts.Lemmas
import Verif.Path.Props
/-
C111: command lines of meson.
-/
namespace Muon.Mopts
open Muon
open Muon.Exec (Item getopt optH optMain argstr argstrToArgv)

theorem meson_run (cwd argv0 sub : Bytes) (args : List Bytes) (c : Ctx) (hs : sub ∈ ["setup", "configure", "install", "test"].map ascii)
    (h : subcommand cwd sub args = .ok c) (hh : c.help = false) (h0 : 0 ∉ argv0) (hn : ∀ a ∈ c.pre ++ c.argv ++ c.stray, 0 ∉ a) :
    meson cwd argv0 (sub :: args) = cmdMain (c.pre ++ c.argv ++ c.stray) := by
  have hsub : ¬ (sub = ascii "-v" ∨ sub = ascii "--version" ∨ sub = ascii "-h") := by
    revert hs
    intro hs
    have : ∀ s ∈ ["setup", "configure", "install", "test"].map ascii, ¬ (s = ascii "-v" ∨ s = ascii "--version" ∨ s = ascii "-h") := by decide
    exact this sub hs
  unfold meson translate
  dsimp only
  rw [if_neg hsub, h]
  show ((if c.help then _ else _ : Res (Option (List Bytes))) >>= _) = _
  rw [hh, if_neg (by simp)]
  rw [List.cons_append, List.cons_append, Exec.argv_same_partial (argv0 :: (c.pre ++ c.argv ++ c.stray)) (by simp) (by
    intro a ha
    rcases List.mem_cons.1 ha with rfl | ha
    · exact h0
    · exact hn a ha)]
  rfl

theorem command_setup (as : List Bytes) : command (ascii "setup" :: as) = cmdSetup as := by
  unfold command; dsimp only; rw [if_pos rfl]
theorem command_install (as : List Bytes) : command (ascii "install" :: as) = cmdInstall as := by
  unfold command; dsimp only; rw [if_neg (by decide), if_pos rfl]
theorem command_test (as : List Bytes) : command (ascii "test" :: as) = cmdTest false as := by
  unfold command; dsimp only; rw [if_neg (by decide), if_neg (by decide), if_pos rfl]
theorem command_bench (as : List Bytes) : command (ascii "benchmark" :: as) = cmdTest true as := by
  unfold command; dsimp only; rw [if_neg (by decide), if_neg (by decide), if_neg (by decide), if_pos rfl]

/-! ### setup -/

/-- Is it `--install-umask`? -/
def isUmask : Wish → Prop
  | .value n _ => n = ascii "install-umask"
  | _ => False

theorem same_entries : ∀ n ∈ sameName.map ascii, n ≠ ascii "install-umask" →
    entry setupOpts n = some ⟨n, true, some (underscores n), false, false, none⟩ ∧ n ≠ ascii "D" := by decide +kernel
theorem other_entries : ∀ e ∈ otherName, entry setupOpts (ascii e.1) = some ⟨ascii e.1, true, some (ascii e.2), false, false, none⟩ ∧ ascii e.1 ≠ ascii "D" ∧
    ascii e.1 ∉ sameName.map ascii ∧ (otherName.filter fun d => ascii d.1 == ascii e.1) = [e] := by decide +kernel
theorem true_entries : ∀ n ∈ setTrue.map ascii, entry setupOpts n = some ⟨n, false, some (underscores n), false, false, none⟩ := by decide +kernel
theorem nothing_values : ∀ n ∈ nothingValue.map ascii, entry setupOpts n = some ⟨n, true, none, true, false, none⟩ ∧ n ≠ ascii "D" ∧
    n ∉ sameName.map ascii ∧ (otherName.filter fun d => ascii d.1 == n) = [] := by decide +kernel
theorem nothing_flags : ∀ n ∈ nothingFlag.map ascii, entry setupOpts n = some ⟨n, false, none, true, false, none⟩ ∧ n ∉ setTrue.map ascii := by decide +kernel
theorem define_entry : entry setupOpts (ascii "D") = some ⟨ascii "D", true, none, false, false, some .define⟩ := by decide +kernel

theorem setup_one (w : Wish) (hk : setupKnown w = true) (hu : ¬ isUmask w) :
    Fits setupOpts w ∧ ∀ c : Ctx, one setupOpts c w = .ok (c.add [] (opnd w) ((sets w).map fun x => ((68 : UInt8), x)) false) := by
  cases w with
  | operand a => exact ⟨trivial, fun c => by simp [one, Ctx.add, opnd, sets]⟩
  | value n v =>
    simp only [setupKnown, Bool.or_eq_true, decide_eq_true_eq] at hk
    rcases hk with ((⟨rfl, hv⟩ | hn) | hn) | hn
    · refine ⟨⟨_, define_entry, rfl⟩, fun c => ?_⟩
      simp only [one, define_entry, sets, if_pos]
      simp [apply, handle, withVal, Ctx.add, opnd, arg]
      rfl
    · obtain ⟨e, hD⟩ := same_entries n hn hu
      refine ⟨⟨_, e, rfl⟩, fun c => ?_⟩
      simp only [one, e, sets, if_neg hD, if_pos hn]
      simp [apply, withVal, Ctx.add, opnd, arg]
      rfl
    · obtain ⟨x, hx, rfl⟩ := List.mem_map.1 hn
      obtain ⟨e, hD, hs, hf⟩ := other_entries x hx
      refine ⟨⟨_, e, rfl⟩, fun c => ?_⟩
      simp only [one, e, sets, if_neg hD, if_neg hs, hf]
      simp [apply, withVal, Ctx.add, opnd, arg]
      rfl
    · obtain ⟨e, hD, hs, hf⟩ := nothing_values n hn
      refine ⟨⟨_, e, rfl⟩, fun c => ?_⟩
      simp only [one, e, sets, if_neg hD, if_neg hs, hf]
      simp [apply, Ctx.add, opnd]
  | flag n =>
    simp only [setupKnown, Bool.or_eq_true, decide_eq_true_eq] at hk
    rcases hk with hn | hn
    · have e := true_entries n hn
      refine ⟨⟨_, e, rfl⟩, fun c => ?_⟩
      simp only [one, e, sets, if_pos hn]
      simp [apply, withVal, Ctx.add, opnd, arg]
      rfl
    · obtain ⟨e, hs⟩ := nothing_flags n hn
      refine ⟨⟨_, e, rfl⟩, fun c => ?_⟩
      simp only [one, e, sets, if_neg hs]
      simp [apply, Ctx.add, opnd]

theorem setup_cmd (defs : List Bytes) (b : Bytes) (hd : ∀ d ∈ defs, d ≠ []) (hb : b.head? ≠ some 45 ∨ b = [45]) :
    cmdSetup ((defs.map fun x => ((68 : UInt8), x)).map arg ++ [b]) = .ok (.setup defs b) := by
  obtain ⟨g, _⟩ := Exec.says_getopt optSetup (getopt_pairs optSetup [b] (by intro a ha; cases ha; exact hb) (defs.map fun x => ((68 : UInt8), x)) (by
    intro p hp
    obtain ⟨x, hx, rfl⟩ := List.mem_map.1 hp
    exact .inl ⟨(by decide : optSetup 68 = some true), hd x hx⟩))
  unfold cmdSetup
  rw [g]
  dsimp only
  rw [optLoop_fold (fun d c x => if c = 68 then d ++ [x] else d) _ _ (by
    intro p hp
    obtain ⟨x, _, rfl⟩ := List.mem_map.1 hp
    exact (by decide : (68 : UInt8) ≠ 104)), fold_defs]
  rfl

theorem sets_facts (w : Wish) (hk : setupKnown w = true) (hc : clean w) : ∀ d ∈ sets w, d ≠ [] ∧ 0 ∉ d := by
  have hu : ∀ n ∈ sameName.map ascii ++ setTrue.map ascii, 0 ∉ underscores n := by decide +kernel
  have ho : ∀ e ∈ otherName, 0 ∉ ascii e.2 := by decide +kernel
  have e0 : (0 : UInt8) ∉ ascii "=" := by decide
  have t0 : (0 : UInt8) ∉ ascii "=true" := by decide
  have en : ascii "=" ≠ [] := by decide
  have tn : ascii "=true" ≠ [] := by decide
  intro d hd
  cases w with
  | operand a => cases hd
  | value n v =>
    have hv : (0 : UInt8) ∉ v := hc.2
    simp only [setupKnown, Bool.or_eq_true, decide_eq_true_eq] at hk
    unfold sets at hd
    dsimp only at hd
    split at hd
    · rename_i hD
      cases List.mem_singleton.1 hd
      rcases hk with ((h | h) | h) | h
      · exact ⟨h.2, hv⟩
      · exact absurd (hD ▸ h) (by decide +kernel)
      · exact absurd (hD ▸ h) (by decide +kernel)
      · exact absurd (hD ▸ h) (by decide +kernel)
    · split at hd
      · rename_i hs
        cases List.mem_singleton.1 hd
        refine ⟨by simp [en], ?_⟩
        simp only [List.mem_append, not_or]
        exact ⟨⟨hu n (List.mem_append_left _ hs), e0⟩, hv⟩
      · obtain ⟨e, he, rfl⟩ := List.mem_map.1 hd
        refine ⟨by simp [en], ?_⟩
        simp only [List.mem_append, not_or]
        exact ⟨⟨ho e (List.mem_filter.1 he).1, e0⟩, hv⟩
  | flag n =>
    unfold sets at hd
    dsimp only at hd
    split at hd
    · rename_i hs
      cases List.mem_singleton.1 hd
      refine ⟨by simp [tn], ?_⟩
      simp only [List.mem_append, not_or]
      exact ⟨hu n (List.mem_append_right _ hs), t0⟩
    · cases hd

theorem operand_clean (ws : List Wish) (h : ∀ w ∈ ws, clean w) : ∀ a ∈ operands ws, 0 ∉ a := by
  intro a ha
  rw [operands_eq] at ha
  obtain ⟨w, hw, hm⟩ := List.mem_flatMap.1 ha
  cases w with
  | operand b => cases List.mem_singleton.1 hm; exact h _ hw
  | value n v => cases hm
  | flag n => cases hm

theorem ascii_sets (ws : List Wish) : ws.flatMap (fun w => (sets w).map fun x => ((68 : UInt8), x)) = (ws.flatMap sets).map fun x => ((68 : UInt8), x) := by
  rw [List.map_flatMap]

/-- What `translate` makes of a command line for `setup`. -/
theorem setup_ctx {ws : List Wish} {as : List Bytes} (h : Spelled ws as) (hk : ∀ w ∈ ws, setupKnown w = true ∧ ¬ isUmask w) :
    parse setupOpts as { argv := [ascii "setup"] } = .ok { pre := [], stray := operands ws, argv := ascii "setup" :: ((ws.flatMap sets).map fun x => ((68 : UInt8), x)).map arg, help := false } := by
  rw [parse_spelled setupOpts h (fun w hw => (setup_one w (hk w hw).1 (hk w hw).2).1),
    all_adds setupOpts (fun _ => []) (fun w => (sets w).map fun x => ((68 : UInt8), x)) (fun _ => false) ws _ (by simp)
      (fun w hw => (setup_one w (hk w hw).1 (hk w hw).2).2), ascii_sets]
  simp [Ctx.add]

theorem sub_setup : ∀ s ∈ ["setup", "configure"].map ascii, s = ascii "setup" ∨ s = ascii "configure" := by decide

/-- C111: `meson setup` (or `meson configure`) with a build directory, however the options are written and wherever the directory is: every option sets what it
says, in the order of the command line, and the project in the current directory is set up in the build directory. Missing: `--install-umask`. -/
theorem setup_partial (cwd argv0 sub b : Bytes) {ws : List Wish} {as : List Bytes} (hs : sub ∈ ["setup", "configure"].map ascii) (h : Spelled ws as)
    (hk : ∀ w ∈ ws, setupKnown w = true ∧ ¬ isUmask w) (hn : ∀ a ∈ argv0 :: as, 0 ∉ a) (hb : operands ws = [b]) :
    meson cwd argv0 (sub :: as) = .ok ([], .setup (ws.flatMap sets) b) := by
  have hc := spelled_clean h (fun a ha => hn a (by simp [ha]))
  have hbc := operand_clean ws hc b (by simp [hb])
  have hbo := spelled_operands h b (by simp [hb])
  have hd : ∀ d ∈ ws.flatMap sets, d ≠ [] ∧ 0 ∉ d := by
    intro d hd
    obtain ⟨w, hw, hm⟩ := List.mem_flatMap.1 hd
    exact sets_facts w (hk w hw).1 (hc w hw) d hm
  rw [meson_run cwd argv0 sub as { pre := [], stray := [b], argv := ascii "setup" :: ((ws.flatMap sets).map fun x => ((68 : UInt8), x)).map arg, help := false }]
  · have := cmdMain_chdirs [] (ascii "setup") (((ws.flatMap sets).map fun x => ((68 : UInt8), x)).map arg ++ [b]) (by simp) (by decide)
    simp only [List.map_nil, List.nil_append] at this
    simp only [List.nil_append, List.cons_append]
    rw [this]
    rw [command_setup, setup_cmd _ b (fun d hm => (hd d hm).1) hbo]
    rfl
  · exact (by decide : ∀ s ∈ ["setup", "configure"].map ascii, s ∈ ["setup", "configure", "install", "test"].map ascii) sub hs
  · unfold subcommand
    rw [if_pos (sub_setup sub hs), setup_ctx h hk, hb]
    rfl
  · rfl
  · exact hn argv0 (by simp)
  · intro a ha
    simp only [List.nil_append, List.cons_append, List.mem_cons, List.mem_append, List.mem_map, List.not_mem_nil, or_false] at ha
    rcases ha with rfl | ⟨p, ⟨x, hx, rfl⟩, rfl⟩ | rfl
    · decide
    · simp only [arg, List.mem_cons, not_or]
      exact ⟨by decide, by decide, (hd x hx).2⟩
    · exact hbc

theorem makeAbsolute_clean (cwd b : Bytes) (h1 : 0 ∉ cwd) (h2 : 0 ∉ b) : 0 ∉ Path.makeAbsolute cwd b := by
  unfold Path.makeAbsolute Path.copy
  split
  · rw [Path.normalize_canon _ b h2]; exact Path.canon_no0 _ b h2
  · exact (Path.join_facts cwd b h1 h2).2.2

/-- C111: with a build directory and a source directory the project in the source directory is set up, in the same build directory: the path is made absolute
before the directory is changed. -/
theorem setup_source_partial (cwd argv0 sub b src : Bytes) {ws : List Wish} {as : List Bytes} (hs : sub ∈ ["setup", "configure"].map ascii) (h : Spelled ws as)
    (hk : ∀ w ∈ ws, setupKnown w = true ∧ ¬ isUmask w) (hn : ∀ a ∈ argv0 :: as, 0 ∉ a) (hb : operands ws = [b, src]) (hsrc : src ≠ [])
    (hcwd : 0 ∉ cwd ∧ Path.Spec.isAbs cwd = true) :
    ∃ full, meson cwd argv0 (sub :: as) = .ok ([src], .setup (ws.flatMap sets) full) ∧ Path.Spec.isAbs full = true ∧
      Path.Spec.comps full = (if Path.Spec.isAbs b then [] else Path.Spec.comps cwd) ++ Path.Spec.comps b := by
  have hc := spelled_clean h (fun a ha => hn a (by simp [ha]))
  have hbc := operand_clean ws hc b (by simp [hb])
  have hsc := operand_clean ws hc src (by simp [hb])
  obtain ⟨q1, q2⟩ := Path.makeAbsolute_spec cwd b hcwd.1 hbc hcwd.2
  have hq0 : 0 ∉ Path.makeAbsolute cwd b := makeAbsolute_clean cwd b hcwd.1 hbc
  have hd : ∀ d ∈ ws.flatMap sets, d ≠ [] ∧ 0 ∉ d := by
    intro d hd
    obtain ⟨w, hw, hm⟩ := List.mem_flatMap.1 hd
    exact sets_facts w (hk w hw).1 (hc w hw) d hm
  refine ⟨Path.makeAbsolute cwd b, ?_, q1, ?_⟩
  · rw [meson_run cwd argv0 sub as { pre := [ascii "-C" ++ src], stray := [Path.makeAbsolute cwd b], argv := ascii "setup" :: ((ws.flatMap sets).map fun x => ((68 : UInt8), x)).map arg, help := false }]
    · have := cmdMain_chdirs [src] (ascii "setup") (((ws.flatMap sets).map fun x => ((68 : UInt8), x)).map arg ++ [Path.makeAbsolute cwd b]) (by simpa using hsrc) (by decide)
      simp only [List.map_cons, List.map_nil] at this
      simp only [List.append_assoc, List.cons_append]
      simp only [List.cons_append] at this
      rw [this]
      rw [command_setup, setup_cmd _ _ (fun d hm => (hd d hm).1) (.inl (by
        have : (Path.makeAbsolute cwd b).head? = some 47 := by simpa [Path.Spec.isAbs] using q1
        rw [this]; decide))]
      rfl
    · exact (by decide : ∀ s ∈ ["setup", "configure"].map ascii, s ∈ ["setup", "configure", "install", "test"].map ascii) sub hs
    · unfold subcommand
      rw [if_pos (sub_setup sub hs), setup_ctx h hk, hb]
      rfl
    · rfl
    · exact hn argv0 (by simp)
    · intro a ha
      simp only [List.cons_append, List.nil_append, List.mem_cons, List.mem_append, List.mem_map, List.not_mem_nil, or_false] at ha
      rcases ha with rfl | rfl | ⟨p, ⟨x, hx, rfl⟩, rfl⟩ | rfl
      · simp only [List.mem_append, not_or]
        exact ⟨by decide, hsc⟩
      · decide
      · simp only [arg, List.mem_cons, not_or]
        exact ⟨by decide, by decide, (hd x hx).2⟩
      · exact hq0
  · rw [q2]; split <;> rfl

/-! ### install -/

/-- The options of muon for a wish. -/
def installE : Wish → List (UInt8 × Bytes)
  | .value n v => if n = ascii "destdir" then [(100, v)] else []
  | .flag n => if n ∈ ["n", "dryrun"].map ascii then [(110, [])] else []
  | .operand _ => []

def dirOf (w : Wish) : List Bytes := values "C" [w]

theorem dirs_eq (ws : List Wish) : ws.flatMap dirOf = values "C" ws := by
  induction ws with
  | nil => rfl
  | cons w ws ih =>
    rw [List.flatMap_cons, ih]
    cases w with
    | value n v => simp only [dirOf, values]; split <;> rfl
    | _ => rfl

theorem install_entries : entry installOpts (ascii "C") = some ⟨ascii "C", true, none, false, false, some .chdir⟩ ∧
    entry installOpts (ascii "destdir") = some ⟨ascii "destdir", true, none, false, false, some .destdir⟩ ∧
    (∀ n ∈ ["n", "dryrun"].map ascii, entry installOpts n = some ⟨n, false, none, false, false, some .dryrun⟩) ∧
    (∀ n ∈ ["skip-subprojects", "tags"].map ascii, entry installOpts n = some ⟨n, true, none, true, false, none⟩ ∧ n ≠ ascii "destdir" ∧ n ≠ ascii "C") ∧
    (∀ n ∈ ["no-rebuild", "only-changed", "quiet", "strip"].map ascii, entry installOpts n = some ⟨n, false, none, true, false, none⟩ ∧ n ∉ ["n", "dryrun"].map ascii) ∧
    ascii "C" ≠ ascii "destdir" := by decide +kernel

theorem install_one (w : Wish) (hk : installKnown w = true) :
    Fits installOpts w ∧ ∀ c : Ctx, one installOpts c w = .ok (c.add (dirOf w) (opnd w) (installE w) false) := by
  obtain ⟨e1, e2, e3, e4, e5, e6⟩ := install_entries
  cases w with
  | operand a => cases hk
  | value n v =>
    simp only [installKnown, Bool.or_eq_true, decide_eq_true_eq] at hk
    rcases hk with ⟨rfl | rfl, hv⟩ | hn
    · refine ⟨⟨_, e1, rfl⟩, fun c => ?_⟩
      simp only [one, e1, dirOf, values, installE, if_pos, if_neg e6]
      simp [apply, handle, withVal, Ctx.add, opnd]
    · refine ⟨⟨_, e2, rfl⟩, fun c => ?_⟩
      simp only [one, e2, dirOf, values, installE, if_pos, if_neg (Ne.symm e6)]
      simp [apply, handle, withVal, Ctx.add, opnd, arg]
      rfl
    · obtain ⟨e, h1, h2⟩ := e4 n hn
      refine ⟨⟨_, e, rfl⟩, fun c => ?_⟩
      simp only [one, e, dirOf, values, installE, if_neg h1, if_neg h2]
      simp [apply, Ctx.add, opnd]
  | flag n =>
    simp only [installKnown, decide_eq_true_eq] at hk
    have hk : n ∈ ["n", "dryrun"].map ascii ∨ n ∈ ["no-rebuild", "only-changed", "quiet", "strip"].map ascii := by
      rw [← List.mem_append]; exact hk
    rcases hk with hn | hn
    · have e := e3 n hn
      refine ⟨⟨_, e, rfl⟩, fun c => ?_⟩
      simp only [one, e, dirOf, values, installE, if_pos hn]
      simp [apply, handle, Ctx.add, opnd, arg]
      rfl
    · obtain ⟨e, h1⟩ := e5 n hn
      refine ⟨⟨_, e, rfl⟩, fun c => ?_⟩
      simp only [one, e, dirOf, values, installE, if_neg h1]
      simp [apply, Ctx.add, opnd]

theorem install_fold (ws : List Wish) (d : Bool × Option Bytes) :
    (ws.flatMap installE).foldl (fun (d : Bool × Option Bytes) p => if p.1 = 110 then (true, d.2) else (d.1, some p.2)) d =
      (d.1 || decide (0 < times ["n", "dryrun"] ws), (values "destdir" ws).getLast?.or d.2) := by
  induction ws generalizing d with
  | nil => simp [times, values]
  | cons w ws ih =>
    rw [List.flatMap_cons, List.foldl_append, ih]
    cases w with
    | operand a => rfl
    | value n v =>
      simp only [installE, times, values]
      split
      · simp only [List.foldl_cons, List.foldl_nil]
        rw [if_neg (by decide)]
        cases h : values "destdir" ws with
        | nil => rfl
        | cons x l =>
          rw [List.getLast?_cons_cons]
          cases hl : (x :: l).getLast? with
          | none => simp at hl
          | some y => rfl
      · rfl
    | flag n =>
      simp only [installE, times, values]
      split
      · have : 0 < 1 + times ["n", "dryrun"] ws := by omega
        simp [this]
      · simp

theorem values_facts (name : String) (ws : List Wish) (hc : ∀ w ∈ ws, clean w) : ∀ v ∈ values name ws, 0 ∉ v := by
  induction ws with
  | nil => intro v hv; cases hv
  | cons w ws ih =>
    have ih := ih (fun x hx => hc x (by simp [hx]))
    cases w with
    | value n x =>
      simp only [values]
      split
      · intro v hv
        rcases List.mem_cons.1 hv with rfl | hv
        · exact (hc _ (List.mem_cons_self ..)).2
        · exact ih v hv
      · exact ih
    | _ => simpa only [values]

theorem values_ne (name : String) (P : Wish → Bool) (hP : ∀ v, P (.value (ascii name) v) = true → v ≠ []) (ws : List Wish) (hk : ∀ w ∈ ws, P w = true) :
    ∀ v ∈ values name ws, v ≠ [] := by
  induction ws with
  | nil => intro v hv; cases hv
  | cons w ws ih =>
    have ih := ih (fun x hx => hk x (by simp [hx]))
    cases w with
    | value n x =>
      simp only [values]
      split
      · rename_i e
        intro v hv
        rcases List.mem_cons.1 hv with rfl | hv
        · exact hP _ (e ▸ hk _ (List.mem_cons_self ..))
        · exact ih v hv
      · exact ih
    | _ => simpa only [values]

theorem pairs_clean (ds : List Bytes) (s : Bytes) (ps : List (UInt8 × Bytes)) (ops : List Bytes) (h1 : ∀ d ∈ ds, 0 ∉ d) (h2 : 0 ∉ s) (h3 : ∀ p ∈ ps, p.1 ≠ 0 ∧ 0 ∉ p.2)
    (h4 : ∀ a ∈ ops, 0 ∉ a) : ∀ a ∈ ds.map (ascii "-C" ++ ·) ++ (s :: ps.map arg) ++ ops, 0 ∉ a := by
  intro a ha
  simp only [List.mem_append, List.mem_cons, List.mem_map] at ha
  rcases ha with (⟨d, hd, rfl⟩ | rfl | ⟨p, hp, rfl⟩) | ha
  · simp only [List.mem_append, not_or]
    exact ⟨by decide, h1 d hd⟩
  · exact h2
  · simp only [arg, List.mem_cons, not_or]
    exact ⟨by decide, fun e => (h3 p hp).1 e.symm, (h3 p hp).2⟩
  · exact h4 a ha

/-- C111: `meson install`: the directories of `-C` are entered in their order, `-n` and `--dryrun` make it a dry run, the last `--destdir` counts. Missing: empty directories. -/
theorem install_partial (cwd argv0 : Bytes) {ws : List Wish} {as : List Bytes} (h : Spelled ws as) (hk : ∀ w ∈ ws, installKnown w = true)
    (hn : ∀ a ∈ argv0 :: as, 0 ∉ a) :
    meson cwd argv0 (ascii "install" :: as) =
      .ok (values "C" ws, .install (decide (0 < times ["n", "dryrun"] ws)) (values "destdir" ws).getLast?) := by
  have hc := spelled_clean h (fun a ha => hn a (by simp [ha]))
  have hops : operands ws = [] := by
    rw [operands_eq, List.flatMap_eq_nil_iff]
    intro w hw
    cases w with
    | operand a => exact absurd (hk _ hw) (by simp [installKnown])
    | _ => rfl
  have hd := values_ne "C" installKnown (by
    intro v hv
    simp only [installKnown, Bool.or_eq_true, decide_eq_true_eq] at hv
    rcases hv with h | h
    · exact h.2
    · exact absurd h (by decide)) ws hk
  have hp : ∀ p ∈ ws.flatMap installE, ((p.1 = 100 ∧ p.2 ≠ []) ∨ (p.1 = 110 ∧ p.2 = [])) ∧ 0 ∉ p.2 := by
    intro p hp
    obtain ⟨w, hw, hm⟩ := List.mem_flatMap.1 hp
    cases w with
    | operand a => cases hm
    | value n v =>
      simp only [installE] at hm
      split at hm
      · rename_i e
        cases List.mem_singleton.1 hm
        have := hk _ hw
        rw [e] at this
        simp only [installKnown, Bool.or_eq_true, decide_eq_true_eq] at this
        rcases this with h | h
        · exact ⟨.inl ⟨rfl, h.2⟩, (hc _ hw).2⟩
        · exact absurd h (by decide)
      · cases hm
    | flag n =>
      simp only [installE] at hm
      split at hm
      · cases List.mem_singleton.1 hm
        exact ⟨.inr ⟨rfl, rfl⟩, by simp⟩
      · cases hm
  rw [meson_run cwd argv0 _ as (Ctx.add { argv := [ascii "install"] } (values "C" ws) [] (ws.flatMap installE) false) (by decide)]
  · have := cmdMain_chdirs (values "C" ws) (ascii "install") ((ws.flatMap installE).map arg ++ []) hd (by decide)
    simp only [Ctx.add, List.nil_append, Bool.false_eq_true, if_false, List.append_assoc, List.cons_append]
    rw [this, command_install]
    obtain ⟨g, _⟩ := Exec.says_getopt optInstall (getopt_pairs optInstall [] (by simp) (ws.flatMap installE) (by
      intro p hm
      rcases (hp p hm).1 with ⟨e, h⟩ | ⟨e, h⟩
      · exact .inl ⟨by rw [e]; decide, h⟩
      · exact .inr ⟨by rw [e]; decide, h, by rw [e]; decide⟩))
    unfold cmdInstall
    rw [g]
    dsimp only
    rw [optLoop_fold (fun (d : Bool × Option Bytes) c x => if c = 110 then (true, d.2) else (d.1, some x)) _ _ (by
      intro p hm
      rcases (hp p hm).1 with ⟨e, _⟩ | ⟨e, _⟩ <;> rw [e] <;> decide), install_fold]
    simp
  · unfold subcommand
    rw [if_neg (by decide), if_pos rfl, parse_spelled installOpts h (fun w hw => (install_one w (hk w hw)).1),
      all_adds installOpts dirOf installE (fun _ => false) ws _ (by simp) (fun w hw => (install_one w (hk w hw)).2), dirs_eq, hops,
      show ws.any (fun _ => false) = false from List.any_eq_false.2 (by simp)]
  · rfl
  · exact hn argv0 (by simp)
  · simp only [Ctx.add, List.nil_append, Bool.false_eq_true, if_false]
    refine pairs_clean (values "C" ws) (ascii "install") (ws.flatMap installE) [] (values_facts "C" ws hc) (by decide) ?_ (by simp)
    intro p hm
    refine ⟨?_, (hp p hm).2⟩
    rcases (hp p hm).1 with ⟨e, _⟩ | ⟨e, _⟩ <;> rw [e] <;> decide

/-! ### test -/

/-- The options of muon for a wish. -/
def testE : Wish → List (UInt8 × Bytes)
  | .value n v =>
    if n = ascii "suite" then [(115, v)] else if n = ascii "num-processes" then [(106, v)] else if n = ascii "setup" then [(101, v)]
    else if n = ascii "maxfail" then [(102, [])] else []
  | .flag n =>
    if n = ascii "v" then [(118, [])] else if n = ascii "no-rebuild" then [(82, [])] else if n = ascii "list" then [(108, [])] else []
  | .operand _ => []

def isBench : Wish → Bool
  | .flag n => decide (n = ascii "benchmark")
  | _ => false

theorem test_entries : entry testOpts (ascii "C") = some ⟨ascii "C", true, none, false, false, some .chdir⟩ ∧
    entry testOpts (ascii "suite") = some ⟨ascii "suite", true, none, false, false, some .suite⟩ ∧
    entry testOpts (ascii "num-processes") = some ⟨ascii "num-processes", true, none, false, false, some .workers⟩ ∧
    entry testOpts (ascii "setup") = some ⟨ascii "setup", true, none, false, false, some .setup⟩ ∧
    entry testOpts (ascii "maxfail") = some ⟨ascii "maxfail", true, none, false, false, some .failFast⟩ ∧
    entry testOpts (ascii "v") = some ⟨ascii "v", false, none, false, false, some .verbose⟩ ∧
    entry testOpts (ascii "no-rebuild") = some ⟨ascii "no-rebuild", false, none, false, false, some .noRebuild⟩ ∧
    entry testOpts (ascii "list") = some ⟨ascii "list", false, none, false, false, some .list⟩ ∧
    entry testOpts (ascii "benchmark") = some ⟨ascii "benchmark", false, none, false, false, some .benchmark⟩ := by decide +kernel

theorem test_nothing :
    (∀ n ∈ ["t", "timeout-multiplier", "gdb-path", "repeat", "wrapper", "logbase", "test-args"].map ascii,
      entry testOpts n = some ⟨n, true, none, true, false, none⟩ ∧ n ≠ ascii "C" ∧ ∀ v, testE (.value n v) = []) ∧
    (∀ n ∈ ["q", "quiet", "gdb", "no-stdsplit", "print-errorlogs"].map ascii,
      entry testOpts n = some ⟨n, false, none, true, false, none⟩ ∧ testE (.flag n) = [] ∧ n ≠ ascii "benchmark") := by
  have h1 : ∀ n ∈ ["t", "timeout-multiplier", "gdb-path", "repeat", "wrapper", "logbase", "test-args"].map ascii,
      entry testOpts n = some ⟨n, true, none, true, false, none⟩ ∧ n ≠ ascii "C" ∧ n ≠ ascii "suite" ∧ n ≠ ascii "num-processes" ∧ n ≠ ascii "setup" ∧ n ≠ ascii "maxfail" := by
    decide +kernel
  refine ⟨fun n hn => ?_, by decide +kernel⟩
  obtain ⟨a, b, c, d, e, f⟩ := h1 n hn
  exact ⟨a, b, fun v => by simp [testE, c, d, e, f]⟩

theorem test_one (w : Wish) (hk : testKnown w = true) :
    Fits testOpts w ∧ ∀ c : Ctx, one testOpts c w = .ok (c.add (dirOf w) (opnd w) (testE w) (isBench w)) := by
  obtain ⟨e1, e2, e3, e4, e5, e6, e7, e8, e9⟩ := test_entries
  cases w with
  | operand a => exact ⟨trivial, fun c => by simp [one, Ctx.add, opnd, testE, dirOf, values, isBench]⟩
  | value n v =>
    simp only [testKnown, Bool.or_eq_true, decide_eq_true_eq, List.map_cons, List.map_nil] at hk
    rcases hk with (⟨hn, hv⟩ | ⟨rfl, rfl⟩) | hn
    · simp only [List.mem_cons, List.not_mem_nil, or_false] at hn
      rcases hn with rfl | rfl | rfl | rfl
      · refine ⟨⟨_, e1, rfl⟩, fun c => ?_⟩
        have : testE (.value (ascii "C") v) = [] := rfl
        have h2 : dirOf (.value (ascii "C") v) = [v] := rfl
        simp [one, e1, this, h2, apply, handle, withVal, Ctx.add, opnd, isBench]
      · refine ⟨⟨_, e2, rfl⟩, fun c => ?_⟩
        have : testE (.value (ascii "suite") v) = [(115, v)] := rfl
        have h2 : dirOf (.value (ascii "suite") v) = [] := rfl
        simp [one, e2, this, h2, apply, handle, withVal, Ctx.add, opnd, isBench, arg]
        rfl
      · refine ⟨⟨_, e3, rfl⟩, fun c => ?_⟩
        have : testE (.value (ascii "num-processes") v) = [(106, v)] := rfl
        have h2 : dirOf (.value (ascii "num-processes") v) = [] := rfl
        simp [one, e3, this, h2, apply, handle, withVal, Ctx.add, opnd, isBench, arg]
        rfl
      · refine ⟨⟨_, e4, rfl⟩, fun c => ?_⟩
        have : testE (.value (ascii "setup") v) = [(101, v)] := rfl
        have h2 : dirOf (.value (ascii "setup") v) = [] := rfl
        simp [one, e4, this, h2, apply, handle, withVal, Ctx.add, opnd, isBench, arg]
        rfl
    · refine ⟨⟨_, e5, rfl⟩, fun c => ?_⟩
      have : ∀ v, testE (.value (ascii "maxfail") v) = [(102, [])] := fun _ => rfl
      have h2 : ∀ v, dirOf (.value (ascii "maxfail") v) = [] := fun _ => rfl
      simp [one, e5, this, h2, apply, handle, Ctx.add, opnd, isBench, arg]
      rfl
    · obtain ⟨e, h1, h2⟩ := test_nothing.1 n hn
      refine ⟨⟨_, e, rfl⟩, fun c => ?_⟩
      simp [one, e, h1, h2, apply, Ctx.add, opnd, isBench, dirOf, values]
  | flag n =>
    simp only [testKnown, decide_eq_true_eq] at hk
    have hk : n ∈ ["v", "no-rebuild", "list", "benchmark"].map ascii ∨ n ∈ ["q", "quiet", "gdb", "no-stdsplit", "print-errorlogs"].map ascii := by
      rw [← List.mem_append]; exact hk
    rcases hk with hn | hn
    · simp only [List.map_cons, List.map_nil, List.mem_cons, List.not_mem_nil, or_false] at hn
      rcases hn with rfl | rfl | rfl | rfl
      · refine ⟨⟨_, e6, rfl⟩, fun c => ?_⟩
        have : testE (.flag (ascii "v")) = [(118, [])] := rfl
        have h2 : isBench (.flag (ascii "v")) = false := rfl
        simp [one, e6, this, h2, apply, handle, Ctx.add, opnd, arg, dirOf, values]
        rfl
      · refine ⟨⟨_, e7, rfl⟩, fun c => ?_⟩
        have : testE (.flag (ascii "no-rebuild")) = [(82, [])] := rfl
        have h2 : isBench (.flag (ascii "no-rebuild")) = false := rfl
        simp [one, e7, this, h2, apply, handle, Ctx.add, opnd, arg, dirOf, values]
        rfl
      · refine ⟨⟨_, e8, rfl⟩, fun c => ?_⟩
        have : testE (.flag (ascii "list")) = [(108, [])] := rfl
        have h2 : isBench (.flag (ascii "list")) = false := rfl
        simp [one, e8, this, h2, apply, handle, Ctx.add, opnd, arg, dirOf, values]
        rfl
      · refine ⟨⟨_, e9, rfl⟩, fun c => ?_⟩
        have : testE (.flag (ascii "benchmark")) = [] := rfl
        have h2 : isBench (.flag (ascii "benchmark")) = true := rfl
        simp [one, e9, this, h2, apply, handle, Ctx.add, opnd, dirOf, values]
    · obtain ⟨e, h1, h2⟩ := test_nothing.2 n hn
      refine ⟨⟨_, e, rfl⟩, fun c => ?_⟩
      simp [one, e, h1, h2, apply, Ctx.add, opnd, isBench, dirOf, values]

/-- What the options of `muon test` add. -/
def TestRun.plus (t : TestRun) (ws : List Wish) : TestRun :=
  { t with
    list := t.list || (times ["list"] ws != 0)
    setup := (values "setup" ws).getLast?.or t.setup
    suites := t.suites ++ values "suite" ws
    failFast := t.failFast || !(values "maxfail" ws).isEmpty
    jobs := (values "num-processes" ws).getLast?.or t.jobs
    verbosity := t.verbosity + times ["v"] ws
    noRebuild := t.noRebuild || (times ["no-rebuild"] ws != 0) }

theorem last_or (v : Bytes) (l : List Bytes) (o : Option Bytes) : (v :: l).getLast?.or o = l.getLast?.or (some v) := by
  cases l with
  | nil => rfl
  | cons x l =>
    rw [List.getLast?_cons_cons]
    cases hl : (x :: l).getLast? with
    | none => simp at hl
    | some y => rfl

theorem test_fold : ∀ (ws : List Wish) (t : TestRun), t.suites.length + (values "suite" ws).length ≤ 64 →
    optLoop testOpt t ((ws.flatMap testE).map item) = .ok (some (t.plus ws))
  | [], t, _ => by simp [optLoop, TestRun.plus, times, values]
  | w :: ws, t, h => by
    rw [List.flatMap_cons, List.map_append]
    cases w with
    | operand a => exact test_fold ws t h
    | value n v =>
      by_cases h1 : n = ascii "suite"
      · subst h1
        have e : values "suite" (.value (ascii "suite") v :: ws) = v :: values "suite" ws := by simp [values]
        rw [e, List.length_cons] at h
        show optLoop testOpt t (.opt 115 v :: (ws.flatMap testE).map item) = _
        rw [optLoop, if_neg (by decide)]
        have : testOpt t 115 v = .ok { t with suites := t.suites ++ [v] } := by
          unfold testOpt
          rw [if_neg (by decide), if_neg (by decide), if_pos rfl, if_neg (by omega), if_neg (by omega)]
        rw [this]
        show optLoop testOpt _ _ = _
        rw [test_fold ws _ (by simp only [List.length_append, List.length_cons, List.length_nil]; omega)]
        have n1 : ascii "suite" ≠ ascii "setup" := by decide
        have n2 : ascii "suite" ≠ ascii "maxfail" := by decide
        have n3 : ascii "suite" ≠ ascii "num-processes" := by decide
        simp [TestRun.plus, times, values, n1, n2, n3]
      · have hs : values "suite" (.value n v :: ws) = values "suite" ws := by simp [values, h1]
        rw [hs] at h
        by_cases h2 : n = ascii "num-processes"
        · subst h2
          show optLoop testOpt t (.opt 106 v :: (ws.flatMap testE).map item) = _
          rw [optLoop, if_neg (by decide)]
          show optLoop testOpt { t with jobs := some v } _ = _
          rw [test_fold ws { t with jobs := some v } h]
          have n1 : ascii "num-processes" ≠ ascii "setup" := by decide
          have n2 : ascii "num-processes" ≠ ascii "maxfail" := by decide
          simp only [TestRun.plus, times, values, n1, n2, h1, if_false, if_true, last_or]
        · by_cases h3 : n = ascii "setup"
          · subst h3
            show optLoop testOpt t (.opt 101 v :: (ws.flatMap testE).map item) = _
            rw [optLoop, if_neg (by decide)]
            show optLoop testOpt { t with setup := some v } _ = _
            rw [test_fold ws { t with setup := some v } h]
            have n2 : ascii "setup" ≠ ascii "maxfail" := by decide
            simp only [TestRun.plus, times, values, n2, h1, h2, if_false, if_true, last_or]
          · by_cases h4 : n = ascii "maxfail"
            · subst h4
              show optLoop testOpt t (.opt 102 [] :: (ws.flatMap testE).map item) = _
              rw [optLoop, if_neg (by decide)]
              show optLoop testOpt { t with failFast := true } _ = _
              rw [test_fold ws { t with failFast := true } h]
              simp [TestRun.plus, times, values, h1, h2, h3]
            · have : testE (.value n v) = [] := by simp [testE, h1, h2, h3, h4]
              rw [this]
              show optLoop testOpt t ((ws.flatMap testE).map item) = _
              rw [test_fold ws t h]
              simp [TestRun.plus, times, values, h1, h2, h3, h4]
    | flag n =>
      have h : t.suites.length + (values "suite" ws).length ≤ 64 := h
      by_cases h1 : n = ascii "v"
      · subst h1
        show optLoop testOpt t (.opt 118 [] :: (ws.flatMap testE).map item) = _
        rw [optLoop, if_neg (by decide)]
        show optLoop testOpt { t with verbosity := t.verbosity + 1 } _ = _
        rw [test_fold ws { t with verbosity := t.verbosity + 1 } h]
        have n1 : ascii "v" ≠ ascii "list" := by decide
        have n2 : ascii "v" ≠ ascii "no-rebuild" := by decide
        simp [TestRun.plus, times, values, n1, n2, Nat.add_assoc]
      · by_cases h2 : n = ascii "no-rebuild"
        · subst h2
          show optLoop testOpt t (.opt 82 [] :: (ws.flatMap testE).map item) = _
          rw [optLoop, if_neg (by decide)]
          show optLoop testOpt { t with noRebuild := true } _ = _
          rw [test_fold ws { t with noRebuild := true } h]
          have n1 : ascii "no-rebuild" ≠ ascii "list" := by decide
          have p : (1 + times ["no-rebuild"] ws != 0) = true := by simp
          simp [TestRun.plus, times, values, n1, h1, p]
        · by_cases h3 : n = ascii "list"
          · subst h3
            show optLoop testOpt t (.opt 108 [] :: (ws.flatMap testE).map item) = _
            rw [optLoop, if_neg (by decide)]
            show optLoop testOpt { t with list := true } _ = _
            rw [test_fold ws { t with list := true } h]
            have p : (1 + times ["list"] ws != 0) = true := by simp
            simp [TestRun.plus, times, values, h1, h2, p]
          · have : testE (.flag n) = [] := by simp [testE, h1, h2, h3]
            rw [this]
            show optLoop testOpt t ((ws.flatMap testE).map item) = _
            rw [test_fold ws t h]
            simp [TestRun.plus, times, values, h1, h2, h3]

theorem bench_any (ws : List Wish) : ws.any isBench = (times ["benchmark"] ws != 0) := by
  induction ws with
  | nil => rfl
  | cons w ws ih =>
    rw [List.any_cons, ih]
    cases w with
    | flag n =>
      simp only [isBench, times, List.map_cons, List.map_nil, List.mem_singleton]
      by_cases h : n = ascii "benchmark" <;> simp [h]
    | _ => simp [isBench, times]

theorem testE_facts (w : Wish) (hk : testKnown w = true) (hc : clean w) : ∀ p ∈ testE w,
    ((optTest p.1 = some true ∧ p.2 ≠ []) ∨ (optTest p.1 = some false ∧ p.2 = [] ∧ p.1 ≠ 45)) ∧ p.1 ≠ 0 ∧ 0 ∉ p.2 := by
  intro p hp
  cases w with
  | operand a => cases hp
  | value n v =>
    have hv : (0 : UInt8) ∉ v := hc.2
    have hne : n ∈ ["suite", "num-processes", "setup"].map ascii → v ≠ [] := by
      intro hn
      simp only [testKnown, Bool.or_eq_true, decide_eq_true_eq] at hk
      rcases hk with (h | h) | h
      · exact h.2
      · exact absurd (h.1 ▸ hn) (by decide)
      · exact absurd h ((by decide : ∀ n ∈ ["suite", "num-processes", "setup"].map ascii,
          n ∉ ["t", "timeout-multiplier", "gdb-path", "repeat", "wrapper", "logbase", "test-args"].map ascii) n hn)
    simp only [testE] at hp
    split at hp
    · rename_i e
      cases List.mem_singleton.1 hp
      exact ⟨.inl ⟨(by decide : optTest 115 = some true), hne (by rw [e]; decide)⟩, (by decide : (115 : UInt8) ≠ 0), hv⟩
    · split at hp
      · rename_i e
        cases List.mem_singleton.1 hp
        exact ⟨.inl ⟨(by decide : optTest 106 = some true), hne (by rw [e]; decide)⟩, (by decide : (106 : UInt8) ≠ 0), hv⟩
      · split at hp
        · rename_i e
          cases List.mem_singleton.1 hp
          exact ⟨.inl ⟨(by decide : optTest 101 = some true), hne (by rw [e]; decide)⟩, (by decide : (101 : UInt8) ≠ 0), hv⟩
        · split at hp
          · cases List.mem_singleton.1 hp
            exact ⟨.inr (by decide), by decide⟩
          · cases hp
  | flag n =>
    simp only [testE] at hp
    split at hp
    · cases List.mem_singleton.1 hp
      exact ⟨.inr (by decide), by decide⟩
    · split at hp
      · cases List.mem_singleton.1 hp
        exact ⟨.inr (by decide), by decide⟩
      · split at hp
        · cases List.mem_singleton.1 hp
          exact ⟨.inr (by decide), by decide⟩
        · cases hp

theorem test_command (ds : List Bytes) (bench : Bool) (ws : List Wish) (hd : ∀ d ∈ ds, d ≠ []) (hk : ∀ w ∈ ws, testKnown w = true) (hc : ∀ w ∈ ws, clean w)
    (ho : ∀ a ∈ operands ws, a.head? ≠ some 45 ∨ a = ascii "-") (hs : (values "suite" ws).length ≤ 64) :
    cmdMain (ds.map (ascii "-C" ++ ·) ++ (if bench then ascii "benchmark" else ascii "test") :: (ascii "-v" :: (ws.flatMap testE).map arg ++ operands ws)) =
      .ok (ds, .test { TestRun.plus { bench := bench, verbosity := 1 } ws with tests := operands ws }) := by
  have hp : ∀ p ∈ ws.flatMap testE, ((optTest p.1 = some true ∧ p.2 ≠ []) ∨ (optTest p.1 = some false ∧ p.2 = [] ∧ p.1 ≠ 45)) := by
    intro p hp
    obtain ⟨w, hw, hm⟩ := List.mem_flatMap.1 hp
    exact (testE_facts w (hk w hw) (hc w hw) p hm).1
  rw [cmdMain_chdirs ds _ _ hd (by cases bench <;> decide)]
  have hcmd : ∀ as, command ((if bench then ascii "benchmark" else ascii "test") :: as) = cmdTest bench as := by
    intro as
    cases bench
    · exact command_test as
    · exact command_bench as
  rw [hcmd]
  obtain ⟨g, _⟩ := Exec.says_getopt optTest (getopt_pairs optTest (operands ws) (by
    intro a ha
    exact ho a (List.mem_of_head? ha)) ((118, []) :: ws.flatMap testE) (by
    intro p hm
    rcases List.mem_cons.1 hm with rfl | hm
    · exact .inr (by decide)
    · exact hp p hm))
  have e : ascii "-v" :: (ws.flatMap testE).map arg ++ operands ws = ((118, []) :: ws.flatMap testE).map arg ++ operands ws := rfl
  unfold cmdTest
  rw [e, g]
  dsimp only
  rw [List.map_cons]
  show (optLoop testOpt _ (.opt 118 [] :: _) >>= _) >>= _ = _
  rw [optLoop, if_neg (by decide)]
  show (optLoop testOpt { bench := bench, verbosity := 1 } _ >>= _) >>= _ = _
  rw [test_fold ws _ (by simpa using hs)]
  rfl

/-- C111: `meson test`: directories of `-C` are entered; the tests are those named, or all, of the suites named; each option does what it says, whatever the order and the
spelling. Missing: empty values, and `--no-suite`. -/
theorem test_partial (cwd argv0 : Bytes) {ws : List Wish} {as : List Bytes} (h : Spelled ws as) (hk : ∀ w ∈ ws, testKnown w = true)
    (hn : ∀ a ∈ argv0 :: as, 0 ∉ a) (hs : (values "suite" ws).length ≤ 64) :
    meson cwd argv0 (ascii "test" :: as) = .ok (values "C" ws, .test
      { bench := times ["benchmark"] ws != 0, list := times ["list"] ws != 0, setup := (values "setup" ws).getLast?, suites := values "suite" ws,
        failFast := !(values "maxfail" ws).isEmpty, jobs := (values "num-processes" ws).getLast?, verbosity := 1 + times ["v"] ws,
        noRebuild := times ["no-rebuild"] ws != 0, tests := operands ws }) := by
  have hc := spelled_clean h (fun a ha => hn a (by simp [ha]))
  have hd := values_ne "C" testKnown (by
    intro v hv
    simp only [testKnown, Bool.or_eq_true, decide_eq_true_eq] at hv
    rcases hv with (h | h) | h
    · exact h.2
    · exact absurd h.1 (by decide)
    · exact absurd h (by decide)) ws hk
  rw [meson_run cwd argv0 _ as (Ctx.add { argv := [ascii "test", ascii "-v"] } (values "C" ws) (operands ws) (ws.flatMap testE) (ws.any isBench)) (by decide)]
  · have := test_command (values "C" ws) (ws.any isBench) ws hd hk hc (spelled_operands h) hs
    have e : (if ws.any isBench = true then [ascii "test", ascii "-v"].set 0 (ascii "benchmark") else [ascii "test", ascii "-v"]) =
        (if ws.any isBench = true then ascii "benchmark" else ascii "test") :: [ascii "-v"] := by
      cases ws.any isBench <;> rfl
    simp only [Ctx.add, List.nil_append, e]
    simp only [List.cons_append, List.nil_append, List.append_assoc] at this ⊢
    rw [this, bench_any]
    simp [TestRun.plus]
  · unfold subcommand
    rw [if_neg (by decide), if_neg (by decide), if_pos rfl, parse_spelled testOpts h (fun w hw => (test_one w (hk w hw)).1),
      all_adds testOpts dirOf testE isBench ws _ (by simp) (fun w hw => (test_one w (hk w hw)).2), dirs_eq]
  · rfl
  · exact hn argv0 (by simp)
  · have hb : 0 ∉ (if ws.any isBench = true then ascii "benchmark" else ascii "test") := by cases ws.any isBench <;> decide
    have := pairs_clean (values "C" ws) (if ws.any isBench = true then ascii "benchmark" else ascii "test") ((118, []) :: ws.flatMap testE) (operands ws)
      (values_facts "C" ws hc) hb (by
        intro p hp
        rcases List.mem_cons.1 hp with rfl | hp
        · decide
        · obtain ⟨w, hw, hm⟩ := List.mem_flatMap.1 hp
          exact (testE_facts w (hk w hw) (hc w hw) p hm).2) (operand_clean ws hc)
    have e : (if ws.any isBench = true then [ascii "test", ascii "-v"].set 0 (ascii "benchmark") else [ascii "test", ascii "-v"]) =
        (if ws.any isBench = true then ascii "benchmark" else ascii "test") :: [ascii "-v"] := by
      cases ws.any isBench <;> rfl
    simp only [Ctx.add, List.nil_append, e]
    exact this

/-! ### Errors -/

/-- The name of an option. -/
def nameOf : Wish → Option Bytes
  | .operand _ => none
  | .value n _ => some n
  | .flag n => some n

theorem parse_unknown (tbl : List Spec) {ws : List Wish} {as : List Bytes} (h : Spelled ws as) : (∀ w ∈ ws, Fits tbl w ∨ ∃ n, nameOf w = some n ∧ entry tbl n = none) →
    (∃ w ∈ ws, ∃ n, nameOf w = some n ∧ entry tbl n = none) → ∀ c c', parse tbl as c ≠ .ok c' := by
  have bindNe : ∀ (r : Res Ctx) (f : Ctx → Res Ctx) (c' : Ctx), (∀ c, f c ≠ .ok c') → (r >>= f) ≠ .ok c' := by
    intro r f c' hf
    cases r with
    | ok c => exact hf c
    | error => intro e; cases e
    | bad => intro e; cases e
  induction h with
  | nil => rintro _ ⟨w, hw, _⟩; cases hw
  | operand a ha r ih =>
    intro hf hu c c'
    rw [parse.eq_def]
    dsimp only
    rw [split_operand ha]
    obtain ⟨w, hw, n, hn, he⟩ := hu
    rcases List.mem_cons.1 hw with rfl | hw
    · cases hn
    · exact ih (fun w hw => hf w (by simp [hw])) ⟨w, hw, n, hn, he⟩ _ _
  | longJoined n v hn r ih =>
    intro hf hu c c'
    rw [parse.eq_def]
    dsimp only
    rw [split_longJoined n v hn]
    dsimp only
    cases hs : entry tbl n with
    | none => rw [show tbl.find? (·.name == n) = none from hs]; intro e; cases e
    | some s =>
      rw [show tbl.find? (·.name == n) = some s from hs]
      dsimp only
      rw [if_neg (by simp)]
      obtain ⟨w, hw, m, hm, he⟩ := hu
      rcases List.mem_cons.1 hw with rfl | hw
      · cases hm; rw [hs] at he; cases he
      · exact bindNe _ _ _ fun c => ih (fun w hw => hf w (by simp [hw])) ⟨w, hw, m, hm, he⟩ _ _
  | longApart n v hn r ih =>
    intro hf hu c c'
    rw [parse.eq_def]
    dsimp only
    rw [split_long n hn]
    dsimp only
    cases hs : entry tbl n with
    | none => rw [show tbl.find? (·.name == n) = none from hs]; intro e; cases e
    | some s =>
      rw [show tbl.find? (·.name == n) = some s from hs]
      dsimp only
      rcases hf _ (List.mem_cons_self ..) with ⟨s', hs', hv⟩ | ⟨m, hm, he⟩
      · rw [hs] at hs'; cases hs'
        rw [if_pos ⟨hv, rfl⟩]
        obtain ⟨w, hw, m, hm, he⟩ := hu
        rcases List.mem_cons.1 hw with rfl | hw
        · cases hm; rw [hs] at he; cases he
        · exact bindNe _ _ _ fun c => ih (fun w hw => hf w (by simp [hw])) ⟨w, hw, m, hm, he⟩ _ _
      · cases hm; rw [hs] at he; cases he
  | shortJoined x v hx hne r ih =>
    intro hf hu c c'
    rw [parse.eq_def]
    dsimp only
    rw [split_shortJoined x v hx hne]
    dsimp only
    cases hs : entry tbl [x] with
    | none => rw [show tbl.find? (·.name == [x]) = none from hs]; intro e; cases e
    | some s =>
      rw [show tbl.find? (·.name == [x]) = some s from hs]
      dsimp only
      rw [if_neg (by simp)]
      obtain ⟨w, hw, m, hm, he⟩ := hu
      rcases List.mem_cons.1 hw with rfl | hw
      · cases hm; rw [hs] at he; cases he
      · exact bindNe _ _ _ fun c => ih (fun w hw => hf w (by simp [hw])) ⟨w, hw, m, hm, he⟩ _ _
  | shortApart x v hx r ih =>
    intro hf hu c c'
    rw [parse.eq_def]
    dsimp only
    rw [split_short x]
    dsimp only
    cases hs : entry tbl [x] with
    | none => rw [show tbl.find? (·.name == [x]) = none from hs]; intro e; cases e
    | some s =>
      rw [show tbl.find? (·.name == [x]) = some s from hs]
      dsimp only
      rcases hf _ (List.mem_cons_self ..) with ⟨s', hs', hv⟩ | ⟨m, hm, he⟩
      · rw [hs] at hs'; cases hs'
        rw [if_pos ⟨hv, rfl⟩]
        obtain ⟨w, hw, m, hm, he⟩ := hu
        rcases List.mem_cons.1 hw with rfl | hw
        · cases hm; rw [hs] at he; cases he
        · exact bindNe _ _ _ fun c => ih (fun w hw => hf w (by simp [hw])) ⟨w, hw, m, hm, he⟩ _ _
      · cases hm; rw [hs] at he; cases he
  | long n hn r ih =>
    intro hf hu c c'
    rw [parse.eq_def]
    dsimp only
    rw [split_long n hn]
    dsimp only
    cases hs : entry tbl n with
    | none => rw [show tbl.find? (·.name == n) = none from hs]; intro e; cases e
    | some s =>
      rw [show tbl.find? (·.name == n) = some s from hs]
      dsimp only
      rcases hf _ (List.mem_cons_self ..) with ⟨s', hs', hv⟩ | ⟨m, hm, he⟩
      · rw [hs] at hs'; cases hs'
        rw [if_neg (by simp [hv])]
        obtain ⟨w, hw, m, hm, he⟩ := hu
        rcases List.mem_cons.1 hw with rfl | hw
        · cases hm; rw [hs] at he; cases he
        · exact bindNe _ _ _ fun c => ih (fun w hw => hf w (by simp [hw])) ⟨w, hw, m, hm, he⟩ _ _
      · cases hm; rw [hs] at he; cases he
  | short x hx r ih =>
    intro hf hu c c'
    rw [parse.eq_def]
    dsimp only
    rw [split_short x]
    dsimp only
    cases hs : entry tbl [x] with
    | none => rw [show tbl.find? (·.name == [x]) = none from hs]; intro e; cases e
    | some s =>
      rw [show tbl.find? (·.name == [x]) = some s from hs]
      dsimp only
      rcases hf _ (List.mem_cons_self ..) with ⟨s', hs', hv⟩ | ⟨m, hm, he⟩
      · rw [hs] at hs'; cases hs'
        rw [if_neg (by simp [hv])]
        obtain ⟨w, hw, m, hm, he⟩ := hu
        rcases List.mem_cons.1 hw with rfl | hw
        · cases hm; rw [hs] at he; cases he
        · exact bindNe _ _ _ fun c => ih (fun w hw => hf w (by simp [hw])) ⟨w, hw, m, hm, he⟩ _ _
      · cases hm; rw [hs] at he; cases he

/-- Entries that can be carried out. -/
def Spec.fine (s : Spec) : Bool :=
  s.ignore || s.opt.isSome || s.help || match s.act with
    | none => false
    | some a => s.hasValue || (a ∈ [Act.noRebuild, .list, .benchmark, .verbose, .dryrun, .version])

theorem apply_safe (s : Spec) (h : s.fine = true) (v : Option Bytes) (hv : s.hasValue = true → v ≠ none) (c : Ctx) : apply s v c ≠ .bad := by
  unfold apply
  split
  · intro e; cases e
  · rename_i hi
    split
    · split
      · rename_i hb
        cases v with
        | none => exact absurd rfl (hv hb)
        | some x => intro e; cases e
      · intro e; cases e
    · rename_i ho
      split
      · intro e; cases e
      · rename_i hh
        cases ha : s.act with
        | none => simp [Spec.fine, hi, ho, hh, ha] at h
        | some a =>
          dsimp only
          cases v with
          | some x => cases a <;> simp [handle, withVal]; split <;> simp
          | none =>
            have hn : s.hasValue = false := by
              cases hx : s.hasValue
              · rfl
              · exact absurd rfl (hv hx)
            simp only [Spec.fine, hi, ho, hh, ha, hn] at h
            cases a <;> revert h <;> simp [handle, withVal]

theorem parse_safe (tbl : List Spec) (ht : ∀ s ∈ tbl, s.fine = true) : ∀ (k : Nat) (as : List Bytes), as.length ≤ k → ∀ (c : Ctx), parse tbl as c ≠ .bad
  | _, [], _, c => by intro e; cases e
  | 0, a :: as, h, c => by simp at h
  | k + 1, a :: as, h, c => by
    have bindNe : ∀ (r : Res Ctx) (f : Ctx → Res Ctx), r ≠ .bad → (∀ c, f c ≠ .bad) → (r >>= f) ≠ .bad := by
      intro r f hr hf
      cases r with
      | ok c => exact hf c
      | error => intro e; cases e
      | bad => exact absurd rfl hr
    rw [List.length_cons] at h
    rw [parse.eq_def]
    dsimp only
    cases split a with
    | none => exact parse_safe tbl ht k as (by omega) _
    | some p =>
      dsimp only
      cases hs : tbl.find? (·.name == p.1) with
      | none => intro e; cases e
      | some s =>
        have hf := ht s (List.mem_of_find?_eq_some hs)
        dsimp only
        split
        · cases as with
          | nil => intro e; cases e
          | cons x bs =>
            exact bindNe _ _ (apply_safe s hf (some x) (by simp) c) fun c => parse_safe tbl ht k bs (by simp at h; omega) c
        · rename_i hn
          refine bindNe _ _ (apply_safe s hf p.2 (fun hb he => hn ⟨hb, he⟩) c) fun c => parse_safe tbl ht k as (by omega) c

/-- C111: no command line makes the translation itself go wrong. -/
theorem translation_safe (cwd sub : Bytes) (args : List Bytes) : subcommand cwd sub args ≠ .bad := by
  unfold subcommand
  split
  · have := parse_safe setupOpts (by decide +kernel) args.length args (Nat.le_refl _) { argv := [ascii "setup"] }
    cases h : parse setupOpts args { argv := [ascii "setup"] } with
    | ok c => intro e; cases e
    | error => intro e; cases e
    | bad => exact absurd h this
  · split
    · exact parse_safe installOpts (by decide +kernel) args.length args (Nat.le_refl _) _
    · split
      · exact parse_safe testOpts (by decide +kernel) args.length args (Nat.le_refl _) _
      · intro e; cases e

/-- The options of `meson setup`, including help and version. -/
def setupNames : List Bytes := ["h", "help", "v", "version", "D"].map ascii ++ sameName.map ascii ++ otherName.map (ascii ·.1) ++ setTrue.map ascii ++
  nothingValue.map ascii ++ nothingFlag.map ascii

theorem setup_names (n : Bytes) (h : n ∉ setupNames) : entry setupOpts n = none := by
  cases hs : entry setupOpts n with
  | none => rfl
  | some s =>
    have h1 : s.name = n := by simpa using List.find?_some hs
    have h2 : ∀ s ∈ setupOpts, s.name ∈ setupNames := by decide +kernel
    exact absurd (h1 ▸ h2 s (List.mem_of_find?_eq_some hs)) h

/-- C111: a command line for `setup` with an option that does not exist does nothing. -/
theorem unknown_option (cwd argv0 sub : Bytes) {ws : List Wish} {as : List Bytes} (hs : sub ∈ ["setup", "configure"].map ascii) (h : Spelled ws as)
    (hk : ∀ w ∈ ws, setupKnown w = true ∧ ¬ isUmask w ∨ ∃ n, nameOf w = some n ∧ n ∉ setupNames) (hu : ∃ w ∈ ws, ∃ n, nameOf w = some n ∧ n ∉ setupNames) :
    meson cwd argv0 (sub :: as) = .error := by
  have hsub : ¬ (sub = ascii "-v" ∨ sub = ascii "--version" ∨ sub = ascii "-h") :=
    (by decide : ∀ s ∈ ["setup", "configure"].map ascii, ¬ (s = ascii "-v" ∨ s = ascii "--version" ∨ s = ascii "-h")) sub hs
  have hp := parse_unknown setupOpts h (fun w hw => by
    rcases hk w hw with ⟨h1, h2⟩ | ⟨n, h1, h2⟩
    · exact .inl (setup_one w h1 h2).1
    · exact .inr ⟨n, h1, setup_names n h2⟩) (by
    obtain ⟨w, hw, n, hn, h2⟩ := hu
    exact ⟨w, hw, n, hn, setup_names n h2⟩) { argv := [ascii "setup"] }
  have hb := parse_safe setupOpts (by decide +kernel) as.length as (Nat.le_refl _) { argv := [ascii "setup"] }
  unfold meson translate
  dsimp only
  rw [if_neg hsub]
  unfold subcommand
  rw [if_pos (sub_setup sub hs)]
  cases he : parse setupOpts as { argv := [ascii "setup"] } with
  | ok c => exact absurd he (hp c)
  | error => rfl
  | bad => exact absurd he hb

/-! ### Examples, and what does not hold -/

/-- `meson setup --prefix=/usr -Db_lto=true --werror build -D x=y`. -/
example : Spelled [.value (ascii "prefix") (ascii "/usr"), .value (ascii "D") (ascii "b_lto=true"), .flag (ascii "werror"), .operand (ascii "build"),
      .value (ascii "D") (ascii "x=y")]
    [ascii "--prefix=/usr", ascii "-Db_lto=true", ascii "--werror", ascii "build", ascii "-D", ascii "x=y"] :=
  .longJoined (ascii "prefix") (ascii "/usr") (by decide) (.shortJoined 68 (ascii "b_lto=true") (by decide) (by decide) (.long (ascii "werror") (by decide)
    (.operand (ascii "build") (by decide) (.shortApart 68 (ascii "x=y") (by decide) .nil))))

example : meson (ascii "/w") (ascii "muon") [ascii "setup", ascii "--prefix=/usr", ascii "-Db_lto=true", ascii "--werror", ascii "build", ascii "-D", ascii "x=y"] =
    .ok ([], .setup [ascii "prefix=/usr", ascii "b_lto=true", ascii "werror=true", ascii "x=y"] (ascii "build")) := by decide +kernel
example : meson (ascii "/w") (ascii "muon") [ascii "setup", ascii "build", ascii "../src"] = .ok ([ascii "../src"], .setup [] (ascii "/w/build")) := by decide +kernel
example : meson (ascii "/w") (ascii "muon") [ascii "test", ascii "-C", ascii "b", ascii "--suite=x", ascii "--benchmark", ascii "a"] =
    .ok ([ascii "b"], .test { bench := true, suites := [ascii "x"], verbosity := 1, tests := [ascii "a"] }) := by decide +kernel
example : meson (ascii "/w") (ascii "muon") [ascii "install", ascii "-n", ascii "--destdir", ascii "/d"] = .ok ([], .install true (some (ascii "/d"))) := by decide +kernel

/-- C111 fails: `--werror=false` sets it to true. -/
theorem flag_value_counterexample : meson (ascii "/w") (ascii "muon") [ascii "setup", ascii "--werror=false", ascii "b"] =
    .ok ([], .setup [ascii "werror=true"] (ascii "b")) := by decide +kernel

/-- C111 fails: a destination that is empty is joined to the option, so that the next option is taken as the destination. Here a dry run installs for real. -/
theorem empty_value_counterexample : meson (ascii "/w") (ascii "muon") [ascii "install", ascii "--destdir", [], ascii "-n"] = .ok ([], .install false (some (ascii "-n"))) ∧
    meson (ascii "/w") (ascii "muon") [ascii "install", ascii "--destdir="] = .error ∧
    meson (ascii "/w") (ascii "muon") [ascii "test", ascii "-C", []] = .error := by decide +kernel

/-- C111 fails: the suite that should be left out is the name of the only test that is run. -/
theorem no_suite_counterexample : meson (ascii "/w") (ascii "muon") [ascii "test", ascii "--no-suite", ascii "slow"] =
    .ok ([], .test { verbosity := 1, tests := [ascii "slow"] }) := by decide +kernel

/-- C111 fails: the 65th suite is written behind the end of an array. -/
theorem suites_counterexample : meson (ascii "/w") (ascii "muon") (ascii "test" :: List.replicate 65 (ascii "--suite=a")) = .bad ∧
    cmdMain (ascii "test" :: List.replicate 65 (ascii "-sa")) = .bad := by decide +kernel

/-- The options of muon, src/script/global_options.meson and src/script/per_project_options.meson, without those whose names begin with `b_`, `c_`, `cpp_`, `env.`. -/
def declared : List String := ["prefix", "bindir", "datadir", "includedir", "infodir", "libdir", "libexecdir", "licensedir", "localedir", "localstatedir", "mandir", "sbindir",
  "sharedstatedir", "sysconfdir", "auto_features", "backend", "buildtype", "cmake_prefix_path", "debug", "errorlogs", "install_umask", "layout", "optimization",
  "pkg_config_path", "stdsplit", "strip", "unity", "unity_size", "wrap_mode", "force_fallback_for", "default_library", "warning_level", "werror"]

/-- C111: all other options that are set exist in muon. -/
theorem options_exist_partial : (∀ n ∈ sameName.map ascii, underscores n ∈ declared.map ascii) ∧ (∀ e ∈ otherName, ascii e.2 ∈ declared.map ascii) ∧
    (∀ n ∈ setTrue.map ascii, n ≠ ascii "prefer-static" → underscores n ∈ declared.map ascii) := by decide +kernel

/-- C111 fails: `--install-umask` and `--prefer-static` set options that muon does not have. -/
theorem options_exist_counterexample :
    meson (ascii "/w") (ascii "muon") [ascii "setup", ascii "--install-umask=022", ascii "b"] = .ok ([], .setup [ascii "insall_umask=022"] (ascii "b")) ∧
    meson (ascii "/w") (ascii "muon") [ascii "setup", ascii "--prefer-static", ascii "b"] = .ok ([], .setup [ascii "prefer_static=true"] (ascii "b")) ∧
    ascii "insall_umask" ∉ declared.map ascii ∧ ascii "prefer_static" ∉ declared.map ascii := by decide +kernel

end Muon.Mopts
