import Verif.Mopts.Props
/-
C111: help, and options that do not exist, for all commands.
-/
namespace Muon.Mopts
open Muon

/-- The help is asked for. -/
def isHelp : Wish → Prop
  | .flag n => n ∈ ["h", "help"].map ascii
  | _ => False

theorem help_one (tbl : List Spec) (ht : entry tbl (ascii "h") = some (eHelp "h") ∧ entry tbl (ascii "help") = some (eHelp "help")) (w : Wish) (h : isHelp w) :
    Fits tbl w ∧ ∀ c, one tbl c w = .ok { c with help := true } := by
  cases w with
  | operand a => exact h.elim
  | value n v => exact h.elim
  | flag n =>
    have hn : n = ascii "h" ∨ n = ascii "help" := by simpa [isHelp] using h
    rcases hn with rfl | rfl
    · exact ⟨⟨_, ht.1, rfl⟩, fun c => by simp only [one, ht.1]; rfl⟩
    · exact ⟨⟨_, ht.2, rfl⟩, fun c => by simp only [one, ht.2]; rfl⟩

theorem all_help (tbl : List Spec) : ∀ (ws : List Wish) (c : Ctx),
    (∀ w ∈ ws, (isHelp w ∧ ∀ c, one tbl c w = .ok { c with help := true }) ∨ ∃ d e b, ∀ c, one tbl c w = .ok (Ctx.add c d (opnd w) e b)) →
    c.help = true ∨ (∃ w ∈ ws, isHelp w ∧ ∀ c, one tbl c w = .ok { c with help := true }) → ∃ c', all tbl ws c = .ok c' ∧ c'.help = true
  | [], c, _, h => by
    rcases h with h | ⟨w, hw, _⟩
    · exact ⟨c, rfl, h⟩
    · cases hw
  | w :: ws, c, hk, h => by
    rw [all]
    rcases hk w (by simp) with ⟨_, he⟩ | ⟨d, e, b, he⟩
    · rw [he c]
      exact all_help tbl ws { c with help := true } (fun w hw => hk w (by simp [hw])) (.inl rfl)
    · rw [he c]
      refine all_help tbl ws _ (fun w hw => hk w (by simp [hw])) ?_
      rcases h with h | ⟨x, hx, hh⟩
      · exact .inl h
      · rcases List.mem_cons.1 hx with rfl | hx
        · have := (hh.2 { help := false }).symm.trans (he { help := false })
          simp [Ctx.add] at this
        · exact .inr ⟨x, hx, hh⟩

theorem parse_help (tbl : List Spec) (ht : entry tbl (ascii "h") = some (eHelp "h") ∧ entry tbl (ascii "help") = some (eHelp "help")) {ws : List Wish} {as : List Bytes}
    (h : Spelled ws as) (hk : ∀ w ∈ ws, isHelp w ∨ (Fits tbl w ∧ ∃ d e b, ∀ c, one tbl c w = .ok (Ctx.add c d (opnd w) e b))) (hh : ∃ w ∈ ws, isHelp w) (c : Ctx) :
    ∃ c', parse tbl as c = .ok c' ∧ c'.help = true := by
  rw [parse_spelled tbl h (fun w hw => (hk w hw).elim (fun x => (help_one tbl ht w x).1) (·.1))]
  refine all_help tbl ws c (fun w hw => (hk w hw).imp (fun x => ⟨x, (help_one tbl ht w x).2⟩) (·.2)) (.inr ?_)
  obtain ⟨w, hw, x⟩ := hh
  exact ⟨w, hw, x, (help_one tbl ht w x).2⟩

/-- Is it understood by the command? -/
def understood (sub : Bytes) (w : Wish) : Prop :=
  (sub ∈ ["setup", "configure"].map ascii ∧ setupKnown w = true ∧ ¬ isUmask w) ∨ (sub = ascii "install" ∧ installKnown w = true) ∨ (sub = ascii "test" ∧ testKnown w = true)

/-- C111: if the help is asked for, it is printed and nothing is done. -/
theorem help_only (cwd argv0 sub : Bytes) {ws : List Wish} {as : List Bytes} (hs : sub ∈ ["setup", "configure", "install", "test"].map ascii) (h : Spelled ws as)
    (hk : ∀ w ∈ ws, isHelp w ∨ understood sub w) (hh : ∃ w ∈ ws, isHelp w) : meson cwd argv0 (sub :: as) = .ok ([], .print) := by
  have hsub : ¬ (sub = ascii "-v" ∨ sub = ascii "--version" ∨ sub = ascii "-h") :=
    (by decide : ∀ s ∈ ["setup", "configure", "install", "test"].map ascii, ¬ (s = ascii "-v" ∨ s = ascii "--version" ∨ s = ascii "-h")) sub hs
  have key : ∃ c, subcommand cwd sub as = .ok c ∧ c.help = true := by
    unfold subcommand
    by_cases h1 : sub = ascii "setup" ∨ sub = ascii "configure"
    · rw [if_pos h1]
      obtain ⟨c, hc, hcx⟩ := parse_help setupOpts (by decide +kernel) h (fun w hw => by
        rcases hk w hw with x | ⟨_, x, y⟩ | ⟨x, _⟩ | ⟨x, _⟩
        · exact .inl x
        · exact .inr ⟨(setup_one w x y).1, _, _, _, (setup_one w x y).2⟩
        · rw [x] at h1; exact absurd h1 (by decide)
        · rw [x] at h1; exact absurd h1 (by decide)) hh { argv := [ascii "setup"] }
      rw [hc]
      refine ⟨afterSetup cwd c, rfl, ?_⟩
      unfold afterSetup
      split
      · exact hcx
      · exact hcx
    · rw [if_neg h1]
      by_cases h2 : sub = ascii "install"
      · rw [if_pos h2]
        exact parse_help installOpts (by decide +kernel) h (fun w hw => by
          rcases hk w hw with x | ⟨x, _⟩ | ⟨_, x⟩ | ⟨x, _⟩
          · exact .inl x
          · exact absurd (sub_setup sub x) h1
          · exact .inr ⟨(install_one w x).1, _, _, _, (install_one w x).2⟩
          · rw [x] at h2; exact absurd h2 (by decide)) hh _
      · rw [if_neg h2]
        have h3 : sub = ascii "test" := by
          simp only [List.map_cons, List.map_nil, List.mem_cons, List.not_mem_nil, or_false] at hs
          rcases hs with x | x | x | x
          · exact absurd (.inl x) h1
          · exact absurd (.inr x) h1
          · exact absurd x h2
          · exact x
        rw [if_pos h3]
        exact parse_help testOpts (by decide +kernel) h (fun w hw => by
          rcases hk w hw with x | ⟨x, _⟩ | ⟨x, _⟩ | ⟨_, x⟩
          · exact .inl x
          · exact absurd (sub_setup sub x) h1
          · exact absurd x h2
          · exact .inr ⟨(test_one w x).1, _, _, _, (test_one w x).2⟩) hh _
  obtain ⟨c, hc, hx⟩ := key
  unfold meson translate
  dsimp only
  rw [if_neg hsub, hc]
  show (if c.help = true then _ else _) >>= _ = _
  rw [if_pos hx]
  rfl

/-- The options of `meson install` and `meson test`. -/
def otherNames (sub : Bytes) : List Bytes :=
  if sub = ascii "install" then ["h", "help", "C", "n", "dryrun", "destdir", "no-rebuild", "only-changed", "quiet", "skip-subprojects", "tags", "strip"].map ascii
  else ["h", "help", "C", "v", "maxfail", "no-rebuild", "list", "suite", "benchmark", "num-processes", "setup", "q", "quiet", "t", "timeout-multiplier", "gdb", "gdb-path",
    "repeat", "wrapper", "no-suite", "no-stdsplit", "print-errorlogs", "logbase", "test-args"].map ascii

theorem other_names (tbl : List Spec) (names : List Bytes) (ht : ∀ s ∈ tbl, s.name ∈ names) (n : Bytes) (h : n ∉ names) : entry tbl n = none := by
  cases hs : entry tbl n with
  | none => rfl
  | some s =>
    have h1 : s.name = n := by simpa using List.find?_some hs
    exact absurd (h1 ▸ ht s (List.mem_of_find?_eq_some hs)) h

/-- C111: a command line for `install` or `test` with an option that does not exist does nothing. -/
theorem unknown_option_other (cwd argv0 sub : Bytes) {ws : List Wish} {as : List Bytes} (hs : sub ∈ ["install", "test"].map ascii) (h : Spelled ws as)
    (hk : ∀ w ∈ ws, understood sub w ∨ ∃ n, nameOf w = some n ∧ n ∉ otherNames sub) (hu : ∃ w ∈ ws, ∃ n, nameOf w = some n ∧ n ∉ otherNames sub) :
    meson cwd argv0 (sub :: as) = .error := by
  have key : subcommand cwd sub as = .error := by
    have hb := translation_safe cwd sub as
    cases he : subcommand cwd sub as with
    | error => rfl
    | bad => exact absurd he hb
    | ok c =>
      exfalso
      simp only [List.map_cons, List.map_nil, List.mem_cons, List.not_mem_nil, or_false] at hs
      rcases hs with rfl | rfl
      · have hn : ∀ n, n ∉ otherNames (ascii "install") → entry installOpts n = none := other_names installOpts _ (by decide +kernel)
        refine parse_unknown installOpts h (fun w hw => ?_) ?_ { argv := [ascii "install"] } c ?_
        · rcases hk w hw with (⟨x, _⟩ | ⟨_, x⟩ | ⟨x, _⟩) | ⟨n, x, y⟩
          · exact absurd x (by decide)
          · exact .inl (install_one w x).1
          · exact absurd x (by decide)
          · exact .inr ⟨n, x, hn n y⟩
        · obtain ⟨w, hw, n, x, y⟩ := hu
          exact ⟨w, hw, n, x, hn n y⟩
        · unfold subcommand at he
          rw [if_neg (by decide), if_pos rfl] at he
          exact he
      · have hn : ∀ n, n ∉ otherNames (ascii "test") → entry testOpts n = none := other_names testOpts _ (by decide +kernel)
        refine parse_unknown testOpts h (fun w hw => ?_) ?_ { argv := [ascii "test", ascii "-v"] } c ?_
        · rcases hk w hw with (⟨x, _⟩ | ⟨x, _⟩ | ⟨_, x⟩) | ⟨n, x, y⟩
          · exact absurd x (by decide)
          · exact absurd x (by decide)
          · exact .inl (test_one w x).1
          · exact .inr ⟨n, x, hn n y⟩
        · obtain ⟨w, hw, n, x, y⟩ := hu
          exact ⟨w, hw, n, x, hn n y⟩
        · unfold subcommand at he
          rw [if_neg (by decide), if_neg (by decide), if_pos rfl] at he
          exact he
  unfold meson translate
  dsimp only
  rw [if_neg ((by decide : ∀ s ∈ ["install", "test"].map ascii, ¬ (s = ascii "-v" ∨ s = ascii "--version" ∨ s = ascii "-h")) sub hs), key]
  rfl

/-- C111: other commands are errors. -/
theorem unknown_command (cwd argv0 sub : Bytes) (as : List Bytes) (h : sub ∉ ["-v", "--version", "-h", "setup", "configure", "install", "test"].map ascii) :
    meson cwd argv0 (sub :: as) = .error ∧ meson cwd argv0 [] = .error := by
  simp only [List.map_cons, List.map_nil, List.mem_cons, List.not_mem_nil, or_false, not_or] at h
  obtain ⟨h1, h2, h3, h4, h5, h6, h7⟩ := h
  refine ⟨?_, rfl⟩
  unfold meson translate subcommand
  dsimp only
  rw [if_neg (by simp [h1, h2, h3]), if_neg (by simp [h4, h5]), if_neg h6, if_neg h7]
  rfl

theorem bindThen (r : Res Ctx) (f g k : Ctx → Res Ctx) (h : ∀ c, f c = g c >>= k) : r >>= f = (r >>= g) >>= k := by
  cases r with
  | ok c => exact h c
  | error => rfl
  | bad => rfl

theorem parse_spelled_then (tbl : List Spec) {ws : List Wish} {as : List Bytes} (bs : List Bytes) (h : Spelled ws as) : (∀ w ∈ ws, Fits tbl w) → ∀ c, parse tbl (as ++ bs) c = all tbl ws c >>= fun c => parse tbl bs c := by
  induction h with
  | nil => intro _ c; rfl
  | operand a ha r ih =>
    intro hf c
    rw [List.cons_append, parse.eq_def]
    dsimp only
    rw [split_operand ha]
    exact ih (fun w hw => hf w (by simp [hw])) _
  | longJoined n v hn r ih =>
    intro hf c
    obtain ⟨s, hs, hv⟩ := hf _ (List.mem_cons_self ..)
    rw [List.cons_append, parse.eq_def]
    dsimp only
    rw [split_longJoined n v hn]
    dsimp only
    rw [show tbl.find? (·.name == n) = some s from hs]
    dsimp only
    rw [if_neg (by simp), all, one, hs]
    exact bindThen _ _ _ _ (ih (fun w hw => hf w (by simp [hw])))
  | longApart n v hn r ih =>
    intro hf c
    obtain ⟨s, hs, hv⟩ := hf _ (List.mem_cons_self ..)
    rw [List.cons_append, parse.eq_def]
    dsimp only
    rw [split_long n hn]
    dsimp only
    rw [show tbl.find? (·.name == n) = some s from hs]
    dsimp only
    rw [if_pos ⟨hv, rfl⟩, all, one, hs]
    exact bindThen _ _ _ _ (ih (fun w hw => hf w (by simp [hw])))
  | shortJoined x v hx hne r ih =>
    intro hf c
    obtain ⟨s, hs, hv⟩ := hf _ (List.mem_cons_self ..)
    rw [List.cons_append, parse.eq_def]
    dsimp only
    rw [split_shortJoined x v hx hne]
    dsimp only
    rw [show tbl.find? (·.name == [x]) = some s from hs]
    dsimp only
    rw [if_neg (by simp), all, one, hs]
    exact bindThen _ _ _ _ (ih (fun w hw => hf w (by simp [hw])))
  | shortApart x v hx r ih =>
    intro hf c
    obtain ⟨s, hs, hv⟩ := hf _ (List.mem_cons_self ..)
    rw [List.cons_append, parse.eq_def]
    dsimp only
    rw [split_short x]
    dsimp only
    rw [show tbl.find? (·.name == [x]) = some s from hs]
    dsimp only
    rw [if_pos ⟨hv, rfl⟩, all, one, hs]
    exact bindThen _ _ _ _ (ih (fun w hw => hf w (by simp [hw])))
  | long n hn r ih =>
    intro hf c
    obtain ⟨s, hs, hv⟩ := hf _ (List.mem_cons_self ..)
    rw [List.cons_append, parse.eq_def]
    dsimp only
    rw [split_long n hn]
    dsimp only
    rw [show tbl.find? (·.name == n) = some s from hs]
    dsimp only
    rw [if_neg (by simp [hv]), all, one, hs]
    exact bindThen _ _ _ _ (ih (fun w hw => hf w (by simp [hw])))
  | short x hx r ih =>
    intro hf c
    obtain ⟨s, hs, hv⟩ := hf _ (List.mem_cons_self ..)
    rw [List.cons_append, parse.eq_def]
    dsimp only
    rw [split_short x]
    dsimp only
    rw [show tbl.find? (·.name == [x]) = some s from hs]
    dsimp only
    rw [if_neg (by simp [hv]), all, one, hs]
    exact bindThen _ _ _ _ (ih (fun w hw => hf w (by simp [hw])))

/-- Does the command have an option of this name with a value? -/
def needsValue (sub n : Bytes) : Prop := ∃ v, understood sub (.value n v)

theorem value_entry (sub n : Bytes) (h : needsValue sub n) :
    (sub ∈ ["setup", "configure"].map ascii → ∃ s, entry setupOpts n = some s ∧ s.hasValue = true) ∧ (sub = ascii "install" → ∃ s, entry installOpts n = some s ∧ s.hasValue = true) ∧
    (sub = ascii "test" → ∃ s, entry testOpts n = some s ∧ s.hasValue = true) := by
  obtain ⟨v, ⟨h1, h2, h3⟩ | ⟨h1, h2⟩ | ⟨h1, h2⟩⟩ := h
  · refine ⟨fun _ => (setup_one _ h2 h3).1, fun x => ?_, fun x => ?_⟩
    · rw [x] at h1; exact absurd h1 (by decide)
    · rw [x] at h1; exact absurd h1 (by decide)
  · refine ⟨fun x => ?_, fun _ => (install_one _ h2).1, fun x => ?_⟩
    · rw [h1] at x; exact absurd x (by decide)
    · rw [h1] at x; exact absurd x (by decide)
  · refine ⟨fun x => ?_, fun x => ?_, fun _ => (test_one _ h2).1⟩
    · rw [h1] at x; exact absurd x (by decide)
    · rw [h1] at x; exact absurd x (by decide)

/-- C111: a command line that ends with an option whose value is missing does nothing. -/
theorem missing_value (cwd argv0 sub n a : Bytes) {ws : List Wish} {as : List Bytes} (hs : sub ∈ ["setup", "configure", "install", "test"].map ascii) (h : Spelled ws as)
    (hk : ∀ w ∈ ws, isHelp w ∨ understood sub w) (hn : needsValue sub n) (ha : (n ≠ [] ∧ 61 ∉ n ∧ a = ascii "--" ++ n) ∨ ∃ c, n = [c] ∧ a = ascii "-" ++ [c]) :
    meson cwd argv0 (sub :: (as ++ [a])) = .error := by
  have hsub : ¬ (sub = ascii "-v" ∨ sub = ascii "--version" ∨ sub = ascii "-h") :=
    (by decide : ∀ s ∈ ["setup", "configure", "install", "test"].map ascii, ¬ (s = ascii "-v" ∨ s = ascii "--version" ∨ s = ascii "-h")) sub hs
  have hsplit : split a = some (n, none) := by
    rcases ha with ⟨x, y, rfl⟩ | ⟨c, rfl, rfl⟩
    · exact split_long n ⟨x, y⟩
    · exact split_short c
  have last : ∀ tbl c s, entry tbl n = some s → s.hasValue = true → parse tbl [a] c = .error := by
    intro tbl c s hs hv
    rw [parse.eq_def]
    dsimp only
    rw [hsplit]
    dsimp only
    rw [show tbl.find? (·.name == n) = some s from hs]
    dsimp only
    rw [if_pos ⟨hv, rfl⟩]
  have bad : ∀ (r : Res Ctx) (f : Ctx → Res Ctx) c', (∀ c, f c = .error) → r >>= f ≠ .ok c' := by
    intro r f c' hf
    cases r with
    | ok c => show f c ≠ _; rw [hf c]; intro e; cases e
    | error => intro e; cases e
    | bad => intro e; cases e
  obtain ⟨v1, v2, v3⟩ := value_entry sub n hn
  have key : subcommand cwd sub (as ++ [a]) = .error := by
    have hb := translation_safe cwd sub (as ++ [a])
    cases he : subcommand cwd sub (as ++ [a]) with
    | error => rfl
    | bad => exact absurd he hb
    | ok c =>
      exfalso
      unfold subcommand at he
      by_cases h1 : sub = ascii "setup" ∨ sub = ascii "configure"
      · rw [if_pos h1] at he
        obtain ⟨c', he, _⟩ := Res.bind_eq_ok.1 he
        obtain ⟨s, s1, s2⟩ := v1 (by simpa using h1)
        rw [parse_spelled_then setupOpts [a] h (fun w hw => by
          rcases hk w hw with x | ⟨_, x, y⟩ | ⟨x, _⟩ | ⟨x, _⟩
          · exact (help_one setupOpts (by decide +kernel) w x).1
          · exact (setup_one w x y).1
          · rw [x] at h1; exact absurd h1 (by decide)
          · rw [x] at h1; exact absurd h1 (by decide))] at he
        exact bad _ _ _ (fun c => last _ c s s1 s2) he
      · rw [if_neg h1] at he
        by_cases h2 : sub = ascii "install"
        · rw [if_pos h2] at he
          obtain ⟨s, s1, s2⟩ := v2 h2
          rw [parse_spelled_then installOpts [a] h (fun w hw => by
            rcases hk w hw with x | ⟨x, _⟩ | ⟨_, x⟩ | ⟨x, _⟩
            · exact (help_one installOpts (by decide +kernel) w x).1
            · exact absurd (sub_setup sub x) h1
            · exact (install_one w x).1
            · rw [x] at h2; exact absurd h2 (by decide))] at he
          exact bad _ _ _ (fun c => last _ c s s1 s2) he
        · rw [if_neg h2] at he
          by_cases h3 : sub = ascii "test"
          · rw [if_pos h3] at he
            obtain ⟨s, s1, s2⟩ := v3 h3
            rw [parse_spelled_then testOpts [a] h (fun w hw => by
              rcases hk w hw with x | ⟨x, _⟩ | ⟨x, _⟩ | ⟨_, x⟩
              · exact (help_one testOpts (by decide +kernel) w x).1
              · exact absurd (sub_setup sub x) h1
              · exact absurd x h2
              · exact (test_one w x).1)] at he
            exact bad _ _ _ (fun c => last _ c s s1 s2) he
          · rw [if_neg h3] at he; cases he
  unfold meson translate
  dsimp only
  rw [if_neg hsub, key]
  rfl

example : needsValue (ascii "test") (ascii "suite") ∧ meson (ascii "/w") (ascii "muon") [ascii "test", ascii "x", ascii "--suite"] = .error :=
  ⟨⟨ascii "a", .inr (.inr ⟨rfl, by decide +kernel⟩)⟩, by decide +kernel⟩

example : meson (ascii "/w") (ascii "muon") [ascii "test", ascii "--suite", ascii "x", ascii "--help", ascii "a"] = .ok ([], .print) := by decide +kernel
example : meson (ascii "/w") (ascii "muon") [ascii "install", ascii "-n", ascii "--dry-run"] = .error := by decide +kernel
example : meson (ascii "/w") (ascii "muon") [ascii "compile"] = .error := by decide +kernel

/-- `meson setup` with other operands than one directory, or two. -/
theorem setup_cmd_operands (defs ops : List Bytes) (hd : ∀ d ∈ defs, d ≠ []) (ho : ∀ a ∈ ops, a.head? ≠ some 45 ∨ a = [45]) (hl : ops.length ≠ 1) :
    cmdSetup ((defs.map fun x => ((68 : UInt8), x)).map arg ++ ops) = .error := by
  obtain ⟨g, _⟩ := Exec.says_getopt optSetup (getopt_pairs optSetup ops (fun a ha => ho a (List.mem_of_mem_head? ha)) (defs.map fun x => ((68 : UInt8), x)) (by
    intro p hp
    obtain ⟨x, hx, rfl⟩ := List.mem_map.1 hp
    exact .inl ⟨(by decide : optSetup 68 = some true), hd x hx⟩))
  unfold cmdSetup
  rw [g]
  dsimp only
  rw [optLoop_fold (fun d c x => if c = 68 then d ++ [x] else d) _ _ (by
    intro p hp
    obtain ⟨x, _, rfl⟩ := List.mem_map.1 hp
    exact (by decide : (68 : UInt8) ≠ 104)), fold_defs]
  match ops, hl with
  | [], _ => rfl
  | [_], hl => exact absurd rfl hl
  | _ :: _ :: _, _ => rfl

/-- C111: `meson setup` takes a build directory and perhaps a source directory: with none, or with further operands, nothing is set up. -/
theorem operand_count (cwd argv0 sub : Bytes) {ws : List Wish} {as : List Bytes} (hs : sub ∈ ["setup", "configure"].map ascii) (h : Spelled ws as)
    (hk : ∀ w ∈ ws, setupKnown w = true ∧ ¬ isUmask w) (hn : ∀ a ∈ argv0 :: as, 0 ∉ a) (hl : (operands ws).length ≠ 1 ∧ (operands ws).length ≠ 2) :
    meson cwd argv0 (sub :: as) = .error := by
  have hc := spelled_clean h (fun a ha => hn a (by simp [ha]))
  have hd : ∀ d ∈ ws.flatMap sets, d ≠ [] ∧ 0 ∉ d := by
    intro d hd
    obtain ⟨w, hw, hm⟩ := List.mem_flatMap.1 hd
    exact sets_facts w (hk w hw).1 (hc w hw) d hm
  rw [meson_run cwd argv0 sub as { pre := [], stray := operands ws, argv := ascii "setup" :: ((ws.flatMap sets).map fun x => ((68 : UInt8), x)).map arg, help := false }]
  · have := cmdMain_chdirs [] (ascii "setup") (((ws.flatMap sets).map fun x => ((68 : UInt8), x)).map arg ++ operands ws) (by simp) (by decide)
    simp only [List.map_nil, List.nil_append] at this
    simp only [List.nil_append, List.cons_append]
    rw [this]
    rw [command_setup, setup_cmd_operands _ _ (fun d hm => (hd d hm).1) (spelled_operands h) hl.1]
    rfl
  · exact (by decide : ∀ s ∈ ["setup", "configure"].map ascii, s ∈ ["setup", "configure", "install", "test"].map ascii) sub hs
  · unfold subcommand
    rw [if_pos (sub_setup sub hs), setup_ctx h hk, Res.ok_bind]
    generalize operands ws = ops at hl
    match ops, hl with
    | [], _ => rfl
    | [_], _ => rfl
    | [_, _], hl => exact absurd rfl hl.2
    | _ :: _ :: _ :: _, _ => rfl
  · rfl
  · exact hn argv0 (by simp)
  · intro a ha
    simp only [List.nil_append, List.cons_append, List.mem_cons, List.mem_append, List.mem_map] at ha
    rcases ha with rfl | ⟨p, ⟨x, hx, rfl⟩, rfl⟩ | ha
    · decide
    · simp only [arg, List.mem_cons, not_or]
      exact ⟨by decide, by decide, (hd x hx).2⟩
    · exact operand_clean ws hc a ha

example : meson (ascii "/w") (ascii "muon") [ascii "setup", ascii "--prefix=/usr"] = .error := by decide +kernel
example : meson (ascii "/w") (ascii "muon") [ascii "setup", ascii "b", ascii "s", ascii "t"] = .error := by decide +kernel

end Muon.Mopts
