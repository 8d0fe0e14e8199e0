import Verif.Cmdline.Props
/-
C103: the link command, the command that configures again; examples and counterexamples.
-/
namespace Muon.Cmdline
open Muon Spec

/-- What the options say about linking: `b_pgo`, `b_sanitize`, `b_lto` and the arguments. -/
structure LReads (w : Where) (l : Lang) (pg : Option Bool) (sa : Option Bytes) (lto : Bool) (args : List Bytes) : Prop where
  pgo : ∃ s, Str w "b_pgo" s ∧ PgoText s pg
  sanitize : ∃ s, Str w "b_sanitize" s ∧ Unless "none" s sa
  lto : Bln w "b_lto" lto
  args : (∀ n, Option? l "link_args" = some n → Arr w n args) ∧ (Option? l "link_args" = none → args = [])

theorem linkArgs_eq (t : Ld) (l : Lang) (g : LTgt) (pg : Option Bool) (sa : Option Bytes) (lto : Bool) (args : List Bytes)
    (h : LReads g.where_ l pg sa lto args) :
    linkArgs t l g = .ok (g.args ++ ldFlag t "-Wl,--as-needed" ++ opt (!g.isModule) (ldFlag t "-Wl,--no-undefined") ++
      opt g.exportDynamic (ldFlag t "-Wl,-export-dynamic") ++ (ldPgo t pg ++ some? (ldSanitize t) sa ++ opt lto (ldLto t)) ++
      args ++ g.globArgs ++ g.projArgs ++ (g.rpaths.filter (fun p => p ≠ [])).flatMap (ldRpath t)) := by
  obtain ⟨s, h1, h2⟩ := h.sanitize
  have hb : bLink t g.where_ = .ok (ldPgo t pg ++ some? (ldSanitize t) sa ++ opt lto (ldLto t)) := by
    unfold bLink
    rw [(pgo_iff _ _).2 h.pgo, Res.ok_bind, (strOf_iff _ _ _).2 h1, Res.ok_bind, (boolOf_iff _ _ _).2 h.lto, Res.ok_bind, unless_opt _ h2]
  unfold linkArgs
  rw [hb, Res.ok_bind, (optionLinkArgs_iff _ _ _).2 h.args, Res.ok_bind]

/-- C103: the link command of gcc and clang up to the libraries: the arguments of the target and its dependencies first, then
the flags, what the options say, the global arguments and those of the project, and the paths that are looked in when
the program runs. Texts that do not fit into the buffers are cut off: see `rpath_cut_counterexample`. -/
theorem link_command_partial {t : Ld} (ht : t = .gcc ∨ t = .clang) (l : Lang) (g : LTgt) (pg : Option Bool) (sa : Option Bytes) (lto : Bool)
    (args : List Bytes) (h : LReads g.where_ l pg sa lto args) (hsa : ∀ s, sa = some s → s.length ≤ 200)
    (hr : ∀ p ∈ g.rpaths, p.length ≤ 200) :
    linkArgs t l g = .ok (g.args ++ [ascii "-Wl,--as-needed"] ++ flag (!g.isModule) ["-Wl,--no-undefined"] ++
      flag g.exportDynamic ["-Wl,-export-dynamic"] ++ flag (pg = some false) ["-fprofile-generate"] ++
      flag (pg = some true) ["-fprofile-use", "-fprofile-correction"] ++ given sa "-fsanitize=" ++ flag lto ["-flto"] ++
      args ++ g.globArgs ++ g.projArgs ++ (g.rpaths.filter (fun p => p ≠ [])).map (fun p => ascii "-Wl,-rpath," ++ p)) := by
  have hg : ldGcc t = true := by rcases ht with rfl | rfl <;> rfl
  have h1 : some? (ldSanitize t) sa = given sa "-fsanitize=" := some_given fun y hy => by
    rw [ldSanitize, if_pos (by simp [hg]), gccSanitize, clip_pre _ _ (by decide +kernel) (hsa y hy)]
  have h2 : ldPgo t pg = flag (pg = some false) ["-fprofile-generate"] ++ flag (pg = some true) ["-fprofile-use", "-fprofile-correction"] := by
    cases pg with
    | none => simp [ldPgo, flag]
    | some b => cases b <;> simp [ldPgo, hg, gccPgo, flag]
  have h3 : ∀ rs : List Bytes, (∀ p ∈ rs, p.length ≤ 200) → rs.flatMap (ldRpath t) = rs.map (fun p => ascii "-Wl,-rpath," ++ p) := by
    intro rs
    induction rs with
    | nil => intro _; rfl
    | cons a rs ih =>
      intro hh
      rw [List.flatMap_cons, List.map_cons, ih (fun p hp => hh p (by simp [hp])), ldRpath, if_pos hg,
        clip_pre _ _ (by decide +kernel) (hh a (by simp))]
      rfl
  have h4 : ∀ s : String, ldFlag t s = [ascii s] := by intro s; simp [ldFlag, hg]
  have h5 : ldLto t = [ascii "-flto"] := by simp [ldLto, hg]
  rw [linkArgs_eq t l g pg sa lto args h, h1, h2, h3 _ (fun p hp => hr p (List.mem_filter.1 hp).1), h4, h4, h4, h5]
  simp only [List.append_assoc]
  rfl

/-- C103: the other linkers get only the arguments that were given, and apple's those for sanitizers and lto. -/
theorem other_link_command_partial {t : Ld} (ht : t ≠ .gcc ∧ t ≠ .clang) (l : Lang) (g : LTgt) (pg : Option Bool) (sa : Option Bytes) (lto : Bool)
    (args : List Bytes) (h : LReads g.where_ l pg sa lto args) (hsa : ∀ s, sa = some s → s.length ≤ 200) :
    linkArgs t l g = .ok (g.args ++ (if t = .apple then given sa "-fsanitize=" ++ flag lto ["-flto"] else []) ++
      args ++ g.globArgs ++ g.projArgs) := by
  have hg : ldGcc t = false := by cases t <;> simp [ldGcc] at ht ⊢
  have h1 : some? (ldSanitize t) sa = if t = .apple then given sa "-fsanitize=" else [] := by
    by_cases ha : t = .apple
    · rw [if_pos ha]
      refine some_given fun y hy => ?_
      rw [ldSanitize, if_pos (by simp [ha]), gccSanitize, clip_pre _ _ (by decide +kernel) (hsa y hy)]
    · rw [if_neg ha]; cases sa <;> simp [some?, ldSanitize, hg, ha]
  have h2 : ldPgo t pg = [] := by cases pg <;> simp [ldPgo, hg]
  have h3 : ∀ rs : List Bytes, rs.flatMap (ldRpath t) = [] := by
    intro rs
    rw [List.flatMap_eq_nil_iff]; intro p _; simp [ldRpath, hg]
  have h4 : ∀ s : String, ldFlag t s = [] := by intro s; simp [ldFlag, hg]
  have h5 : opt lto (ldLto t) = if t = .apple then flag lto ["-flto"] else [] := by
    by_cases ha : t = .apple
    · subst ha; rfl
    · simp [ldLto, hg, ha, opt]
  rw [linkArgs_eq t l g pg sa lto args h, h1, h2, h3, h4, h4, h4, h5]
  by_cases ha : t = .apple <;> simp [ha, opt]

/-! ### Configuring again -/

theorem joinComma_eq (l : List Bytes) : joinComma l = Opt.Spec.commaJoin l := by
  induction l with
  | nil => rfl
  | cons a l ih =>
    cases l with
    | nil => rfl
    | cons b r => rw [joinComma, ih]; rfl

theorem joinComma_no0 (l : List Bytes) (h : ∀ e ∈ l, 0 ∉ e) : 0 ∉ joinComma l := by
  induction l with
  | nil => simp [joinComma]
  | cons a l ih =>
    cases l with
    | nil => exact h a (by simp)
    | cons b r =>
      rw [joinComma]
      simp only [List.mem_append, List.mem_cons, not_or]
      exact ⟨h a (by simp), by decide, ih (fun e he => h e (by simp [he]))⟩

theorem coerce_back (ev : Bytes → Option Opt.OV) (l : List Bytes) (h1 : ∀ e ∈ l, 44 ∉ e) (h2 : l ≠ [[]])
    (h3 : ∀ e, l.head? = some e → e.head? ≠ some 91) : Opt.coerceArray ev (joinComma l) = some (.arr (l.map .s)) := by
  cases l with
  | nil => rfl
  | cons a r =>
    have hne : joinComma (a :: r) ≠ [] := by
      cases r with
      | nil => intro h; simp only [joinComma] at h; exact h2 (by rw [h])
      | cons b r => simp [joinComma]
    have hhd : (joinComma (a :: r)).head? ≠ some 91 := by
      have ha := h3 a rfl
      cases a with
      | nil =>
        cases r with
        | nil => exact absurd rfl h2
        | cons b r => simp [joinComma]
      | cons c a =>
        cases r with
        | nil => simpa [joinComma] using ha
        | cons b r => simpa [joinComma] using ha
    unfold Opt.coerceArray
    rw [if_neg hne, if_neg hhd, joinComma_eq, Opt.commaJoin_unique _ (by simp) h1]

theorem envArg_back (ev : Bytes → Option Opt.OV) (n : Bytes) (o : O) (hn : Opt.Spec.Name n) (h0 : 0 ∉ n) (hs : o.src = 2) (hp : Plain o.val) :
    ∃ a, envArg (n, o) = .ok [a] ∧ ReadBack ev n o.val a := by
  have pc : ∀ s : Bytes, 0 ∉ s → Opt.parseConfig (n ++ 61 :: s) = some (none, n, s) := by
    intro s h
    refine Opt.config_roundtrip none n s hn (by simp) ?_
    simp only [Opt.Spec.written, List.nil_append, List.mem_append, List.mem_cons, not_or]
    exact ⟨h0, by decide, h⟩
  rcases hp with ⟨s, hv, h⟩ | ⟨l, hv, h1, h2, h3⟩
  · refine ⟨ascii "-D" ++ (n ++ 61 :: s), ?_, n ++ 61 :: s, s, .string, rfl, pc s h, .inl ⟨rfl, s, hv⟩, ?_⟩
    · simp [envArg, hs, hv]
    · rw [hv]; rfl
  · refine ⟨ascii "-D" ++ (n ++ 61 :: joinComma l), ?_, n ++ 61 :: joinComma l, joinComma l, .array, rfl,
      pc _ (joinComma_no0 l fun e he => (h1 e he).1), .inr ⟨rfl, _, hv⟩, ?_⟩
    · simp only [envArg, hs, hv]
      rw [if_neg (by simp), (elems_iff _ _).2 rfl, Res.ok_bind]
      simp
    · rw [hv]; exact coerce_back ev l (fun e he => (h1 e he).2) h2 h3

/-- C103: the command that configures again (with which ninja remakes its file) is that of the first time with the options
that came from the environment added before its own, and these are read back with the values they had. It holds for
values without commas: see `regenerate_counterexample`. -/
theorem regenerate_back_partial (ev : Bytes → Option Opt.OV) (r : Run)
    (h : ∀ p ∈ r.glob, p.2.src = 2 → Opt.Spec.Name p.1 ∧ 0 ∉ p.1 ∧ Plain p.2.val) :
    ∃ e, regenerate r = .ok ([r.argv0, ascii "-C", r.source, ascii "setup", ascii "-c", r.cache] ++ e ++ r.argv) ∧ AllBack ev r.glob e := by
  have key : ∀ d : Dict, (∀ p ∈ d, p.2.src = 2 → Opt.Spec.Name p.1 ∧ 0 ∉ p.1 ∧ Plain p.2.val) → ∃ e, envArgs d = .ok e ∧ AllBack ev d e := by
    intro d
    induction d with
    | nil => intro _; exact ⟨[], rfl, .nil⟩
    | cons p d ih =>
      intro hd
      obtain ⟨e, h1, h2⟩ := ih (fun q hq => hd q (by simp [hq]))
      obtain ⟨n, o⟩ := p
      by_cases hs : o.src = 2
      · obtain ⟨hn, h0, hp⟩ := hd (n, o) (by simp) hs
        obtain ⟨a, h3, h4⟩ := envArg_back ev n o hn h0 hs hp
        exact ⟨a :: e, by rw [envArgs, h3, Res.ok_bind, h1]; rfl, .take hs h4 h2⟩
      · have h3 : envArg (n, o) = .ok [] := by simp [envArg, hs]
        exact ⟨e, by rw [envArgs, h3, Res.ok_bind, h1]; rfl, .skip hs h2⟩
  obtain ⟨e, h1, h2⟩ := key r.glob h
  exact ⟨e, by rw [regenerate, h1]; rfl, h2⟩

/-! ### Examples and counterexamples -/

/-- The global options, with a build type. -/
def exOpts (bt : String) (src : Nat) (lvl : String) : Dict :=
  [(ascii "buildtype", ⟨.str (ascii bt), src⟩), (ascii "optimization", ⟨.str (ascii lvl), 8⟩), (ascii "debug", ⟨.bool true, 1⟩),
   (ascii "warning_level", ⟨.str (ascii "1"), 1⟩), (ascii "werror", ⟨.bool false, 1⟩), (ascii "c_std", ⟨.str (ascii "c11"), 4⟩),
   (ascii "b_pgo", ⟨.str (ascii "off"), 1⟩), (ascii "b_sanitize", ⟨.str (ascii "none"), 1⟩),
   (ascii "b_ndebug", ⟨.str (ascii "if-release"), 1⟩), (ascii "b_colorout", ⟨.str (ascii "never"), 1⟩), (ascii "b_lto", ⟨.bool false, 1⟩),
   (ascii "c_args", ⟨.arr [.s (ascii "-DA")], 1⟩), (ascii "c_link_args", ⟨.arr [], 1⟩)]

def exTgt (w : Where) : Tgt :=
  ⟨w, [ascii "-DG"], [ascii "-DP"], some [.dir (ascii "/s/inc") false], [.dir (ascii "/s/inc") false, .dir (ascii "/usr/x") true, .dir (ascii "/gone") false],
    some (ascii "/s/b/p"), [ascii "-DD"], [ascii "-DT"], true, false, some .hidden⟩

def exEx : Bytes → Bool := fun p => p ≠ ascii "/gone"

def exSet : Set := ⟨.o3, false, some 1, false, some (ascii "c11"), none, none, true, none, false, [ascii "-DA"]⟩

theorem exReads : Reads ⟨some [(ascii "buildtype", ⟨.str (ascii "release"), 6⟩)], [], exOpts "debug" 1 "0"⟩ .c exSet where
  level := (buildtype_iff _ _ _).1 (by decide +kernel)
  warn := ⟨_, (strOf_iff _ _ _).1 (by decide +kernel), .w1⟩
  werror := (boolOf_iff _ _ _).1 (by decide +kernel)
  std := by
    have e : Option? .c "std" = some "c_std" := by decide +kernel
    rw [e]
    exact ⟨fun n hn => by cases hn; exact ⟨ascii "c11", (strOf_iff _ _ _).1 (by decide +kernel), .inr ⟨by decide +kernel, rfl⟩⟩, fun h => by cases h⟩
  pgo := (pgo_iff _ _).1 (by decide +kernel)
  sanitize := ⟨_, (strOf_iff _ _ _).1 (by decide +kernel), .inl ⟨rfl, rfl⟩⟩
  ndebug := (ndebug_iff _ _).1 (by decide +kernel)
  color := ⟨_, (strOf_iff _ _ _).1 (by decide +kernel), .inl ⟨rfl, rfl⟩⟩
  lto := (boolOf_iff _ _ _).1 (by decide +kernel)
  args := (optionArgs_iff _ _ _).1 (by decide +kernel)

example : Short exSet := by
  refine ⟨?_, ?_, ?_⟩ <;> intro s h <;> cases h
  decide +kernel

/-- A target with `override_options: 'buildtype=release'`, a private directory and a directory that does not exist. -/
example : compileArgs exEx (ascii "/s/b") .gcc .c
      (exTgt ⟨some [(ascii "buildtype", ⟨.str (ascii "release"), 6⟩)], [], exOpts "debug" 1 "0"⟩) .start =
    .ok (["-std=c11", "-O3", "-Wall", "-D", "NDEBUG", "-DA", "-DG", "-DP", "-I", "p", "-I", "../inc", "-isystem", "/usr/x",
      "-DD", "-DT", "-fpic", "-fvisibility=hidden"].map ascii, .start) := by decide +kernel

example : linkArgs .gcc .c ⟨⟨none, [], exOpts "debug" 1 "0"⟩, [ascii "-lg"], [ascii "-lp"], [ascii "-lt"], false, true, [ascii "/x", []]⟩ =
    .ok (["-lt", "-Wl,--as-needed", "-Wl,--no-undefined", "-Wl,-export-dynamic", "-lg", "-lp", "-Wl,-rpath,/x"].map ascii) := by decide +kernel

/-- C103 does not hold for every history: of two targets with the same options the second one, which comes after a target with
`override_options: 'buildtype=plain'`, is not optimised. -/
theorem optimisation_lost_counterexample :
    let rel : Where := ⟨none, [], exOpts "release" 4 "0"⟩
    let plain : Where := ⟨some [(ascii "buildtype", ⟨.str (ascii "plain"), 6⟩)], [], exOpts "release" 4 "0"⟩
    let t : Where → Tgt := fun w => ⟨w, [], [], none, [], none, [], [], false, false, none⟩
    calls (fun _ => true) (ascii "/b") [⟨.gcc, .c, t rel⟩, ⟨.gcc, .c, t plain⟩, ⟨.gcc, .c, t rel⟩] .start =
      .ok ([["-std=c11", "-O3", "-Wall", "-D", "NDEBUG", "-DA"].map ascii, ["-std=c11", "-Wall", "-DA"].map ascii,
        ["-std=c11", "-Wall", "-D", "NDEBUG", "-DA"].map ascii], ⟨true, false, true⟩) := by
  decide +kernel

/-- The same for a compiler that is just taken to be one of POSIX. -/
theorem posix_optimisation_lost_counterexample :
    let rel : Where := ⟨none, [], exOpts "release" 4 "0"⟩
    let plain : Where := ⟨some [(ascii "buildtype", ⟨.str (ascii "plain"), 6⟩)], [], exOpts "release" 4 "0"⟩
    let t : Where → Tgt := fun w => ⟨w, [], [], none, [], none, [], [], false, false, none⟩
    calls (fun _ => true) (ascii "/b") [⟨.posix, .c, t rel⟩, ⟨.posix, .c, t plain⟩, ⟨.posix, .c, t rel⟩] .start =
      .ok ([["-O1", "-D", "NDEBUG", "-DA"].map ascii, ["-DA"].map ascii,
        ["-D", "NDEBUG", "-DA"].map ascii], ⟨false, true, true⟩) := by
  decide +kernel

/-- The same for the warnings of cl after a target with warning level 0. -/
theorem warnings_lost_counterexample :
    let w : Where := ⟨none, [], exOpts "debug" 4 "0"⟩
    let w0 : Where := ⟨some [(ascii "warning_level", ⟨.str (ascii "0"), 6⟩)], [], exOpts "debug" 4 "0"⟩
    let t : Where → Tgt := fun w => ⟨w, [], [], none, [], none, [], [], false, false, none⟩
    calls (fun _ => true) (ascii "/b") [⟨.msvc, .c, t w⟩, ⟨.msvc, .c, t w0⟩, ⟨.msvc, .c, t w⟩] .start =
      .ok ([["/nologo", "/std:c11", "/Zi", "/Od", "/W2", "-DA"].map ascii, ["/nologo", "/std:c11", "/Zi", "/Od", "-DA"].map ascii,
        ["/nologo", "/std:c11", "/Zi", "/Od", "-DA"].map ascii], ⟨true, true, false⟩) := by
  decide +kernel

/-- With a build type in `default_options`, `-Doptimization=2` on the command line has no effect. -/
theorem optimization_ignored_counterexample :
    buildtype ⟨none, [], exOpts "debug" 4 "2"⟩ = .ok (.o0, true) ∧ buildtype ⟨none, [], exOpts "debug" 1 "2"⟩ = .ok (.o2, true) := by
  decide +kernel

/-- `-Doptimization=plain`, one of the choices of the option, is the end of the program. -/
theorem optimization_plain_counterexample : buildtype ⟨none, [], exOpts "debug" 1 "plain"⟩ = .bad := by decide +kernel

/-- Directories of `include_type: 'system'` are not on the command line of cl. -/
theorem system_dirs_counterexample :
    incArgs .msvc (fun _ => true) (ascii "/b") [.dir (ascii "/usr/x") true, .dir (ascii "/b/y") false] = .ok [ascii "/I", ascii "y"] := by
  decide +kernel

/-- A path of more than 243 bytes is cut off: every such path, whatever follows, gives the same argument as its beginning. -/
theorem rpath_cut_counterexample (p q : Bytes) (h : p.length = 243) : ldRpath .gcc (p ++ q) = [ascii "-Wl,-rpath," ++ p] := by
  have hl : (ascii "-Wl,-rpath,").length = 11 := by decide +kernel
  have h1 : clip (ascii "-Wl,-rpath," ++ (p ++ q)) = ascii "-Wl,-rpath," ++ p := by
    rw [clip, ← List.append_assoc]
    exact List.take_left' (by rw [List.length_append, hl, h])
  rw [ldRpath, if_pos (by rfl), h1]

/-- C103: the name a shared library is found by is passed on to the linkers of gcc and clang as it is, and to those of cl as the output. -/
theorem soname_partial (p : Bytes) (h : p.length ≤ 200) :
    ldSoname .gcc p = [ascii "-Wl,-soname," ++ p] ∧ ldSoname .clang p = [ascii "-Wl,-soname," ++ p] ∧ ldSoname .msvc p = [ascii "/OUT:" ++ p] ∧
    ldSoname .apple p = [] ∧ ldSoname .posix p = [] := by
  have e1 := clip_pre "-Wl,-soname," p (by decide +kernel) h
  have e2 := clip_pre "/OUT:" p (by decide +kernel) h
  simp [ldSoname, ldGcc, e1, e2]

/-- `CFLAGS=-Wl,-rpath,/x` is one argument the first time and three after configuring again. -/
theorem regenerate_counterexample :
    envArgs [(ascii "c_args", ⟨.arr [.s (ascii "-Wl,-rpath,/x")], 2⟩)] = .ok [ascii "-Dc_args=-Wl,-rpath,/x"] ∧
    Opt.parseConfig (ascii "c_args=-Wl,-rpath,/x") = some (none, ascii "c_args", ascii "-Wl,-rpath,/x") ∧
    Opt.coerceArray (fun _ => none) (ascii "-Wl,-rpath,/x") = some (.arr [.s (ascii "-Wl"), .s (ascii "-rpath"), .s (ascii "/x")]) := by
  decide +kernel

example : Plain (.arr [.s (ascii "-O2"), .s (ascii "-g")]) :=
  .inr ⟨[ascii "-O2", ascii "-g"], rfl, by decide +kernel, by decide +kernel, by intro e h; cases h; decide +kernel⟩

end Muon.Cmdline
