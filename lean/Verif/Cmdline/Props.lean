import Verif.Cmdline.Base
/-
C103: the command lines of compilers and linkers.
-/
namespace Muon.Cmdline
open Muon Spec

theorem clip_short {s : Bytes} (h : s.length ≤ 254) : clip s = s := List.take_of_length_le h

theorem clip_pre (pre : String) (s : Bytes) (hp : (ascii pre).length ≤ 50) (h : s.length ≤ 200) : clip (ascii pre ++ s) = ascii pre ++ s :=
  clip_short (by rw [List.length_append]; omega)

theorem some_given {f : Bytes → List Bytes} {o : Option Bytes} {pre : String} (h : ∀ s, o = some s → f s = [ascii pre ++ s]) :
    some? f o = given o pre := by
  cases o with
  | none => rfl
  | some s => exact h s rfl

/-- The compilers whose arguments are those of gcc. -/
def IsGcc (t : Cc) : Prop := t = .gcc ∨ t = .clang ∨ t = .appleClang

theorem isGcc_like {t : Cc} (h : IsGcc t) : gccLike t = true := by rcases h with rfl | rfl | rfl <;> rfl

theorem opt_flag (b : Bool) (l : List String) : opt b (l.map ascii) = flag b l := rfl

theorem gcc_opt (l : Lvl) (s : Statics) (h : s.gccOpt = true ∨ l = .none) : (gccOptimization l s).1 = (gccLvl l).map ascii := by
  rcases h with h | rfl
  · cases l <;> simp [gccOptimization, gccLvl, opt, h]
  · rfl

theorem gcc_warn {w : Bytes} {n : Nat} (h : WarnText w (some n)) : gccWarning n = gccWarn n := by
  cases h <;> decide +kernel

theorem gcc_pgo (t : Cc) (h : gccLike t = true) (p : Option Bool) :
    pgoPart t p = flag (p = some false) ["-fprofile-generate"] ++ flag (p = some true) ["-fprofile-use", "-fprofile-correction"] := by
  cases p with
  | none => simp [pgoPart, flag]
  | some b => cases b <;> simp [pgoPart, pgoArgs, h, gccPgo, flag]

/-- The arguments of gcc and clang that come from options are those that the options say. -/
theorem gcc_text' {t : Cc} (ht : IsGcc t) {x : Set} (hx : ∃ wt, WarnText wt x.warn) (hs : Short x) {s : Statics} (hst : s.gccOpt = true ∨ x.lvl = .none) :
    (setText t x s).1 = gccText (everything t) x := by
  have hg := isGcc_like ht
  obtain ⟨wt, hw⟩ := hx
  have hcl : clLike t = false := by rcases ht with rfl | rfl | rfl <;> rfl
  have h1 : some? (stdArgs t) x.std = given x.std "-std=" := some_given fun y hy => by
    simp only [stdArgs, hg, if_true]; rw [clip_pre _ _ (by decide +kernel) (hs.1 y hy)]
  have h2 : some? (sanitizeArgs t) x.sanitize = given x.sanitize "-fsanitize=" := some_given fun y hy => by
    simp only [sanitizeArgs, hg, Bool.true_or, if_true, gccSanitize]; rw [clip_pre _ _ (by decide +kernel) (hs.2.1 y hy)]
  have h3 : some? (colorArgs t) x.color = given x.color "-fdiagnostics-color=" := some_given fun y hy => by
    simp only [colorArgs, hg, if_true]; rw [clip_pre _ _ (by decide +kernel) (hs.2.2 y hy)]
  have h4 : (buildtypeArgs t (x.lvl, x.debug) s).1 = flag x.debug ["-g"] ++ (gccLvl x.lvl).map ascii := by
    simp only [buildtypeArgs, optimization, hg, if_true, gcc_opt _ _ hst, debugArgs, Bool.true_or]; rfl
  have h5 : (warnSet t x.warn (buildtypeArgs t (x.lvl, x.debug) s).2).1 = (match x.warn with | none => everything t | some n => gccWarn n) := by
    generalize x.warn = y at hw
    cases y with
    | none => rfl
    | some n => simp only [warnSet, warning, hg, if_true]; exact gcc_warn hw
  have h6 : alwaysArgs t = [] := by simp [alwaysArgs, hcl]
  unfold setText bSet gccText
  rw [h1, h2, h3, h4, h5, h6, gcc_pgo t hg]
  simp only [werrorArgs, hg, if_true, defineArgs, Bool.true_or, ltoArgs, ← opt_flag, List.append_assoc, List.nil_append]
  rfl

theorem gcc_text {t : Cc} (ht : IsGcc t) {w : Where} {l : Lang} {x : Set} (hx : Reads w l x) (hs : Short x) {s : Statics} (hst : s.gccOpt = true) :
    (setText t x s).1 = gccText (everything t) x :=
  gcc_text' ht (by obtain ⟨a, _, h⟩ := hx.warn; exact ⟨a, h⟩) hs (.inl hst)

theorem gcc_text_none {t : Cc} (ht : IsGcc t) {w : Where} {l : Lang} {x : Set} (hx : Reads w l x) (hs : Short x) (s : Statics) :
    (setText t { x with lvl := .none } s).1 = gccText (everything t) { x with lvl := .none } :=
  gcc_text' ht (x := { x with lvl := .none }) (by obtain ⟨a, _, h⟩ := hx.warn; exact ⟨a, h⟩) hs (.inr rfl)

/-! ### Directories -/

theorem foldl_dedup (l : List Inc) : ∀ r : List Inc, l.foldl (fun r x => if x ∈ r then r else r ++ [x]) r = r ++ (firsts l).filter (fun y => y ∉ r) := by
  induction l with
  | nil => intro r; simp [firsts]
  | cons a l ih =>
    intro r
    rw [List.foldl_cons, ih, firsts]
    by_cases ha : a ∈ r
    · rw [if_pos ha, List.filter_cons, if_neg (by simpa using ha), List.filter_filter]
      congr 1
      apply List.filter_congr
      intro y _
      by_cases hy : y = a
      · subst hy; simp [ha]
      · simp [hy]
    · rw [if_neg ha, List.filter_cons, if_pos (by simpa using ha), List.filter_filter, List.append_assoc, List.singleton_append]
      congr 2
      apply List.filter_congr
      intro y _
      simp

theorem dedup_firsts (l : List Inc) : dedup l = firsts l := by
  unfold dedup; rw [foldl_dedup]; simp

theorem mem_firsts (l : List Inc) (x : Inc) : x ∈ firsts l ↔ x ∈ l := by
  induction l with
  | nil => simp [firsts]
  | cons a l ih =>
    simp only [firsts, List.mem_cons, List.mem_filter, ih]
    by_cases h : x = a <;> simp [h]

/-- Every directory is there once. -/
theorem firsts_nodup (l : List Inc) : (firsts l).Nodup := by
  induction l with
  | nil => exact List.nodup_nil
  | cons a l ih => rw [firsts, List.nodup_cons]; exact ⟨by simp, ih.filter _⟩

theorem firsts_append (a b : List Inc) : firsts (a ++ b) = firsts a ++ (firsts b).filter (fun y => y ∉ a) := by
  induction a with
  | nil => simp only [firsts, List.nil_append]; rw [List.filter_eq_self.2]; intro y _; simp
  | cons x a ih =>
    rw [List.cons_append, firsts, firsts, ih, List.filter_append, List.cons_append, List.filter_filter]
    congr 2
    apply List.filter_congr
    intro y _
    by_cases h : y = x <;> simp [h]

theorem firsts_firsts (l : List Inc) : firsts (firsts l) = firsts l := by
  have : ∀ l : List Inc, l.Nodup → firsts l = l := by
    intro l
    induction l with
    | nil => intro _; rfl
    | cons a l ih =>
      intro h
      rw [List.nodup_cons] at h
      rw [firsts, ih h.2, List.filter_eq_self.2]
      intro y hy
      have : y ≠ a := fun e => h.1 (e ▸ hy)
      simpa using this
  exact this _ (firsts_nodup l)

theorem incDirs_eq (g : Tgt) : incDirs (ownIncs g) g.projIncs = firsts (dirs g) := by
  have ho : dirs g = ownIncs g ++ g.projIncs.getD [] := by
    unfold dirs ownIncs; cases g.priv <;> rfl
  rw [ho]
  cases g.projIncs with
  | none => simp [incDirs, dedup_firsts]
  | some p =>
    simp only [incDirs, dedup_firsts, Option.getD_some]
    rw [firsts_append, firsts_append, firsts_firsts]
    congr 1
    apply List.filter_congr
    intro y _
    simp [mem_firsts]

theorem relative_leads (build d : Bytes) (hb : Abs build) (hd : Abs d) : ∃ r, Path.relativeTo build d = .ok r ∧ Leads build r d := by
  obtain ⟨r, h1, h2, h3⟩ := Path.relativeTo_walk build d hb.2 hd.2 hb.1 hd.1
  have h0 : 0 ∉ r := by
    rcases Path.relativeTo_cases build d hb.2 hd.2 hb.1 hd.1 with ⟨_, h⟩ | h | ⟨_, _, _, t, _, _, h, t0, _⟩
    · rw [h] at h1; cases h1; decide
    · rw [h] at h1; cases h1; exact Path.canon_no0 _ _ (Path.canon_no0 _ _ hd.2)
    · rw [h] at h1; cases h1; exact Path.canon_no0 _ _ t0
  refine ⟨r, h1, ?_⟩
  rw [(Path.join_facts build r hb.2 h0).1] at h3
  exact h3

theorem incArgs_text (t : Cc) (ex : Bytes → Bool) (build : Bytes) (plain sys : String) (is : List Inc)
    (hp : ∀ d, includeArgs t d = [ascii plain, d]) (hsy : (∃ i ∈ is, ex i.path = true ∧ i.sys = true) → ∀ d, systemArgs t d = [ascii sys, d])
    (hb : Abs build) (ha : ∀ i ∈ is, ex i.path = true → Abs i.path) :
    ∃ l, incArgs t ex build is = .ok l ∧ IncText build plain sys (is.filter (fun i => ex i.path)) l := by
  induction is with
  | nil => exact ⟨[], rfl, .nil⟩
  | cons i is ih =>
    obtain ⟨l, h1, h2⟩ := ih (fun ⟨j, hj, h⟩ => hsy ⟨j, by simp [hj], h⟩) (fun j hj => ha j (by simp [hj]))
    unfold incArgs
    by_cases hx : ex i.path = true
    · have hab := ha i (by simp) hx
      obtain ⟨r, hr, hl⟩ := relative_leads build i.path hb hab
      have hi : Path.isAbsolute i.path = true := by rw [Path.isAbsolute_eq]; exact hab.1
      rw [if_pos hx, incText, if_pos hi, hr, Res.ok_bind, h1, Res.ok_bind, List.filter_cons, if_pos hx]
      refine ⟨_, rfl, ?_⟩
      by_cases hs : i.sys = true
      · rw [if_pos hs, hsy ⟨i, by simp, hx, hs⟩ r]
        have := IncText.cons (plain := plain) (sys := sys) hl h2
        rw [if_pos hs] at this
        exact this
      · rw [if_neg hs, hp r]
        have := IncText.cons (plain := plain) (sys := sys) hl h2
        rw [if_neg hs] at this
        exact this
    · rw [if_neg hx, List.filter_cons, if_neg hx]
      exact ⟨l, h1, h2⟩

/-- C103: the command line of gcc and clang for a target: what the options say, the arguments of the option `c_args`, those of
`add_global_arguments`, of `add_project_arguments`, the directories that exist (each once, in order, as paths that lead
there from the build directory), the arguments of dependencies, those of the target, and the position independence and
visibility the target asks for. It holds for a program that was not asked for optimisation `none` before: see
`optimisation_lost_counterexample`. -/
theorem gcc_command_partial {t : Cc} (ht : IsGcc t) (ex : Bytes → Bool) (build : Bytes) (l : Lang) (g : Tgt) (x : Set) (s : Statics)
    (hx : Reads g.where_ l x) (hs : Short x) (hst : s.gccOpt = true) (hb : Abs build)
    (ha : ∀ i ∈ dirs g, ex i.path = true → Abs i.path) :
    ∃ every incs s', compileArgs ex build t l g s =
      .ok (gccText every x ++ x.args ++ g.globArgs ++ g.projArgs ++ incs ++ g.depArgs ++ g.args ++
        flag g.pic ["-fpic"] ++ flag g.pie ["-fpie"] ++ (visText g.vis).map ascii, s') ∧
      IncText build "-I" "-isystem" ((firsts (dirs g)).filter (fun i => ex i.path)) incs ∧
      (t ≠ .gcc → every = [ascii "-Weverything"]) ∧
      (t = .gcc → (∀ a ∈ gccWarn 3, a ∈ every) ∧ ∀ a ∈ every, a.take 2 = ascii "-W") := by
  have hg := isGcc_like ht
  obtain ⟨incs, h1, h2⟩ := incArgs_text t ex build "-I" "-isystem" (firsts (dirs g))
    (by intro d; simp [includeArgs, hg]) (by intro _ d; simp [systemArgs, hg]) hb
    (fun i hi => ha i ((mem_firsts _ _).1 hi))
  have hbase := (baseArgs_iff t l g.where_ g.globArgs g.projArgs s _).2 ⟨x, hx, rfl⟩
  refine ⟨everything t, incs, (setText t x s).2, ?_, h2, ?_, ?_⟩
  · unfold compileArgs
    rw [hbase, Res.ok_bind, incDirs_eq, h1, Res.ok_bind, gcc_text ht hx hs hst]
    have hv : visPart t g.vis = (visText g.vis).map ascii := by
      cases g.vis with
      | none => rfl
      | some v => cases v <;> simp [visPart, visArgs, hg, visText]
    rw [hv]
    simp only [picArgs, pieArgs, hg, if_true]
    rfl
  · intro h; rcases ht with rfl | rfl | rfl
    · exact absurd rfl h
    · rfl
    · rfl
  · rintro rfl; decide +kernel

/-- The compilers whose arguments are those of cl. -/
def IsCl (t : Cc) : Prop := t = .msvc ∨ t = .clangCl

theorem cl_warn {w : Bytes} {n : Nat} (h : WarnText w (some n)) (s : Statics) (hs : s.clWarn = true) :
    (clWarning n s).1 = (clWarn (some n)).map ascii := by
  cases h <;> simp [clWarning, Spec.clWarn, opt, hs]

theorem cl_text {t : Cc} (ht : IsCl t) {w : Where} {l : Lang} {x : Set} (hx : Reads w l x) (hs : Short x) {s : Statics} (hst : s.clWarn = true) :
    (setText t x s).1 = clText (t = .clangCl) x := by
  have hc : clLike t = true := by rcases ht with rfl | rfl <;> rfl
  have hg : gccLike t = false := by rcases ht with rfl | rfl <;> rfl
  have hp : posixLike t = false := by rcases ht with rfl | rfl <;> rfl
  obtain ⟨wt, _, hw⟩ := hx.warn
  have h1 : some? (stdArgs t) x.std = given x.std "/std:" := some_given fun y hy => by
    rw [stdArgs, if_neg (by simp [hg]), if_pos hc, clip_pre _ _ (by decide +kernel) (hs.1 y hy)]
  have h2 : some? (sanitizeArgs t) x.sanitize = given x.sanitize "-fsanitize=" := some_given fun y hy => by
    simp only [sanitizeArgs, hc, Bool.or_true, if_true, gccSanitize]; rw [clip_pre _ _ (by decide +kernel) (hs.2.1 y hy)]
  have h3 : some? (colorArgs t) x.color = flag ((t = .clangCl : Bool) && x.color.isSome) ["-fcolor-diagnostics"] := by
    cases x.color <;> rcases ht with rfl | rfl <;> rfl
  have h4 : buildtypeArgs t (x.lvl, x.debug) s = (flag x.debug ["/Zi"] ++ (clLvl x.lvl).map ascii, s) := by
    have : clOptimization x.lvl = (clLvl x.lvl).map ascii := by cases x.lvl <;> rfl
    simp only [buildtypeArgs, optimization, hg, hc, hp, if_true, debugArgs, Bool.or_false, this]; rfl
  have h5 : (warnSet t x.warn s).1 = (Spec.clWarn x.warn).map ascii := by
    generalize x.warn = y at hw
    cases y with
    | none => rcases ht with rfl | rfl <;> rfl
    | some n => simp only [warnSet, warning, hg, hc, if_true]; exact cl_warn hw s hst
  have h6 : alwaysArgs t = [ascii "/nologo"] := by simp [alwaysArgs, hc]
  have h7 : pgoPart t x.pgo = [] := by cases x.pgo <;> simp [pgoPart, pgoArgs, hg]
  have h8 : opt x.lto (ltoArgs t) = flag ((t = .clangCl : Bool) && x.lto) ["-flto"] := by
    cases x.lto <;> rcases ht with rfl | rfl <;> rfl
  unfold setText bSet clText
  rw [h1, h2, h3, h4, h5, h6, h7, h8]
  simp only [werrorArgs, hg, hc, hp, if_true, defineArgs, Bool.or_false, ← opt_flag, List.append_assoc, List.nil_append]
  rfl

/-- C103: the command line of cl and clang-cl; directories marked as system directories are missing, see
`system_dirs_counterexample`, so that this is for targets without them. -/
theorem cl_command_partial {t : Cc} (ht : IsCl t) (ex : Bytes → Bool) (build : Bytes) (l : Lang) (g : Tgt) (x : Set) (s : Statics)
    (hx : Reads g.where_ l x) (hs : Short x) (hst : s.clWarn = true) (hb : Abs build)
    (ha : ∀ i ∈ dirs g, ex i.path = true → Abs i.path ∧ i.sys = false) :
    ∃ incs s', compileArgs ex build t l g s =
      .ok (clText (t = .clangCl) x ++ x.args ++ g.globArgs ++ g.projArgs ++ incs ++ g.depArgs ++ g.args, s') ∧
      IncText build "/I" "/I" ((firsts (dirs g)).filter (fun i => ex i.path)) incs := by
  have hc : clLike t = true := by rcases ht with rfl | rfl <;> rfl
  have hg : gccLike t = false := by rcases ht with rfl | rfl <;> rfl
  have hp : posixLike t = false := by rcases ht with rfl | rfl <;> rfl
  obtain ⟨incs, h1, h2⟩ := incArgs_text t ex build "/I" "/I" (firsts (dirs g))
    (by intro d; simp [includeArgs, hg, hp, hc])
    (by rintro ⟨i, hi, h, h'⟩; rw [(ha i ((mem_firsts _ _).1 hi) h).2] at h'; cases h') hb
    (fun i hi h => (ha i ((mem_firsts _ _).1 hi) h).1)
  have hbase := (baseArgs_iff t l g.where_ g.globArgs g.projArgs s _).2 ⟨x, hx, rfl⟩
  refine ⟨incs, (setText t x s).2, ?_, h2⟩
  unfold compileArgs
  rw [hbase, Res.ok_bind, incDirs_eq, h1, Res.ok_bind, cl_text ht hx hs hst]
  have hv : visPart t g.vis = [] := by cases g.vis <;> simp [visPart, visArgs, hg]
  rw [hv]
  have e1 : opt g.pic (picArgs t) = [] := by simp [opt, picArgs, hg]
  have e2 : opt g.pie (pieArgs t) = [] := by simp [opt, pieArgs, hg]
  rw [e1, e2]
  simp

/-- The compilers of which only what POSIX says is known. -/
def IsPosix (t : Cc) : Prop := t = .posix ∨ t = .nasm ∨ t = .yasm

theorem posix_text {t : Cc} (ht : IsPosix t) (x : Set) {s : Statics} (hst : s.posixOpt = true) : (setText t x s).1 = posixText x := by
  have hc : clLike t = false := by rcases ht with rfl | rfl | rfl <;> rfl
  have hg : gccLike t = false := by rcases ht with rfl | rfl | rfl <;> rfl
  have hp : posixLike t = true := by rcases ht with rfl | rfl | rfl <;> rfl
  have hcc : t ≠ .clangCl := by rcases ht with rfl | rfl | rfl <;> simp
  have hev : everything t = [] := by rcases ht with rfl | rfl | rfl <;> rfl
  have h1 : some? (stdArgs t) x.std = [] := by cases x.std <;> simp [some?, stdArgs, hg, hc]
  have h2 : some? (sanitizeArgs t) x.sanitize = [] := by cases x.sanitize <;> simp [some?, sanitizeArgs, hg, hc]
  have h3 : some? (colorArgs t) x.color = [] := by cases x.color <;> simp [some?, colorArgs, hg, hcc]
  have h4 : (buildtypeArgs t (x.lvl, x.debug) s).1 = flag x.debug ["-g"] ++ (posixLvl x.lvl).map ascii := by
    have : (posixOptimization x.lvl s).1 = (posixLvl x.lvl).map ascii := by
      cases x.lvl <;> simp [posixOptimization, posixLvl, opt, hst]
    simp only [buildtypeArgs, optimization, hg, hc, hp, if_true, debugArgs, Bool.or_true, ← this]; rfl
  have h5 : (warnSet t x.warn (buildtypeArgs t (x.lvl, x.debug) s).2).1 = [] := by
    cases x.warn <;> simp [warnSet, warning, hg, hc, hev]
  have h6 : alwaysArgs t = [] := by simp [alwaysArgs, hc]
  have h7 : pgoPart t x.pgo = [] := by cases x.pgo <;> simp [pgoPart, pgoArgs, hg]
  have h8 : opt x.lto (ltoArgs t) = [] := by simp [opt, ltoArgs, hg, hcc]
  have h9 : opt x.werror (werrorArgs t) = [] := by simp [opt, werrorArgs, hg, hc]
  unfold setText bSet posixText
  rw [h1, h2, h3, h4, h5, h6, h7, h8, h9]
  simp only [hg, hc, hp, if_true, defineArgs, Bool.or_true, ← opt_flag, List.append_assoc, List.nil_append, List.append_nil]
  rfl

/-- C103: the command line of a posix compiler, and of nasm. -/
theorem posix_command_partial {t : Cc} (ht : IsPosix t) (ex : Bytes → Bool) (build : Bytes) (l : Lang) (g : Tgt) (x : Set) (s : Statics)
    (hx : Reads g.where_ l x) (hst : s.posixOpt = true) (hb : Abs build)
    (ha : ∀ i ∈ dirs g, ex i.path = true → Abs i.path) :
    ∃ incs s', compileArgs ex build t l g s =
      .ok (posixText x ++ x.args ++ g.globArgs ++ g.projArgs ++ incs ++ g.depArgs ++ g.args, s') ∧
      IncText build "-I" "-I" ((firsts (dirs g)).filter (fun i => ex i.path)) incs := by
  have hg : gccLike t = false := by rcases ht with rfl | rfl | rfl <;> rfl
  have hp : posixLike t = true := by rcases ht with rfl | rfl | rfl <;> rfl
  obtain ⟨incs, h1, h2⟩ := incArgs_text t ex build "-I" "-I" (firsts (dirs g))
    (by intro d; simp [includeArgs, hp]) (by intro _ d; simp [systemArgs, hg, hp]) hb
    (fun i hi h => (ha i ((mem_firsts _ _).1 hi) h))
  have hbase := (baseArgs_iff t l g.where_ g.globArgs g.projArgs s _).2 ⟨x, hx, rfl⟩
  refine ⟨incs, (setText t x s).2, ?_, h2⟩
  unfold compileArgs
  rw [hbase, Res.ok_bind, incDirs_eq, h1, Res.ok_bind, posix_text ht x hst]
  have hv : visPart t g.vis = [] := by cases g.vis <;> simp [visPart, visArgs, hg]
  rw [hv]
  have e1 : opt g.pic (picArgs t) = [] := by simp [opt, picArgs, hg]
  have e2 : opt g.pie (pieArgs t) = [] := by simp [opt, pieArgs, hg]
  rw [e1, e2]
  simp

/-- C103: a command line is made only if every option has a value that is known; which one it is is what the options
that apply say. -/
theorem command_reads {ex : Bytes → Bool} {build : Bytes} {t : Cc} {l : Lang} {g : Tgt} {s : Statics} {r : List Bytes × Statics}
    (h : compileArgs ex build t l g s = .ok r) : ∃ x, Reads g.where_ l x ∧ ∀ y, Reads g.where_ l y → y = x := by
  unfold compileArgs at h
  obtain ⟨b, h1, _⟩ := Res.bind_eq_ok.1 h
  obtain ⟨x, hx, _⟩ := (baseArgs_iff _ _ _ _ _ _ _).1 h1
  exact ⟨x, hx, fun y hy => reads_unique hy hx⟩

/-! ### One target after the other -/

theorem setText_start (t : Cc) (x : Set) (h : ¬ Spoils t x) (hw : ∃ txt, WarnText txt x.warn) : (setText t x .start).2 = .start := by
  have h1 : (buildtypeArgs t (x.lvl, x.debug) .start).2 = .start := by
    unfold buildtypeArgs optimization
    cases t <;> simp only [Spoils, not_or] at h <;> revert h <;> cases x.lvl <;> simp [gccLike, clLike, posixLike, gccOptimization, posixOptimization]
  simp only [setText, h1]
  obtain ⟨txt, hw⟩ := hw
  generalize hy : x.warn = y at hw
  cases y with
  | none => rfl
  | some n =>
    have hn : (t = .msvc ∨ t = .clangCl) → n ≠ 0 := by
      rintro (rfl | rfl) rfl <;> exact h hy
    unfold warnSet warning
    by_cases hc : t = .msvc ∨ t = .clangCl
    · have hg : gccLike t = false := by rcases hc with rfl | rfl <;> rfl
      have hcl : clLike t = true := by rcases hc with rfl | rfl <;> rfl
      have := hn hc
      cases hw <;> first | exact absurd rfl this | simp [hg, hcl, clWarning]
    · have hcl : clLike t = false := by cases t <;> simp [clLike] at hc ⊢
      cases hg : gccLike t <;> simp [hcl]

/-- C103: as long as no target has settings that spoil the static variables (`Spoils`), the command line of a target does not
depend on the targets before it. -/
theorem commands_independent_partial (ex : Bytes → Bool) (build : Bytes) (cs : List Call) (as : List (List Bytes)) (s' : Statics)
    (h : calls ex build cs .start = .ok (as, s')) (hn : ∀ c ∈ cs, ∀ x, Reads c.tgt.where_ c.lang x → ¬ Spoils c.cc x) :
    s' = .start ∧ as.length = cs.length ∧
    ∀ (i : Nat) (c : Call), cs[i]? = some c → ∃ a, as[i]? = some a ∧ compileArgs ex build c.cc c.lang c.tgt .start = .ok (a, .start) := by
  induction cs generalizing as s' with
  | nil => cases h; exact ⟨rfl, rfl, by simp⟩
  | cons c cs ih =>
    unfold calls at h
    obtain ⟨⟨a, sa⟩, h1, h⟩ := Res.bind_eq_ok.1 h
    obtain ⟨⟨l, sl⟩, h2, h⟩ := Res.bind_eq_ok.1 h
    cases h
    have hsa : sa = .start := by
      unfold compileArgs at h1
      obtain ⟨b, h3, h4⟩ := Res.bind_eq_ok.1 h1
      obtain ⟨inc, _, h5⟩ := Res.bind_eq_ok.1 h4
      cases h5
      obtain ⟨x, hx, rfl⟩ := (baseArgs_iff _ _ _ _ _ _ _).1 h3
      exact setText_start _ x (hn c (by simp) x hx) (by obtain ⟨w, _, h⟩ := hx.warn; exact ⟨w, h⟩)
    subst hsa
    obtain ⟨h3, h4, h5⟩ := ih l sl h2 (fun c' hc' => hn c' (by simp [hc']))
    refine ⟨h3, by simp [h4], ?_⟩
    intro i d hd
    cases i with
    | zero => cases hd; exact ⟨a, rfl, h1⟩
    | succ i => exact h5 i d hd

/-- What is left of the settings for gcc when optimisation was switched off. -/
theorem gcc_text_off {t : Cc} (ht : IsGcc t) (x : Set) (s : Statics) (hst : s.gccOpt = false) :
    (setText t x s).1 = (setText t { x with lvl := .none } s).1 ∧ (setText t x s).2.gccOpt = false := by
  have hg := isGcc_like ht
  have h1 : (optimization t x.lvl s).1 = [] := by
    unfold optimization; rw [if_pos hg]; cases x.lvl <;> simp [gccOptimization, opt, hst]
  have h2 : ∀ l, (optimization t l s).2.gccOpt = false := by
    intro l; unfold optimization; rw [if_pos hg]; cases l <;> simp [gccOptimization, hst]
  have h3 : ∀ (y : Option Nat) (s : Statics), (warnSet t y s).2 = s := by
    intro y s; cases y <;> simp [warnSet, warning, hg]
  have h4 : ∀ (y : Option Nat) (s s' : Statics), (warnSet t y s).1 = (warnSet t y s').1 := by
    intro y s s'; cases y <;> simp [warnSet, warning, hg]
  have h5 : (optimization t .none s).1 = [] := by unfold optimization; rw [if_pos hg]; rfl
  constructor
  · simp only [setText, buildtypeArgs, h1, h5]
    rw [h4 x.warn _ (optimization t .none s).2]
  · simp only [setText, buildtypeArgs, h3, h2]

theorem gcc_stays_off (t : Cc) (x : Set) (s : Statics) (hst : s.gccOpt = false) : (setText t x s).2.gccOpt = false := by
  have h1 : ∀ l, (optimization t l s).2.gccOpt = false := by
    intro l
    unfold optimization
    split
    · cases l <;> simp [gccOptimization, hst]
    · split
      · exact hst
      · split
        · cases l <;> simp [posixOptimization, hst]
        · exact hst
  have h2 : ∀ (y : Option Nat) (s : Statics), (warnSet t y s).2.gccOpt = s.gccOpt := by
    intro y s
    cases y with
    | none => rfl
    | some n =>
      unfold warnSet warning
      simp only
      split
      · rfl
      · split
        · unfold clWarning; split <;> rfl
        · rfl
  simp only [setText, buildtypeArgs, h2, h1]

/-- C103: once gcc or clang was asked for no optimisation, no target after that gets any, whatever its options are, for the
rest of the run. -/
theorem optimisation_lost_forever (ex : Bytes → Bool) (build : Bytes) (cs : List Call) (as : List (List Bytes)) (s s' : Statics)
    (hs : s.gccOpt = false) (h : calls ex build cs s = .ok (as, s')) :
    s'.gccOpt = false ∧ ∀ (i : Nat) (c : Call), cs[i]? = some c → IsGcc c.cc → ∀ x, Reads c.tgt.where_ c.lang x → Short x →
      ∃ a every rest, as[i]? = some a ∧ a = gccText every { x with lvl := .none } ++ x.args ++ rest := by
  induction cs generalizing as s with
  | nil => cases h; exact ⟨hs, by simp⟩
  | cons c cs ih =>
    unfold calls at h
    obtain ⟨⟨a, sa⟩, h1, h⟩ := Res.bind_eq_ok.1 h
    obtain ⟨⟨l, sl⟩, h2, h⟩ := Res.bind_eq_ok.1 h
    cases h
    unfold compileArgs at h1
    obtain ⟨b, h3, h4⟩ := Res.bind_eq_ok.1 h1
    obtain ⟨inc, _, h5⟩ := Res.bind_eq_ok.1 h4
    cases h5
    obtain ⟨x, hx, rfl⟩ := (baseArgs_iff _ _ _ _ _ _ _).1 h3
    have hoff := gcc_stays_off c.cc x s hs
    obtain ⟨h6, h7⟩ := ih l (setText c.cc x s).2 hoff h2
    refine ⟨h6, ?_⟩
    intro i d hd hg y hy hsh
    cases i with
    | succ i => exact h7 i d hd hg y hy hsh
    | zero =>
      cases hd
      cases reads_unique hx hy
      have e := (gcc_text_off hg x s hs).1
      have e2 := gcc_text_none hg hx hsh s
      refine ⟨_, everything c.cc, c.tgt.globArgs ++ (c.tgt.projArgs ++ (inc ++ (c.tgt.depArgs ++ (c.tgt.args ++
        (opt c.tgt.pic (picArgs c.cc) ++ (opt c.tgt.pie (pieArgs c.cc) ++ visPart c.cc c.tgt.vis)))))), List.getElem?_cons_zero, ?_⟩
      rw [← e2, ← e]
      simp only [List.append_assoc]

end Muon.Cmdline
