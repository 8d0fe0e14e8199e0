import Verif.Proj.Inv
import Verif.Path.Props
/-
C110: languages, arguments and directories of projects.
-/
namespace Muon.Proj
open Muon Muon.Proj.Spec

theorem configure_inv {E : Env} {fuel : Nat} {src build : Bytes} {ok : Bool} {ws : Ws} (h : configure E fuel src build = .ret ok ws) :
    Inv ws ∧ Keep (newProject src build {}) ws := evalFile_sound E fuel _ _ _ _ _ (new_inv (.inr rfl)) h

/-! ### Arguments -/

/-- C110: after a build was configured (or failed to), the arguments, link arguments and include directories a project has for a language
are those which calls in the files of this project gave to the language, in order, and nothing else. -/
theorem project_arguments {E : Env} {fuel : Nat} {src build : Bytes} {ok : Bool} {ws : Ws} (h : configure E fuel src build = .ret ok ws)
    (i : Nat) (p : Proj) (hp : ws.projs[i]? = some p) (k : Kind) (l : Lang) : p.tbl k l = ws.log.flatMap (given k i l) :=
  (configure_inv h).1.tbl i p hp k l

/-- C110: the arguments for all projects are those which calls for all projects gave, in order. -/
theorem global_arguments {E : Env} {fuel : Nat} {src build : Bytes} {ok : Bool} {ws : Ws} (h : configure E fuel src build = .ret ok ws)
    (k : Kind) (l : Lang) : ws.glob k l = ws.log.flatMap (givenAll k l) :=
  (configure_inv h).1.glob k l

/-- C110: only the main project gives arguments to all projects. -/
theorem global_main {E : Env} {fuel : Nat} {src build : Bytes} {ok : Bool} {ws : Ws} (h : configure E fuel src build = .ret ok ws)
    (i : Nat) (k : Kind) (langs as : List Bytes) (he : Ev.args i true k langs as ∈ ws.log) : i = 0 :=
  (configure_inv h).1.main i k langs as he

/-- C110: a call that adds arguments works if all languages are known and, for all projects, it is in the main one; then the arguments
are added for each language that is named. -/
theorem arguments_iff (E : Env) (ev : Bytes → Bool → Ws → Out) (glob : Bool) (k : Kind) (langs as : List Bytes) (ws : Ws) (hc : ws.cur < ws.projs.length) :
    ∃ ok ws', exec E ev (.addArgs glob k langs as) ws = .ret ok ws' ∧
      (ok = true ↔ (∀ n ∈ langs, ∃ l, n = name l) ∧ (glob = true → ws.cur = 0)) ∧
      (glob = true → ws.cur ≠ 0 → ws' = ws) := by
  have hk : langs.all known = true ↔ ∀ n ∈ langs, ∃ l, n = name l := by
    rw [List.all_eq_true]
    constructor
    · intro h n hn
      cases hl : langOf n with
      | none => have := h n hn; rw [known_none n hl] at this; cases this
      | some l => exact ⟨l, (langOf_iff n l).1 hl⟩
    · intro h n hn
      obtain ⟨l, rfl⟩ := h n hn
      exact known_name l
  unfold exec
  rw [List.getElem?_eq_getElem hc]
  dsimp only
  unfold addArgs
  cases glob with
  | true =>
    simp only [if_true]
    by_cases h0 : ws.cur = 0
    · rw [if_neg (by simp [h0])]
      refine ⟨_, _, rfl, ?_, fun _ h => absurd h0 h⟩
      rw [putArgs_ok, hk]; simp [h0]
    · rw [if_pos h0]
      exact ⟨_, _, rfl, by simp [h0], fun _ _ => rfl⟩
  | false =>
    simp only [Bool.false_eq_true, if_false]
    refine ⟨_, _, rfl, ?_, fun h => by cases h⟩
    rw [putArgs_ok, hk]; simp

/-! ### Directories -/

/-- C110: `files('x')` is a file in the directory that was entered last and not left, below the directory of the project: `subdir()` of
any depth, also one that fails, leads back to where it was called. -/
theorem files_place {E : Env} {fuel : Nat} {src build : Bytes} {ok : Bool} {ws : Ws} (h : configure E fuel src build = .ret ok ws)
    (pre post : List Ev) (i : Nat) (n f : Bytes) (hl : ws.log = pre ++ .file i n f :: post) :
    ∃ p, ws.projs[i]? = some p ∧ f = Path.join (below p.src (inside i pre)) n :=
  (configure_inv h).1.files pre post i n f hl

theorem inside_new (src build : Bytes) (i : Nat) : inside i (newProject src build {}).log = [] := rfl

/-- C110: at the end all directories were left, and all projects are in their own directories. -/
theorem all_left {E : Env} {fuel : Nat} {src build : Bytes} {ok : Bool} {ws : Ws} (h : configure E fuel src build = .ret ok ws) :
    ws.cur = 0 ∧ (∃ p, ws.projs[0]? = some p ∧ p.src = src ∧ p.bld = build) ∧
    ∀ (i : Nat) (p : Proj), ws.projs[i]? = some p → p.cwd = p.src ∧ p.build = p.bld := by
  obtain ⟨hi, hk⟩ := configure_inv h
  refine ⟨hk.cur, ?_, ?_⟩
  · obtain ⟨q, hq, e1, e2, _⟩ := hk.projs 0 { src := src, bld := build, cwd := src, build := build } rfl
    exact ⟨q, hq, e1, e2⟩
  · intro i p hp
    have := hi.dirs i p hp
    rw [hk.inside i, inside_new] at this
    exact this

/-- C110: with relative names, the directory in the build tree has the same path from the top as the one in the source tree: both have
the components of the names below their root. -/
theorem subdir_mirror (src bld : Bytes) : ∀ (names : List Bytes), 0 ∉ src → 0 ∉ bld → (∀ n ∈ names, 0 ∉ n ∧ Path.Spec.isAbs n = false) →
    Path.Spec.comps (below src names) = Path.Spec.comps src ++ names.flatMap Path.Spec.comps ∧
    Path.Spec.comps (below bld names) = Path.Spec.comps bld ++ names.flatMap Path.Spec.comps ∧
    Path.Spec.isAbs (below src names) = Path.Spec.isAbs src ∧ Path.Spec.isAbs (below bld names) = Path.Spec.isAbs bld := by
  have key : ∀ (names : List Bytes) (r : Bytes), 0 ∉ r → (∀ n ∈ names, 0 ∉ n ∧ Path.Spec.isAbs n = false) →
      Path.Spec.comps (below r names) = Path.Spec.comps r ++ names.flatMap Path.Spec.comps ∧ Path.Spec.isAbs (below r names) = Path.Spec.isAbs r := by
    intro names
    induction names with
    | nil => intro r _ _; simp [below]
    | cons n ns ih =>
      intro r hr hn
      obtain ⟨h1, h2⟩ := hn n (by simp)
      obtain ⟨j1, j2, j3⟩ := Path.join_facts r n hr h1
      obtain ⟨i1, i2⟩ := ih (Path.join r n) j3 (fun m hm => hn m (List.mem_cons_of_mem _ hm))
      show Path.Spec.comps (below (Path.join r n) ns) = _ ∧ Path.Spec.isAbs (below (Path.join r n) ns) = _
      rw [i1, i2, j1, j2, h2]
      simp
  intro names hs hb hn
  exact ⟨(key names src hs hn).1, (key names bld hb hn).1, (key names src hs hn).2, (key names bld hb hn).2⟩

/-! ### Languages -/

theorem grows_some {p q : Proj} (h : Grows p q) {l : Lang} (hp : (p.comps l).isSome = true) : (q.comps l).isSome = true := by
  obtain ⟨c, hc⟩ := Option.isSome_iff_exists.1 hp
  obtain ⟨d, hd, _⟩ := h l c hc
  rw [hd]; rfl

/-- C110: if `add_languages()` (or `project()`, for which all are required) says that no language is missing, all of the names are those of
languages, and there are compilers for them now. If they are required it works only then; if not, it always works. -/
theorem languages_found (detect : Lang → Option Comp) (req : Req) (hr : req ≠ .skip) : ∀ (names : List Bytes) (p : Proj),
    ((addAll detect req names p).2.1 = true →
      ∀ n ∈ names, ∃ l, n = name l ∧ ((addAll detect req names p).2.2.comps l).isSome = true) ∧
    ((addAll detect req names p).1 = true → req = .required → (addAll detect req names p).2.1 = true) ∧
    ((addAll detect req names p).1 = false → req = .required)
  | [], p => by simp [addAll]
  | n :: ns, p => by
    obtain ⟨h1, h2, h3, h4⟩ := addLang_ok detect req n p hr
    rw [addAll]
    dsimp only
    by_cases hb : (addLang detect req n p).1 = true
    · rw [if_pos hb]
      obtain ⟨i1, i2, i3⟩ := languages_found detect req hr ns (addLang detect req n p).2.2
      have hg := (addAll_addOk detect req ns (addLang detect req n p).2.2).grows
      refine ⟨?_, ?_, i3⟩
      · intro hf m hm
        dsimp only at hf ⊢
        rw [Bool.and_eq_true] at hf
        rcases List.mem_cons.1 hm with rfl | hm
        · obtain ⟨l, e, hl⟩ := (h2 hb).1 hf.1
          exact ⟨l, e, grows_some hg hl⟩
        · exact i1 hf.2 m hm
      · intro hok hreq
        dsimp only
        rw [h3 hb hreq, i2 hok hreq]; rfl
    · rw [if_neg hb]
      exact ⟨(nomatch ·), (nomatch ·), fun _ => h4 (by simpa using hb)⟩

/-- C110: and it says that none is missing if all of them had a compiler, or one is found, and it works. -/
theorem languages_there (detect : Lang → Option Comp) (req : Req) (hr : req ≠ .skip) : ∀ (names : List Bytes) (p : Proj),
    (∀ n ∈ names, ∃ l, n = name l ∧ ((p.comps l).isSome = true ∨ (detect l).isSome = true)) →
    (addAll detect req names p).2.1 = (addAll detect req names p).1
  | [], p, _ => rfl
  | n :: ns, p, h => by
    obtain ⟨l, e, hl⟩ := h n (by simp)
    have hk : (addKnown detect req l p).1 = true ∧ (addKnown detect req l p).2.1 = true := by
      unfold addKnown
      cases hp : p.comps l with
      | some c => simp
      | none =>
        rcases hl with hl | hl
        · rw [hp] at hl; cases hl
        · obtain ⟨c, hc⟩ := Option.isSome_iff_exists.1 hl
          simp [hc]
    have hs : (addLang detect req n p).2.1 = (addLang detect req n p).1 := by
      unfold addLang
      rw [if_neg hr, e, langOf_name]
      dsimp only
      rw [hk.1, hk.2]
      exact (afterNasm_ok detect req l p _ ((addKnown_ok detect req l p).2.1.1 hk.2)).2.1
    rw [addAll]
    dsimp only
    by_cases hb : (addLang detect req n p).1 = true
    · rw [if_pos hb]
      have := languages_there detect req hr ns (addLang detect req n p).2.2 (by
        intro m hm
        obtain ⟨l', e', hl'⟩ := h m (List.mem_cons_of_mem _ hm)
        exact ⟨l', e', hl'.imp (grows_some (addLang_ok' detect req n p).grows) id⟩)
      dsimp only
      rw [this, hs, hb]; rfl
    · rw [if_neg hb]

/-- A disabled feature as `required:` adds nothing. -/
theorem languages_skip (detect : Lang → Option Comp) : ∀ (names : List Bytes) (p : Proj),
    addAll detect .skip names p = (true, decide (names = []), p)
  | [], p => rfl
  | n :: ns, p => by
    rw [addAll, addLang_skip]
    dsimp only
    rw [languages_skip detect ns p]
    simp

theorem run_keep {E : Env} {n : Nat} {me : Bytes} {ss : List Stmt} {ws ws' : Ws} {ok : Bool} (h : Inv ws) (e : run E (evalFile E n) me ss ws = .ret ok ws') :
    Keep ws ws' := (run_sound (evalFile_sound E n) me ss ws ws' ok h e).2

/-- C110: if the main project was configured, its file begins with `project()`, and at the end there is a compiler for each of the languages
named there. -/
theorem project_languages {E : Env} {fuel : Nat} {src build : Bytes} {ws : Ws} (h : configure E fuel src build = .ret true ws) :
    ∃ (langs : List Bytes) (subs : Option Bytes) (rest : List Stmt) (p : Proj),
      E.file (Path.join src (ascii "meson.build")) = some (.project langs subs :: rest) ∧ ws.projs[0]? = some p ∧
      ∀ n ∈ langs, ∃ l, n = name l ∧ (p.comps l).isSome = true := by
  unfold configure at h
  cases fuel with
  | zero => cases h
  | succ n =>
    rw [evalFile] at h
    dsimp only at h
    cases hf : E.file (Path.join src (ascii "meson.build")) with
    | none => rw [hf] at h; cases h
    | some ss =>
      rw [hf] at h
      dsimp only at h
      split at h
      · cases h
      · rename_i hst
        have hst : startsProject ss = true := by simpa using hst
        match ss, hst with
        | .project langs subs :: rest, _ =>
          generalize hr : run E (evalFile E n) _ _ _ = r at h
          cases r with
          | bad => cases h
          | fuel => cases h
          | ret ok2 ws2 =>
            cases h
            rw [run] at hr
            rw [if_neg (fun e => e rfl)] at hr
            have hi0 : Inv { newProject src build {} with ast := Path.join src (ascii "meson.build"), log := [.read 0 (Path.join src (ascii "meson.build"))] } := by
              have := inv_log (new_inv (cwd := src) (build := build) (ws := {}) (.inr rfl)) (.read 0 (Path.join src (ascii "meson.build"))) rfl (fun _ _ _ => rfl) (fun _ _ => rfl)
                (by intro q k ns as e; simp at e) (fun _ _ => rfl) (by intro i n x e; simp at e)
              exact inv_meta this _ _
            generalize he : exec E (evalFile E n) (.project langs subs) _ = x at hr
            have hx := he
            unfold exec at he
            change project E langs subs { src := src, bld := build, cwd := src, build := build } _ = x at he
            unfold project at he
            rw [if_neg (by simp)] at he
            dsimp only at he
            cases hb : (addAll (E.detect 0) .required langs { src := src, bld := build, cwd := src, build := build }).1 with
            | false =>
              rw [if_neg (by show ¬ (addAll (E.detect 0) .required langs { src := src, bld := build, cwd := src, build := build }).1 = true; rw [hb]; simp)] at he
              subst he
              cases hr
            | true =>
              rw [if_pos (by exact hb)] at he
              obtain ⟨W, p, hW, hp, hc⟩ : ∃ (W : Ws) (p : Proj), x = .ret true W ∧ W.projs[0]? = some p ∧
                  p.comps = (addAll (E.detect 0) .required langs { src := src, bld := build, cwd := src, build := build }).2.2.comps :=
                ⟨_, { (addAll (E.detect 0) .required langs { src := src, bld := build, cwd := src, build := build }).2.2 with
                  subs := subs.getD (addAll (E.detect 0) .required langs { src := src, bld := build, cwd := src, build := build }).2.2.subs, inited := true },
                  he.symm, rfl, rfl⟩
              clear he
              subst hW
              obtain ⟨f1, f2, _⟩ := languages_found (E.detect 0) .required (by simp) langs { src := src, bld := build, cwd := src, build := build }
              have hall := f1 (f2 hb rfl)
              obtain ⟨i1, _⟩ := exec_sound (evalFile_sound E n) hi0 hx
              have hk : Keep W ws2 := by
                dsimp only at hr
                split at hr
                · cases hr; exact keep_refl _
                · exact run_keep i1 hr
              obtain ⟨q, hq, _, _, _, _, g⟩ := hk.projs 0 _ hp
              refine ⟨langs, subs, rest, q, rfl, hq, ?_⟩
              intro m hm
              obtain ⟨l, e, hl⟩ := hall m hm
              exact ⟨l, e, grows_some g (by rw [hc]; exact hl)⟩

/-- C110: a project that has a compiler for C or C++ has one for assembly. -/
theorem assembly_there {E : Env} {fuel : Nat} {src build : Bytes} {ok : Bool} {ws : Ws} (h : configure E fuel src build = .ret ok ws)
    (i : Nat) (p : Proj) (hp : ws.projs[i]? = some p) (hc : (p.comps .c).isSome = true ∨ (p.comps .cpp).isSome = true) :
    (p.comps .assembly).isSome = true := (configure_inv h).1.asm i p hp hc

/-- C110: what a call in a file does to compilers of projects that exist: there are no fewer, and only those for assembly and LLVM IR, which
come with C and C++, can become others. -/
theorem compilers_stay {E : Env} {n : Nat} {path : Bytes} {first ok : Bool} {ws ws' : Ws} (hi : Inv ws) (h : evalFile E n path first ws = .ret ok ws')
    (i : Nat) (p : Proj) (hp : ws.projs[i]? = some p) (l : Lang) (c : Comp) (hc : p.comps l = some c) :
    ∃ q d, ws'.projs[i]? = some q ∧ q.comps l = some d ∧ (l ≠ .assembly → l ≠ .llvmIr → d = c) := by
  obtain ⟨q, hq, _, _, _, _, g⟩ := (evalFile_sound E n path first ws ok ws' hi h).2.projs i p hp
  obtain ⟨d, hd, e⟩ := g l c hc
  exact ⟨q, d, hq, hd, e⟩

/-! ### Examples and what does not hold -/

/-- Files for the examples. -/
def exFile (fs : List (String × List Stmt)) (path : Bytes) : Option (List Stmt) := (fs.find? fun e => ascii e.1 == path).map (·.2)

def exEnv (fs : List (String × List Stmt)) : Env where
  file := exFile fs
  hasDir p := (exFile fs (Path.join p (ascii "meson.build"))).isSome
  detect _ l := match l with
    | .c => some { prog := 1, clang := false }
    | .cpp => some { prog := 2, clang := true }
    | .nasm => some { prog := 3, clang := false }
    | _ => none
  mkdir _ := true

/-- The events of a run, and whether it worked. -/
def outcome : Out → Option (Bool × List Ev)
  | .ret ok ws => some (ok, ws.log)
  | _ => none

/-- Something of a project after a run. -/
def peek {α : Type} (i : Nat) (f : Proj → α) : Out → Option α
  | .ret _ ws => (ws.projs[i]?).map f
  | _ => none

def ex1 : Env := exEnv [
  ("/s/meson.build", [.project [ascii "c"] none, .addArgs false .args [ascii "c", ascii "cpp"] [ascii "-DA"], .addArgs true .args [ascii "c"] [ascii "-DG"],
    .subdir (ascii "lib") true, .files (ascii "x"), .subproject (ascii "z") .required, .files (ascii "y")]),
  ("/s/lib/meson.build", [.files (ascii "l"), .addArgs false .args [ascii "c"] [ascii "-DB"], .done, .files (ascii "no")]),
  ("/s/subprojects/z/meson.build", [.project [ascii "cpp"] none, .addArgs false .link [ascii "cpp"] [ascii "-lz"], .files (ascii "q")])]

example : outcome (configure ex1 9 (ascii "/s") (ascii "/b")) = some (true,
    [.read 0 (ascii "/s/meson.build"), .args 0 false .args [ascii "c", ascii "cpp"] [ascii "-DA"], .args 0 true .args [ascii "c"] [ascii "-DG"],
      .enter 0 (ascii "lib"), .read 0 (ascii "/s/lib/meson.build"), .file 0 (ascii "l") (ascii "/s/lib/l"), .args 0 false .args [ascii "c"] [ascii "-DB"], .leave 0,
      .file 0 (ascii "x") (ascii "/s/x"), .read 1 (ascii "/s/subprojects/z/meson.build"), .args 1 false .link [ascii "cpp"] [ascii "-lz"],
      .file 1 (ascii "q") (ascii "/s/subprojects/z/q"), .file 0 (ascii "y") (ascii "/s/y")]) := by decide +kernel

example : peek 0 (fun p => (p.tbl .args .c, p.tbl .args .cpp, p.tbl .link .cpp)) (configure ex1 9 (ascii "/s") (ascii "/b")) =
    some ([ascii "-DA", ascii "-DB"], [ascii "-DA"], []) := by decide +kernel
example : peek 1 (fun p => (p.tbl .args .c, p.tbl .link .cpp, p.comps .assembly, p.comps .llvmIr)) (configure ex1 9 (ascii "/s") (ascii "/b")) =
    some ([], [ascii "-lz"], some ⟨2, true, false⟩, some ⟨2, true, true⟩) := by decide +kernel

/-- C110 fails: nothing keeps a file from being evaluated twice by two calls of `subdir()`. -/
theorem twice_counterexample : outcome (configure (exEnv [("/s/meson.build", [.project [] none, .subdir (ascii "a") true, .subdir (ascii "a") true]),
    ("/s/a/meson.build", [])]) 9 (ascii "/s") (ascii "/b")) = some (true, [.read 0 (ascii "/s/meson.build"), .enter 0 (ascii "a"), .read 0 (ascii "/s/a/meson.build"),
      .leave 0, .enter 0 (ascii "a"), .read 0 (ascii "/s/a/meson.build"), .leave 0]) := by decide +kernel

/-- C110 fails: `subdir()` of an absolute path or one with `..` makes a directory outside of the build directory; here only directories in the source
tree can be made, and it works. -/
theorem outside_counterexample : (outcome (configure { exEnv [("/s/meson.build", [.project [] none, .subdir (ascii "/s/a") true]), ("/s/a/meson.build", [])] with
      mkdir := fun d => d == ascii "/s/a" } 9 (ascii "/s") (ascii "/b"))).map (·.1) = some true ∧
    (outcome (configure { exEnv [("/s/meson.build", [.project [] none, .subdir (ascii "../a") true]), ("/s/../a/meson.build", [])] with
      mkdir := fun d => d == ascii "/b/../a" } 9 (ascii "/s") (ascii "/b"))).map (·.1) = some true := by decide +kernel

/-- C110 fails: `add_project_dependencies()` with a language that is not known works, and the languages after it get nothing. -/
theorem dependencies_counterexample :
    let r := configure (exEnv [("/s/meson.build", [.project [ascii "c", ascii "cpp"] none, .addDeps [ascii "c", ascii "C++", ascii "cpp"] [ascii "-DA"] [] []])]) 9 (ascii "/s") (ascii "/b")
    (outcome r).map (·.1) = some true ∧ peek 0 (fun p => (p.tbl .args .c, p.tbl .args .cpp)) r = some ([ascii "-DA"], []) := by decide +kernel

/-- C110 fails: an optional subproject whose file does not begin with `project()` leaves its syntax tree in use; the next call of the main project is looked
up in it. -/
theorem first_call_counterexample : (match configure (exEnv [("/s/meson.build", [.project [] none, .subproject (ascii "z") .auto, .files (ascii "x")]),
    ("/s/subprojects/z/meson.build", [.files (ascii "x"), .project [] none])]) 9 (ascii "/s") (ascii "/b") with | .bad => true | _ => false) = true := by decide +kernel

/-- C110 fails: whether a language is missing depends on the order of the names. -/
theorem order_counterexample : let p : Proj := { src := [], bld := [], cwd := [], build := [] }
    (addAll (ex1.detect 0) .auto [ascii "assembly", ascii "c"] p).2.1 = false ∧ (addAll (ex1.detect 0) .auto [ascii "c", ascii "assembly"] p).2.1 = true := by decide +kernel

/-- C110 fails: nasm, which is not required, is there without the compiler for C that it needs. -/
theorem nasm_counterexample : let p : Proj := { src := [], bld := [], cwd := [], build := [] }
    let r := addAll (fun l => if l = .nasm then some ⟨3, false, false⟩ else none) .auto [ascii "nasm"] p
    r.2.1 = true ∧ r.2.2.comps .c = none ∧ (addAll (fun l => if l = .nasm then some ⟨3, false, false⟩ else none) .required [ascii "nasm"] p).1 = false := by
  decide +kernel

/-- C110 fails: another language can change the compiler for assembly of a project. -/
theorem assembler_counterexample :
    peek 0 (fun p => p.comps .assembly) (configure (exEnv [("/s/meson.build", [.project [ascii "c"] none])]) 9 (ascii "/s") (ascii "/b")) = some (some ⟨1, false, false⟩) ∧
    peek 0 (fun p => p.comps .assembly) (configure (exEnv [("/s/meson.build", [.project [ascii "c"] none, .addLangs .required [ascii "cpp"]])]) 9 (ascii "/s") (ascii "/b")) =
      some (some ⟨2, true, false⟩) := by decide +kernel

end Muon.Proj
