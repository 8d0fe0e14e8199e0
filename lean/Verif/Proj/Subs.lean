import Verif.Proj.Props
/-
C110: subprojects, and calls of `project()` and `add_languages()`.
-/
namespace Muon.Proj
open Muon Muon.Proj.Spec

/-- C110: `project()` can be called once. -/
theorem project_once (E : Env) (ev : Bytes → Bool → Ws → Out) (langs langs' : List Bytes) (subs subs' : Option Bytes) (ws ws' : Ws)
    (h : exec E ev (.project langs subs) ws = .ret true ws') : exec E ev (.project langs' subs') ws' = .ret false ws' := by
  unfold exec at h
  cases hp : ws.projs[ws.cur]? with
  | none => rw [hp] at h; cases h
  | some p =>
    rw [hp] at h
    dsimp only at h
    unfold project at h
    split at h
    · cases h
    · dsimp only at h
      split at h
      · cases h
        unfold exec
        simp [Ws.upd, hp, project]
      · cases h

/-- C110: `add_languages()` of languages that are not required never fails; with required ones it works only if all have a compiler then. -/
theorem add_languages (E : Env) (ev : Bytes → Bool → Ws → Out) (req : Req) (names : List Bytes) (ws : Ws) (hc : ws.cur < ws.projs.length) :
    ∃ ok ws', exec E ev (.addLangs req names) ws = .ret ok ws' ∧ (req ≠ .required → ok = true) ∧
      (ok = true → req = .required → ∃ p, ws'.projs[ws.cur]? = some p ∧ ∀ n ∈ names, ∃ l, n = name l ∧ (p.comps l).isSome = true) := by
  unfold exec
  rw [List.getElem?_eq_getElem hc]
  dsimp only
  refine ⟨_, _, rfl, ?_, ?_⟩
  · intro hr
    by_cases hs : req = .skip
    · rw [hs, languages_skip]
    · cases hb : (addAll (E.detect ws.cur) req names ws.projs[ws.cur]).1 with
      | true => rfl
      | false => exact absurd ((languages_found _ req hs names _).2.2 hb) hr
  · intro hok hr
    refine ⟨(addAll (E.detect ws.cur) req names ws.projs[ws.cur]).2.2, ?_, ?_⟩
    · simp [Ws.upd, hc]
    · obtain ⟨h1, h2, _⟩ := languages_found (E.detect ws.cur) req (by rw [hr]; decide) names ws.projs[ws.cur]
      exact h1 (h2 hok hr)

/-- C110: a disabled subproject is not evaluated. -/
theorem subproject_disabled (E : Env) (ev : Bytes → Bool → Ws → Out) (name : Bytes) (ws : Ws) (hc : ws.cur < ws.projs.length) :
    exec E ev (.subproject name .skip) ws = .ret true ws := by
  unfold exec
  rw [List.getElem?_eq_getElem hc]
  dsimp only
  unfold subproject
  split
  · rfl
  · rw [if_pos rfl]

/-- C110: a subproject that was configured is not evaluated again. -/
theorem subproject_again (E : Env) (ev ev' : Bytes → Bool → Ws → Out) (name : Bytes) (req req' : Req) (ws ws' : Ws) (hr : req = .required)
    (h : exec E ev (.subproject name req) ws = .ret true ws') (hc : ws.cur < ws.projs.length) (hl : ws'.cur < ws'.projs.length) :
    exec E ev' (.subproject name req') ws' = .ret true ws' := by
  have hf : (ws'.cache.find? fun e => e.1 == name).isSome = true := by
    unfold exec at h
    rw [List.getElem?_eq_getElem hc] at h
    dsimp only at h
    unfold subproject at h
    split at h
    · rename_i hx; cases h; exact hx
    · rw [if_neg (by rw [hr]; decide)] at h
      dsimp only at h
      split at h
      · rw [hr] at h; cases h
      · revert h
        generalize ev _ _ _ = o
        intro h
        cases o with
        | ret ok w =>
          cases ok with
          | true => cases h; simp
          | false => rw [hr] at h; cases h
        | bad => cases h
        | fuel => cases h
  unfold exec
  rw [List.getElem?_eq_getElem hl]
  dsimp only
  unfold subproject
  rw [if_pos hf]

/-- C110: a required subproject that works was configured, now or before; one that is not required never makes the build fail. -/
theorem subproject_required (E : Env) (ev : Bytes → Bool → Ws → Out) (name : Bytes) (req : Req) (ok : Bool) (ws ws' : Ws)
    (h : exec E ev (.subproject name req) ws = .ret ok ws') :
    (ok = true → req = .required → ∃ id, (name, id) ∈ ws'.cache) ∧ (req ≠ .required → ok = true) := by
  unfold exec at h
  cases hp : ws.projs[ws.cur]? with
  | none => rw [hp] at h; cases h
  | some p =>
    rw [hp] at h
    dsimp only at h
    unfold subproject at h
    split at h
    · rename_i hx
      cases h
      obtain ⟨e, he⟩ := Option.isSome_iff_exists.1 hx
      have h1 := List.find?_some he
      have h2 := List.mem_of_find?_eq_some he
      have : e.1 = name := by simpa using h1
      exact ⟨fun _ _ => ⟨e.2, by rw [← this]; exact h2⟩, fun _ => rfl⟩
    · split at h
      · rename_i hs
        cases h
        exact ⟨fun _ hr => (by rw [hs] at hr; cases hr), fun _ => rfl⟩
      · dsimp only at h
        split at h
        · cases h
          exact ⟨fun h1 hr => (by simp [hr] at h1), fun hr => by simp [hr]⟩
        · revert h
          generalize ev _ _ _ = o
          intro h
          cases o with
          | ret b w =>
            cases b with
            | true => cases h; exact ⟨fun _ _ => ⟨ws.projs.length, by simp⟩, fun _ => rfl⟩
            | false => cases h; exact ⟨fun h1 hr => (by simp [hr] at h1), fun hr => by simp [hr]⟩
          | bad => cases h
          | fuel => cases h

theorem evalFile_reads (E : Env) (n : Nat) (path : Bytes) (first ok : Bool) (ws ws' : Ws) (hi : Inv ws) (h : evalFile E n path first ws = .ret ok ws') :
    ∃ d, ws'.log = ws.log ++ Ev.read ws.cur path :: d := by
  cases n with
  | zero => cases h
  | succ n =>
    rw [evalFile] at h
    dsimp only at h
    have h1 : Inv { ws with log := ws.log ++ [.read ws.cur path], ast := path } := by
      cases n with
      | _ =>
        have : evalFile { E with file := fun _ => some [] } 1 path true ws = .ret false { ws with log := ws.log ++ [.read ws.cur path], ast := path } := rfl
        exact (evalFile_sound _ 1 _ _ _ _ _ hi this).1
    cases hf : E.file path with
    | none => rw [hf] at h; cases h; exact ⟨[], rfl⟩
    | some ss =>
      rw [hf] at h
      dsimp only at h
      split at h
      · cases h; exact ⟨[], rfl⟩
      · cases hr : run E (evalFile E n) path ss { ws with log := ws.log ++ [.read ws.cur path], ast := path } with
        | ret b w =>
          rw [hr] at h
          cases h
          obtain ⟨d, hd⟩ := (run_keep h1 hr).log
          exact ⟨d, by simpa using hd⟩
        | bad => rw [hr] at h; cases h
        | fuel => rw [hr] at h; cases h

/-- C110: a subproject is looked for in the directory of subprojects at the top of the project that asks for it (wherever in this the call is), and built at the same place
of the build tree; the first file it reads is `meson.build` there; and the build goes on where it was. -/
theorem subproject_place {E : Env} {n : Nat} {name : Bytes} {req : Req} {p : Proj} {ws : Ws} (hi : Inv ws) (hp : ws.projs[ws.cur]? = some p)
    (h1 : 0 ∉ p.src) (h2 : 0 ∉ p.bld) (h3 : 0 ∉ p.subs ∧ Path.Spec.isAbs p.subs = false) (h4 : 0 ∉ name ∧ Path.Spec.isAbs name = false)
    (hnew : ∀ id, (name, id) ∉ ws.cache) (hr : req ≠ .skip) :
    ∃ src bld, Path.Spec.comps src = Path.Spec.comps p.src ++ Path.Spec.comps p.subs ++ Path.Spec.comps name ∧ Path.Spec.isAbs src = Path.Spec.isAbs p.src ∧
      Path.Spec.comps bld = Path.Spec.comps p.bld ++ Path.Spec.comps p.subs ++ Path.Spec.comps name ∧ Path.Spec.isAbs bld = Path.Spec.isAbs p.bld ∧
      (E.hasDir src = false → exec E (evalFile E n) (.subproject name req) ws = .ret (decide (req ≠ .required)) ws) ∧
      (E.hasDir src = true → ∀ ok ws', exec E (evalFile E n) (.subproject name req) ws = .ret ok ws' →
        ws'.cur = ws.cur ∧ (∃ q, ws'.projs[ws.projs.length]? = some q ∧ q.src = src ∧ q.bld = bld ∧ q.cwd = src ∧ q.build = bld) ∧
        ∃ d, ws'.log = ws.log ++ Ev.read ws.projs.length (Path.join src (ascii "meson.build")) :: d) := by
  obtain ⟨a1, a2, a3⟩ := Path.join_facts p.src p.subs h1 h3.1
  obtain ⟨b1, b2, b3⟩ := Path.push_comps _ name a3 h4.1
  obtain ⟨c1, c2, c3⟩ := Path.join_facts p.bld p.subs h2 h3.1
  obtain ⟨d1, d2, d3⟩ := Path.push_comps _ name c3 h4.1
  have hfind : ¬ (ws.cache.find? fun e => e.1 == name).isSome = true := by
    intro hx
    obtain ⟨e, he⟩ := Option.isSome_iff_exists.1 hx
    have e1 : e.1 = name := by simpa using List.find?_some he
    exact hnew e.2 (by rw [← e1]; exact List.mem_of_find?_eq_some he)
  refine ⟨Path.push (Path.join p.src p.subs) name, Path.push (Path.join p.bld p.subs) name, by simp [b1, a1, h3.2, h4.2], by simp [b2, a2, h3.2, h4.2],
    by simp [d1, c1, h3.2, h4.2], by simp [d2, c2, h3.2, h4.2], ?_, ?_⟩
  · intro hd
    unfold exec
    rw [hp]
    dsimp only
    unfold subproject
    rw [if_neg hfind, if_neg hr]
    dsimp only
    rw [if_pos (by simp [hd])]
  · intro hd ok ws' h
    have hk := (exec_sound (evalFile_sound E n) hi h).2
    unfold exec at h
    rw [hp] at h
    dsimp only at h
    unfold subproject at h
    rw [if_neg hfind, if_neg hr] at h
    dsimp only at h
    rw [if_neg (by simp [hd])] at h
    have hin : Inv (newProject (Path.push (Path.join p.src p.subs) name) (Path.push (Path.join p.bld p.subs) name) ws) := new_inv (.inl hi)
    cases he : evalFile E n (Path.join (Path.push (Path.join p.src p.subs) name) (ascii "meson.build")) true
        (newProject (Path.push (Path.join p.src p.subs) name) (Path.push (Path.join p.bld p.subs) name) ws) with
    | bad => rw [he] at h; cases h
    | fuel => rw [he] at h; cases h
    | ret b w =>
      obtain ⟨d, hlog⟩ := evalFile_reads E n _ _ _ _ _ hin he
      obtain ⟨q, hq, e1, e2, e3, e4, _⟩ := (evalFile_sound E n _ _ _ _ _ hin he).2.projs ws.projs.length
        { src := Path.push (Path.join p.src p.subs) name, bld := Path.push (Path.join p.bld p.subs) name, cwd := Path.push (Path.join p.src p.subs) name,
          build := Path.push (Path.join p.bld p.subs) name } (by simp [newProject])
      rw [he] at h
      cases b with
      | true => cases h; exact ⟨rfl, ⟨q, hq, e1, e2, e3, e4⟩, d, hlog⟩
      | false =>
        cases h
        exact ⟨rfl, ⟨{ q with notOk := true }, by simp [hq], e1, e2, e3, e4⟩, d, hlog⟩

/-- The main project asks for `z` from a directory below. -/
example : outcome (configure (exEnv [("/s/meson.build", [.project [] (some (ascii "sub")), .subdir (ascii "d") true]), ("/s/d/meson.build", [.subproject (ascii "z") .required]),
      ("/s/sub/z/meson.build", [.project [] none, .files (ascii "x")])]) 9 (ascii "/s") (ascii "/b")) =
    some (true, [.read 0 (ascii "/s/meson.build"), .enter 0 (ascii "d"), .read 0 (ascii "/s/d/meson.build"), .read 1 (ascii "/s/sub/z/meson.build"),
      .file 1 (ascii "x") (ascii "/s/sub/z/x"), .leave 0]) := by decide +kernel

end Muon.Proj
