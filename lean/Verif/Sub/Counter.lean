import Verif.Sub.More
/-
Examples of subprojects, and what is wrong (C101).
-/
namespace Muon.Sub
open Muon Spec

/-- A machine that has the given project files, and the files of wraps; the state is the directories made. -/
def exHost (dirs : List Bytes) (files : List (Bytes × Bytes)) : Wrap.Host (List Bytes) where
  isFile _ p := files.any (·.1 == p)
  isDir _ p := dirs.contains p
  read _ p := (files.find? (·.1 == p)).map (·.2)
  mkdir s p := (s ++ [p], true)
  extract s _ _ := (s, true)
  copyDir s _ _ := (s, true)
  run s _ _ _ := (s, true)
  fetch _ := some []
  hasPatch := true
  sum _ _ := true

def call (n : String) (r : Req := .required) (v : Option (List Bytes) := none) : Call := { name := ascii n, req := r, version := v }

/-- Files are named by one letter that says what they do. -/
def exProg (s : Bytes) : Prog :=
  if s = ascii "a" then .project (ascii "1.2") (ascii "subprojects") (.set (ascii "x") 7 (.target (ascii "ta") (.stop true)))
  else if s = ascii "b" then .project (ascii "2") (ascii "subprojects") (.sub (call "a") fun o => .member o (ascii "x") fun v =>
    .set (ascii "y") (v.getD 0 + 1) (.target (ascii "tb") (.stop true)))
  else if s = ascii "f" then .target (ascii "tf") (.stop false)
  else if s = ascii "g" then .sub (call "a") fun _ => .target (ascii "tg") (.stop false)
  else if s = ascii "n" then .sub (call "n") fun _ => .stop true
  else .stop true

def exEnv (dirs : List Bytes) (files : List (Bytes × Bytes)) : Env (List Bytes) where
  host := exHost dirs files
  prog := exProg
  options _ _ := true
  download := true
  buildRoot _ := true

def dir (n : String) : Bytes := ascii ("/r/subprojects/" ++ n)
def file (n : String) : Bytes := ascii ("/r/subprojects/" ++ n ++ "/meson.build")

/-- Two subprojects that are there, `b` and `a`; `b` uses `a`, in its own `subprojects`. One that fails, `f`; one that uses `a` and fails, `g`. -/
def E0 : Env (List Bytes) := exEnv [dir "a", dir "b", dir "b/subprojects/a", dir "f", dir "g", dir "g/subprojects/a", dir "n", dir "n/subprojects/n", dir "empty"]
  [(file "a", ascii "a"), (file "b", ascii "b"), (file "b/subprojects/a", ascii "a"), (file "f", ascii "f"), (file "g", ascii "g"), (file "g/subprojects/a", ascii "a"),
   (file "n", ascii "n"), (file "n/subprojects/n", ascii "a"),
   (dir "empty.wrap", ascii "[wrap-file]\nsource_filename = e.tar\nsource_url = u\n"),
   (dir "w.wrap", ascii "[wrap-file]\ndirectory = w-1.0\nsource_filename = e.tar\nsource_url = u\n"), (file "w-1.0", ascii "a")]

def st0 : St (List Bytes) := start [] (ascii "/r") (ascii "/r/build")

/-- The outcome of several calls, one after another, by the main project: the results, and the state. -/
def calls (E : Env (List Bytes)) (n : Nat) : List Call → St (List Bytes) → List (Option Obj) × Option (St (List Bytes))
  | [], st => ([], some st)
  | c :: cs, st =>
    match subproject E (eval E n) st c with
    | .ret st' r => (r :: (calls E n cs st').1, (calls E n cs st').2)
    | _ => ([], none)

example : Ordered st0 := start_ordered _ _ _
/-- `b` is found; `a`, which it uses, is evaluated meanwhile, and the first project is the current one again. -/
example : (calls E0 1 [call "b"] st0).1 = [some (.found 1)] ∧
    (calls E0 1 [call "b"] st0).2.map (fun st => (st.files, st.projects.map (·.name), st.projects.map (·.targets), st.cur)) =
      some ([ascii "/r/build/subprojects/b/subprojects/a", ascii "/r/build/subprojects/b"], [[], ascii "b", ascii "a"], [[], [ascii "tb"], [ascii "ta"]], 0) := by
  decide +kernel
/-- Afterwards `a` is known, and is not looked for in the main project. -/
example : (calls E0 1 [call "b", call "a", call "b"] st0).1 = [some (.found 1), some (.found 2), some (.found 1)] := by decide +kernel
/-- The variables of a subproject can be got. -/
example : (calls E0 1 [call "b"] st0).2.bind (fun st => (st.projects[1]?).bind (·.vars (ascii "y"))) = some 8 := by decide +kernel
example : (calls E0 1 [call "b"] st0).2.bind (fun st => (st.projects[0]?).bind (·.vars (ascii "y"))) = none := by decide +kernel
/-- One that fails is not found and is not built; one that is not there, or is disabled, is not found. -/
example : (calls E0 1 [call "f" .auto, call "zz" .auto, call "a" .skip, call "f"] st0).1 = [some .missing, some .missing, some .missing, none] := by decide +kernel
example : (calls E0 1 [call "f" .auto] st0).2.map built = some [] := by decide +kernel
example : (calls E0 1 [call "b"] st0).2.map built = some [ascii "tb", ascii "ta"] := by decide +kernel
/-- Versions of required subprojects. -/
example : (calls E0 1 [call "a" .required (some [ascii ">=1.2"])] st0).1 = [some (.found 1)] ∧ (calls E0 1 [call "a" .required (some [ascii ">1.2"])] st0).1 = [none] := by
  decide +kernel
/-- Calls that go deeper than the depth have no outcome. -/
example : (calls E0 0 [call "b"] st0).1 = [] := by decide +kernel
/-- It is where it is. -/
example : Located E0.host true [] (dir "a") (ascii "/r/build/subprojects/a") [] (dir "a") (ascii "/r/build/subprojects/a") :=
  .dir (by decide +kernel) (by decide +kernel)
example : prepare E0.host [] (dir "w") (ascii "/r/build/subprojects/w") true true = .ok ([], .there (dir "w-1.0") (ascii "/r/build/subprojects/w-1.0")) := by decide +kernel

/-- The version of a subproject that is not required is not looked at: it is found although it is of the wrong version. -/
theorem version_auto_counterexample : (calls E0 1 [call "a" .auto (some [ascii ">1.2"])] st0).1 = [some (.found 1)] := by decide +kernel

/-- The version is not looked at again: a second call succeeds that would have failed if it were the first. -/
theorem version_again_counterexample :
    (calls E0 1 [call "a", call "a" .required (some [ascii ">1.2"])] st0).1 = [some (.found 1), some (.found 1)] := by decide +kernel

/-- A disabled subproject is found if it was evaluated before. -/
theorem disabled_counterexample : (calls E0 1 [call "a", call "a" .skip] st0).1 = [some (.found 1), some (.found 1)] := by decide +kernel

/-- A subproject that failed is evaluated again on each call. -/
theorem failed_again_counterexample :
    (calls E0 1 [call "f" .auto, call "f" .auto] st0).2.map (fun st => st.projects.map (·.name)) = some [[], ascii "f", ascii "f"] := by decide +kernel

/-- What a subproject that failed used is still built. -/
theorem failed_nested_counterexample : (calls E0 1 [call "g" .auto] st0).2.map built = some [ascii "ta"] := by decide +kernel

/-- A subproject in a subproject of the same name is another one: which one is found by this name changes. -/
theorem same_name_counterexample :
    (calls E0 2 [call "n"] st0).2.map (fun st => (st.projects.map (·.name), st.cache (ascii "n"))) = some ([[], ascii "n", ascii "n"], some 1) ∧
    (calls E0 2 [call "n"] st0).2.map built = some [ascii "ta"] := by decide +kernel

/-- If a wrap names another directory, the directory made is not the build directory of the project. -/
theorem build_dir_counterexample :
    (calls E0 1 [call "w"] st0).2.map (fun st => (st.files, st.projects.map (·.build))) =
      some ([ascii "/r/build/subprojects/w"], [ascii "/r/build", ascii "/r/build/subprojects/w-1.0"]) := by decide +kernel

/-- A directory without `meson.build`, as an interrupted download leaves it, is not fetched again. -/
theorem empty_dir_counterexample :
    E0.host.isFile [] (dir "empty.wrap") = true ∧ (calls E0 1 [call "empty"] st0).1 = [none] := by decide +kernel

end Muon.Sub
