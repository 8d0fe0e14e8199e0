import Verif.Prog.Model
/-
What C106 says about finding and running programs, apart from how it is done.
-/
namespace Muon.Prog.Spec
open Muon

/-! ### Versions -/

/-- A byte of a version: a digit or a dot. -/
def Ver (c : UInt8) : Prop := c ∈ ascii "0123456789."

/-- The longest stretches of bytes of versions in a text, in order. -/
inductive Cut : Bytes → List Bytes → Prop
  | nil : Cut [] []
  | other (c : UInt8) (s : Bytes) (ws : List Bytes) : ¬ Ver c → Cut s ws → Cut (c :: s) ws
  | run (w s : Bytes) (ws : List Bytes) : w ≠ [] → (∀ c ∈ w, Ver c) → (∀ c t, s = c :: t → ¬ Ver c) → Cut s ws →
      Cut (w ++ s) (w :: ws)

/-- The first one with the largest number of dots, if there is a dot. -/
def Best (ws : List Bytes) (v : Bytes) : Prop :=
  ∃ a b, ws = a ++ v :: b ∧ 0 < v.count 46 ∧ (∀ x ∈ a, x.count 46 < v.count 46) ∧ (∀ x ∈ b, x.count 46 ≤ v.count 46)

/-! ### Programs -/

/-- A version meets all of the constraints; there has to be one. -/
def Sat (v : Bytes) (l : List Bytes) : Prop := l ≠ [] ∧ ∀ x ∈ l, Version.versionCompare1 v x = true

/-- The command succeeds with `--version`, and `v` is the version in what it prints. -/
def Says (E : Env) (cmd : List Bytes) (v : Bytes) : Prop := ∃ out, E.prints cmd = some out ∧ guessVersion out = some v

/-- The command says a version that is wanted, if one is wanted. -/
def Meets (E : Env) (vs : Option (List Bytes)) (cmd : List Bytes) : Prop :=
  ∀ l, vs = some l → ∃ v, Says E cmd v ∧ Sat v l

/-- An override gives a program: of two that have versions, the version is wanted. -/
inductive Gives (E : Env) (vs : Option (List Bytes)) : Over → Obj → Prop
  | file (p : Bytes) (ver : Option Bytes) : (∀ l v, vs = some l → ver = some v → Sat v l) →
      Gives E vs (.pair (.file p) ver) (.ext ⟨true, false, some [p], none⟩)
  | other (o : Obj) (ver : Option Bytes) : (∀ p, o ≠ .file p) → (∀ l v, vs = some l → ver = some v → Sat v l) →
      Gives E vs (.pair o ver) o
  | prog (e : Ext) : e.found = true →
      (∀ l, vs = some l → ∃ cmd, e.cmd = some cmd ∧ ∀ v, Says E cmd v → Sat v l) → Gives E vs (.prog (.ext e)) (.ext e)

/-- The name is overridden with a program that is wanted. -/
def Overridden (E : Env) (vs : Option (List Bytes)) (st : St) (n : Bytes) (o : Obj) : Prop :=
  ∃ w, st.over n = some w ∧ Gives E vs w o

/-- The file that a name stands for: in the first of the directories that has one; else in the directory of the build
definition; else what `PATH` gives. -/
inductive At (E : Env) (dirs : Option (List Bytes)) (s : Bytes) : Bytes → Prop
  | dir (l a b : List Bytes) (d : Bytes) : dirs = some l → l = a ++ d :: b → (∀ x ∈ a, E.isFile (Path.join x s) = false) →
      E.isFile (Path.join d s) = true → At E dirs s (Path.join d s)
  | tree : (∀ l, dirs = some l → ∀ x ∈ l, E.isFile (Path.join x s) = false) → E.isFile (Path.join E.cwd s) = true →
      At E dirs s (Path.join E.cwd s)
  | search (p : Bytes) : (∀ l, dirs = some l → ∀ x ∈ l, E.isFile (Path.join x s) = false) →
      E.isFile (Path.join E.cwd s) = false → Exec.findCmd E.files s = .ok p → At E dirs s p

/-- There is no such file. -/
def Nowhere (E : Env) (dirs : Option (List Bytes)) (s : Bytes) : Prop := s ≠ [] ∧ ∀ p, ¬ At E dirs s p

/-- No override is a python installation, and those that are found have a command. -/
def Clean (st : St) : Prop :=
  ∀ n w, st.over n = some w → (∀ o, w = .prog o → ∃ e, o = .ext e ∧ (e.found = true → e.cmd ≠ none))

/-- Subprojects too override programs that way, and are not found if `subproject()` fails. -/
def SubClean (E : Env) : Prop := ∀ st s, Clean st → Clean (E.sub st s).1

/-- A subproject is not found if `subproject()` fails. -/
def SubSound (E : Env) : Prop := ∀ st s, (E.sub st s).2.1 = false → (E.sub st s).2.2 = false

/-- Evaluating a subproject leaves the override of a name alone. -/
def SubKeeps (E : Env) (n : Bytes) : Prop := ∀ st s, (E.sub st s).1.over n = st.over n

/-- What a build definition does between: it overrides a program, looks for programs, or runs a command. -/
inductive Step
  | override (pver : Option Bytes) (n : Bytes) (o : Obj)
  | find (E : Env) (c : Call)
  | run (E : Env) (exec : List Bytes → Option Ran) (check capture : Option Bool) (args : List Obj)

/-- The state after a step, which must not fail. -/
def Step.go : Step → St → Res St
  | .override p n o, st => overrideFindProgram p n o st
  | .find E c, st => findProgram E c st >>= fun r => .ok r.1
  | .run E x ch ca a, st => runCommand E x ch ca st a >>= fun r => .ok r.1

/-- A step that leaves the override of a name alone. -/
def Step.Spares (n : Bytes) : Step → Prop
  | .override _ m _ => m ≠ n
  | .find E _ => SubKeeps E n
  | .run E _ _ _ _ => SubKeeps E n

/-- The states after steps. -/
def steps : List Step → St → Res St
  | [], st => .ok st
  | x :: xs, st => Step.go x st >>= steps xs

/-- Where a program that was found comes from: an override, a file, the built-in samurai, or a program that was given. -/
inductive From (E : Env) (dirs vs : Option (List Bytes)) (st : St) : Obj → Obj → Prop
  | override (s : Bytes) (o : Obj) : Overridden E vs st s o → From E dirs vs st (.str s) o
  | str (s p : Bytes) (e : Ext) : At E dirs s p → Meets E vs [p] → e.found = true → e.cmd = some [p] →
      From E dirs vs st (.str s) (.ext e)
  | file (s p : Bytes) (e : Ext) : At E dirs s p → Meets E vs [p] → e.found = true → e.cmd = some [p] →
      From E dirs vs st (.file s) (.ext e)
  | samurai (s : Bytes) (e : Ext) : E.samurai = true → (s = ascii "ninja" ∨ s = ascii "samu") → Nowhere E dirs s →
      e.found = true → e.cmd = some [E.argv0, ascii "samu"] → From E dirs vs st (.str s) (.ext e)
  | ext (e : Ext) : e.found = true → From E dirs vs st (.ext e) (.ext e)
  | python (e : Ext) : e.found = true → From E dirs vs st (.python e) (.ext e)

/-- A program that can be used. -/
def Usable (o : Obj) : Prop := ∀ e, o = .ext e → e.found = true

end Muon.Prog.Spec
