import Verif.Select.Model
import Verif.Str.Spec
/-
What `muon test` is asked to run. `main` says whether a project is the main project.
-/
namespace Muon.Select.Spec
open Muon

/-- The argument of `-s`, `-e` or `exclude_suites` designates the suite or setup `name` of the project `proj`: written
`proj:name`, or, for the main project, `name` or `:name`. -/
inductive Designates (main : Bool) (proj name : Bytes) : Bytes → Prop
  | qualified : proj ≠ [] → 58 ∉ proj → Designates main proj name (proj ++ 58 :: name)
  | plain : main = true → 58 ∉ name → Designates main proj name name
  | colon : main = true → Designates main proj name (58 :: name)

/-- A test named on the command line: `project:pattern`, `:pattern` or `pattern`. An empty pattern stands for every
name. -/
inductive Names (proj name : Bytes) : Bytes → Prop
  | plain (n : Bytes) : 58 ∉ n → n = [] ∨ Str.Spec.Matches n name → Names proj name n
  | qualified (p n : Bytes) : 58 ∉ p → p = [] ∨ p = proj → n = [] ∨ Str.Spec.Matches n name →
      Names proj name (p ++ 58 :: n)

/-- The test is to be run: it is of the category asked for, it is in one of the suites asked for (or, if none is, in no
suite excluded by the setup), and one of the names given, if any, is its name. -/
def Selected (o : Opts) (ex : Option (List Bytes)) (main : Bool) (proj : Bytes) (t : Test) : Prop :=
  t.benchmark = o.benchmark ∧
  (o.suites ≠ [] → ∃ s ∈ t.suites.getD [], ∃ e ∈ o.suites, Designates main proj s e) ∧
  (o.suites = [] → ∀ s ∈ t.suites.getD [], ∀ e ∈ ex.getD [], ¬ Designates main proj s e) ∧
  (o.tests ≠ [] → ∃ n ∈ o.tests, Names proj t.name n)

/-- The setup is one that is asked for: by `-e`, or else as a default. -/
def Wanted (o : Opts) (main : Bool) (proj : Bytes) (s : Setup) : Prop :=
  match o.setup with
  | some e => Designates main proj s.name e
  | none => s.isDefault = true

/-- `l` is the list without the elements that are not in `P`. -/
inductive Kept {α : Type} (P : α → Prop) : List α → List α → Prop
  | nil : Kept P [] []
  | take (x : α) (l r : List α) : P x → Kept P l r → Kept P (x :: l) (x :: r)
  | skip (x : α) (l r : List α) : ¬ P x → Kept P l r → Kept P (x :: l) r

/-- The suites excluded by the first setup in the list that is asked for. -/
inductive Excludes (W : Setup → Prop) : List Setup → Option (List Bytes) → Prop
  | here (s : Setup) (l : List Setup) : W s → Excludes W (s :: l) s.exclude
  | later (s : Setup) (l : List Setup) (ex : Option (List Bytes)) : ¬ W s → Excludes W l ex → Excludes W (s :: l) ex

/-- What is run in each project, those where nothing is run left out: `S m p` are the tests to be run in the project `p`,
where `m` says whether it is the main project, the first. -/
inductive Each (S : Bool → Proj → Test → Prop) : Bool → List Proj → List (Bytes × List Test) → Prop
  | nil (m : Bool) : Each S m [] []
  | none (m : Bool) (p : Proj) (ps : List Proj) (r : List (Bytes × List Test)) : Kept (S m p) p.tests [] →
      Each S false ps r → Each S m (p :: ps) r
  | some (m : Bool) (p : Proj) (ps : List Proj) (ts : List Test) (r : List (Bytes × List Test)) :
      Kept (S m p) p.tests ts → ts ≠ [] → Each S false ps r → Each S m (p :: ps) ((p.name, ts) :: r)

end Muon.Select.Spec
