import Verif.Proj.Model
/-
What the calls of a build are for, said from what happened.
-/
namespace Muon.Proj.Spec
open Muon Muon.Proj

/-- The names of the languages. -/
def name : Lang → Bytes
  | .null => ascii "null"
  | .c => ascii "c"
  | .cHdr => ascii "c_hdr"
  | .cpp => ascii "cpp"
  | .cppHdr => ascii "cpp_hdr"
  | .cObj => ascii "c_obj"
  | .objc => ascii "objc"
  | .assembly => ascii "assembly"
  | .llvmIr => ascii "llvm_ir"
  | .nasm => ascii "nasm"

/-- It is the name of a language. -/
def known (n : Bytes) : Bool :=
  [Lang.null, .c, .cHdr, .cpp, .cppHdr, .cObj, .objc, .assembly, .llvmIr, .nasm].any fun l => n == name l

/-- The arguments, as often as the language is named. -/
def times (l : Lang) (ns as : List Bytes) : List Bytes := (ns.filter (· == name l)).flatMap fun _ => as

/-- One of the lists. -/
def sel (c l i : List Bytes) : Kind → List Bytes
  | .args => c
  | .link => l
  | .incs => i

/-- What a call gives to a language of a project: the named languages count up to the first unknown one, and for dependencies up to the first
one for which there was no compiler. -/
def given (k : Kind) (i : Nat) (l : Lang) : Ev → List Bytes
  | .args q false k' ns as => if q = i ∧ k' = k then times l (ns.takeWhile known) as else []
  | .deps q ns decl ca la inc => if q = i then times l (ns.takeWhile (decl.contains ·)) (sel ca la inc k) else []
  | _ => []

/-- What a call gives to a language of all projects. -/
def givenAll (k : Kind) (l : Lang) : Ev → List Bytes
  | .args _ true k' ns as => if k' = k then times l (ns.takeWhile known) as else []
  | _ => []

/-- The names of the directories of a project that were entered and not left: one event more. -/
def turn (i : Nat) (st : List Bytes) : Ev → List Bytes
  | .enter q n => if q = i then st ++ [n] else st
  | .leave q => if q = i then st.dropLast else st
  | _ => st

/-- The names of the directories of a project that were entered and not left. -/
def inside (i : Nat) (log : List Ev) : List Bytes := log.foldl (turn i) []

/-- A directory below a root, by the names that lead there. -/
def below (root : Bytes) (names : List Bytes) : Bytes := names.foldl Path.join root

/-- The project of an event. -/
def proj : Ev → Nat
  | .args q _ _ _ _ => q
  | .deps q _ _ _ _ _ => q
  | .file q _ _ => q
  | .enter q _ => q
  | .leave q => q
  | .read q _ => q

end Muon.Proj.Spec
