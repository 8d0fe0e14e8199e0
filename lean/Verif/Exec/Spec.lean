import Verif.Exec.Model
/-
Specification for C81-C83: how options are written, what the system makes of the first line of a script.
-/
namespace Muon.Exec.Spec
open Muon

/-- Command lines with the options `is` and the operands `ops`, as POSIX describes them; `takes` says whether an option takes an argument. -/
inductive Says (takes : UInt8 → Option Bool) : List Item → List Bytes → List Bytes → Prop
  /-- Operands only: the first does not look like an option. -/
  | operands (ops : List Bytes) (h : ∀ a, ops.head? = some a → a.head? ≠ some 45 ∨ a = [45]) : Says takes [] ops ops
  /-- `--` ends the options. -/
  | dashes (ops : List Bytes) : Says takes [] ops ([45, 45] :: ops)
  /-- `-abc`: options without arguments. -/
  | flags (fs : Bytes) (hne : fs ≠ []) (hf : ∀ c ∈ fs, takes c = some false) (hd : fs ≠ [45]) {is : List Item} {ops argv : List Bytes} (h : Says takes is ops argv) :
      Says takes (fs.map (fun c => .opt c []) ++ is) ops ((45 :: fs) :: argv)
  /-- `-abcvalue`: the last takes an argument. -/
  | attached (fs : Bytes) (hf : ∀ c ∈ fs, takes c = some false) (c : UInt8) (hc : takes c = some true) (x : Bytes) (hx : x ≠ []) {is : List Item} {ops argv : List Bytes}
      (h : Says takes is ops argv) : Says takes (fs.map (fun c => .opt c []) ++ .opt c x :: is) ops ((45 :: (fs ++ c :: x)) :: argv)
  /-- `-abc value`. -/
  | separate (fs : Bytes) (hf : ∀ c ∈ fs, takes c = some false) (c : UInt8) (hc : takes c = some true) (hd : fs ++ [c] ≠ [45]) (x : Bytes) {is : List Item} {ops argv : List Bytes}
      (h : Says takes is ops argv) : Says takes (fs.map (fun c => .opt c []) ++ .opt c x :: is) ops ((45 :: (fs ++ [c])) :: x :: argv)

/-- The line that the system (Linux) reads from a script: `#!`, blanks, the interpreter, blanks, one argument, blanks. -/
def ScriptLine (line name : Bytes) (arg : Option Bytes) : Prop :=
  name ≠ [] ∧ (∀ c ∈ name, c ∉ ascii " \t") ∧ (∀ x, arg = some x → x ≠ [] ∧ x.head? ≠ some 32 ∧ x.head? ≠ some 9 ∧ x.getLast? ≠ some 32 ∧ x.getLast? ≠ some 9) ∧
  ∃ b1 b2 b3 : Bytes, (∀ c ∈ b1 ++ b2 ++ b3, c ∈ ascii " \t") ∧ (arg.isSome → b2 ≠ []) ∧ line = ascii "#!" ++ b1 ++ name ++ b2 ++ arg.getD [] ++ b3

/-- The parts of a list between colons. -/
def parts : Bytes → List Bytes
  | [] => [[]]
  | c :: r => if c = 58 then [] :: parts r else match parts r with
    | [] => [[c]]
    | p :: ps => (c :: p) :: ps

end Muon.Exec.Spec
