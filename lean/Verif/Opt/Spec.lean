import Verif.Opt.Model
/-
What a value of an option must be, and the form of an assignment on the command line.
-/
namespace Muon.Opt.Spec
open Muon Muon.Opt

/-- The value has the type of the option, is one of its choices and is in its range. -/
def Valid (o : Opt) (v : OV) : Prop :=
  match o.ty, v with
  | .string, .str _ => True
  | .boolean, .bool _ => True
  | .combo, .str s => ∃ cs, o.choices = some cs ∧ El.s s ∈ cs
  | .integer, .int n => (∀ m, o.max = some m → n ≤ m) ∧ (∀ m, o.min = some m → m ≤ n)
  | .array, .arr l => ∀ cs, o.choices = some cs → ∀ e ∈ l, e ∈ cs
  | .feature, .feature _ => True
  | _, _ => False

/-- `subproject:key=value`, or `key=value`. -/
def written (sub : Option Bytes) (key val : Bytes) : Bytes :=
  (match sub with | some p => p ++ [58] | none => []) ++ (key ++ (61 :: val))

/-- Names have no `:` and no `=`, and are not empty. -/
def Name (s : Bytes) : Prop := s ≠ [] ∧ 58 ∉ s ∧ 61 ∉ s

/-- The number written with decimal digits. -/
def decimal (ds : Bytes) : Nat := ds.foldl (fun n c => n * 10 + (c.toNat - 48)) 0

/-- A decimal number with an optional sign after any blanks; numbers of more than 64 bits become the nearest one. -/
def Number (s : Bytes) (n : Int) : Prop :=
  ∃ sp sign ds, s = sp ++ (sign ++ ds) ∧ (∀ c ∈ sp, isSpace c = true) ∧ ds ≠ [] ∧ (∀ c ∈ ds, isDigit c = true) ∧
    ((sign = [] ∨ sign = [43]) ∧ n = min (2 ^ 63 - 1) (decimal ds) ∨ sign = [45] ∧ n = max (-2 ^ 63) (-(decimal ds : Int)))

/-- Parts with commas between them. -/
def commaJoin : List Bytes → Bytes
  | [] => []
  | [p] => p
  | p :: ps => p ++ (44 :: commaJoin ps)

/-- What a text stands for, for an option of that type; `ev` is the value of text in brackets. -/
def Text (ev : Bytes → Option OV) (ty : Ty) (s : Bytes) (v : OV) : Prop :=
  match ty with
  | .string => v = .str s
  | .combo => v = .str s
  | .boolean => (s = ascii "true" ∧ v = .bool true) ∨ (s = ascii "false" ∧ v = .bool false)
  | .integer => ∃ n, Number s n ∧ v = .int n
  | .feature => (s = ascii "auto" ∧ v = .feature 0) ∨ (s = ascii "enabled" ∧ v = .feature 1) ∨ (s = ascii "disabled" ∧ v = .feature 2)
  | .array => (s = [] ∧ v = .arr []) ∨ (s.head? = some 91 ∧ ev s = some v) ∨
      (s ≠ [] ∧ s.head? ≠ some 91 ∧ ∃ ps, commaJoin ps = s ∧ (∀ p ∈ ps, 44 ∉ p) ∧ v = .arr (ps.map .s))

end Muon.Opt.Spec
