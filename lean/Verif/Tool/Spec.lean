import Verif.Tool.Model
/-
What the tools of the built-in ninja are for, without the functions of the model: JSON (RFC 8259, for the values a compilation database
is made of), and what it means to need a file.
-/
namespace Muon.Tool.Spec
open Muon

/-! ### JSON -/

/-- Whitespace. -/
def Ws (t : Bytes) : Prop := ∀ c ∈ t, c = 32 ∨ c = 9 ∨ c = 10 ∨ c = 13

/-- Text between the quotes of a string, and the string it stands for. Escapes with `\u` are left out. -/
inductive Body : Bytes → Bytes → Prop
  | nil : Body [] []
  | plain (c : UInt8) {t s : Bytes} : 32 ≤ c.toNat → c ≠ 34 → c ≠ 92 → Body t s → Body (c :: t) (c :: s)
  | quote {t s : Bytes} : Body t s → Body (92 :: 34 :: t) (34 :: s)
  | back {t s : Bytes} : Body t s → Body (92 :: 92 :: t) (92 :: s)
  | slash {t s : Bytes} : Body t s → Body (92 :: 47 :: t) (47 :: s)
  | bs {t s : Bytes} : Body t s → Body (92 :: 98 :: t) (8 :: s)
  | ff {t s : Bytes} : Body t s → Body (92 :: 102 :: t) (12 :: s)
  | nl {t s : Bytes} : Body t s → Body (92 :: 110 :: t) (10 :: s)
  | cr {t s : Bytes} : Body t s → Body (92 :: 114 :: t) (13 :: s)
  | tab {t s : Bytes} : Body t s → Body (92 :: 116 :: t) (9 :: s)

/-- A string and its text. -/
def Str (s t : Bytes) : Prop := ∃ b, Body b s ∧ t = [34] ++ b ++ [34]

/-- Texts of the elements, with commas between them. -/
inductive SepBy {α : Type} (P : α → Bytes → Prop) : List α → Bytes → Prop
  | one {x : α} {t : Bytes} : P x t → SepBy P [x] t
  | cons {x : α} {t : Bytes} {xs : List α} {u : Bytes} : P x t → SepBy P xs u → SepBy P (x :: xs) (t ++ [44] ++ u)

/-- A member of an object whose value is a string. -/
def Member (m : Bytes × Bytes) (t : Bytes) : Prop :=
  ∃ w₁ w₂ w₃ w₄ tk tv, Ws w₁ ∧ Ws w₂ ∧ Ws w₃ ∧ Ws w₄ ∧ Str m.1 tk ∧ Str m.2 tv ∧
    t = w₁ ++ tk ++ w₂ ++ [58] ++ w₃ ++ tv ++ w₄

/-- An object of strings. -/
def Obj (ms : List (Bytes × Bytes)) (t : Bytes) : Prop :=
  ∃ w₁ w₂ u, Ws w₁ ∧ Ws w₂ ∧ (ms = [] ∧ Ws u ∨ SepBy Member ms u) ∧ t = w₁ ++ [123] ++ u ++ [125] ++ w₂

/-- A text that is an array of objects of strings. -/
def Doc (os : List (List (Bytes × Bytes))) (t : Bytes) : Prop :=
  ∃ w₁ w₂ u, Ws w₁ ∧ Ws w₂ ∧ (os = [] ∧ Ws u ∨ SepBy Obj os u) ∧ t = w₁ ++ [91] ++ u ++ [93] ++ w₂

/-- Text a JSON string can hold without `\u` or the short escapes: no control characters. -/
def Printable (s : Bytes) : Prop := ∀ c ∈ s, 32 ≤ c.toNat

/-- The members of an entry of a compilation database. -/
def entryOf (dir cmd file output : Bytes) : List (Bytes × Bytes) :=
  [(ascii "directory", dir), (ascii "command", cmd), (ascii "file", file), (ascii "output", output)]

end Muon.Tool.Spec

namespace Muon.Tool
open Muon

/-! ### Graphs -/

/-- A file that a run of the edge makes: an output, the response file or the file of dependencies. -/
def Makes (g : Graph) (e : Edge) (q : Bytes) : Prop :=
  (∃ n ∈ e.outs, g.path n = q) ∨ e.rsp = some q ∨ e.depfile = some q

/-- The step that makes a file is `e`. -/
def Gen (g : Graph) (n : Nat) (e : Edge) : Prop := ∃ k, g.gen n = some k ∧ g.edges[k]? = some e

/-- `m` is a file that is made on the way to `n`, with no `phony` step between them: it is `n` itself, or it is made on
the way to an input of the step that makes `n`. -/
inductive Under (g : Graph) : Nat → Nat → Prop
  | self {n : Nat} {e : Edge} : Gen g n e → e.phony = false → Under g n n
  | step {n i m : Nat} {e : Edge} : Gen g n e → e.phony = false → i ∈ e.ins → Under g i m → Under g n m

/-- The graph has no cycle: files can be given heights so that every step makes its outputs from lower ones. -/
def Acyclic (g : Graph) : Prop :=
  ∃ height : Nat → Nat, ∀ n e i, Gen g n e → i ∈ e.ins → height i < height n

/-- A step is needed for a file: it makes the file, or it is needed for an input of the step that makes it. -/
inductive Needed (g : Graph) : Nat → Nat → Prop
  | self {n k : Nat} : g.gen n = some k → Needed g n k
  | step {n i j k : Nat} {e : Edge} : g.gen n = some j → g.edges[j]? = some e → i ∈ e.ins → Needed g i k → Needed g n k

end Muon.Tool
