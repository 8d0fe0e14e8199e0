import Verif.Ini.Model
/-
What an INI file says.
-/
namespace Muon.Ini.Spec
open Muon Muon.Ini

def Blank (c : UInt8) : Prop := c = 32 ∨ c = 9 ∨ c = 13
def Blanks (b : Bytes) : Prop := ∀ c ∈ b, Blank c

/-- A text that does not end in a blank. -/
def EndTrimmed (b : Bytes) : Prop := ∀ c, b.getLast? = some c → ¬ Blank c
/-- A text that does not begin with a blank. -/
def StartTrimmed (b : Bytes) : Prop := ∀ c, b.head? = some c → ¬ Blank c

/-- What a line can be. -/
inductive Item
  | nothing
  | sect (name : Bytes)
  | pair (k v : Bytes)
  | invalid
  deriving DecidableEq, Repr

/-- A comment (`#`, and `;` in INI files), or nothing but blanks. -/
def Skipped (keyval : Bool) (l : Bytes) : Prop := l.head? = some 35 ∨ (keyval = false ∧ l.head? = some 59) ∨ Blanks l

/-- What a line is. In key/value files there are no sections, and other lines are skipped. -/
inductive Is (keyval : Bool) : Bytes → Item → Prop
  | nothing {l : Bytes} : Skipped keyval l → Is keyval l .nothing
  | sect {name r : Bytes} : keyval = false → 93 ∉ name → Is keyval (91 :: name ++ 93 :: r) (.sect name)
  | noEnd {r : Bytes} : keyval = false → 93 ∉ r → Is keyval (91 :: r) .invalid
  | pair {k b1 b2 v b3 : Bytes} : ¬ Skipped keyval (k ++ b1 ++ 61 :: b2 ++ v ++ b3) →
      (keyval = false → (k ++ b1 ++ 61 :: b2 ++ v ++ b3).head? ≠ some 91) →
      61 ∉ k → Blanks b1 → Blanks b2 → Blanks b3 → EndTrimmed k → StartTrimmed v → EndTrimmed v →
      Is keyval (k ++ b1 ++ 61 :: b2 ++ v ++ b3) (.pair k v)
  | noPair {l : Bytes} : ¬ Skipped keyval l → (keyval = false → l.head? ≠ some 91) → 61 ∉ l →
      Is keyval l (if keyval then .nothing else .invalid)

/-- The lines of a file from line `n` on in a section, what is reported, and whether all lines are valid. -/
inductive Says (keyval : Bool) : Option Bytes → Nat → List Bytes → List Event → Bool → Prop
  | nil {s : Option Bytes} {n : Nat} : Says keyval s n [] [] true
  | nothing {s : Option Bytes} {n : Nat} {l : Bytes} {ls : List Bytes} {es : List Event} {ok : Bool} :
      Is keyval l .nothing → Says keyval s (n + 1) ls es ok → Says keyval s n (l :: ls) es ok
  | sect {s : Option Bytes} {n : Nat} {l name : Bytes} {ls : List Bytes} {es : List Event} {ok : Bool} :
      Is keyval l (.sect name) → Says keyval (some name) (n + 1) ls es ok →
      Says keyval s n (l :: ls) (⟨some name, none, n⟩ :: es) ok
  | pair {s : Option Bytes} {n : Nat} {l k v : Bytes} {ls : List Bytes} {es : List Event} {ok : Bool} :
      Is keyval l (.pair k v) → Says keyval s (n + 1) ls es ok → Says keyval s n (l :: ls) (⟨s, some (k, v), n⟩ :: es) ok
  | invalid {s : Option Bytes} {n : Nat} {l : Bytes} {ls : List Bytes} : Is keyval l .invalid → Says keyval s n (l :: ls) [] false

/-- Reporting one event after another until the callback refuses one. -/
def feed {σ : Type} (cb : σ → Event → σ × Bool) : List Event → σ → σ × Bool
  | [], s => (s, true)
  | e :: es, s =>
    match cb s e with
    | (s, true) => feed cb es s
    | (s, false) => (s, false)

/-- A file with these lines, each with its line end. -/
def file (ls : List Bytes) : Bytes := (ls.map (· ++ [10])).flatten

/-- A line without line ends and NUL bytes. -/
def Line (l : Bytes) : Prop := 10 ∉ l ∧ 0 ∉ l

/-- The line has a key that is empty. -/
def NoKey (l : Bytes) : Prop := ∃ b r, l = b ++ 61 :: r ∧ Blanks b

end Muon.Ini.Spec
