import Verif.Conf.Model
import Verif.Lex.Spec
/-
What a template stands for.
-/
namespace Muon.Conf.Spec
open Muon Muon.Conf

/-- A name: letters, digits, `_` and `-`. -/
def Name (k : Bytes) : Prop := ∀ c ∈ k, isAlnum c = true ∨ c = 95 ∨ c = 45

/-- Blanks. -/
def Blanks (b : Bytes) : Prop := ∀ c ∈ b, c = 32 ∨ c = 9

/-- Text of one line, without NUL bytes. -/
def InLine (b : Bytes) : Prop := ∀ c ∈ b, c ≠ 10 ∧ c ≠ 0

/-- The text of an integer in decimal. -/
def decimal (n : Int) : Bytes := if n < 0 then 45 :: Lex.Spec.digits 10 n.natAbs else Lex.Spec.digits 10 n.natAbs

/-- The text a value is replaced by. -/
def Text : Val → Bytes → Prop
  | .bool b, t => t = if b then ascii "true" else ascii "false"
  | .str s, t => t = s
  | .num n, t => t = decimal n
  | .file p, t => t = p
  | .other, _ => False

/-- The line a definition becomes. -/
def Defines (conf : Conf) (k : Bytes) (l : Bytes) : Prop :=
  match conf k with
  | none => l = ascii "/* undef " ++ k ++ ascii " */"
  | some (.bool true) => l = ascii "#define " ++ k
  | some (.bool false) => l = ascii "#undef " ++ k
  | some (.str s) => l = ascii "#define " ++ k ++ ascii " " ++ s ∧ 0 ∉ s
  | some (.num n) => l = ascii "#define " ++ k ++ ascii " " ++ decimal n
  | _ => False

/-- The rest of a line that defines the name `k`: blanks, the name, and then nothing but blanks, or anything for
`#cmakedefine`. (There, even the name may be missing if there is something else.) -/
def DefLine (x : Syntax) (line k : Bytes) : Prop :=
  ∃ blanks tail, line = blanks ++ k ++ tail ∧ Blanks blanks ∧ Name k ∧ InLine tail ∧ (∀ c, tail.head? = some c → ¬ Name [c]) ∧
    if x.cmakeDefine then k = [] → ∃ c, tail.head? = some c ∧ c ≠ 32 ∧ c ≠ 9
    else k ≠ [] ∧ Blanks tail

/-- Where a definition ends: at the end of the text or line, or before a NUL byte. -/
def Ends : Bytes → Prop
  | [] => True
  | c :: _ => c = 10 ∨ c = 0

/-- A template and what it becomes. With `true`, the template is read from the start of a line. A backslash is 92. -/
inductive SubstWith (directive opening : Bytes) (closing : UInt8) (x : Syntax) (conf : Conf) : Bool → Bytes → Bytes → Prop
  /-- The end. -/
  | nil : SubstWith directive opening closing x conf false [] []
  /-- The end of a line. -/
  | newline {s o : Bytes} : SubstWith directive opening closing x conf true s o → SubstWith directive opening closing x conf false (10 :: s) (10 :: o)
  /-- A line that is not a definition. -/
  | line {s o : Bytes} : ¬ directive <+: s → SubstWith directive opening closing x conf false s o → SubstWith directive opening closing x conf true s o
  /-- A line that is a definition. -/
  | define {line k s l o : Bytes} : DefLine x line k → Ends s → Defines conf k l → SubstWith directive opening closing x conf false s o →
      SubstWith directive opening closing x conf true (directive ++ line ++ s) (l ++ o)
  /-- A variable. -/
  | var {k s t o : Bytes} {v : Val} : Name k → k ≠ [] → conf k = some v → Text v t → SubstWith directive opening closing x conf false s o →
      SubstWith directive opening closing x conf false (opening ++ k ++ [closing] ++ s) (t ++ o)
  /-- The start of a variable without the end of one. -/
  | literal {s o : Bytes} : (∀ k r, Name k → s ≠ k ++ [closing] ++ r) → SubstWith directive opening closing x conf false s o →
      SubstWith directive opening closing x conf false (opening ++ s) (opening ++ o)
  /-- An even number of backslashes before the start of a variable: half of them. -/
  | even {n : Nat} {s o : Bytes} : 0 < n → opening <+: s → SubstWith directive opening closing x conf false s o →
      SubstWith directive opening closing x conf false (List.replicate (2 * n) 92 ++ s) (List.replicate n 92 ++ o)
  /-- An odd number of backslashes before the start of a variable: half of them, and no variable. -/
  | odd {n : Nat} {s o : Bytes} : SubstWith directive opening closing x conf false s o →
      SubstWith directive opening closing x conf false (List.replicate (2 * n + 1) 92 ++ opening ++ s) (List.replicate n 92 ++ opening ++ o)
  /-- Other backslashes. -/
  | slashes {n : Nat} {s o : Bytes} : 0 < n → ¬ opening <+: s → s.head? ≠ some 92 → SubstWith directive opening closing x conf false s o →
      SubstWith directive opening closing x conf false (List.replicate n 92 ++ s) (List.replicate n 92 ++ o)
  /-- Anything else. -/
  | copy {c : UInt8} {s o : Bytes} : c ≠ 10 → c ≠ 92 → ¬ opening <+: c :: s → SubstWith directive opening closing x conf false s o →
      SubstWith directive opening closing x conf false (c :: s) (c :: o)

/-- What starts a line that is a definition. -/
def directive (x : Syntax) : Bytes := if x.cmakeDefine then ascii "#cmakedefine " else ascii "#mesondefine "

/-- What is before the name of a variable. -/
def opening (x : Syntax) : Bytes := if x.cmakeVar then ascii "${" else ascii "@"

/-- What is after the name of a variable. -/
def closing (x : Syntax) : UInt8 := if x.cmakeVar then 125 else 64

/-- A template (from the start of a line) and what it becomes. -/
def Subst (x : Syntax) (conf : Conf) (src out : Bytes) : Prop :=
  SubstWith (directive x) (opening x) (closing x) x conf true src out

/-- A line of a header made without a template; `c` is `#` or `%`. -/
inductive HeaderLine (c : UInt8) (k : Bytes) : Val → Bytes → Prop
  | yes : HeaderLine c k (.bool true) ([c] ++ ascii "define " ++ k ++ [10])
  | no : HeaderLine c k (.bool false) ([c] ++ ascii "undef " ++ k ++ [10])
  | str {s : Bytes} : HeaderLine c k (.str s) ([c] ++ ascii "define " ++ k ++ ascii " " ++ s ++ [10])
  | num {n : Int} : HeaderLine c k (.num n) ([c] ++ ascii "define " ++ k ++ ascii " " ++ decimal n ++ [10])

/-- A header: a line for each entry, in order. -/
inductive Header (c : UInt8) : List (Bytes × Val) → Bytes → Prop
  | nil : Header c [] []
  | cons {k l o : Bytes} {v : Val} {d : List (Bytes × Val)} : HeaderLine c k v l → Header c d o → Header c ((k, v) :: d) (l ++ o)

/-- The texts that are passed on as C strings have no NUL bytes. -/
def NoNul (d : List (Bytes × Val)) : Prop := ∀ e ∈ d, 0 ∉ e.1 ∧ ∀ s, e.2 = .str s → 0 ∉ s

end Muon.Conf.Spec
