import Verif.Lex.Model
/-
How tokens are written: a specification independent of the lexer. (From the model it uses only the type of tokens.)
-/
namespace Muon.Lex.Spec
open Muon

/-- The two lower-case hexadecimal digits of a byte. -/
def hex2 (c : UInt8) : Bytes :=
  let d (n : Nat) : UInt8 := if n < 10 then UInt8.ofNat (48 + n) else UInt8.ofNat (87 + n)
  [d (c.toNat / 16), d (c.toNat % 16)]

/-- A byte inside a string literal. -/
def quoteByte (c : UInt8) : Bytes :=
  if c = 39 then ascii "\\'"
  else if c = 92 then ascii "\\\\"
  else if c = 10 then ascii "\\n"
  else if c = 0 ∨ c = 64 then ascii "\\x" ++ hex2 c
  else [c]

/-- The text of a string literal without the quotes. -/
def quoteBody (s : Bytes) : Bytes := s.flatMap quoteByte

/-- Digits of a number in some base up to 16. -/
def digits (base : Nat) (n : Nat) : Bytes :=
  let d (n : Nat) : UInt8 := if n < 10 then UInt8.ofNat (48 + n) else UInt8.ofNat (87 + n)
  if h : n < base ∨ base < 2 then [d n] else digits base (n / base) ++ [d (n % base)]
termination_by n
decreasing_by exact Nat.div_lt_self (by omega) (by omega)

/-- Tokens with a fixed text. -/
def symbols : List (Tok × String) := [
  (.eol, "\n"), (.lparen, "("), (.rparen, ")"), (.lbrack, "["), (.rbrack, "]"), (.lcurl, "{"), (.rcurl, "}"),
  (.dot, "."), (.comma, ","), (.colon, ":"), (.question, "?"), (.plus, "+"), (.minus, "-"), (.star, "*"), (.slash, "/"),
  (.modulo, "%"), (.assign, "="), (.plusAssign, "+="), (.eq, "=="), (.neq, "!="), (.gt, ">"), (.geq, ">="), (.lt, "<"),
  (.leq, "<="), (.kIf, "if"), (.kElse, "else"), (.kElif, "elif"), (.kEndif, "endif"), (.kAnd, "and"), (.kOr, "or"),
  (.kNot, "not"), (.kForeach, "foreach"), (.kEndforeach, "endforeach"), (.kIn, "in"), (.kContinue, "continue"),
  (.kBreak, "break"), (.kTrue, "true"), (.kFalse, "false")]

/-- Tokens that exist only in scripts with functions. -/
def funcSymbols : List (Tok × String) :=
  [(.kFunc, "func"), (.kEndfunc, "endfunc"), (.kReturn, "return"), (.bitor, "|"), (.returntype, "->")]

/-- The text of a token. -/
def text : Tok → Bytes
  | .identifier s => s
  | .string s => ascii "'" ++ quoteBody s ++ ascii "'"
  | .number n => digits 10 n.toNat
  | t => match (symbols ++ funcSymbols).find? (fun e => e.1 == t) with
    | some e => ascii e.2
    | none => []

/-- Names that are not keywords. -/
def isName (funcs : Bool) (s : Bytes) : Prop :=
  (∃ c t, s = c :: t ∧ (isAlpha c ∨ c = 95) ∧ ∀ d ∈ t, isAlnum d ∨ d = 95) ∧
  (∀ e ∈ symbols, ascii e.2 ≠ s) ∧ (funcs = true → ∀ e ∈ funcSymbols, ascii e.2 ≠ s)

/-- Lists of tokens that a text can consist of: brackets of each kind are not closed more often than opened, line ends
occur outside of brackets only, numbers are in the range of 64-bit integers. The numbers count the open brackets. -/
def Writable (funcs : Bool) : Nat → Nat → Nat → List Tok → Prop
  | _, _, _, [] => True
  | p, b, c, t :: ts => match t with
    | .lparen => Writable funcs (p + 1) b c ts
    | .rparen => p ≠ 0 ∧ Writable funcs (p - 1) b c ts
    | .lbrack => Writable funcs p (b + 1) c ts
    | .rbrack => b ≠ 0 ∧ Writable funcs p (b - 1) c ts
    | .lcurl => Writable funcs p b (c + 1) ts
    | .rcurl => c ≠ 0 ∧ Writable funcs p b (c - 1) ts
    | .eol => p = 0 ∧ b = 0 ∧ c = 0 ∧ Writable funcs p b c ts
    | .identifier s => isName funcs s ∧ Writable funcs p b c ts
    | .number n => 0 ≤ n ∧ n < 2 ^ 63 ∧ Writable funcs p b c ts
    | .string _ => Writable funcs p b c ts
    | t => (t ∈ symbols.map (·.1) ∨ funcs = true ∧ t ∈ funcSymbols.map (·.1)) ∧ Writable funcs p b c ts

/-- The brackets open after a token. -/
def opened : Nat × Nat × Nat → Tok → Nat × Nat × Nat
  | (p, b, c), .lparen => (p + 1, b, c)
  | (p, b, c), .rparen => (p - 1, b, c)
  | (p, b, c), .lbrack => (p, b + 1, c)
  | (p, b, c), .rbrack => (p, b - 1, c)
  | (p, b, c), .lcurl => (p, b, c + 1)
  | (p, b, c), .rcurl => (p, b, c - 1)
  | s, _ => s

/-- Text without meaning between two tokens; `inside` says whether a bracket is open, `eol` whether the second token is
the end of a line: blanks, line continuations, inside of brackets line ends and comments, and a comment at the end of a line. -/
inductive Gap (inside eol : Bool) : Bytes → Prop
  | nil : Gap inside eol []
  | blank {c w} : c = 32 ∨ c = 9 ∨ c = 13 → Gap inside eol w → Gap inside eol (c :: w)
  | continuation {w} : Gap inside eol w → Gap inside eol (92 :: 10 :: w)
  | newline {w} : inside = true → Gap inside eol w → Gap inside eol (10 :: w)
  | comment {t w} : inside = true → (∀ c ∈ t, c ≠ 0 ∧ c ≠ 10) → Gap inside eol w → Gap inside eol (35 :: t ++ 10 :: w)
  | lastComment {t} : eol = true → (∀ c ∈ t, c ≠ 0 ∧ c ≠ 10) → Gap inside eol (35 :: t)

/-- Whether a bracket is open. -/
def isOpen (s : Nat × Nat × Nat) : Bool := s.1 != 0 || s.2.1 != 0 || s.2.2 != 0

/-- Tokens with gaps before them. -/
def Laid : Nat × Nat × Nat → List (Bytes × Tok) → Prop
  | _, [] => True
  | s, (w, t) :: l => Gap (isOpen s) (t == .eol) w ∧ Laid (opened s t) l

/-- The text of tokens with gaps before them, each gap beginning with a blank. -/
def layout (l : List (Bytes × Tok)) : Bytes := l.flatMap fun e => 32 :: (e.1 ++ text e.2)

/-- The text of a list of tokens, a blank before each of them. -/
def render (ts : List Tok) : Bytes := ts.flatMap fun t => 32 :: text t

/-- The UTF-8 encoding of a code point (RFC 3629, section 3). -/
def utf8 (v : Nat) : List Nat :=
  if v < 0x80 then [v]
  else if v < 0x800 then [0xC0 + v / 64, 0x80 + v % 64]
  else if v < 0x10000 then [0xE0 + v / 4096, 0x80 + v / 64 % 64, 0x80 + v % 64]
  else [0xF0 + v / 262144, 0x80 + v / 4096 % 64, 0x80 + v / 64 % 64, 0x80 + v % 64]

/-- Code points that are characters: not the surrogates, which UTF-8 cannot represent. -/
def isScalar (v : Nat) : Prop := v < 0x110000 ∧ ¬ (0xD800 ≤ v ∧ v < 0xE000)

/-- The text of a format string: text, and variables each followed by text. -/
def fstring (s : Bytes) (parts : List (Bytes × Bytes)) : Bytes :=
  ascii "f'" ++ quoteBody s ++ (parts.flatMap fun p => ascii "@" ++ p.1 ++ ascii "@" ++ quoteBody p.2) ++ ascii "'"

/-- The tokens of a format string: the texts and the variables converted to strings, added up. -/
def fstringToks (s : Bytes) : List (Bytes × Bytes) → List Tok
  | [] => [.string s]
  | (n, t) :: parts => [.string s, .plus, .stringify, .identifier n, .plus] ++ fstringToks t parts

/-- The value of digits, the most significant first. -/
def value (base : Nat) (ds : List Nat) : Nat := ds.foldl (fun v d => v * base + d) 0

/-- The byte that stands for a digit; letters of either case. -/
def IsDigitOf (c : UInt8) (d : Nat) : Prop :=
  d < 10 ∧ c.toNat = 48 + d ∨ 10 ≤ d ∧ d < 16 ∧ (c.toNat = 87 + d ∨ c.toNat = 55 + d)

/-- The bytes that stand for digits. -/
inductive AreDigitsOf : Bytes → List Nat → Prop
  | nil : AreDigitsOf [] []
  | cons {c d t ds} : IsDigitOf c d → AreDigitsOf t ds → AreDigitsOf (c :: t) (d :: ds)

/-- A number: the prefix and the base. -/
def prefixes : List (String × Nat) := [("0x", 16), ("0X", 16), ("0o", 8), ("0O", 8), ("0b", 2), ("0B", 2)]

end Muon.Lex.Spec
