import Verif.Base
/-
Model of the lexer, src/lang/lexer.c.

The state keeps `r`, the source text from the current position `i` to its end, in place of `i`; the byte after the end is
the terminator, so `src[i]` is the head of `r` or 0. Every read is at the current position, or at the position after
a character just seen to be non-zero, so reads never pass the terminator. Writes go to the buffer `sdata->data` of
`src->len + 1` bytes; the model keeps the position `dataI` and checks every write against the size of the buffer
(outcome `bad`); what is stored is kept in the token. Line and column numbers and error messages are left out. On
failure the code leaves a token without meaning in the array, the model none. Loops have a bound on their number of
iterations, and the outcome `error` means that it was exceeded.
-/
namespace Muon.Lex
open Muon

/-- `enum token_type` with the data of the token, include/lang/lexer.h:19-80. -/
inductive Tok
  | eof | eol | lparen | rparen | lbrack | rbrack | lcurl | rcurl | dot | comma | colon | question
  | plus | minus | star | slash | modulo | assign | plusAssign
  | eq | neq | gt | geq | lt | leq
  | kIf | kElse | kElif | kEndif | kAnd | kOr | kNot | kForeach | kEndforeach | kIn | kContinue | kBreak
  | kTrue | kFalse
  | stringify | kFunc | kEndfunc | kReturn | bitor | returntype | fmtEol
  | identifier (s : Bytes)
  | string (s : Bytes)
  | number (n : Int)
  /-- a number when formatting: its text -/
  | numberText (s : Bytes)
  | comment (s : Bytes)
deriving DecidableEq

/-- `src->len` and the mode of the lexer. -/
structure Cfg where
  len : Nat
  fmt : Bool := false
  funcs : Bool := false

/-- The state of the lexer, `struct lexer`, src/lang/lexer.c:31-39. -/
structure Lx where
  r : Bytes
  dataI : Nat := 0
  paren : Nat := 0
  bracket : Nat := 0
  curl : Nat := 0
  toks : List Tok := []

/-- `enum lex_result`, src/lang/lexer.c:25-29. -/
inductive LexResult | cont | done | fail
deriving DecidableEq

/-- `is_valid_start_of_identifier`, src/lang/lexer.c:163-167. -/
def isIdentStart (c : UInt8) : Bool := c == 95 || (97 ≤ c && c ≤ 122) || (65 ≤ c && c ≤ 90)
/-- `is_hex_digit`, src/lang/lexer.c:175-179. -/
def isHexDigit (c : UInt8) : Bool := isDigit c || (97 ≤ c && c ≤ 102) || (65 ≤ c && c ≤ 70)
/-- `is_valid_inside_of_identifier`, src/lang/lexer.c:181-185. -/
def isIdent (c : UInt8) : Bool := isIdentStart c || isDigit c

/-- `copy_into_sdata`, src/lang/lexer.c:193-202, for the text `s`: the new `data_i`. The last byte written is the
terminator at `data_i + n`. -/
def copyInto (cfg : Cfg) (dataI : Nat) (s : Bytes) : Res Nat :=
  if dataI + s.length < cfg.len + 1 then .ok (dataI + s.length + 1) else .bad

/-- `keyword`, src/lang/lexer.c:223-265. -/
def keyword (cfg : Cfg) (id : Bytes) : Option Tok :=
  let table := [("and", Tok.kAnd), ("break", .kBreak), ("continue", .kContinue), ("elif", .kElif), ("else", .kElse),
    ("endforeach", .kEndforeach), ("endif", .kEndif), ("false", .kFalse), ("foreach", .kForeach), ("if", .kIf),
    ("in", .kIn), ("not", .kNot), ("or", .kOr), ("true", .kTrue)] ++
    if cfg.funcs then [("func", .kFunc), ("endfunc", .kEndfunc), ("return", .kReturn)] else []
  (table.find? fun e => ascii e.1 == id).map (·.2)

/-! ### Numbers -/

/-- The value of a digit in some base up to 36. -/
def digitVal (c : UInt8) : Nat :=
  if isDigit c then c.toNat - 48 else if isLower c then c.toNat - 87 else if isUpper c then c.toNat - 55 else 36

/-- The value of a string of digits. -/
def digitsVal (base : Nat) (s : Bytes) : Nat := s.foldl (fun v c => v * base + digitVal c) 0

/-- The sign accepted by `strtol`: whether it is negative, and the text after it. -/
def signOf : Bytes → Bool × Bytes
  | 45 :: r => (true, r)
  | 43 :: r => (false, r)
  | r => (false, r)

/-- The prefix `0x` accepted by `strtol` in base 16, if a hexadecimal digit follows. -/
def skipPrefix (base : Nat) : Bytes → Bytes
  | 48 :: c :: d :: r => if base = 16 ∧ (c = 120 ∨ c = 88) ∧ digitVal d < 16 then d :: r else 48 :: c :: d :: r
  | r => r

/-- `strtol(s, &endptr, base)` of the C library (ISO C 7.22.1.4) for base 2, 8, 10 or 16: the value, if any digits
were found, before clamping, and the text at `endptr`. -/
def strtol (base : Nat) (s : Bytes) : Option (Int × Bytes) :=
  let (neg, r) := signOf (s.dropWhile isSpace)
  let r := skipPrefix base r
  let ds := r.takeWhile fun c => digitVal c < base
  if ds = [] then none
  else some (if neg then -(digitsVal base ds : Int) else digitsVal base ds, r.dropWhile fun c => digitVal c < base)

/-- The prefix of a number, src/lang/lexer.c:272-299: the base and the text after the prefix; base 0 stands for the
number `0`. -/
def numberBase : Bytes → Nat × Bytes
  | 48 :: c :: r =>
    if c = 88 ∨ c = 120 then (16, r)
    else if c = 66 ∨ c = 98 then (2, r)
    else if c = 79 ∨ c = 111 then (8, r)
    else (0, c :: r)
  | [48] => (0, [])
  | r => (10, r)

/-- `number`, src/lang/lexer.c:267-331. -/
def number (cfg : Cfg) (st : Lx) : Res (LexResult × Lx) := do
  let start := st.r
  let base := numberBase st.r
  let r := base.2
  if base.1 = 0 then
    if cfg.fmt then
      let dataI ← copyInto cfg st.dataI (start.take (start.length - r.length))
      return (.cont, { st with r, dataI, toks := st.toks ++ [.numberText (start.take (start.length - r.length))] })
    else return (.cont, { st with r, toks := st.toks ++ [.number 0] })
  else
    match strtol base.1 r with
    | none => return (.fail, { st with r })
    | some (v, r') =>
      if v < -(2 ^ 63) ∨ v ≥ 2 ^ 63 then return (.fail, { st with r })
      else if cfg.fmt then
        let dataI ← copyInto cfg st.dataI (start.take (start.length - r'.length))
        return (.cont, { st with r := r', dataI, toks := st.toks ++ [.numberText (start.take (start.length - r'.length))] })
      else return (.cont, { st with r := r', toks := st.toks ++ [.number v] })

/-! ### Identifiers -/

/-- `lex_identifier`, src/lang/lexer.c:333-354: the token, the new `data_i` and the rest. -/
def identifier (cfg : Cfg) (dataI : Nat) (r : Bytes) : Res (Tok × Nat × Bytes) := do
  let id := r.takeWhile isIdent
  match keyword cfg id with
  | some t => return (t, dataI, r.dropWhile isIdent)
  | none =>
    let dataI ← copyInto cfg dataI id
    return (.identifier id, dataI, r.dropWhile isIdent)

/-! ### Strings -/

/-- `write_utf8`, src/lang/lexer.c:356-403: the bytes written, `none` for an invalid value. -/
def writeUtf8 (val : Nat) : Option Bytes :=
  let go (len preLen pre b : Nat) : Bytes :=
    UInt8.ofNat (pre ||| (val >>> (b - preLen))) ::
      (List.range' 1 (len - 1)).map fun i => UInt8.ofNat (0x80 ||| ((val >>> (b - preLen - 6 * i)) &&& 0x3f))
  if val ≤ 0x7f then some [UInt8.ofNat val]
  else if val ≤ 0x07ff then some (go 2 5 0xc0 11)
  else if val ≤ 0xffff then some (go 3 4 0xe0 16)
  else if val ≤ 0x10ffff then some (go 4 3 0xf0 21)
  else none

/-- The state inside a string: the rest, `data_i`, what has been stored of the current token, finished tokens. -/
structure Ss where
  r : Bytes
  dataI : Nat
  s : Bytes
  toks : List Tok

/-- `str[token->n] = ..; ++token->n` for the bytes `bs`, continuing with the text `r`. -/
def put (cfg : Cfg) (x : Ss) (bs : Bytes) (r : Bytes) : Res (LexResult × Ss) :=
  if x.dataI + x.s.length + bs.length ≤ cfg.len + 1 then .ok (.cont, { x with s := x.s ++ bs, r }) else .bad

/-- The escapes standing for one character, src/lang/lexer.c:434-473. -/
def escByte (c : UInt8) : Option UInt8 :=
  if c = 92 ∨ c = 39 then some c
  else if c = 97 then some 7
  else if c = 98 then some 8
  else if c = 102 then some 12
  else if c = 114 then some 13
  else if c = 116 then some 9
  else if c = 118 then some 11
  else if c = 110 then some 10
  else none

/-- The escape sequences of `lex_string_char`, src/lang/lexer.c:431-533: `r` is the text after the backslash and `e` its
first character. -/
def stringEscape (cfg : Cfg) (x : Ss) (e : UInt8) (r : Bytes) : Res (LexResult × Ss) :=
  match escByte e with
  | some b => put cfg x [b] (r.drop 1)
  | none =>
    if e = 120 ∨ e = 117 ∨ e = 85 then
      let k := if e = 120 then 2 else if e = 117 then 4 else 8
      let ds := ((r.drop 1).take k).takeWhile isHexDigit
      if ds.length < k then .ok (.fail, { x with r := r.drop ds.length })
      else
        match writeUtf8 (digitsVal 16 ds) with
        | none => .ok (.fail, { x with r := r.drop k })
        | some bs => put cfg x bs (r.drop (1 + k))
    else if isDigit e then
      let ds := (r.take 3).takeWhile isDigit
      put cfg x [UInt8.ofNat (digitsVal 8 (ds.takeWhile fun c => digitVal c < 8))] (r.drop ds.length)
    else if e = 0 then .ok (.fail, x)
    else put cfg x [92, e] (r.drop 1)

/-- `lex_string_char`, src/lang/lexer.c:405-613. The test for the
closing `@` of an interpolation is on the opening one (line 577), so it always succeeds. -/
def stringChar (cfg : Cfg) (multiline fstring : Bool) (x : Ss) : Res (LexResult × Ss) :=
  match x.r with
  | [] => .ok (.fail, x)
  | c :: r =>
    if c = 10 then
      if multiline then put cfg x [c] r else .ok (.fail, x)
    else if c = 92 then
      if multiline then put cfg x [c] r else stringEscape cfg x (r.headD 0) r
    else if c = 0 then .ok (.fail, x)
    else if c = 39 then
      if multiline then
        match r with
        | 39 :: 39 :: r' => if x.dataI + x.s.length < cfg.len + 1 then .ok (.done, { x with r := r' }) else .bad
        | r => put cfg x [c] r
      else if x.dataI + x.s.length < cfg.len + 1 then .ok (.done, { x with r }) else .bad
    else if c = 64 then
      if fstring && isIdentStart (r.headD 0) then
        do
          let (t, dataI, r') ← identifier cfg (x.dataI + x.s.length + 1) r
          return (.cont, ⟨r'.drop 1, dataI, [], x.toks ++ [.string x.s, .plus, .stringify, t, .plus]⟩)
      else put cfg x [c] r
    else put cfg x [c] r

/-- The loop of `lex_string`, src/lang/lexer.c:648-691, up to the end of the string or the failure. -/
def stringLoop (cfg : Cfg) (multiline fstring : Bool) : Nat → Ss → Res (LexResult × Ss)
  | 0, _ => .error
  | fuel + 1, x => do
    let (res, x) ← stringChar cfg multiline fstring x
    match res with
    | .cont => stringLoop cfg multiline fstring fuel x
    | res => return (res, x)

/-- Looking for the end of a string after a failure, src/lang/lexer.c:660-678. -/
def skipFailed (multiline : Bool) : Nat → Bytes → Bytes
  | _, [] => []
  | quotes, c :: r =>
    if c = 0 ∨ (!multiline ∧ c = 10) then c :: r
    else if c = 39 then
      if (multiline ∧ quotes + 1 = 3) ∨ !multiline then r else skipFailed multiline (quotes + 1) r
    else skipFailed multiline quotes r

/-- `lex_string`, src/lang/lexer.c:624-693; the text begins with the quote, or with `f` and the quote. -/
def lexString (cfg : Cfg) (st : Lx) (fstring : Bool) : Res (LexResult × Lx) := do
  let r := if fstring then st.r.drop 1 else st.r
  let fs := fstring && !cfg.fmt
  let multiline := ascii "'''" == r.take 3
  let (res, x) ← stringLoop cfg multiline fs (r.length + 1)
    ⟨r.drop (if multiline then 3 else 1), st.dataI, [], st.toks⟩
  let r' := if res = .fail then skipFailed multiline 0 x.r else x.r
  let ret : LexResult := if res = .fail then .fail else .cont
  if cfg.fmt then
    let raw := st.r.take (st.r.length - r'.length)
    let dataI ← copyInto cfg st.dataI raw
    return (ret, { st with r := r', dataI, toks := x.toks ++ if res = .fail then [] else [.string raw] })
  else
    return (ret, { st with r := r', dataI := x.dataI + x.s.length + 1, toks := x.toks ++ if res = .fail then [] else [.string x.s] })

/-! ### Tokens -/

/-- Skipping blanks and comments, src/lang/lexer.c:706-725. -/
def skip (cfg : Cfg) : Nat → Lx → Res Lx
  | 0, _ => .error
  | fuel + 1, st =>
    match st.r with
    | [] => .ok st
    | c :: r =>
      if c = 35 then do
        let text := r.takeWhile fun c => c ≠ 0 ∧ c ≠ 10
        let r := r.dropWhile fun c => c ≠ 0 ∧ c ≠ 10
        if cfg.fmt then
          let dataI ← copyInto cfg st.dataI text
          skip cfg fuel { st with r, dataI, toks := st.toks ++ [.comment text] }
        else skip cfg fuel { st with r }
      else if c = 13 ∨ c = 32 ∨ c = 9 then skip cfg fuel { st with r }
      else .ok st

/-- The characters that stand for themselves, and operators of one or two characters; `next` is the following
character. Gives the token and its length. src/lang/lexer.c:786-872. -/
def operator (cfg : Cfg) (c next : UInt8) : Option (Tok × Nat) :=
  if c = 46 then some (.dot, 1)
  else if c = 44 then some (.comma, 1)
  else if c = 58 then some (.colon, 1)
  else if c = 63 then some (.question, 1)
  else if c = 43 then if next = 61 then some (.plusAssign, 2) else some (.plus, 1)
  else if c = 45 then if cfg.funcs && next == 62 then some (.returntype, 2) else some (.minus, 1)
  else if c = 42 then some (.star, 1)
  else if c = 47 then some (.slash, 1)
  else if c = 37 then some (.modulo, 1)
  else if c = 61 then if next = 61 then some (.eq, 2) else some (.assign, 1)
  else if c = 33 then if next = 61 then some (.neq, 2) else none
  else if c = 62 then if next = 61 then some (.geq, 2) else some (.gt, 1)
  else if c = 60 then if next = 61 then some (.leq, 2) else some (.lt, 1)
  else if c = 124 then if cfg.funcs then some (.bitor, 1) else none
  else none

/-- `lexer_tokenize_one`, src/lang/lexer.c:703-889, which calls itself after a backslash at the end of a line. -/
def lexOne (cfg : Cfg) : Nat → Lx → Res (LexResult × Lx)
  | 0, _ => .error
  | fuel + 1, st => do
    let st ← skip cfg (st.r.length + 1) st
    match st.r with
    | [] => return (.done, { st with toks := st.toks ++ [.eof] })
    | c :: r =>
      let next := r.headD 0
      if c = 92 ∧ next = 10 then lexOne cfg fuel { st with r := r.drop 1 }
      else if c = 102 ∧ next = 39 then lexString cfg st true
      else if c = 39 then lexString cfg st false
      else if isIdentStart c then
        let (t, dataI, r') ← identifier cfg st.dataI st.r
        return (.cont, { st with r := r', dataI, toks := st.toks ++ [t] })
      else if isDigit c then number cfg st
      else if c = 10 then
        if st.paren ≠ 0 ∨ st.bracket ≠ 0 ∨ st.curl ≠ 0 then
          return (.cont, { st with r, toks := st.toks ++ if cfg.fmt then [.fmtEol] else [] })
        else return (.cont, { st with r, toks := st.toks ++ [.eol] })
      else if c = 40 then return (.cont, { st with r, paren := st.paren + 1, toks := st.toks ++ [.lparen] })
      else if c = 41 then
        if st.paren = 0 then return (.fail, st)
        else return (.cont, { st with r, paren := st.paren - 1, toks := st.toks ++ [.rparen] })
      else if c = 91 then return (.cont, { st with r, bracket := st.bracket + 1, toks := st.toks ++ [.lbrack] })
      else if c = 93 then
        if st.bracket = 0 then return (.fail, st)
        else return (.cont, { st with r, bracket := st.bracket - 1, toks := st.toks ++ [.rbrack] })
      else if c = 123 then return (.cont, { st with r, curl := st.curl + 1, toks := st.toks ++ [.lcurl] })
      else if c = 125 then
        if st.curl = 0 then return (.fail, st)
        else return (.cont, { st with r, curl := st.curl - 1, toks := st.toks ++ [.rcurl] })
      else
        match operator cfg c next with
        | some (t, n) => return (.cont, { st with r := st.r.drop n, toks := st.toks ++ [t] })
        | none => return (.fail, st)

/-- `tokenize`, src/lang/lexer.c:891-924: success and the tokens. `error`: the bound on the iterations was reached. -/
def tokenize (cfg : Cfg) : Nat → Bool → Lx → Res (Bool × List Tok)
  | 0, _, _ => .error
  | fuel + 1, success, st => do
    let (res, st) ← lexOne cfg (st.r.length + 1) st
    match res with
    | .cont => tokenize cfg fuel success st
    | .fail => tokenize cfg fuel false { st with r := st.r.drop 1 }
    | .done => return (success, st.toks)

/-- `lexer_lex`, src/lang/lexer.c:926-952. `error`: more iterations than characters and the end of the text. -/
def lex (fmt funcs : Bool) (src : Bytes) : Res (Bool × List Tok) :=
  tokenize { len := src.length, fmt, funcs } (src.length + 1) true { r := src }

end Muon.Lex
