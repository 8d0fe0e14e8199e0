import Verif.Base
/-
Specification for C19-C21: how a POSIX shell splits a simple command line into words (POSIX XCU 2.2, 2.3, 2.6.7).

Only what is needed to say "this text is read as these literal words" is specified: words made of ordinary characters,
backslash escapes and single-quoted text. Everything whose meaning is something else than literal text (operators,
expansions, double quotes, patterns, comments, newlines) makes the result `none`.
-/
namespace Muon.Esc.Spec
open Muon

/-- Characters that are not literal when unquoted: newline `"` `$` `&` `(` `)` `*` `;` `<` `>` `?` `[` backtick `|`. -/
def special : Bytes := [10, 34, 36, 38, 40, 41, 42, 59, 60, 62, 63, 91, 96, 124]

/-- Characters that are not literal at the beginning of a word: `#` and `~`. -/
def specialFirst : Bytes := [35, 126]

/-- Where the reader is: in unquoted text, inside single quotes, or after an unquoted backslash. -/
inductive Mode
  | plain
  | quoted
  | escaped

/-- Reads a command line. `cur` is the word being read (`none` between words), `ws` are the words already read. -/
def readWords (cur : Option Bytes) (mode : Mode) (ws : List Bytes) : Bytes → Option (List Bytes)
  | [] =>
    match mode with
    | .plain => some (ws ++ cur.toList)
    | _ => none
  | c :: r =>
    match mode with
    | .quoted => if c = 39 then readWords cur .plain ws r else readWords (some (cur.getD [] ++ [c])) .quoted ws r
    | .escaped => if c = 10 then readWords cur .plain ws r else readWords (some (cur.getD [] ++ [c])) .plain ws r
    | .plain =>
      if c = 39 then readWords (some (cur.getD [])) .quoted ws r
      else if c = 92 then readWords cur .escaped ws r
      else if c = 32 ∨ c = 9 then readWords none .plain (ws ++ cur.toList) r
      else if c ∈ special then none
      else if cur = none ∧ c ∈ specialFirst then none
      else readWords (some (cur.getD [] ++ [c])) .plain ws r

/-- The words of a command line, if it consists of literal words only. -/
def shellWords (s : Bytes) : Option (List Bytes) := readWords none .plain [] s

end Muon.Esc.Spec
