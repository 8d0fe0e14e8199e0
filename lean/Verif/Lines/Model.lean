import Verif.Base
/-
Splitting a text into lines: `each_line`, src/formats/lines.c.
-/
namespace Muon.Lines
open Muon

/-- The lines of a text without NUL as `each_line` finds them: the last one may lack its line end, and is not reported
if it is empty. -/
def toLines : Bytes → List Bytes
  | [] => []
  | c :: r =>
    if c = 10 then [] :: toLines r
    else match toLines r with
    | [] => [[c]]
    | l :: ls => (c :: l) :: ls

/-- Calling a function, which returns whether to go on, for one line after another. -/
def run {σ : Type} (cb : σ → Bytes → σ × Bool) : List Bytes → σ → σ
  | [], s => s
  | l :: ls, s =>
    match cb s l with
    | (s, true) => run cb ls s
    | (s, false) => s

/-- `each_line`, lines.c:12-35. The buffer holds `buf`, followed by NUL: `strchr` stops at the first NUL in `buf`, and
what follows it is not seen. -/
def eachLine {σ : Type} (cb : σ → Bytes → σ × Bool) (buf : Bytes) (s : σ) : σ := run cb (toLines (buf.takeWhile (· ≠ 0))) s

end Muon.Lines
