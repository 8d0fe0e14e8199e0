import Verif.Lines.Model
import Verif.Lex.Model
import Verif.Lex.Spec
/-
The build log: src/external/samurai/log.c.

A node is its path. `known p`: there is a node for `p` that some build statement generates. The file holds bytes; a
crash leaves a prefix of what was written. Warnings are not modelled. `printf` and `sscanf` are modelled for the formats
used.
-/
namespace Muon.Nlog
open Muon
open _root_.Muon.Lex (strtol)
open _root_.Muon.Lex.Spec (digits)

/-- `logmtime` and `hash` of a node, include/external/samurai/ctx.h:68-83. -/
structure Rec where
  mtime : Int
  hash : Nat
deriving DecidableEq, Repr

/-- The nodes; at first `logmtime` is `SAMU_MTIME_MISSING` (include/external/samurai/graph.h:14-20), `samu_mknode`, graph.c:34-59. -/
abbrev St := Bytes → Rec

def St.init : St := fun _ => ⟨2, 0⟩

def St.set (st : St) (p : Bytes) (r : Rec) : St := fun q => if q = p then r else st q

/-- `strtoll(s, &endptr, 10)`: the value and the text at `endptr`. -/
def strtoll (s : Bytes) : Int × Bytes :=
  match strtol 10 s with
  | none => (0, s)
  | some (v, r) => (if v < -2 ^ 63 then -2 ^ 63 else if 2 ^ 63 ≤ v then 2 ^ 63 - 1 else v, r)

/-- `strtoull(s, &endptr, 16)`: the value and the text at `endptr`. A minus sign negates in 64 bits. -/
def strtoull (s : Bytes) : Nat × Bytes :=
  match strtol 16 s with
  | none => (0, s)
  | some (v, r) => (if 2 ^ 64 ≤ v.natAbs then 2 ^ 64 - 1 else if v < 0 then 2 ^ 64 - v.natAbs else v.natAbs, r)

/-- The text before the first tab, and the texts between the others, log.c:57-69 (before taking the first five). -/
def splitTab : Bytes → List Bytes
  | [] => [[]]
  | c :: r =>
    if c = 9 then [] :: splitTab r
    else match splitTab r with
    | [] => [[c]]
    | l :: ls => (c :: l) :: ls

/-- The fields of a line, log.c:57-69: `fields[i]` is NULL if there is no such element. -/
def fields (line : Bytes) : List Bytes := (splitTab line).take 5

/-- A line after the first, log.c:57-112. -/
def parseLine (known : Bytes → Bool) (st : St) (line : Bytes) : St :=
  let fs := fields line
  match fs[3]? with
  | none => st
  | some path =>
    if known path then
      match fs[2]? with
      | none => st
      | some m =>
        let st := St.set st path ⟨(strtoll m).1, (st path).hash⟩
        if (strtoll m).2 ≠ [] then st
        else match fs[4]? with
        | none => st
        | some h => St.set st path ⟨(st path).mtime, (strtoull h).1⟩
    else st

/-- `sscanf` with literal text: a blank matches blanks, also none; the text after the match. -/
def scanLit : Bytes → Bytes → Option Bytes
  | [], s => some s
  | c :: f, s =>
    if isSpace c then scanLit f (s.dropWhile isSpace)
    else match s with
    | [] => none
    | d :: s => if c = d then scanLit f s else none

/-- `sscanf(line, "# ninja log v%d\n", &ver) >= 1 && ver == 5`, log.c:48-53. A number that does not fit `int` counts as
different from 5. -/
def versionOk (line : Bytes) : Bool :=
  match scanLit (ascii "# ninja log v") line with
  | none => false
  | some r =>
    match strtol 10 r with
    | none => false
    | some (v, _) => v == 5

/-- `samu_log_parse_cb`, log.c:41-120: the state is whether this is the first line, and the nodes. -/
def parseCb (known : Bytes → Bool) (s : Bool × St) (line : Bytes) : (Bool × St) × Bool :=
  if s.1 then
    if versionOk line then ((false, s.2), true) else (s, false)
  else ((false, parseLine known s.2 line), true)

/-- Reading the log, log.c:176-188. -/
def readLog (known : Bytes → Bool) (file : Bytes) : St := (Lines.eachLine (parseCb known) file (true, St.init)).2

/-- `fprintf` of the version, log.c:143. -/
def header : Bytes := ascii "# ninja log v5" ++ [10]

/-- `PRId64`. -/
def dec (v : Int) : Bytes := if v < 0 then 45 :: digits 10 v.natAbs else digits 10 v.natAbs

/-- `samu_logrecord`, log.c:204-208, without the line end. -/
def recText (p : Bytes) (r : Rec) : Bytes :=
  ascii "0" ++ [9] ++ ascii "0" ++ [9] ++ dec r.mtime ++ [9] ++ p ++ [9] ++ digits 16 r.hash

/-- `samu_logrecord`, log.c:204-208. -/
def logrecord (p : Bytes) (r : Rec) : Bytes := recText p r ++ [10]

/-- The contents `samu_log_open_and_write` writes, log.c:122-156, if the outputs of the edges are `outs`. The file is
truncated first. -/
def rewritten (outs : List Bytes) (st : St) : Bytes :=
  header ++ (outs.filter fun p => (st p).hash ≠ 0).flatMap fun p => logrecord p (st p)

/-- `samu_loginit`, log.c:158-195, for an existing log: the nodes and the new contents. -/
def loginit (known : Bytes → Bool) (outs : List Bytes) (file : Bytes) : St × Bytes :=
  let st := readLog known file
  (st, rewritten outs st)

end Muon.Nlog
