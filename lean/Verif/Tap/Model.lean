import Verif.Lines.Mem
import Verif.Str.Model
/-
TAP streams (src/formats/tap.c) and the results of tests (src/cmd_test.c).
-/
namespace Muon.Tap
open Muon Muon.Lines Muon.Str

/-- `struct tap_parse_ctx` and `struct tap_parse_result`, tap.c:15-19 and include/formats/tap.h:12-15. The 32-bit counters
are unbounded here; their sums are compared modulo 2^32. `bail_out` is set but never read, and left out. -/
structure St where
  havePlan : Bool
  total : Nat
  pass : Nat
  fail : Nat
  skip : Nat
  deriving DecidableEq, Repr

inductive Directive
  | none | todo | skip
  deriving DecidableEq, Repr

/-- `strstr`: what comes after the first occurrence of `pat`. -/
def after (pat : Bytes) : Bytes → Option Bytes
  | [] => if pat = [] then some [] else none
  | c :: r => if pat.isPrefixOf (c :: r) then some ((c :: r).drop pat.length) else after pat r

/-- `str_char_to_lower`, src/lang/string.c:311-318. -/
def toLower (c : UInt8) : UInt8 := if 65 ≤ c && c ≤ 90 then c + 32 else c

/-- `str_startswithi`, src/lang/string.c:331-344, for a lower-case prefix. -/
def startsWithI (s pre : Bytes) : Bool := pre.isPrefixOf (s.map toLower)

/-- The directive of a test line, tap.c:49-60. -/
def directive (rest : Bytes) : Directive :=
  match after (ascii " # ") rest with
  | .none => .none
  | some d =>
    if startsWithI d (ascii "todo") then .todo
    else if startsWithI d (ascii "skip") then .skip
    else .none

/-- Counting a test, tap.c:62-78. -/
def count (st : St) (ok : Bool) (rest : Bytes) : St :=
  match directive rest with
  | .skip => { st with skip := st.skip + 1 }
  | d =>
    if ok then { st with pass := st.pass + 1 }
    else if d = .todo then { st with skip := st.skip + 1 }
    else { st with fail := st.fail + 1 }

/-- A plan, tap.c:29-36: `ctx->res->total = plan_count` keeps 32 bits. -/
def plan (st : St) (d : Bytes) : St :=
  match strToI d d.length false with
  | some n => if n > 0 then { st with havePlan := true, total := n.toNat % 2 ^ 32 } else st
  | none => st

/-- `tap_parse_line_cb`, tap.c:21-79. -/
def line (st : St) (l : Bytes) : St :=
  if (ascii "1..").isPrefixOf l && l.length > 3 then plan st (l.drop 3)
  else if (ascii "Bail out!").isPrefixOf l then st
  else if (ascii "ok").isPrefixOf l then count st true (l.drop 2)
  else if (ascii "not ok").isPrefixOf l then count st false (l.drop 6)
  else st

/-- `tap_parse`, tap.c:81-93, on a stream: the buffer has a NUL byte after it (src/lang/string.c:663-690). -/
def parse (out : Bytes) : Res (St × Bool) :=
  eachLineMem (fun _ st l => .ok (line st l, true)) 1 (out.length + 2) true (out ++ [0]) ⟨false, 0, 0, 0, 0⟩ >>= fun st =>
  let st := if st.havePlan then st else { st with total := (st.pass + st.skip + st.fail) % 2 ^ 32 }
  .ok (st, st.total == (st.pass + st.skip) % 2 ^ 32)

/-! ### Results of tests -/

/-- `enum test_result_status`, cmd_test.c:29-35. -/
inductive Status
  | running | ok | failed | timedout | skipped
  deriving DecidableEq, Repr

/-- How the program of a test ended: with an exit code, or by a signal (or it could not be waited for). -/
inductive End
  | exit (code : Nat)
  | error
  deriving DecidableEq, Repr

/-- What is known about a test: `protocol: 'tap'`, `should_fail`. -/
structure Test where
  tap : Bool
  shouldFail : Bool
  deriving DecidableEq, Repr

/-- `check_test_result_tap`, cmd_test.c:496-507: `res->status` is what was known before, `out` the output, `none` if it was
not captured. Without any output the buffer is not allocated (src/platform/posix/run_cmd.c:245-247). -/
def checkTap (status : Status) (out : Option Bytes) : Res Status :=
  match out with
  | none => .bad
  | some [] => .bad
  | some (c :: o) => parse (c :: o) >>= fun r => .ok (if r.2 && status == .running then .ok else .failed)

/-- `check_test_result_exitcode`, cmd_test.c:509-522. -/
def checkExit (code : Nat) : Status :=
  if code = 0 then .ok else if code = 77 then .skipped else .failed

/-- The result of a test that ended, the body of `collect_tests`, cmd_test.c:539-597. -/
def collect (t : Test) (status : Status) (e : End) (out : Option Bytes) : Res Status :=
  if status = .timedout then .ok .timedout
  else match e with
    | .error => .ok .failed
    | .exit code =>
      (if t.tap then checkTap status out else .ok (checkExit code)) >>= fun s =>
      .ok (if s = .failed ∧ t.shouldFail then .ok else s)

/-- Whether `muon test` succeeds, cmd_test.c:981-1013: `ret`. -/
def overall (rs : List Status) : Bool :=
  rs.foldl (fun ret s => if s = .failed then false else if s = .timedout then false else ret) true

end Muon.Tap
