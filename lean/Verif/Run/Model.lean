import Verif.Tap.Model
/-
Running the tests of a project, src/cmd_test.c: `push_test`, `collect_tests`, `run_test`, `run_project_tests`. Tests are
numbered. When and how the program of a test ends is up to the environment; every call of `collect_tests` is told which
programs have ended, and with which result (`Muon.Tap.collect`, or a time-out). Sleeping, printing, killing, and the set-up of the
command are left out.
-/
namespace Muon.Run
open Muon Muon.Tap

/-- The options and tests that matter here: `opts->fail_fast`, `test->is_parallel`. -/
structure Conf where
  failFast : Bool
  par : Nat → Bool

/-- `struct run_test_ctx`, cmd_test.c:45-73: `jobs` (the test of every busy slot), `busy_jobs`, `serial`, `test_results`,
`stats.total_error_count`. -/
structure St where
  slots : List (Option Nat)
  busy : Nat
  serial : Bool
  results : List (Nat × Status)
  errors : Nat
  deriving DecidableEq, Repr

/-- A result counted as error, `print_test_progress`, cmd_test.c:200-215. -/
def isError (s : Status) : Bool := s == .failed || s == .timedout

/-- The first slot that is not busy, cmd_test.c:626-630. -/
def firstFree : List (Option Nat) → Nat → Option Nat
  | [], _ => none
  | none :: _, i => some i
  | some _ :: s, i => firstFree s (i + 1)

/-- The slot a test can be started in, cmd_test.c:620-637; `none` if it has to wait. -/
def slotFor (c : Conf) (st : St) (t : Nat) : Option Nat :=
  if st.serial && st.busy ≠ 0 then none
  else if c.par t then firstFree st.slots 0
  else if st.busy = 0 then some 0
  else none

/-- A test is started in a slot, cmd_test.c:632-636,643-680; `ok` is the result of `run_cmd`. -/
def start (c : Conf) (st : St) (t i : Nat) (ok : Bool) : St :=
  let serial := if c.par t then st.serial else true
  if ok then { st with slots := st.slots.set i (some t), busy := st.busy + 1, serial := serial }
  else { st with slots := st.slots.set i none, serial := serial, results := st.results ++ [(t, .failed)], errors := st.errors + 1 }

/-- The program in slot `i` has ended, cmd_test.c:545-606. -/
def free (c : Conf) (st : St) (i t : Nat) (s : Status) : St :=
  { slots := st.slots.set i none
    busy := st.busy - 1
    serial := if c.par t then st.serial else false
    results := st.results ++ [(t, s)]
    errors := if isError s then st.errors + 1 else st.errors }

/-- `collect_tests`, cmd_test.c:524-612: the loop over the slots `is`. `ended i` is the result of the program in slot `i`
if it has ended. -/
def collectFrom (c : Conf) (ended : Nat → Option Status) : List Nat → St → St
  | [], st => st
  | i :: is, st =>
    match st.slots[i]? with
    | some (some t) =>
      match ended i with
      | none => collectFrom c ended is st
      | some s =>
        if c.failFast && (free c st i t s).errors ≠ 0 then free c st i t s
        else collectFrom c ended is (free c st i t s)
    | _ => collectFrom c ended is st

def collectAll (c : Conf) (ended : Nat → Option Status) (st : St) : St :=
  collectFrom c ended (List.range st.slots.length) st

/-- Where `run_project_tests`, cmd_test.c:832-888, is: before the next test, in `push_test` waiting for a slot, waiting for
the remaining programs, done, or done early. -/
inductive Phase
  | next (rest : List Nat)
  | waiting (t : Nat) (rest : List Nat)
  | drain
  | finished
  | stopped (rest : List Nat)
  deriving DecidableEq, Repr

/-- One step: `run_test`, cmd_test.c:682-728 (687-689 the end after an error), `push_test`, cmd_test.c:614-680, and the end of
`run_project_tests`, cmd_test.c:870-882. -/
inductive Step (c : Conf) : Phase × St → Phase × St → Prop
  | begin {t : Nat} {rest : List Nat} {st : St} : ¬ (c.failFast = true ∧ st.errors ≠ 0) →
      Step c (.next (t :: rest), st) (.waiting t rest, st)
  | stop {rest : List Nat} {st : St} : c.failFast = true → st.errors ≠ 0 → Step c (.next rest, st) (.stopped rest, st)
  | wait {t : Nat} {rest : List Nat} {st : St} (ended : Nat → Option Status) : slotFor c st t = none →
      Step c (.waiting t rest, st) (.waiting t rest, collectAll c ended st)
  | start {t i : Nat} {rest : List Nat} {st : St} (ok : Bool) : slotFor c st t = some i →
      Step c (.waiting t rest, st) (.next rest, start c st t i ok)
  | all {st : St} : ¬ (c.failFast = true ∧ st.errors ≠ 0) → Step c (.next [], st) (.drain, st)
  | drain {st : St} (ended : Nat → Option Status) : st.busy ≠ 0 → Step c (.drain, st) (.drain, collectAll c ended st)
  | finish {st : St} : st.busy = 0 → Step c (.drain, st) (.finished, st)

/-- The beginning: `jobs` idle slots (cmd_test.c:909), and nothing recorded. `serial` may be left over from the tests of an
earlier project. -/
def initial (jobs : Nat) (serial : Bool) : St := ⟨List.replicate jobs none, 0, serial, [], 0⟩

/-- `test_compare`, cmd_test.c:797-817: priority and `is_parallel` of two tests. -/
def compare (p1 p2 : Int) (par1 par2 : Bool) : Int :=
  if p1 > p2 then -1 else if p1 < p2 then 1 else if par1 && par2 then 0 else if par1 then 1 else -1

end Muon.Run
