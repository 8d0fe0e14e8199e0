import Verif.Probe.Counter
/-
C99: the methods of what `run()` and `run_command()` give, src/functions/run_result.c.
-/
namespace Muon.Probe
open Muon Spec

/-- `struct obj_run_result`, include/lang/object.h: the flags and what the program did. -/
structure Result where
  fromCompile : Bool
  compileOk : Bool
  ran : Run
  deriving DecidableEq

/-- The result made by `func_compiler_run`, src/functions/compiler.c:1649-1664; without a program that ran the rest is 0. -/
def Result.ofCompile : Option Run → Result
  | some r => ⟨true, true, r⟩
  | none => ⟨true, false, ⟨0, [], []⟩⟩

/-- The result made by `func_run_command`, src/functions/kernel.c:1076-1085. -/
def Result.ofCommand (r : Run) : Result := ⟨false, false, r⟩

/-- `ensure_valid_run_result`, src/functions/run_result.c:14-26. -/
def Result.valid (r : Result) : Bool := !(r.fromCompile && !r.compileOk)

/-- `func_run_result_returncode`, `func_run_result_stdout`, `func_run_result_stderr`, src/functions/run_result.c:28-72. -/
def Result.returncode (r : Result) : Res Nat := if r.valid then .ok r.ran.status else .error
def Result.stdout (r : Result) : Res Bytes := if r.valid then .ok r.ran.out else .error
def Result.stderr (r : Result) : Res Bytes := if r.valid then .ok r.ran.err else .error

/-- `func_run_result_compiled`, src/functions/run_result.c:74-91. -/
def Result.compiled (r : Result) : Res Bool := if r.fromCompile then .ok r.compileOk else .error

/-- C99: what the methods of the result of `run()` say about a program: if the compiler accepts it, what it did; if not, that it was not compiled, and nothing else. -/
theorem run_result_text (W : World) (E : Env) (kw : Kw) (t : Bytes) (hr : kw.req = .auto) :
    (∀ r, Accepts W (line E kw .run) t → W.exe (line E kw .run) t = some r →
      ∃ v, direct W (runText E kw t) = .ok (.run v) ∧ (Result.ofCompile v).compiled = .ok true ∧ (Result.ofCompile v).returncode = .ok r.status ∧
        (Result.ofCompile v).stdout = .ok r.out ∧ (Result.ofCompile v).stderr = .ok r.err) ∧
    (Rejects W (line E kw .run) t →
      ∃ v, direct W (runText E kw t) = .ok (.run v) ∧ (Result.ofCompile v).compiled = .ok false ∧ (Result.ofCompile v).returncode = .error ∧
        (Result.ofCompile v).stdout = .error ∧ (Result.ofCompile v).stderr = .error) := by
  obtain ⟨h1, h2, _⟩ := run_text W E kw t hr
  exact ⟨fun r a b => ⟨some r, h1 r a b, rfl, rfl, rfl, rfl⟩, fun a => ⟨none, h2 a, rfl, rfl, rfl, rfl⟩⟩

/-- C99: the same for a file. -/
theorem run_result_file (W : World) (E : Env) (kw : Kw) (p : Bytes) (hr : kw.req = .auto) :
    (∀ r, Accepts W (command E kw .run p (testOutput E .run)) (W.file p) → W.exe (command E kw .run p (testOutput E .run)) (W.file p) = some r →
      ∃ v, direct W (runPath E kw p) = .ok (.run v) ∧ (Result.ofCompile v).compiled = .ok true ∧ (Result.ofCompile v).returncode = .ok r.status ∧
        (Result.ofCompile v).stdout = .ok r.out ∧ (Result.ofCompile v).stderr = .ok r.err) ∧
    (Rejects W (command E kw .run p (testOutput E .run)) (W.file p) →
      ∃ v, direct W (runPath E kw p) = .ok (.run v) ∧ (Result.ofCompile v).compiled = .ok false ∧ (Result.ofCompile v).returncode = .error ∧
        (Result.ofCompile v).stdout = .error ∧ (Result.ofCompile v).stderr = .error) := by
  obtain ⟨h1, h2⟩ := run_file W E kw p hr
  exact ⟨fun r a b => ⟨some r, h1 r a b, rfl, rfl, rfl, rfl⟩, fun a => ⟨none, h2 a, rfl, rfl, rfl, rfl⟩⟩

/-- C99: of the result of a command, `compiled()` is an error, and the others say what it did, also if it failed. -/
theorem command_result (r : Run) : (Result.ofCommand r).compiled = .error ∧ (Result.ofCommand r).returncode = .ok r.status ∧ (Result.ofCommand r).stdout = .ok r.out ∧
    (Result.ofCommand r).stderr = .ok r.err := ⟨rfl, rfl, rfl, rfl⟩

example (E : Env) (kw : Kw) (t : Bytes) : Accepts exAccept (line E kw .run) t ∧ exAccept.exe (line E kw .run) t = some ⟨0, [52], []⟩ ∧ Rejects exReject (line E kw .run) t :=
  ⟨rfl, rfl, 1, by decide, rfl⟩

end Muon.Probe
