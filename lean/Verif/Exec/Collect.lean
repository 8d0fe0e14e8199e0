import Verif.Base
/-
Collecting the output of a program: `copy_pipe`, `copy_pipes`, `run_cmd_collect`, src/platform/posix/run_cmd.c:35-166, while the program and its children
write, close their ends and exit at any time.
-/
namespace Muon.Exec.Collect
open Muon

/-- A pipe: bytes that have been written and not been read, whether someone can still write, and (not in the code) all that has been written. -/
structure Pipe where
  buf : Bytes
  writable : Bool
  all : Bytes
  deriving DecidableEq

/-- How a process ended. -/
inductive Exit
  | code (n : Nat)
  | signal
  | other
  deriving DecidableEq

/-- The pipes for standard output and error, and the end of the process. -/
structure Sys where
  out : Pipe
  err : Pipe
  exit : Option Exit

/-- What may happen to a pipe outside of muon: a write, if someone has it open, or the last close. -/
inductive PipeStep : Pipe → Pipe → Prop
  | write (p : Pipe) (bs : Bytes) (h : p.writable = true) : PipeStep p ⟨p.buf ++ bs, true, p.all ++ bs⟩
  | close (p : Pipe) (h : p.writable = true) : PipeStep p { p with writable := false }

/-- What may happen outside of muon: something to one pipe, or the end of the process. Other processes may have the pipes open after it. -/
inductive Outside : Sys → Sys → Prop
  | out (s : Sys) (p : Pipe) (h : PipeStep s.out p) : Outside s { s with out := p }
  | err (s : Sys) (p : Pipe) (h : PipeStep s.err p) : Outside s { s with err := p }
  | exits (s : Sys) (e : Exit) (h : s.exit = none) : Outside s { s with exit := some e }

/-- `enum copy_pipe_result`, src/platform/posix/run_cmd.c:29-33, without failures. -/
inductive Copied
  | finished
  | waiting
  deriving DecidableEq

/-- The result of `read` on a pipe that does not block: some of the bytes, the end, or `EAGAIN`. -/
inductive Read : Pipe → Pipe → Option Bytes → Option Copied → Prop
  | data (p : Pipe) (bs r : Bytes) (h : p.buf = bs ++ r) (hne : bs ≠ []) (hl : bs.length ≤ 4096) : Read p { p with buf := r } (some bs) none
  | eof (p : Pipe) (h : p.buf = []) (hw : p.writable = false) : Read p p none (some .finished)
  | again (p : Pipe) (h : p.buf = []) (hw : p.writable = true) : Read p p none (some .waiting)

/-- Where `run_cmd_collect` is: reading standard output or error (with the result for standard output), before the end of the process was seen or after it,
before `waitpid`, returned. -/
inductive Pc
  | copyOut (ended : Option Exit)
  | copyErr (ended : Option Exit) (res : Copied)
  | wait (res : Copied)
  | done (status : Option Nat)
  deriving DecidableEq

/-- `ctx->status`, or an error, src/platform/posix/run_cmd.c:153-163. -/
def statusOf : Exit → Option Nat
  | .code n => some n
  | .signal => none
  | .other => none

/-- After `copy_pipes`: before the end of the process `waitpid` follows, src/platform/posix/run_cmd.c:116-138, after it the loop runs until both pipes are at their
end, run_cmd.c:142-148. -/
def afterCopy : Option Exit → Copied → Pc
  | none, r => .wait r
  | some e, .finished => .done (statusOf e)
  | some e, .waiting => .copyOut (some e)

/-- `copy_pipes`, src/platform/posix/run_cmd.c:58-77, without failures. -/
def both : Copied → Copied → Copied
  | _, .waiting => .waiting
  | res, .finished => res

/-- After `waitpid`, src/platform/posix/run_cmd.c:123-148: if the process has not ended, everything is tried again, at once or at the next call. -/
def afterWait (res : Copied) : Option Exit → Pc
  | none => .copyOut none
  | some e => if res = .finished then .done (statusOf e) else .copyOut (some e)

/-- muon's state: what has been collected, and where it is. -/
structure St where
  sys : Sys
  out : Bytes
  err : Bytes
  pc : Pc

/-- A step of muon. -/
inductive Step : St → St → Prop
  | outData (s : St) (e : Option Exit) (p : Pipe) (bs : Bytes) (hp : s.pc = .copyOut e) (h : Read s.sys.out p (some bs) none) :
      Step s { s with sys := { s.sys with out := p }, out := s.out ++ bs }
  | outEnd (s : St) (e : Option Exit) (p : Pipe) (r : Copied) (hp : s.pc = .copyOut e) (h : Read s.sys.out p none (some r)) : Step s { s with pc := .copyErr e r }
  | errData (s : St) (e : Option Exit) (res : Copied) (p : Pipe) (bs : Bytes) (hp : s.pc = .copyErr e res) (h : Read s.sys.err p (some bs) none) :
      Step s { s with sys := { s.sys with err := p }, err := s.err ++ bs }
  | errEnd (s : St) (e : Option Exit) (res r : Copied) (p : Pipe) (hp : s.pc = .copyErr e res) (h : Read s.sys.err p none (some r)) :
      Step s { s with pc := afterCopy e (both res r) }
  | wait (s : St) (res : Copied) (hp : s.pc = .wait res) : Step s { s with pc := afterWait res s.sys.exit }

/-- Steps of muon and of the others, in any order. -/
inductive Run : St → St → Prop
  | refl (s : St) : Run s s
  | muon {s t u : St} (h : Run s t) (h' : Step t u) : Run s u
  | others {s t : St} {y : Sys} (h : Run s t) (h' : Outside t.sys y) : Run s { t with sys := y }

/-- The start: nothing has been written. -/
def start : St := ⟨⟨⟨[], true, []⟩, ⟨[], true, []⟩, none⟩, [], [], .copyOut none⟩

end Muon.Exec.Collect
