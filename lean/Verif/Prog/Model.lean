import Verif.Exec.Model
import Verif.Lookup.Model
/-
Model of `find_program()`, `meson.override_find_program()`, `run_command()`, the methods of a program, and the guess of
versions (src/functions/kernel.c:476-813 and 986-1091, src/functions/meson.c:280-316, src/functions/external_program.c,
src/guess.c).

Left out: messages; the checks of the types of arguments (`Verif/Args`); the evaluation of subprojects
(`Verif/Sub`), which is a parameter; the execution of programs (`Verif/Exec`), of which the output is a parameter;
the environment given to `run_command` (`Verif/Env`).
-/
namespace Muon.Prog
open Muon

/-! ### Versions -/

/-- The test of the inner loop of `guess_version`, src/guess.c:22. -/
def verChar (c : UInt8) : Bool := (48 ≤ c && c ≤ 57) || c == 46

/-- The inner loop of `guess_version`, src/guess.c:20-27: the text it goes over. -/
def run : Bytes → Bytes
  | [] => []
  | c :: cs => if verChar c then c :: run cs else []

/-- `new_dots`, src/guess.c:23-25. -/
def dots : Bytes → Nat
  | [] => 0
  | c :: cs => (if c = 46 then 1 else 0) + dots cs

/-- The outer loop of `guess_version`, src/guess.c:19-38; `best` is `ver` with `ver_len` and `dots`. The end of the
list, or a zero byte, ends the text. The fuel is the length of the text: every round goes over at least one byte. -/
def guessLoop : Nat → Bytes → Option Bytes × Nat → Option Bytes × Nat
  | 0, _, best => best
  | _ + 1, [], best => best
  | k + 1, c :: cs, best =>
    if c = 0 then best
    else
      let w := run (c :: cs)
      let best := if best.2 < dots w then (some w, dots w) else best
      guessLoop k ((c :: cs).drop (if w.length = 0 then 1 else w.length)) best

/-- `guess_version`, src/guess.c:13-46. -/
def guessVersion (src : Bytes) : Option Bytes := (guessLoop src.length src (none, 0)).1

/-! ### Programs -/

/-- `struct obj_external_program`, include/lang/object.h:311-315; `cmd` is `none` for the object 0. -/
structure Ext where
  found : Bool
  guessed : Bool
  cmd : Option (List Bytes)
  ver : Option Bytes
  deriving DecidableEq, Repr

/-- What `find_program` gives and takes: a file, a target (a number stands for it), a program, a python installation,
a compiler (given by its command). -/
inductive Obj
  | file (p : Bytes) | target (i : Nat) | ext (e : Ext) | python (e : Ext) | str (s : Bytes) | compiler (cmd : List Bytes)
  deriving DecidableEq, Repr

/-- A value of the dictionary `find_program_overrides`: an array of two, or a program. -/
inductive Over
  | pair (o : Obj) (ver : Option Bytes) | prog (o : Obj)
  deriving DecidableEq, Repr

/-- The part of the workspace that is read and written: `find_program_overrides`. A dictionary is a function. -/
structure St where
  over : Bytes → Option Over

/-- What a call depends on besides its arguments: the directory of the build definition, the files, the option
`wrap_mode`, the programs that wrap files provide (`wrap_provides_exes`), what `subproject()` does (the new state,
whether it returns true, whether the subproject was found), what a program prints when it is called with `--version` and
succeeds, whether samurai is built in, and the name of muon. -/
structure Env where
  cwd : Bytes
  isFile : Bytes → Bool
  files : Exec.Files
  wrap : Lookup.Wrap
  provides : Bytes → Option Bytes
  sub : St → Bytes → St × Bool × Bool
  prints : List Bytes → Option Bytes
  samurai : Bool
  argv0 : Bytes

/-- The arguments of `find_program()`. -/
structure Call where
  names : List Obj
  req : Lookup.Req := .required
  disabler : Bool := false
  dirs : Option (List Bytes) := none
  versions : Option (List Bytes) := none
  deriving DecidableEq, Repr

/-- `func_meson_override_find_program`, src/functions/meson.c:280-316; `pver` is the version of the project, if it has
one. Strings and compilers are not allowed. -/
def overrideFindProgram (pver : Option Bytes) (name : Bytes) (o : Obj) (st : St) : Res St :=
  let set (v : Over) : Res St := .ok { over := fun n => if n = name then some v else st.over n }
  match o with
  | .file p => set (.pair (.file p) pver)
  | .target i => set (.pair (.target i) pver)
  | .ext e => set (.prog (.ext e))
  | .python e => set (.prog (.python e))
  | .str _ => .error
  | .compiler _ => .error

/-- `find_program_guess_version`, src/functions/external_program.c:17-35. -/
def guess (E : Env) (cmd : List Bytes) : Option Bytes :=
  match E.prints cmd with
  | none => none
  | some out => guessVersion out

/-- The result for a program that was found, src/functions/kernel.c:545-553. -/
def asProgram : Obj → Obj
  | .file p => .ext ⟨true, false, some [p], none⟩
  | o => o

/-- The comparison of the version of an override, src/functions/kernel.c:536-543. -/
def overAccepts (vs : Option (List Bytes)) (over : Option Bytes) : Bool :=
  match vs, over with
  | some cs, some v => Version.versionCompare v cs
  | _, _ => true

/-- `find_program_check_override`, src/functions/kernel.c:506-559. For a python installation `get_obj_external_program`
aborts (src/lang/object.c:30-35); so does `obj_array_dup` of the command of a program that has none. -/
def checkOver (E : Env) (vs : Option (List Bytes)) (st : St) (name : Bytes) : Res (Option Obj) :=
  match st.over name with
  | none => .ok none
  | some (.pair o v) => .ok (if overAccepts vs v then some (asProgram o) else none)
  | some (.prog (.ext e)) =>
    if e.found then
      match vs with
      | none => .ok (some (.ext e))
      | some cs =>
        match e.cmd with
        | none => .bad
        | some cmd => .ok (if overAccepts (some cs) (guess E cmd) then some (.ext e) else none)
    else .ok none
  | some (.prog _) => .bad

/-- `find_program_check_fallback`, src/functions/kernel.c:561-585. -/
def checkFallback (E : Env) (vs : Option (List Bytes)) (st : St) (name : Bytes) : Res (St × Option Obj) :=
  match E.provides name with
  | none => .ok (st, none)
  | some s =>
    let r := E.sub st s
    if !r.2.1 && r.2.2 then .ok (r.1, none)
    else checkOver E vs r.1 name >>= fun o => .ok (r.1, o)

/-- `find_program_custom_dir_iter` over the directories, src/functions/kernel.c:491-504. -/
def dirLoop (E : Env) (s : Bytes) : List Bytes → Option Bytes
  | [] => none
  | d :: ds => if E.isFile (Path.join d s) then some (Path.join d s) else dirLoop E s ds

/-- The file of the given name, src/functions/kernel.c:656-675. -/
def place (E : Env) (dirs : Option (List Bytes)) (s : Bytes) : Res (Option Bytes) :=
  match dirLoop E s (dirs.getD []) with
  | some p => .ok (some p)
  | none =>
    if E.isFile (Path.join E.cwd s) then .ok (some (Path.join E.cwd s))
    else match Exec.findCmd E.files s with
      | .ok p => .ok (some p)
      | .error => .ok none
      | .bad => .bad

/-- A program made of a file, src/functions/kernel.c:707-736. -/
def ofFile (E : Env) (vs : Option (List Bytes)) (p : Bytes) : Option Obj :=
  match vs with
  | none => some (.ext ⟨true, false, some [p], none⟩)
  | some cs =>
    match guess E [p] with
    | none => none
    | some v => if Version.versionCompare v cs then some (.ext ⟨true, true, some [p], some v⟩) else none

/-- The built-in samurai, src/functions/kernel.c:691-704. -/
def special (E : Env) (s : Bytes) : Option Obj :=
  if E.samurai && (s == ascii "ninja" || s == ascii "samu") then
    some (.ext ⟨true, false, some [E.argv0, ascii "samu"], none⟩)
  else none

/-- `find_program` from the fallback of the last resort on, src/functions/kernel.c:677-706. -/
def findLast (E : Env) (vs : Option (List Bytes)) (req : Lookup.Req) (st : St) (s : Bytes) : Res (St × Option Obj) :=
  if E.wrap ≠ .nofallback ∧ req = .required then
    checkFallback E vs st s >>= fun r =>
      match r.2 with
      | some o => .ok (r.1, some o)
      | none => .ok (r.1, special E s)
  else .ok (st, special E s)

/-- `find_program` from the directories on, for a string or for a file, src/functions/kernel.c:656-736. -/
def findFile (E : Env) (dirs vs : Option (List Bytes)) (req : Lookup.Req) (isStr : Bool) (st : St) (s : Bytes) :
    Res (St × Option Obj) :=
  place E dirs s >>= fun p =>
    match p with
    | some p => .ok (st, ofFile E vs p)
    | none => if isStr then findLast E vs req st s else .ok (st, none)

/-- `find_program` for a string from the forced fallback on, src/functions/kernel.c:640-736. -/
def findForced (E : Env) (dirs vs : Option (List Bytes)) (req : Lookup.Req) (st : St) (s : Bytes) : Res (St × Option Obj) :=
  if E.wrap = .forcefallback then
    checkFallback E vs st s >>= fun r =>
      match r.2 with
      | some o => .ok (r.1, some o)
      | none => findFile E dirs vs req true r.1 s
  else findFile E dirs vs req true st s

/-- `find_program`, src/functions/kernel.c:587-737. Other types are rejected. -/
def findOne (E : Env) (dirs vs : Option (List Bytes)) (req : Lookup.Req) (st : St) : Obj → Res (St × Option Obj)
  | .ext e => .ok (st, if e.found then some (.ext e) else none)
  | .python e => .ok (st, if e.found then some (.ext e) else none)
  | .file p => findFile E dirs vs req false st p
  | .str s =>
    checkOver E vs st s >>= fun o =>
      match o with
      | some o => .ok (st, some o)
      | none => findForced E dirs vs req st s
  | .target _ => .error
  | .compiler _ => .error

/-- `find_program_iter` over the names, src/functions/kernel.c:739-749 and 791: an error ends the loop, and is not
looked at afterwards. -/
def findAll (E : Env) (dirs vs : Option (List Bytes)) (req : Lookup.Req) : St → List Obj → Res (St × Option Obj)
  | st, [] => .ok (st, none)
  | st, n :: ns =>
    match findOne E dirs vs req st n with
    | .bad => .bad
    | .error => .ok (st, none)
    | .ok (st', some o) => .ok (st', some o)
    | .ok (st', none) => findAll E dirs vs req st' ns

/-- The result of a call. -/
inductive Val
  | obj (o : Obj) | disabler
  deriving DecidableEq, Repr

/-- A program that was not found, src/functions/kernel.c:779-784 and 799-804. -/
def missing (disabler : Bool) : Val :=
  if disabler then .disabler else .obj (.ext ⟨false, false, none, none⟩)

/-- `func_find_program`, src/functions/kernel.c:751-813. -/
def findProgram (E : Env) (c : Call) (st : St) : Res (St × Val) :=
  if c.req = .skip then .ok (st, missing c.disabler)
  else
    findAll E c.dirs c.versions c.req st c.names >>= fun r =>
      match r.2 with
      | some o => .ok (r.1, .obj o)
      | none => if c.req = .required then .error else .ok (r.1, missing c.disabler)

/-! ### Methods of programs -/

/-- `func_external_program_found`, src/functions/external_program.c:38-48. -/
def found (e : Ext) : Bool := e.found

/-- `func_external_program_path`, src/functions/external_program.c:50-65. The command of a program that was not found
is the object 0, which is not an array. -/
def path (e : Ext) : Res Bytes :=
  match e.cmd with
  | none => .bad
  | some cmd =>
    if cmd.length > 1 then .error
    else match cmd with
      | [] => .bad
      | p :: _ => .ok p

/-- `func_external_program_version`, src/functions/external_program.c:67-82: the program afterwards, and the version. -/
def version (E : Env) (e : Ext) : Res (Ext × Option Bytes) :=
  if e.guessed then .ok (e, e.ver)
  else match e.cmd with
    | none => .bad
    | some cmd => .ok ({ e with guessed := true, ver := guess E cmd }, guess E cmd)

/-! ### Running commands -/

/-- `arr_to_args_iter` with `arr_to_args_external_program`, src/args.c:163-249. -/
def words : Obj → Res (List Bytes)
  | .str s => .ok [s]
  | .file p => .ok [p]
  | .target _ => .error
  | .ext e => match e.cmd with
    | none => .bad
    | some cmd => .ok cmd
  | .python _ => .bad
  | .compiler cmd => .ok cmd

/-- `arr_to_args`, src/args.c:251-262. -/
def allWords : List Obj → Res (List Bytes)
  | [] => .ok []
  | o :: os => words o >>= fun w => allWords os >>= fun ws => .ok (w ++ ws)

/-- The command line of `run_command`, src/functions/kernel.c:1008-1051: the state and the words. -/
def commandLine (E : Env) (st : St) : List Obj → Res (St × List Bytes)
  | [] => .error
  | .compiler cmd :: os => allWords (.compiler cmd :: os) >>= fun ws => .ok (st, ws)
  | a :: os =>
    findOne E none none .auto st a >>= fun r =>
      match r.2 with
      | none => .error
      | some o => allWords (o :: os) >>= fun ws => .ok (r.1, ws)

/-- What a command does: its status and what it prints, `struct run_cmd_ctx`. -/
structure Ran where
  status : Int
  out : Bytes
  err : Bytes
  deriving DecidableEq, Repr

/-- `func_run_command`, src/functions/kernel.c:986-1091; `exec` is `run_cmd`, which fails for commands that cannot be
started. -/
def runCommand (E : Env) (exec : List Bytes → Option Ran) (check capture : Option Bool) (st : St) (args : List Obj) :
    Res (St × Ran) :=
  commandLine E st args >>= fun l =>
    match exec l.2 with
    | none => .error
    | some r =>
      if check = some true ∧ r.status ≠ 0 then .error
      else if capture = some false then .ok (l.1, { r with out := [], err := [] })
      else .ok (l.1, r)

end Muon.Prog
