import Verif.Path.Model
import Verif.Str.Model
/-
Custom targets and generators: the command line, the outputs and the dependencies, src/functions/kernel/custom_target.c and
src/functions/generator.c. Files are their paths; texts are taken to have no NUL bytes (`get_cstr` asserts that). What
`coerce_files` makes of the inputs is given; inputs from generators are the outputs of those.
-/
namespace Muon.Ctgt
open Muon

/-- The roots, and the directories of the project file: `build_dir` and `cwd` of the current project. -/
structure Env where
  source : Bytes
  build : Bytes
  dir : Bytes
  cwd : Bytes
  deriving DecidableEq, Repr

/-- `struct process_custom_target_commandline_opts`, include/functions/kernel/custom_target.h:28-38. -/
structure Opts where
  relativize : Bool := true
  name : Option Bytes := none
  input : Option (List Bytes) := none
  output : Option (List Bytes) := none
  depfile : Option Bytes := none
  buildDir : Option Bytes := none
  extraValid : Bool := false
  extra : Option (List Bytes) := none
  deriving DecidableEq, Repr

/-- An element of `command`: a string, a file, a program with its command, a target with its directory and the name of its
file, a custom target with its outputs, a compiler with its command. Python installations are programs; of two libraries
the shared one is taken. -/
inductive Arg
  | str (s : Bytes)
  | file (p : Bytes)
  | prog (found : Bool) (cmd : List Bytes)
  | target (dir name : Bytes)
  | custom (outputs : List Bytes)
  | compiler (cmd : List Bytes)
  deriving DecidableEq, Repr

/-- Text before the result. -/
def emit (e : Bytes) (r : Res Bytes) : Res Bytes := r >>= fun t => .ok (e ++ t)

/-- `string_format`, src/functions/string.c:79-168, as a function of what is left of the text; Verif/Str has it with the
positions of the C code (C11), and `fmt_loop` relates them. `cb` gives the value of a key, `none` for
`format_cb_skip`. The arguments are whether a key is read, the key so far, and the text from `id_end` on. After a key that
is skipped the loop goes back to its beginning, and comes to the same `@` again. -/
def fmt (cb : Bytes → Res (Option Bytes)) : Bool → Bytes → Bytes → Bytes → Res Bytes
  | false, _, e, [] => .ok e
  | true, k, _, [] => .ok (64 :: k)
  | reading, k, e, c :: s =>
    if c = 64 then
      if !reading then emit e (fmt cb true [] (e ++ [64]) s)
      else if k = [] then emit [64] (fmt cb true [] [] s)
      else cb k >>= fun v =>
        match v with
        | some v => emit v (fmt cb false [] [] s)
        | none => emit (64 :: k) (fmt cb true [] (k ++ [64]) s)
    else if c = 92 then
      match s with
      | 64 :: s' => emit (if reading then 64 :: e else e) (fmt cb false [] [64] s')
      | s => fmt cb reading (k ++ [c]) (e ++ [c]) s
    else fmt cb reading (k ++ [c]) (e ++ [c]) s

/-- `string_format`. -/
def format (cb : Bytes → Res (Option Bytes)) (s : Bytes) : Res Bytes := fmt cb false [] [] s

/-- `str_relative_to_build_root`, src/functions/kernel/custom_target.c:48-79; `first`: `ctx->i` is 0. -/
def relative (E : Env) (o : Opts) (first : Bool) (p : Bytes) : Res Bytes :=
  if !o.relativize then .ok p
  else if !Path.isAbsolute p then .ok p
  else Path.relativeTo E.build p >>= fun r => .ok (if first then Path.executable r else r)

/-- An optional value, `error` without it (`format_cb_not_found`). -/
def need {α : Type} : Option α → Res α
  | some a => .ok a
  | none => .error

/-- The first element, with `boundscheck`. -/
def head : List Bytes → Res Bytes
  | [] => .error
  | p :: _ => .ok p

/-- The only element, `error` if there are not exactly one. -/
def only : List Bytes → Res Bytes
  | [p] => .ok p
  | _ => .error

/-- The path of a named key, src/functions/kernel/custom_target.c:101-223: `none` for keys that are not in the table. -/
def named (E : Env) (o : Opts) (k : Bytes) : Option (Res Bytes) :=
  if k = ascii "INPUT" then some (need o.input >>= head)
  else if k = ascii "OUTPUT" then some (need o.output >>= head)
  else if k = ascii "OUTDIR" then some (need o.output >>= fun _ => .ok E.dir)
  else if k = ascii "DEPFILE" then some (need o.depfile)
  else if k = ascii "PLAINNAME" then some (need o.input >>= only >>= fun p => .ok (Path.basename p))
  else if k = ascii "BASENAME" then some (need o.input >>= only >>= fun p => .ok (Path.withoutExt (Path.basename p)))
  else if k = ascii "PRIVATE_DIR" then
    some (need o.output >>= fun _ => need o.name >>= fun n => .ok (Path.join E.dir n ++ ascii ".p"))
  else if k = ascii "SOURCE_ROOT" then some (.ok E.source)
  else if k = ascii "BUILD_ROOT" then some (.ok E.build)
  else if k = ascii "BUILD_DIR" then some (need o.buildDir)
  else if k = ascii "CURRENT_SOURCE_DIR" then some (.ok E.cwd)
  else none

/-- `prefix_plus_index`, src/functions/kernel/custom_target.c:34-46; the key is followed by `@`. -/
def plusIndex (k pre : Bytes) : Option Int :=
  if pre.isPrefixOf k then Str.strToI (k.drop pre.length ++ [64]) (k.length - pre.length) false else none

/-- An element of the inputs or outputs, src/functions/kernel/custom_target.c:239-246; `get_obj_array` asserts that there are any. -/
def element (a : Option (List Bytes)) (i : Int) : Res Bytes :=
  match a with
  | none => .bad
  | some l => Str.indexArray l i

/-- The path of another key, src/functions/kernel/custom_target.c:225-246. -/
def indexed (o : Opts) (k : Bytes) : Option (Res Bytes) :=
  match plusIndex k (ascii "INPUT") with
  | some i => some (element o.input i)
  | none =>
    match plusIndex k (ascii "OUTPUT") with
    | some i => some (element o.output i)
    | none => none

/-- `format_cmd_arg_cb`, src/functions/kernel/custom_target.c:81-247. -/
def value (E : Env) (o : Opts) (first : Bool) (k : Bytes) : Res (Option Bytes) :=
  match named E o k with
  | some p => p >>= relative E o first >>= fun v => .ok (some v)
  | none =>
    match indexed o k with
    | some p => p >>= relative E o first >>= fun v => .ok (some v)
    | none => .ok none

/-- The state: `ctx->i`, the command, the dependencies. -/
structure St where
  i : Nat
  res : List Bytes
  deps : List Bytes
  deriving DecidableEq, Repr

/-- The next word. -/
def St.push (st : St) (w : Bytes) (dep : Bool) : St := ⟨st.i + 1, st.res ++ [w], if dep then st.deps ++ [w] else st.deps⟩

/-- `custom_target_cmd_fmt_iter` for files, src/functions/kernel/custom_target.c:258-280 and 333-338; `dep`: not `skip_depends`. -/
def files (E : Env) (o : Opts) (dep : Bool) : List Bytes → St → Res St
  | [], st => .ok st
  | p :: l, st => relative E o (st.i = 0) p >>= fun w => files E o dep l (st.push w dep)

/-- The counter goes on. -/
def St.tick (st : St) : St := { st with i := st.i + 1 }

/-- `custom_target_cmd_fmt_iter` for strings, src/functions/kernel/custom_target.c:282-311. -/
def str (E : Env) (o : Opts) (s : Bytes) (st : St) : Res St :=
  if s = ascii "@INPUT@" ∧ o.input.isSome then files E o false (o.input.getD []) st
  else if s = ascii "@OUTPUT@" ∧ o.output.isSome then files E o false (o.output.getD []) st >>= fun st => .ok st.tick
  else if o.extraValid = true ∧ s = ascii "@EXTRA_ARGS@" then .ok { st with res := st.res ++ o.extra.getD [], i := st.i + 1 }
  else format (value E o (st.i = 0)) s >>= fun w => .ok (st.push w false)

/-- Strings one after the other. -/
def strs (E : Env) (o : Opts) : List Bytes → St → Res St
  | [], st => .ok st
  | s :: l, st => str E o s st >>= strs E o l

/-- A program and its arguments, src/functions/kernel/custom_target.c:258-280: with arguments the counter does not go on. -/
def program (E : Env) (o : Opts) (cmd : List Bytes) (st : St) : Res St :=
  match cmd with
  | [] => .bad
  | c :: as =>
    relative E o (st.i = 0) c >>= fun w =>
    .ok (if as = [] then st.push w true else ⟨st.i, st.res ++ w :: as, st.deps ++ [w]⟩)

/-- The file of a target, `coerce_executable`, src/coerce.c:244-256. -/
def targetFile (E : Env) (dir name : Bytes) : Res Bytes :=
  Path.relativeTo E.build (Path.join dir name) >>= fun r => .ok (Path.executable r)

/-- `custom_target_cmd_fmt_iter`, src/functions/kernel/custom_target.c:249-339. -/
def arg (E : Env) (o : Opts) : Arg → St → Res St
  | .str s, st => str E o s st
  | .file p, st => files E o true [p] st
  | .prog found cmd, st => if !found then .error else program E o cmd st
  | .target dir name, st => targetFile E dir name >>= fun f => files E o true [f] st
  | .custom outputs, st => files E o true outputs st >>= fun st => .ok st.tick
  | .compiler cmd, st => strs E o cmd st >>= fun st => .ok st.tick

/-- All of them, `obj_array_foreach_flat`. -/
def args (E : Env) (o : Opts) : List Arg → St → Res St
  | [], st => .ok st
  | a :: l, st => arg E o a st >>= args E o l

/-- `process_custom_target_commandline`, src/functions/kernel/custom_target.c:341-362: the command and the dependencies. -/
def command (E : Env) (o : Opts) (l : List Arg) : Res (List Bytes × List Bytes) :=
  args E o l ⟨0, [], []⟩ >>= fun st => if st.res = [] then .error else .ok (st.res, st.deps)

/-! ### Outputs -/

/-- The one input, src/functions/kernel/custom_target.c:390-401. -/
def oneInput : Option (List Bytes) → Res Bytes
  | none => .bad
  | some l => only l

/-- `format_cmd_output_cb`, src/functions/kernel/custom_target.c:364-421. -/
def outValue (input : Option (List Bytes)) (k : Bytes) : Res (Option Bytes) :=
  if k = ascii "PLAINNAME" then oneInput input >>= fun p => .ok (some (Path.basename p))
  else if k = ascii "BASENAME" then oneInput input >>= fun p => .ok (some (Path.withoutExt (Path.basename p)))
  else .error

/-- An output: `coerce_into_file`, src/coerce.c:386-395, and `custom_command_output_format_iter`,
src/functions/kernel/custom_target.c:423-442. The keys are looked for in the whole path. -/
def output (dir : Bytes) (input : Option (List Bytes)) (t : Bytes) : Res Bytes :=
  if !Path.isBasename t then .error else format (outValue input) (Path.join dir t)

/-- The outputs, one after the other. -/
def formatAll (dir : Bytes) (input : Option (List Bytes)) : List Bytes → Res (List Bytes)
  | [] => .ok []
  | t :: l => format (outValue input) (Path.join dir t) >>= fun f => formatAll dir input l >>= fun fs => .ok (f :: fs)

/-- All outputs, src/functions/kernel/custom_target.c:516-534: first the names are checked. -/
def outputs (dir : Bytes) (input : Option (List Bytes)) (l : List Bytes) : Res (List Bytes) :=
  if !l.all Path.isBasename then .error else formatAll dir input l

/-- A custom target, include/lang/object.h; only what is looked at here. -/
structure Tgt where
  args : List Bytes
  input : Option (List Bytes)
  output : Option (List Bytes)
  depfile : Option Bytes
  depends : List Bytes
  deriving DecidableEq, Repr

/-- `struct make_custom_target_opts`, include/functions/kernel/custom_target.h:10-23. -/
structure Make where
  name : Option Bytes := none
  input : Option (List Bytes) := none
  output : Option (List Bytes) := none
  outDir : Bytes
  buildDir : Option Bytes := none
  command : List Arg
  depfile : Option Bytes := none
  extraValid : Bool := false
  extra : Option (List Bytes) := none
  deriving DecidableEq, Repr

/-- The outputs of a target that may have none, src/functions/kernel/custom_target.c:515-537. -/
def makeOutputs (m : Make) : Res (Option (List Bytes)) :=
  match m.output with
  | none => .ok none
  | some [] => .error
  | some l => outputs m.outDir m.input l >>= fun fs => .ok (some fs)

/-- The dependency file, src/functions/kernel/custom_target.c:539-562. -/
def makeDepfile (m : Make) : Res (Option Bytes) :=
  match m.depfile with
  | none => .ok none
  | some d => output m.outDir m.input d >>= fun f => .ok (some f)

/-- What the command is made with, src/functions/kernel/custom_target.c:564-574. -/
def makeOpts (m : Make) (out : Option (List Bytes)) (dep : Option Bytes) : Opts :=
  ⟨true, m.name, m.input, out, dep, m.buildDir, m.extraValid, m.extra⟩

/-- `make_custom_target`, src/functions/kernel/custom_target.c:474-598. -/
def make (E : Env) (m : Make) : Res Tgt :=
  makeOutputs m >>= fun out =>
  makeDepfile m >>= fun dep =>
  command E (makeOpts m out dep) m.command >>= fun c =>
  .ok ⟨c.1, m.input, out, dep, c.2⟩

/-! ### Generators -/

/-- `struct obj_generator` and `struct obj_generated_list`, include/lang/object.h. -/
structure Gen where
  output : List Bytes
  command : List Arg
  depfile : Option Bytes := none
  depends : List Bytes := []
  input : List Bytes
  extra : Option (List Bytes) := none
  preserve : Option Bytes := none
  deriving DecidableEq, Repr

/-- The check of `preserve_path_from`, src/functions/generator.c:180-196 and 225-240. -/
def checkPreserve (g : Gen) : Res Unit :=
  match g.preserve with
  | none => .ok ()
  | some b =>
    if !Path.isAbsolute b then .error
    else g.input.foldl (fun r f => r >>= fun _ => Path.isSubpath b f >>= fun x => if x then .ok () else .error) (.ok ())

/-- The directory of the outputs, src/functions/generator.c:65-79. -/
def genDir (dir : Bytes) (preserve : Option Bytes) (src : Bytes) : Res Bytes :=
  match preserve with
  | none => .ok dir
  | some b => Path.relativeTo b src >>= fun r => .ok (Path.join dir (Path.dirname r))

/-- `generated_list_process_for_target_iter`, src/functions/generator.c:60-126, for a target with a private directory. -/
def genOne (E : Env) (g : Gen) (dir src : Bytes) : Res Tgt :=
  genDir dir g.preserve src >>= fun d =>
  make E { input := some [src], output := some g.output, outDir := d, buildDir := some dir, command := g.command,
           depfile := g.depfile, extraValid := true, extra := g.extra } >>= fun t =>
  .ok { t with depends := t.depends ++ g.depends }

/-- `generated_list_process_for_target`, src/functions/generator.c:128-173: the custom targets; the files are their outputs. -/
def generate (E : Env) (g : Gen) (dir : Bytes) : List Bytes → Res (List Tgt)
  | [] => .ok []
  | s :: l => genOne E g dir s >>= fun t => generate E g dir l >>= fun ts => .ok (t :: ts)

end Muon.Ctgt
