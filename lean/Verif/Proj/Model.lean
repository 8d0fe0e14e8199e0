import Verif.Path.Model
/-
Files of a build: `project()`, languages, arguments of languages, `subdir()` and `subproject()`: src/functions/kernel.c,
src/functions/kernel/subproject.c and src/lang/eval.c.

A file is the list of the calls in it, with arguments that were already evaluated. The files that can be read, the directories of
subprojects that exist, the compilers that are found and the directories that can be made are parameters. Not modelled here: options,
versions, wraps (`Verif.Sub`) and targets; what a target gets of the arguments is `Verif.Cmdline`.

`Ws.log` is what happened, for the statements of theorems. It is not in the program, and nothing looks at it.
-/
namespace Muon.Proj
open Muon

/-- `enum compiler_language`, include/compilers.h:48-60. -/
inductive Lang
  | null | c | cHdr | cpp | cppHdr | cObj | objc | assembly | llvmIr | nasm
deriving DecidableEq, Repr

/-- `compiler_language_names`, src/compilers.c:75-86. -/
def langNames : List (Bytes × Lang) :=
  [(ascii "null", .null), (ascii "c", .c), (ascii "c_hdr", .cHdr), (ascii "cpp", .cpp), (ascii "cpp_hdr", .cppHdr), (ascii "c_obj", .cObj),
    (ascii "objc", .objc), (ascii "assembly", .assembly), (ascii "llvm_ir", .llvmIr), (ascii "nasm", .nasm)]

/-- `s_to_compiler_language`, src/compilers.c:95-107. -/
def langOf (n : Bytes) : Option Lang := (langNames.find? fun p => p.1 == n).map (·.2)

/-- `enum requirement_type`, include/coerce.h:10-14. -/
inductive Req
  | skip | required | auto
deriving DecidableEq, Repr

/-- A compiler that was found: which program it is, whether it is clang, and whether it is the copy for LLVM IR, kernel.c:79-86. -/
structure Comp where
  prog : Nat
  clang : Bool
  ir : Bool := false
deriving DecidableEq, Repr

/-- The three dictionaries of a project: `args`, `link_args` and `include_dirs`, src/lang/workspace.c:28-31. -/
inductive Kind
  | args | link | incs
deriving DecidableEq, Repr

/-- An array for every language; one that is not in the dictionary is empty. -/
abbrev Tbl := Kind → Lang → List Bytes

/-- `struct project`, include/lang/workspace.h, as far as it is needed here. -/
structure Proj where
  src : Bytes
  bld : Bytes
  cwd : Bytes
  build : Bytes
  tbl : Tbl := fun _ _ => []
  comps : Lang → Option Comp := fun _ => none
  subs : Bytes := ascii "subprojects"
  inited : Bool := false
  notOk : Bool := false

/-- What happened (not in the program): calls that add arguments or dependencies, `files()` with its result, the begin and the end of
`subdir()`, and files that were read. -/
inductive Ev
  | args (proj : Nat) (glob : Bool) (kind : Kind) (langs as : List Bytes)
  | deps (proj : Nat) (langs declared cargs largs incs : List Bytes)
  | file (proj : Nat) (name path : Bytes)
  | enter (proj : Nat) (name : Bytes)
  | leave (proj : Nat)
  | read (proj : Nat) (path : Bytes)
deriving DecidableEq, Repr

/-- `struct workspace`; `ast` is the file whose syntax tree is used, `done` is `subdir_done`. -/
structure Ws where
  projs : List Proj := []
  cur : Nat := 0
  glob : Tbl := fun _ _ => []
  cache : List (Bytes × Nat) := []
  ast : Bytes := []
  done : Bool := false
  log : List Ev := []

/-- The calls in a file. `subdir` also has whether all dependencies of `if_found` are found. -/
inductive Stmt
  | project (langs : List Bytes) (subs : Option Bytes)
  | addArgs (glob : Bool) (kind : Kind) (langs as : List Bytes)
  | addDeps (langs cargs largs incs : List Bytes)
  | addLangs (req : Req) (names : List Bytes)
  | files (name : Bytes)
  | subdir (name : Bytes) (found : Bool)
  | done
  | subproject (name : Bytes) (req : Req)
deriving DecidableEq, Repr

/-- What the program is run with. -/
structure Env where
  file : Bytes → Option (List Stmt)
  hasDir : Bytes → Bool
  detect : Nat → Lang → Option Comp
  mkdir : Bytes → Bool

/-- The result of a call or a file: whether it worked, and the workspace. `bad`: the wrong syntax tree is used. -/
inductive Out
  | ret (ok : Bool) (ws : Ws)
  | bad
  | fuel

/-! ### Languages -/

/-- `obj_dict_seti` in `compilers`. -/
def Proj.setComp (p : Proj) (l : Lang) (c : Comp) : Proj := { p with comps := fun m => if m = l then some c else p.comps m }

/-- Adding a compiler that was found, kernel.c:67-87. -/
def Proj.addComp (p : Proj) (l : Lang) (c : Comp) : Proj :=
  let q := p.setComp l c
  if l = .c ∨ l = .cpp then
    let q := q.setComp .assembly c
    if c.clang then q.setComp .llvmIr { c with ir := true } else q
  else q

/-- `project_add_language` for a known language, without what it does for nasm, kernel.c:52-87: success, `*found`, and the project. -/
def addKnown (detect : Lang → Option Comp) (req : Req) (l : Lang) (p : Proj) : Bool × Bool × Proj :=
  if (p.comps l).isSome then (true, true, p)
  else match detect l with
    | none => (decide (req ≠ .required), false, p)
    | some c => (true, true, p.addComp l c)

/-- What it does after nasm was found, kernel.c:89-98: the language c is added if there is neither c nor c++. -/
def afterNasm (detect : Lang → Option Comp) (req : Req) (l : Lang) (old p : Proj) : Bool × Bool × Proj :=
  if l = .nasm ∧ (old.comps l).isNone ∧ (p.comps l).isSome ∧ (p.comps .c).isNone ∧ (p.comps .cpp).isNone then
    let r := addKnown detect req .c p
    (r.1, r.1, r.2.2)
  else (true, (p.comps l).isSome, p)

/-- `project_add_language`, kernel.c:40-104. -/
def addLang (detect : Lang → Option Comp) (req : Req) (n : Bytes) (p : Proj) : Bool × Bool × Proj :=
  if req = .skip then (true, false, p)
  else match langOf n with
    | none => (decide (req ≠ .required), false, p)
    | some l =>
      let r := addKnown detect req l p
      if r.1 && r.2.1 then afterNasm detect req l p r.2.2 else r

/-- The loop over languages, `project_add_language_iter`, kernel.c:112-127: success, whether none is missing, and the project. -/
def addAll (detect : Lang → Option Comp) (req : Req) : List Bytes → Proj → Bool × Bool × Proj
  | [], p => (true, true, p)
  | n :: ns, p =>
    let r := addLang detect req n p
    if r.1 then
      let q := addAll detect req ns r.2.2
      (q.1, r.2.1 && q.2.1, q.2.2)
    else (false, false, r.2.2)

/-! ### Arguments -/

/-- `obj_array_extend` of `get_project_argument_array`, kernel.c:247-257. -/
def extend (t : Tbl) (k : Kind) (l : Lang) (as : List Bytes) : Tbl :=
  fun k' l' => if k' = k ∧ l' = l then t k' l' ++ as else t k' l'

/-- The loop of `add_arguments_common` over the languages, kernel.c:281-326. -/
def putArgs (k : Kind) (as : List Bytes) : List Bytes → Tbl → Bool × Tbl
  | [], t => (true, t)
  | n :: ns, t => match langOf n with
    | none => (false, t)
    | some l => putArgs k as ns (extend t k l as)

/-- Is it the name of a language of which the project has a compiler? -/
def declared (p : Proj) (n : Bytes) : Bool :=
  match langOf n with
  | none => false
  | some l => (p.comps l).isSome

/-- The loop of `func_add_project_dependencies`, kernel.c:367-397; whether it worked is not looked at, kernel.c:425. -/
def putDeps (p : Proj) (cargs largs incs : List Bytes) : List Bytes → Tbl → Tbl
  | [], t => t
  | n :: ns, t => match langOf n with
    | none => t
    | some l =>
      if (p.comps l).isNone then t
      else putDeps p cargs largs incs ns (extend (extend (extend t .args l cargs) .link l largs) .incs l incs)

/-! ### Calls and files -/

/-- Changing the current project. -/
def Ws.upd (ws : Ws) (f : Proj → Proj) (ev : List Ev) : Ws := { ws with projs := ws.projs.modify ws.cur f, log := ws.log ++ ev }

/-- `func_add_project_arguments` and the three others, kernel.c:328-360. -/
def addArgs (glob : Bool) (k : Kind) (langs as : List Bytes) (p : Proj) (ws : Ws) : Out :=
  if glob then
    if ws.cur ≠ 0 then .ret false ws
    else .ret (putArgs k as langs ws.glob).1
      { ws with glob := (putArgs k as langs ws.glob).2, log := ws.log ++ [.args ws.cur true k langs as] }
  else .ret (putArgs k as langs p.tbl).1 (ws.upd (fun p => { p with tbl := (putArgs k as langs p.tbl).2 }) [.args ws.cur false k langs as])

/-- `func_project`, kernel.c:129-245. -/
def project (E : Env) (langs : List Bytes) (subs : Option Bytes) (p : Proj) (ws : Ws) : Out :=
  if p.inited then .ret false ws
  else
    let r := addAll (E.detect ws.cur) .required langs p
    if r.1 then .ret true (ws.upd (fun _ => { r.2.2 with subs := subs.getD r.2.2.subs, inited := true }) [])
    else .ret false (ws.upd (fun _ => r.2.2) [])

/-- Entering a directory, kernel.c:1185-1193. -/
def enter (name : Bytes) (ws : Ws) : Ws :=
  ws.upd (fun p => { p with cwd := Path.join p.cwd name, build := Path.join p.build name }) [.enter ws.cur name]

/-- Going back, kernel.c:1205-1207. -/
def back (cwd build : Bytes) (ws : Ws) : Ws := ws.upd (fun p => { p with cwd := cwd, build := build }) [.leave ws.cur]

/-- The result of `func_subdir`, kernel.c:1205-1209. -/
def afterDir (p : Proj) : Out → Out
  | .ret ok ws => .ret ok (back p.cwd p.build ws)
  | r => r

/-- `func_subdir`, kernel.c:1159-1210. -/
def subdir (E : Env) (ev : Bytes → Bool → Ws → Out) (name : Bytes) (p : Proj) (ws : Ws) : Out :=
  if !E.mkdir (Path.join p.build name) then .ret false (back p.cwd p.build (enter name ws))
  else afterDir p (ev (Path.push (Path.join p.cwd name) (ascii "meson.build")) false (enter name ws))

/-- `make_project`, src/lang/workspace.c:19-54, and making it the current one, src/lang/eval.c:33-36. -/
def newProject (cwd build : Bytes) (ws : Ws) : Ws :=
  { ws with projs := ws.projs ++ [{ src := cwd, bld := build, cwd := cwd, build := build }], cur := ws.projs.length }

/-- The end of `eval_project`, eval.c:71-77, and of `subproject`, src/functions/kernel/subproject.c:154-174. -/
def afterProject (name : Bytes) (req : Req) (id parent : Nat) : Out → Out
  | .ret true ws => .ret true { ws with cur := parent, cache := ws.cache ++ [(name, id)] }
  | .ret false ws => .ret (decide (req ≠ .required)) { ws with cur := parent, projs := ws.projs.modify id fun p => { p with notOk := true } }
  | r => r

/-- `subproject`, src/functions/kernel/subproject.c:84-174, with `eval_project`, eval.c:25-78; without wraps, options and versions. -/
def subproject (E : Env) (ev : Bytes → Bool → Ws → Out) (name : Bytes) (req : Req) (p : Proj) (ws : Ws) : Out :=
  if (ws.cache.find? fun e => e.1 == name).isSome then .ret true ws
  else if req = .skip then .ret true ws
  else
    let cwd := Path.push (Path.join p.src p.subs) name
    let build := Path.push (Path.join p.bld p.subs) name
    if !E.hasDir cwd then .ret (decide (req ≠ .required)) ws
    else afterProject name req ws.projs.length ws.cur (ev (Path.join cwd (ascii "meson.build")) true (newProject cwd build ws))

/-- A call. `files()` gives the path of a file in the current directory (`coerce_file`, src/coerce.c). -/
def exec (E : Env) (ev : Bytes → Bool → Ws → Out) (s : Stmt) (ws : Ws) : Out :=
  match ws.projs[ws.cur]? with
  | none => .bad
  | some p => match s with
    | .project langs subs => project E langs subs p ws
    | .addArgs glob k langs as => addArgs glob k langs as p ws
    | .addDeps langs c l i => .ret true (ws.upd (fun p => { p with tbl := putDeps p c l i langs p.tbl })
        [.deps ws.cur langs (langs.filter (declared p)) c l i])
    | .addLangs req names =>
      let r := addAll (E.detect ws.cur) req names p
      .ret r.1 (ws.upd (fun _ => r.2.2) [])
    | .files name => .ret true { ws with log := ws.log ++ [.file ws.cur name (Path.join p.cwd name)] }
    | .subdir name found => if found then subdir E ev name p ws else .ret true ws
    | .done => .ret true { ws with done := true }
    | .subproject name req => subproject E ev name req p ws

/-- The calls of a file in order (`interp_block`, src/lang/interpreter.c): with the syntax tree `me`. -/
def run (E : Env) (ev : Bytes → Bool → Ws → Out) (me : Bytes) : List Stmt → Ws → Out
  | [], ws => .ret true ws
  | s :: ss, ws =>
    if ws.ast ≠ me then .bad
    else match exec E ev s ws with
      | .ret true ws' => if ws'.done then .ret true ws' else run E ev me ss ws'
      | r => r

/-- Is the first call `project()`? `ensure_project_is_first_statement`, eval.c:80-114. -/
def startsProject : List Stmt → Bool
  | .project _ _ :: _ => true
  | _ => false

/-- The end of `eval`, eval.c:166-176. -/
def afterFile (ast : Bytes) : Out → Out
  | .ret ok ws => .ret ok { ws with ast := ast, done := false }
  | r => r

/-- `eval_project_file`, eval.c:186-207, and `eval`, eval.c:116-177. If the first call should be `project()` and is not, the syntax
tree is not set back. -/
def evalFile (E : Env) : Nat → Bytes → Bool → Ws → Out
  | 0, _, _, _ => .fuel
  | n + 1, path, first, ws =>
    let ws1 := { ws with log := ws.log ++ [.read ws.cur path] }
    match E.file path with
    | none => .ret false ws1
    | some ss =>
      if first && !startsProject ss then .ret false { ws1 with ast := path }
      else afterFile ws.ast (run E (evalFile E n) path ss { ws1 with ast := path })

/-- `eval_project` for the main project, eval.c:25-78 and src/main.c:858. -/
def configure (E : Env) (fuel : Nat) (src build : Bytes) : Out :=
  evalFile E fuel (Path.join src (ascii "meson.build")) true (newProject src build {})

end Muon.Proj
