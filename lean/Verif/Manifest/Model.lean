import Verif.Base
import Verif.Esc.Model
import Verif.Canon.Model
/-
The built-in ninja's reader: src/external/samurai/scan.c, parse.c, env.c. The C code runs each statement while it reads it; here a
statement is read (`stmt`) and then run (`exec`). Errors are fatal in both, so that only the choice of the message depends on the order.
The strings of the scanner (`scanString`, `scanPaths`, `space`, `newline`) are those of `Verif.Esc.Model`.
-/
namespace Muon.Manifest
open Muon Esc

/-! ### Reading -/

/-- `name = value`. -/
structure Let where
  name : Bytes
  val : List Part
  deriving DecidableEq

inductive Stmt
  | rule (name : Bytes) (lets : List Let)
  | build (outs impOuts : List (List Part)) (rule : Bytes) (ins impIns orderIns : List (List Part)) (lets : List Let)
  | incl (path : List Part) (newscope : Bool)
  | default (paths : List (List Part))
  | pool (name : Bytes) (lets : List Let)
  | assign (l : Let)
  deriving DecidableEq

/-- The loop of `samu_comment`, src/external/samurai/scan.c:130-138, after the `#`: to the end of the line. At the end of the file it
never ends: `bad`. -/
def skipComment : Bytes → Res Bytes
  | [] => .bad
  | 10 :: r => .ok r
  | 13 :: 10 :: r => .ok r
  | 13 :: _ => .error
  | _ :: r => skipComment r

/-- `samu_comment`, src/external/samurai/scan.c:130-138. -/
def comment (r : Bytes) : Res (Bool × Bytes) :=
  match r with
  | 35 :: r => skipComment r >>= fun r => .ok (true, r)
  | r => .ok (false, r)

/-- `samu_name`, src/external/samurai/scan.c:140-152. -/
def name (r : Bytes) : Res (Bytes × Bytes) :=
  if r.takeWhile isVar = [] then .error
  else space (r.dropWhile isVar) >>= fun x => .ok (r.takeWhile isVar, x.2)

/-- `samu_scanchar`, src/external/samurai/scan.c:322-329. -/
def scanchar (c : UInt8) (r : Bytes) : Res Bytes :=
  if chr r = some c then space (r.drop 1) >>= fun x => .ok x.2 else .error

/-- `samu_scannewline`, src/external/samurai/scan.c:362-367. -/
def scannewline (r : Bytes) : Res Bytes :=
  newline r >>= fun x => if x.1 then .ok x.2 else .error

/-- `samu_scanpipe`, src/external/samurai/scan.c:331-348: which of `|` (1) and `||` (2) is there, of those that are allowed. -/
def scanpipe (one two : Bool) (r : Bytes) : Res (Nat × Bytes) :=
  match r with
  | 124 :: 124 :: r => if two then space r >>= fun x => .ok (2, x.2) else .error
  | 124 :: r => if one then space r >>= fun x => .ok (1, x.2) else .error
  | r => .ok (0, r)

/-- `samu_scanindent`, src/external/samurai/scan.c:350-360. The first argument bounds the number of comments. -/
def scanindent : Nat → Bytes → Res (Bool × Bytes)
  | 0, _ => .bad
  | f + 1, r =>
    space r >>= fun s =>
    comment s.2 >>= fun c =>
    if c.1 then scanindent f c.2
    else if s.1 then newline c.2 >>= fun n => .ok (!n.1, n.2)
    else .ok (false, c.2)

/-- A name and `samu_parselet`, src/external/samurai/parse.c:27-33. -/
def scanlet (r : Bytes) : Res (Let × Bytes) :=
  name r >>= fun n =>
  scanchar 61 n.2 >>= fun r =>
  scanString false r >>= fun v =>
  scannewline v.2 >>= fun r =>
  .ok (⟨n.1, v.1⟩, r)

/-- The loops `while (samu_scanindent(s))`, src/external/samurai/parse.c:45-57, 102-107, 190-201. The first argument bounds the number of lines. -/
def scanlets : Nat → Bytes → Res (List Let × Bytes)
  | 0, _ => .bad
  | f + 1, r =>
    scanindent (r.length + 1) r >>= fun i =>
    if i.1 then
      scanlet i.2 >>= fun l =>
      scanlets f l.2 >>= fun ls =>
      .ok (l.1 :: ls.1, ls.2)
    else .ok ([], i.2)

/-- What `samu_scankeyword`, src/external/samurai/scan.c:154-203, finds: a keyword, a name, or the end. -/
inductive Key
  | build | default | incl | pool | rule | subninja
  | name (n : Bytes)
  | eof
  deriving DecidableEq

/-- The binary search in the table of keywords, src/external/samurai/scan.c:158-169, 189-200. -/
def keyOf (n : Bytes) : Key :=
  if n = ascii "build" then .build
  else if n = ascii "default" then .default
  else if n = ascii "include" then .incl
  else if n = ascii "pool" then .pool
  else if n = ascii "rule" then .rule
  else if n = ascii "subninja" then .subninja
  else .name n

/-- `samu_scankeyword`, src/external/samurai/scan.c:154-203. The first argument bounds the number of lines. -/
def scankeyword : Nat → Bytes → Res (Key × Bytes)
  | 0, _ => .bad
  | f + 1, r =>
    match chr r with
    | none => .ok (.eof, r)
    | some c =>
      if c = 32 then
        space r >>= fun s =>
        comment s.2 >>= fun k =>
        if k.1 then scankeyword f k.2
        else newline k.2 >>= fun n => if n.1 then scankeyword f n.2 else .error
      else if c = 35 then comment r >>= fun k => scankeyword f k.2
      else if c = 13 ∨ c = 10 then newline r >>= fun n => scankeyword f n.2
      else name r >>= fun n => .ok (keyOf n.1, n.2)

/-- The reading part of `samu_parseedge`, src/external/samurai/parse.c:78-107. -/
def scanedge (r : Bytes) : Res (Stmt × Bytes) :=
  scanPaths r >>= fun o =>
  scanpipe true false o.2 >>= fun p =>
  (if p.1 = 1 then scanPaths p.2 else .ok ([], p.2)) >>= fun oi =>
  if o.1 = [] ∧ oi.1 = [] then .error
  else
    scanchar 58 oi.2 >>= fun r =>
    name r >>= fun n =>
    scanPaths n.2 >>= fun i =>
    scanpipe true true i.2 >>= fun p =>
    (if p.1 = 1 then scanPaths p.2 >>= fun x => scanpipe false true x.2 >>= fun q => .ok (x.1, q)
      else .ok ([], p)) >>= fun ii =>
    (if ii.2.1 = 2 then scanPaths ii.2.2 else .ok ([], ii.2.2)) >>= fun io =>
    scannewline io.2 >>= fun r =>
    scanlets (r.length + 1) r >>= fun ls =>
    .ok (.build o.1 oi.1 n.1 i.1 ii.1 io.1 ls.1, ls.2)

/-- The statement after its keyword: the parsing part of `samu_parserule` (src/external/samurai/parse.c:35-63), `samu_parseedge` (65-140),
`samu_parseinclude` (142-157), `samu_parsedefault` (159-178), `samu_parsepool` (180-204) and of variables (246-252). -/
def scanstmt (k : Key) (r : Bytes) : Res (Option Stmt × Bytes) :=
  match k with
  | .eof => .ok (none, r)
  | .rule =>
    name r >>= fun n => scannewline n.2 >>= fun r =>
    scanlets (r.length + 1) r >>= fun ls => .ok (some (.rule n.1 ls.1), ls.2)
  | .pool =>
    name r >>= fun n => scannewline n.2 >>= fun r =>
    scanlets (r.length + 1) r >>= fun ls => .ok (some (.pool n.1 ls.1), ls.2)
  | .build => scanedge r >>= fun e => .ok (some e.1, e.2)
  | .incl => scanString true r >>= fun p => if p.1 = [] then .error else scannewline p.2 >>= fun r => .ok (some (.incl p.1 false), r)
  | .subninja => scanString true r >>= fun p => if p.1 = [] then .error else scannewline p.2 >>= fun r => .ok (some (.incl p.1 true), r)
  | .default => scanPaths r >>= fun p => scannewline p.2 >>= fun r => .ok (some (.default p.1), r)
  | .name n =>
    scanchar 61 r >>= fun r => scanString false r >>= fun v => scannewline v.2 >>= fun r =>
    .ok (some (.assign ⟨n, v.1⟩), r)

/-- The next statement, src/external/samurai/parse.c:217-258. -/
def stmt (r : Bytes) : Res (Option Stmt × Bytes) :=
  scankeyword (r.length + 1) r >>= fun k => scanstmt k.1 k.2

/-- The statements of a file. The first argument bounds their number. -/
def stmts : Nat → Bytes → Res (List Stmt)
  | 0, _ => .bad
  | f + 1, r =>
    stmt r >>= fun s =>
    match s.1 with
    | none => .ok []
    | some x => stmts f s.2 >>= fun xs => .ok (x :: xs)

/-- A file, `samu_scaninit` (src/external/samurai/scan.c:20-35): the first character of an empty file is the terminator of the buffer, which begins no
statement. -/
def file (r : Bytes) : Res (List Stmt) := if r = [] then .error else stmts (r.length + 1) r

/-! ### Running -/

/-- `struct samu_rule`. The last binding of a name counts (`samu_treeinsert` replaces the value). -/
structure Rule where
  name : Bytes
  lets : List Let
  deriving DecidableEq

/-- `struct samu_environment`, src/external/samurai/env.c:18-23, without the list of all of them. The newest binding is first; `parent` is the number of
another environment. -/
structure Env where
  parent : Option Nat
  vars : List (Bytes × Bytes)
  rules : List (Bytes × Rule)
  deriving DecidableEq

/-- `struct samu_edge`: what the manifest says of it. `vars` are the bindings of its own environment, whose parent is `env`. -/
structure Edge where
  outs : List Bytes
  nOut : Nat
  ins : List Bytes
  nIn : Nat
  nImp : Nat
  rule : Rule
  vars : List (Bytes × Bytes)
  env : Nat
  pool : Option Bytes
  deriving DecidableEq

/-- The state of the reader. -/
structure St where
  envs : List Env
  pools : List (Bytes × Int)
  edges : List Edge
  defaults : List Bytes
  deriving DecidableEq

/-- `samu_treefind`, src/external/samurai/tree.c:87-99. -/
def find {α : Type} (l : List (Bytes × α)) (k : Bytes) : Option α := (l.find? (fun x => x.1 == k)).map (·.2)

/-- `samu_envvar`, src/external/samurai/env.c:65-78: in the environment and those around it. The first argument bounds the depth: parents have
smaller numbers. -/
def envVar (envs : List Env) : Nat → Nat → Bytes → Option Bytes
  | 0, _, _ => none
  | f + 1, e, v =>
    match envs[e]? with
    | none => none
    | some env =>
      match find env.vars v with
      | some x => some x
      | none => match env.parent with
        | none => none
        | some p => envVar envs f p v

/-- `samu_envrule`, src/external/samurai/env.c:132-145. -/
def envRule (envs : List Env) : Nat → Nat → Bytes → Option Rule
  | 0, _, _ => none
  | f + 1, e, v =>
    match envs[e]? with
    | none => none
    | some env =>
      match find env.rules v with
      | some x => some x
      | none => match env.parent with
        | none => none
        | some p => envRule envs f p v

/-- `samu_envvar` in an environment of the state. -/
def St.var (s : St) (e : Nat) (v : Bytes) : Option Bytes := envVar s.envs s.envs.length e v

/-- `samu_envvar` in the environment of an edge. -/
def St.edgeEnv (s : St) (vars : List (Bytes × Bytes)) (e : Nat) (v : Bytes) : Option Bytes :=
  match find vars v with
  | some x => some x
  | none => s.var e v

/-- A binding of a rule: the last one of this name. -/
def Rule.find (r : Rule) (v : Bytes) : Option (List Part) := (r.lets.reverse.find? (fun l => l.name == v)).map (·.val)

/-- `samu_pathlist`, src/external/samurai/env.c:147-171, without quoting if `esc` is false. -/
def paths (esc : Bool) (sep : UInt8) (l : List Bytes) : Option Bytes :=
  if l = [] then none else some (((l.map (fun p => if esc then nodePath p else p)).intersperse [sep]).flatten)

/-- The cases of `samu_edgevar`, src/external/samurai/env.c:191-224; `rule` is what is done with a variable of the rule. -/
def edgeVarWith (s : St) (e : Edge) (esc : Bool) (rule : List Part → Res (Option Bytes)) (v : Bytes) : Res (Option Bytes) :=
  if v = ascii "in" then .ok (paths esc 32 (e.ins.take e.nIn))
  else if v = ascii "in_newline" then .ok (paths esc 10 (e.ins.take e.nIn))
  else if v = ascii "out" then .ok (paths esc 32 (e.outs.take e.nOut))
  else match find e.vars v with
    | some x => .ok (some x)
    | none => match e.rule.find v with
      | none => .ok (s.var e.env v)
      | some parts => rule parts

/-- The loop over the parts, src/external/samurai/env.c:214-223, and `samu_merge`, env.c:86-104. -/
def partsWith (var : Bytes → Res (Option Bytes)) : List Part → Res Bytes
  | [] => .ok []
  | .lit x :: ps => partsWith var ps >>= fun y => .ok (x ++ y)
  | .var v :: ps => var v >>= fun x => partsWith var ps >>= fun y => .ok (x.getD [] ++ y)

/-- `samu_edgevar`, src/external/samurai/env.c:191-224: `seen` are the variables of the rule that are marked with `cycle`. The first
argument bounds the depth (`edgeVar_enough`). -/
def edgeVar (s : St) (e : Edge) (esc : Bool) : Nat → List Bytes → Bytes → Res (Option Bytes)
  | 0, seen, v => edgeVarWith s e esc (fun _ => if v ∈ seen then .error else .bad) v
  | f + 1, seen, v =>
    edgeVarWith s e esc (fun parts =>
      if v ∈ seen then .error else partsWith (edgeVar s e esc f (v :: seen)) parts >>= fun x => .ok (some x)) v

/-- The parts of a variable, env.c:214-223. -/
def edgeParts (s : St) (e : Edge) (esc : Bool) (f : Nat) (seen : List Bytes) (ps : List Part) : Res Bytes := partsWith (edgeVar s e esc f seen) ps

/-- `samu_edgevar` at its start: no variable is marked. -/
def St.edgeVar (s : St) (e : Edge) (esc : Bool) (v : Bytes) : Res (Option Bytes) := Manifest.edgeVar s e esc e.rule.lets.length [] v

/-- Whether a rule has a binding that is not empty, src/external/samurai/parse.c:49-56. -/
def Rule.has (r : Rule) (v : Bytes) : Bool := r.lets.any (fun l => l.name == v && l.val ≠ [])

/-- Changing an environment. -/
def St.modEnv (s : St) (i : Nat) (f : Env → Env) : St := { s with envs := s.envs.modify i f }

/-- `samu_enveval` and `samu_canonpath`, src/external/samurai/parse.c:111-112, 129-130. -/
def evalPaths (env : Bytes → Option Bytes) : List (List Part) → Res (List Bytes)
  | [] => .ok []
  | p :: ps => Canon.canonpath (envEval env p) >>= fun x => evalPaths env ps >>= fun xs => .ok (x :: xs)

/-- A path is an output of an edge. -/
def St.generated (s : St) (p : Bytes) : Bool := s.edges.any (fun e => e.outs.contains p)

/-- A path belongs to a node: it is an input or output of an edge. -/
def St.known (s : St) (p : Bytes) : Bool := s.edges.any (fun e => e.outs.contains p || e.ins.contains p)

/-- No output twice, src/external/samurai/parse.c:109-126 (without `-w dupbuild=warn`). -/
def noDup (s : St) : List Bytes → Bool
  | [] => true
  | p :: ps => !s.generated p && !ps.contains p && noDup s ps

/-- The bindings of an edge, src/external/samurai/parse.c:102-107: evaluated in the environment of the file. -/
def evalLets (env : Bytes → Option Bytes) (ls : List Let) : List (Bytes × Bytes) :=
  (ls.map (fun l => (l.name, envEval env l.val))).reverse

/-- `samu_parseedge`, src/external/samurai/parse.c:65-140. -/
def execBuild (s : St) (env : Nat) (outs impOuts : List (List Part)) (rule : Bytes) (ins impIns orderIns : List (List Part)) (lets : List Let) :
    Res St :=
  match envRule s.envs s.envs.length env rule with
  | none => .error
  | some r =>
    let vars := evalLets (s.var env) lets
    evalPaths (s.edgeEnv vars env) (outs ++ impOuts) >>= fun os =>
    if !noDup s os then .error
    else
      evalPaths (s.edgeEnv vars env) (ins ++ impIns ++ orderIns) >>= fun is =>
      let e : Edge := ⟨os, outs.length, is, ins.length, ins.length + impIns.length, r, vars, env, none⟩
      s.edgeVar e true (ascii "pool") >>= fun p =>
      match p with
      | none => .ok { s with edges := s.edges ++ [e] }
      | some p => if (find s.pools p).isSome then .ok { s with edges := s.edges ++ [{ e with pool := some p }] } else .error

/-- The depth of a pool, src/external/samurai/parse.c:188-203: the last `depth` counts, zero is no depth. `number` is `strtol` with nothing after the number. -/
def poolDepth (number : Bytes → Option Int) (env : Bytes → Option Bytes) : List Let → Int → Res Int
  | [], d => if d = 0 then .error else .ok d
  | l :: ls, _ =>
    if l.name = ascii "depth" then
      match number (envEval env l.val) with
      | none => .error
      | some d => poolDepth number env ls d
    else .error

/-- What the reader gets from outside: files by name, numbers of pools, whether a version is not newer than the one implemented
(`samu_checkversion`, src/external/samurai/parse.c:206-215). -/
structure World where
  read : Bytes → Option Bytes
  number : Bytes → Option Int
  versionOk : Bytes → Bool

/-- One statement, src/external/samurai/parse.c:217-258 and the functions it calls; `incl` is what is done to include a file. -/
def execWith (w : World) (incl : St → Nat → List Part → Bool → Res St) (s : St) (env : Nat) : Stmt → Res St
  | .assign l =>
    let v := envEval (s.var env) l.val
    if l.name = ascii "ninja_required_version" ∧ w.versionOk v = false then .error
    else .ok (s.modEnv env (fun e => { e with vars := (l.name, v) :: e.vars }))
  | .rule n ls =>
    let r : Rule := ⟨n, ls⟩
    if r.has (ascii "command") = false then .error
    else if r.has (ascii "rspfile") ≠ r.has (ascii "rspfile_content") then .error
    else match s.envs[env]? with
      | none => .bad
      | some e => if (find e.rules n).isSome then .error
        else .ok (s.modEnv env (fun e => { e with rules := (n, r) :: e.rules }))
  | .build o oi r i ii io ls => execBuild s env o oi r i ii io ls
  | .default ps =>
    evalPaths (s.var env) ps >>= fun xs =>
    if xs.all s.known then .ok { s with defaults := s.defaults ++ xs } else .error
  | .pool n ls =>
    if (find s.pools n).isSome then .error
    else poolDepth w.number (s.var env) ls 0 >>= fun d => .ok { s with pools := (n, d) :: s.pools }
  | .incl p newscope => incl s env p newscope

/-- Statements in their order. -/
def execList (step : St → Nat → Stmt → Res St) : St → Nat → List Stmt → Res St
  | s, _, [] => .ok s
  | s, env, x :: xs => step s env x >>= fun s => execList step s env xs

/-- `samu_parseinclude`, src/external/samurai/parse.c:142-157. -/
def inclFile (w : World) (step : St → Nat → Stmt → Res St) (s : St) (env : Nat) (p : List Part) (newscope : Bool) : Res St :=
  match w.read (envEval (s.var env) p) with
  | none => .error
  | some txt =>
    file txt >>= fun xs =>
    if newscope then execList step { s with envs := s.envs ++ [⟨some env, [], []⟩] } s.envs.length xs
    else execList step s env xs

/-- One statement. The first argument bounds the depth of included files (`bad`: files that include themselves). -/
def exec (w : World) : Nat → St → Nat → Stmt → Res St
  | 0, s, env, x => execWith w (fun _ _ _ _ => .bad) s env x
  | f + 1, s, env, x => execWith w (inclFile w (exec w f)) s env x

/-- The statements of a file, src/external/samurai/parse.c:217-258. -/
def execAll (w : World) (f : Nat) (s : St) (env : Nat) (xs : List Stmt) : Res St := execList (exec w f) s env xs

/-- `samu_envinit`, src/external/samurai/env.c:27-42: the rule `phony` and the pool `console`. -/
def init : St := ⟨[⟨none, [], [(ascii "phony", ⟨ascii "phony", []⟩)]⟩], [(ascii "console", 1)], [], []⟩

/-- `samu_parse` of the manifest, src/external/samurai/parse.c:217-258. -/
def parse (w : World) (depth : Nat) (txt : Bytes) : Res St := file txt >>= fun xs => execAll w depth init 0 xs

end Muon.Manifest
