import Verif.Base
/-
Model of the tools `clean`, `commands` and `compdb` of the built-in ninja (src/external/samurai/tool.c). The graph is
what the parser has made of the file (Verif/Manifest); `graph`, `query` and `targets`, which only print it, are left
out.
-/
namespace Muon.Tool
open Muon

/-- `struct samu_edge`, with the values of the variables the tools look up (`samu_edgevar`). `rsp` and `rspEsc` are
`rspfile` as the shell is to see it and not. -/
structure Edge where
  rule : Bytes
  phony : Bool := false
  ins : List Nat
  outs : List Nat
  generator : Bool := false
  rsp : Option Bytes := none
  rspEsc : Option Bytes := none
  content : Option Bytes := none
  depfile : Option Bytes := none
  command : Option Bytes := none
  deriving DecidableEq, Repr

/-- The graph: `alledges`, `path` of a node, and `gen` of a node as a place in `edges`. -/
structure Graph where
  edges : List Edge
  path : Nat → Bytes
  gen : Nat → Option Nat

/-- The file system: which files are there (`access`). -/
abbrev Fs := Bytes → Bool

/-- `samu_cleanpath`, src/external/samurai/tool.c:25-37. `can` tells which files `remove` succeeds on. The second part is
whether there was no error so far. -/
def cleanPath (can : Bytes → Bool) (s : Fs × Bool) (p : Option Bytes) : Fs × Bool :=
  match p with
  | none => s
  | some p =>
    if s.1 p then
      if can p then (fun q => if q = p then false else s.1 q, s.2) else (s.1, false)
    else s

/-- `samu_cleanedge`, src/external/samurai/tool.c:39-55. -/
def cleanEdge (g : Graph) (can : Bytes → Bool) (s : Fs × Bool) (e : Edge) : Fs × Bool :=
  let s := e.outs.foldl (fun s n => cleanPath can s (some (g.path n))) s
  let s := cleanPath can s e.rsp
  cleanPath can s e.depfile

/-- `samu_cleantarget`, src/external/samurai/tool.c:57-73; `none` if the recursion goes deeper than the first argument. -/
def cleanTarget (g : Graph) (can : Bytes → Bool) : Nat → Fs × Bool → Nat → Option (Fs × Bool)
  | 0, _, _ => none
  | f + 1, s, n =>
    match (g.gen n).bind (fun k => g.edges[k]?) with
    | none => some s
    | some e =>
      if e.phony then some s
      else e.ins.foldlM (fun s i => cleanTarget g can f s i) (cleanPath can s (some (g.path n)))

/-- `samu_clean` without arguments, src/external/samurai/tool.c:124-133. -/
def cleanAll (g : Graph) (can : Bytes → Bool) (cleangen : Bool) (fs : Fs) : Fs × Bool :=
  g.edges.foldl (fun s e => if e.phony then s else if !cleangen && e.generator then s else cleanEdge g can s e) (fs, true)

/-- `samu_clean -r`, src/external/samurai/tool.c:96-112, on rules that exist (a rule is known by its
name: with `subninja` there may be several of a name, and the code takes the outermost). -/
def cleanRules (g : Graph) (can : Bytes → Bool) (rules : List Bytes) (fs : Fs) : Fs × Bool :=
  rules.foldl (fun s r => g.edges.foldl (fun s e => if e.rule ≠ r then s else cleanEdge g can s e) s) (fs, true)

/-- `samu_clean` with targets, src/external/samurai/tool.c:113-123, on targets that exist. -/
def cleanTargets (g : Graph) (can : Bytes → Bool) (fuel : Nat) (ns : List Nat) (fs : Fs) : Option (Fs × Bool) :=
  ns.foldlM (fun s n => cleanTarget g can fuel s n) (fs, true)

/-- The edges with `FLAG_WORK`, and the edges whose commands have been printed, in that order. -/
structure Walk where
  marked : List Nat
  out : List Nat
  deriving DecidableEq, Repr

/-- `samu_targetcommands`, src/external/samurai/tool.c:139-154; `none` if the recursion goes deeper than the first
argument. -/
def targetCommands (g : Graph) : Nat → Walk → Nat → Option Walk
  | 0, _, _ => none
  | f + 1, s, n =>
    match g.gen n with
    | none => some s
    | some k =>
      if k ∈ s.marked then some s
      else match g.edges[k]? with
        | none => some s
        | some e =>
          match e.ins.foldlM (fun s i => targetCommands g f s i) { s with marked := k :: s.marked } with
          | none => none
          | some s' => some { s' with out := s'.out ++ [k] }

/-- `samu_commands` on the given targets, src/external/samurai/tool.c:156-176: the edges in the order in which they are
printed. The recursion is never deeper than there are edges, see `commands_ends`. -/
def commands (g : Graph) (ns : List Nat) : Option (List Nat) :=
  (ns.foldlM (fun s n => targetCommands g (g.edges.length + 1) s n) ⟨[], []⟩).map (·.out)

/-- The text printed: empty commands are left out, src/external/samurai/tool.c:151-153. -/
def printed (g : Graph) (ks : List Nat) : List Bytes :=
  ks.filterMap fun k => (g.edges[k]?.bind (·.command)).filter (· ≠ [])

/-- `samu_printjson`, src/external/samurai/tool.c:178-200. -/
def printJson (join : Bool) : Bytes → Bytes
  | [] => []
  | c :: s =>
    if c = 34 ∨ c = 92 then 92 :: c :: printJson join s
    else if c = 10 then (if join then 32 else c) :: printJson join s
    else if c = 0 then []
    else c :: printJson join s

/-- `strstr`: the first place where `p` stands in `s`. -/
def find (p : Bytes) : Bytes → Option Nat
  | [] => if p = [] then some 0 else none
  | c :: s => if p.isPrefixOf (c :: s) then some 0 else (find p s).map (· + 1)

/-- The command of an entry, src/external/samurai/tool.c:256-269. A null pointer is read if there is no command, or no
`rspfile_content` where it is needed. -/
def entryCommand (expand : Bool) (e : Edge) : Res Bytes :=
  match e.command with
  | none => .bad
  | some cmd =>
    match (if expand then e.rspEsc else none) with
    | none => .ok (printJson false cmd)
    | some r =>
      match find r cmd with
      | none => .ok (printJson false cmd)
      | some p =>
        if p = 0 ∨ cmd[p - 1]? ≠ some 64 then .ok (printJson false cmd)
        else match e.content with
          | none => .bad
          | some c => .ok (printJson false (cmd.take (p - 1)) ++ printJson true c ++ printJson false (cmd.drop (p + r.length)))

/-- An entry, src/external/samurai/tool.c:253-277. -/
def entry (g : Graph) (dir : Bytes) (expand : Bool) (e : Edge) : Res Bytes :=
  (entryCommand expand e).bind fun cmd =>
  match e.ins, e.outs with
  | i :: _, o :: _ =>
    .ok (ascii "\n  {\n    \"directory\": \"" ++ printJson false dir ++
      ascii "\",\n    \"command\": \"" ++ cmd ++
      ascii "\",\n    \"file\": \"" ++ printJson false (g.path i) ++
      ascii "\",\n    \"output\": \"" ++ printJson false (g.path o) ++ ascii "\"\n  }")
  | _, _ => .bad

/-- The edges that get an entry, src/external/samurai/tool.c:229-246. -/
def wanted (all : Bool) (rules : List Bytes) (e : Edge) : Bool :=
  !e.ins.isEmpty && !e.phony && (all || rules.contains e.rule)

/-- The loop, src/external/samurai/tool.c:228-278. -/
def entries (g : Graph) (dir : Bytes) (expand all : Bool) (rules : List Bytes) : Bool → List Edge → Res Bytes
  | _, [] => .ok []
  | first, e :: es =>
    if wanted all rules e then
      (entry g dir expand e).bind fun t =>
      (entries g dir expand all rules false es).bind fun ts =>
      .ok ((if first then [] else [44]) ++ t ++ ts)
    else entries g dir expand all rules first es

/-- `samu_compdb`, src/external/samurai/tool.c:202-286. `dir` is the working directory. -/
def compdb (g : Graph) (dir : Bytes) (expand all : Bool) (rules : List Bytes) : Res Bytes :=
  (entries g dir expand all rules true g.edges).bind fun t => .ok ([91] ++ t ++ ascii "\n]\n")

end Muon.Tool
