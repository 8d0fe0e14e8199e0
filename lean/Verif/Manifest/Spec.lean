import Verif.Manifest.Model
/-
Specification for C74-C76: ninja files as they are written. A file is a list of lines of statements, each with its layout: gaps of
spaces and `$` newline, comments, empty lines, both kinds of line ends. `written` is the text, `meaning` is what it says.
-/
namespace Muon.Manifest.Spec
open Muon Esc

inductive Eol
  | lf | crlf
  deriving DecidableEq

def Eol.written : Eol → Bytes
  | .lf => [10]
  | .crlf => [13, 10]

/-- A space, or a `$` and a line end. -/
inductive Blank
  | sp
  | cont (e : Eol)
  deriving DecidableEq

def Blank.written : Blank → Bytes
  | .sp => ascii " "
  | .cont e => ascii "$" ++ e.written

abbrev Gap := List Blank
def Gap.written (g : Gap) : Bytes := g.flatMap Blank.written

/-- A gap that begins with a space. -/
def Gap.spaced (g : Gap) : Prop := g.head? = some .sp

/-- The elements of a string: a character, an escaped one, a variable, and a line end with `$` before it and a gap after it, which
stands for nothing. -/
inductive Tok
  | chr (c : UInt8)
  | esc (c : UInt8)
  | braced (v : Bytes)
  | bare (v : Bytes)
  | cont (e : Eol) (g : Gap)
  deriving DecidableEq

def Tok.written : Tok → Bytes
  | .chr c => [c]
  | .esc c => [36, c]
  | .braced v => ascii "${" ++ v ++ ascii "}"
  | .bare v => ascii "$" ++ v
  | .cont e g => ascii "$" ++ e.written ++ g.written

def toks (ts : List Tok) : Bytes := ts.flatMap Tok.written

/-- Text before the rest of a string: pieces of text are put together. -/
def joinLit (s : Bytes) (ps : List Part) : List Part :=
  if s = [] then ps
  else match ps with
    | .lit t :: qs => .lit (s ++ t) :: qs
    | qs => .lit s :: qs

/-- What a string says. -/
def parts : List Tok → List Part
  | [] => []
  | .chr c :: ts => joinLit [c] (parts ts)
  | .esc c :: ts => joinLit [c] (parts ts)
  | .braced v :: ts => .var v :: parts ts
  | .bare v :: ts => .var v :: parts ts
  | .cont _ _ :: ts => parts ts

/-- Characters of names. -/
def nameChar (c : UInt8) : Prop := isAlnum c ∨ c ∈ ascii "_-."
def simpleChar (c : UInt8) : Prop := isAlnum c ∨ c ∈ ascii "_-"

/-- How strings may be written: `path` for paths, in which spaces, `:` and `|` have to be escaped or cannot be written. -/
def wfToks (path : Bool) : List Tok → Prop
  | [] => True
  | .chr c :: ts => c ∉ ([10, 13, 255, 36] : Bytes) ∧ (path = true → c ∉ ascii " :|") ∧ wfToks path ts
  | .esc c :: ts => c ∈ ascii "$ :" ∧ wfToks path ts
  | .braced v :: ts => (∀ c ∈ v, nameChar c) ∧ wfToks path ts
  | .bare v :: ts => v ≠ [] ∧ (∀ c ∈ v, simpleChar c) ∧ (∀ c, (toks ts).head? = some c → ¬ simpleChar c) ∧ wfToks path ts
  | .cont _ _ :: ts => (path = true → ts ≠ []) ∧ ts.head? ≠ some (.chr 32) ∧ (∀ e g, ts.head? ≠ some (.cont e g)) ∧ wfToks path ts

/-- What belongs to the gap before a string is not written as part of it. -/
def wfStart (ts : List Tok) : Prop := ts.head? ≠ some (.chr 32) ∧ ∀ e g, ts.head? ≠ some (.cont e g)

def wfValue (ts : List Tok) : Prop := wfToks false ts ∧ wfStart ts
def wfPath (ts : List Tok) : Prop := wfToks true ts ∧ wfStart ts ∧ ts ≠ []

def wfName (n : Bytes) : Prop := n ≠ [] ∧ ∀ c ∈ n, nameChar c

/-- A comment: indentation, text, end of the line. -/
structure Comment where
  ind : Option Gap
  text : Bytes
  eol : Eol

def Comment.written (c : Comment) : Bytes := (c.ind.map Gap.written).getD [] ++ ascii "#" ++ c.text ++ c.eol.written
def Comment.wf (c : Comment) : Prop := (∀ g, c.ind = some g → Gap.spaced g) ∧ ∀ b ∈ c.text, b ≠ 10 ∧ b ≠ 13

/-- An indented line `name = value`, with comments before it. -/
structure WLet where
  comments : List Comment
  ind : Gap
  name : Bytes
  g1 : Gap
  g2 : Gap
  val : List Tok
  eol : Eol

def WLet.written (l : WLet) : Bytes :=
  l.comments.flatMap Comment.written ++ l.ind.written ++ l.name ++ l.g1.written ++ ascii "=" ++ l.g2.written ++ toks l.val ++ l.eol.written
def WLet.wf (l : WLet) : Prop := (∀ c ∈ l.comments, c.wf) ∧ l.ind.spaced ∧ wfName l.name ∧ wfValue l.val
def WLet.meaning (l : WLet) : Let := ⟨l.name, parts l.val⟩

/-- Paths, each with the gap after it. -/
abbrev WPaths := List (List Tok × Gap)
def WPaths.written (ps : WPaths) : Bytes := ps.flatMap (fun p => toks p.1 ++ p.2.written)
/-- There is a gap between two paths; after the last one there may be none. -/
def WPaths.wf : WPaths → Prop
  | [] => True
  | [p] => wfPath p.1 ∧ (p.2 = [] ∨ Gap.spaced p.2)
  | p :: ps => wfPath p.1 ∧ Gap.spaced p.2 ∧ WPaths.wf ps
def WPaths.meaning (ps : WPaths) : List (List Part) := ps.map (fun p => parts p.1)

/-- Paths after `|` or `||`, with the gap before them, or nothing at all. -/
abbrev Sec := Option (Gap × WPaths)
def Sec.written (sep : Bytes) : Sec → Bytes
  | none => []
  | some (g, ps) => sep ++ g.written ++ ps.written
/-- Without paths there is a gap after the separator. -/
def Sec.wf : Sec → Prop
  | none => True
  | some (g, ps) => ps.wf ∧ (ps = [] → g ≠ [])
def Sec.meaning : Sec → List (List Part)
  | none => []
  | some (_, ps) => ps.meaning

inductive WStmt
  | rule (g : Gap) (name : Bytes) (g2 : Gap) (eol : Eol) (lets : List WLet)
  | pool (g : Gap) (name : Bytes) (g2 : Gap) (eol : Eol) (lets : List WLet)
  | build (g : Gap) (outs : WPaths) (impOuts : Sec) (gc : Gap) (rule : Bytes) (gr : Gap) (ins : WPaths)
      (impIns : Sec) (orderIns : Sec) (eol : Eol) (lets : List WLet)
  | incl (newscope : Bool) (g : Gap) (path : List Tok) (g2 : Gap) (eol : Eol)
  | default (g : Gap) (paths : WPaths) (eol : Eol)
  | assign (name : Bytes) (g1 g2 : Gap) (val : List Tok) (eol : Eol)

def lets (ls : List WLet) : Bytes := ls.flatMap WLet.written

def WStmt.written : WStmt → Bytes
  | .rule g n g2 e ls => ascii "rule" ++ g.written ++ n ++ g2.written ++ e.written ++ lets ls
  | .pool g n g2 e ls => ascii "pool" ++ g.written ++ n ++ g2.written ++ e.written ++ lets ls
  | .build g o oi gc r gr i ii io e ls =>
    ascii "build" ++ g.written ++ o.written ++ oi.written (ascii "|") ++ ascii ":" ++ gc.written ++ r ++ gr.written ++
      i.written ++ ii.written (ascii "|") ++ io.written (ascii "||") ++ e.written ++ lets ls
  | .incl ns g p g2 e => (if ns then ascii "subninja" else ascii "include") ++ g.written ++ toks p ++ g2.written ++ e.written
  | .default g ps e => ascii "default" ++ g.written ++ ps.written ++ e.written
  | .assign n g1 g2 v e => n ++ g1.written ++ ascii "=" ++ g2.written ++ toks v ++ e.written

def keywords : List Bytes := [ascii "build", ascii "default", ascii "include", ascii "pool", ascii "rule", ascii "subninja"]

def WStmt.wf : WStmt → Prop
  | .rule g n _ _ ls => g ≠ [] ∧ wfName n ∧ ∀ l ∈ ls, l.wf
  | .pool g n _ _ ls => g ≠ [] ∧ wfName n ∧ ∀ l ∈ ls, l.wf
  | .build g o oi _ r gr i ii io _ ls =>
    g ≠ [] ∧ o.wf ∧ oi.wf ∧ (o ≠ [] ∨ oi.meaning ≠ []) ∧ wfName r ∧ (i = [] ∨ gr ≠ []) ∧ i.wf ∧ ii.wf ∧ io.wf ∧ ∀ l ∈ ls, l.wf
  | .incl _ g p g2 _ => g ≠ [] ∧ wfPath p ∧ (g2 = [] ∨ g2.spaced)
  | .default g ps _ => g ≠ [] ∧ ps.wf
  | .assign n _ _ v _ => wfName n ∧ n ∉ keywords ∧ wfValue v

def WStmt.meaning : WStmt → Stmt
  | .rule _ n _ _ ls => .rule n (ls.map WLet.meaning)
  | .pool _ n _ _ ls => .pool n (ls.map WLet.meaning)
  | .build _ o oi _ r _ i ii io _ ls => .build o.meaning oi.meaning r i.meaning ii.meaning io.meaning (ls.map WLet.meaning)
  | .incl ns _ p _ _ => .incl (parts p) ns
  | .default _ ps _ => .default ps.meaning
  | .assign n _ _ v _ => .assign ⟨n, parts v⟩

/-- Between statements: comments and empty lines. -/
inductive Filler
  | comment (c : Comment)
  | empty (ind : Option Gap) (e : Eol)

def Filler.written : Filler → Bytes
  | .comment c => c.written
  | .empty ind e => (ind.map Gap.written).getD [] ++ e.written
def Filler.wf : Filler → Prop
  | .comment c => c.wf
  | .empty ind _ => ∀ g, ind = some g → Gap.spaced g

/-- A file: statements and what is between them. -/
inductive Item
  | filler (f : Filler)
  | stmt (s : WStmt)

def Item.written : Item → Bytes
  | .filler f => f.written
  | .stmt s => s.written
def Item.wf : Item → Prop
  | .filler f => f.wf
  | .stmt s => s.wf
def Item.meaning : Item → Option Stmt
  | .filler _ => none
  | .stmt s => some s.meaning

abbrev File := List Item
def File.written (f : File) : Bytes := f.flatMap Item.written
def File.wf (f : File) : Prop := ∀ i ∈ f, i.wf
def File.meaning (f : File) : List Stmt := f.filterMap Item.meaning

end Muon.Manifest.Spec

namespace Muon.Manifest.Spec
open Muon Esc

/-! ### Variables of an edge -/

/-- The last value given to a name. -/
def lastOf {α : Type} (l : List (Bytes × α)) (v : Bytes) : Option α := (l.filter (fun x => x.1 = v)).getLast?.map (·.2)

/-- Paths with a separator between them, quoted for the shell if `esc`. -/
def listOf (esc : Bool) (sep : UInt8) : List Bytes → Option Bytes
  | [] => none
  | p :: ps => some ((if esc then nodePath p else p) ++ ps.flatMap (fun q => sep :: (if esc then nodePath q else q)))

/-- The value of a variable that does not come from the rule: lists of paths, the edge's own bindings (`vars`, newest first), and, if the rule
does not bind it either, the scope. -/
def direct (scope : Bytes → Option Bytes) (e : Edge) (esc : Bool) (v : Bytes) : Option (Option Bytes) :=
  if v = ascii "in" then some (listOf esc 32 (e.ins.take e.nIn))
  else if v = ascii "in_newline" then some (listOf esc 10 (e.ins.take e.nIn))
  else if v = ascii "out" then some (listOf esc 32 (e.outs.take e.nOut))
  else match lastOf e.vars.reverse v with
    | some x => some (some x)
    | none => match lastOf (e.rule.lets.map (fun l => (l.name, l.val))) v with
      | none => some (scope v)
      | some _ => none

/-- The text of a variable of the rule. -/
def ruleText (scope : Bytes → Option Bytes) (e : Edge) (esc : Bool) (v : Bytes) (ps : List Part) : Prop :=
  direct scope e esc v = none ∧ lastOf (e.rule.lets.map (fun l => (l.name, l.val))) v = some ps

/-- What a text of the rule stands for. -/
inductive Text (scope : Bytes → Option Bytes) (e : Edge) (esc : Bool) : List Part → Bytes → Prop
  | nil : Text scope e esc [] []
  | lit (x : Bytes) (ps : List Part) (y : Bytes) : Text scope e esc ps y → Text scope e esc (.lit x :: ps) (x ++ y)
  | value (v : Bytes) (x : Option Bytes) (ps : List Part) (y : Bytes) :
      direct scope e esc v = some x → Text scope e esc ps y → Text scope e esc (.var v :: ps) (x.getD [] ++ y)
  | rule (v : Bytes) (qs : List Part) (x : Bytes) (ps : List Part) (y : Bytes) :
      ruleText scope e esc v qs → Text scope e esc qs x → Text scope e esc ps y → Text scope e esc (.var v :: ps) (x ++ y)

/-- The value of a variable; `none`: it has no value. -/
def Value (scope : Bytes → Option Bytes) (e : Edge) (esc : Bool) (v : Bytes) (x : Option Bytes) : Prop :=
  direct scope e esc v = some x ∨ ∃ ps y, ruleText scope e esc v ps ∧ Text scope e esc ps y ∧ x = some y

/-- A variable of the rule mentions another variable. -/
def Mentions (scope : Bytes → Option Bytes) (e : Edge) (esc : Bool) (v w : Bytes) : Prop :=
  ∃ ps, ruleText scope e esc v ps ∧ .var w ∈ ps

/-- One or more steps. -/
inductive Steps {α : Type} (r : α → α → Prop) : α → α → Prop
  | one {a b : α} : r a b → Steps r a b
  | more {a b c : α} : r a b → Steps r b c → Steps r a c

end Muon.Manifest.Spec

namespace Muon.Manifest.Spec
open Muon Esc

/-! ### Scopes and graphs -/

/-- A variable as seen in a scope: the last value given to it there, or else what the scope around it sees. -/
inductive Sees (envs : List Env) : Nat → Bytes → Bytes → Prop
  | here (i : Nat) (e : Env) (v x : Bytes) : envs[i]? = some e → lastOf e.vars.reverse v = some x → Sees envs i v x
  | around (i : Nat) (e : Env) (p : Nat) (v x : Bytes) : envs[i]? = some e → lastOf e.vars.reverse v = none → e.parent = some p →
      Sees envs p v x → Sees envs i v x

/-- What is true of every manifest that is accepted. -/
structure Sound (s : St) : Prop where
  /-- No path is an output twice, neither of two edges nor of one. -/
  unique : (s.edges.flatMap (·.outs)).Nodup
  /-- The explicit outputs and inputs are among all of them. -/
  counts : ∀ e ∈ s.edges, e.nOut ≤ e.outs.length ∧ e.nIn ≤ e.nImp ∧ e.nImp ≤ e.ins.length
  /-- Pools exist, with a depth. -/
  pools : ∀ e ∈ s.edges, ∀ p, e.pool = some p → ∃ d, (p, d) ∈ s.pools
  depths : ∀ p ∈ s.pools, p.2 ≠ 0
  /-- Default targets are inputs or outputs. -/
  defaults : ∀ p ∈ s.defaults, ∃ e ∈ s.edges, p ∈ e.outs ∨ p ∈ e.ins
  /-- Scopes lie in scopes made before them. -/
  nested : ∀ (i : Nat) (e : Env) (p : Nat), s.envs[i]? = some e → e.parent = some p → p < i
  inScope : ∀ e ∈ s.edges, e.env < s.envs.length

/-- What reading on in the scope `env` can change: it adds edges, pools and default targets at the end, it makes new scopes, and of
those there are it changes only `env`. -/
structure Extends (env : Nat) (s s' : St) : Prop where
  edges : s.edges <+: s'.edges
  defaults : s.defaults <+: s'.defaults
  pools : s.pools <:+ s'.pools
  envs : s.envs.length ≤ s'.envs.length
  others : ∀ i, i < s.envs.length → i ≠ env → s'.envs[i]? = s.envs[i]?
  parent : ∀ e, s.envs[env]? = some e → ∃ e', s'.envs[env]? = some e' ∧ e'.parent = e.parent ∧ e.vars <:+ e'.vars ∧ e.rules <:+ e'.rules

end Muon.Manifest.Spec

namespace Muon.Manifest.Spec
open Muon Esc

/-! ### What statements do -/

/-- A rule as seen in a scope. -/
inductive SeesRule (envs : List Env) : Nat → Bytes → Rule → Prop
  | here (i : Nat) (e : Env) (v : Bytes) (r : Rule) : envs[i]? = some e → lastOf e.rules.reverse v = some r → SeesRule envs i v r
  | around (i : Nat) (e : Env) (p : Nat) (v : Bytes) (r : Rule) : envs[i]? = some e → lastOf e.rules.reverse v = none → e.parent = some p →
      SeesRule envs p v r → SeesRule envs i v r

/-- A string with its variables replaced, for the values `R`; a variable without value is empty. -/
inductive Expands (R : Bytes → Bytes → Prop) : List Part → Bytes → Prop
  | nil : Expands R [] []
  | lit (x : Bytes) (ps : List Part) (y : Bytes) : Expands R ps y → Expands R (.lit x :: ps) (x ++ y)
  | bound (v x : Bytes) (ps : List Part) (y : Bytes) : R v x → Expands R ps y → Expands R (.var v :: ps) (x ++ y)
  | unbound (v : Bytes) (ps : List Part) (y : Bytes) : (∀ x, ¬ R v x) → Expands R ps y → Expands R (.var v :: ps) y

/-- Paths: each one is replaced and brought into its canonical form. -/
inductive Paths (R : Bytes → Bytes → Prop) : List (List Part) → List Bytes → Prop
  | nil : Paths R [] []
  | cons (p : List Part) (t x : Bytes) (ps : List (List Part)) (xs : List Bytes) :
      Expands R p t → Canon.canonpath t = .ok x → Paths R ps xs → Paths R (p :: ps) (x :: xs)

/-- Bindings, in the order in which they are written. -/
inductive Binds (R : Bytes → Bytes → Prop) : List Let → List (Bytes × Bytes) → Prop
  | nil : Binds R [] []
  | cons (l : Let) (x : Bytes) (ls : List Let) (bs : List (Bytes × Bytes)) : Expands R l.val x → Binds R ls bs → Binds R (l :: ls) ((l.name, x) :: bs)

/-- Variables in the paths of an edge: its own bindings, then the scope. -/
def InEdge (envs : List Env) (env : Nat) (bs : List (Bytes × Bytes)) (v x : Bytes) : Prop :=
  lastOf bs v = some x ∨ lastOf bs v = none ∧ Sees envs env v x

/-- A binding of this name that is not empty. -/
def Given (ls : List Let) (n : Bytes) : Prop := ∃ l ∈ ls, l.name = n ∧ l.val ≠ []

/-- One statement other than `include` and `subninja`. -/
inductive Step (w : World) (s : St) (env : Nat) : Stmt → St → Prop
  | assign (l : Let) (x : Bytes) (e : Env) : Expands (Sees s.envs env) l.val x → (l.name = ascii "ninja_required_version" → w.versionOk x = true) →
      s.envs[env]? = some e → Step w s env (.assign l) { s with envs := s.envs.set env { e with vars := (l.name, x) :: e.vars } }
  | rule (n : Bytes) (ls : List Let) (e : Env) : Given ls (ascii "command") → (Given ls (ascii "rspfile") ↔ Given ls (ascii "rspfile_content")) →
      s.envs[env]? = some e → (∀ r, (n, r) ∉ e.rules) →
      Step w s env (.rule n ls) { s with envs := s.envs.set env { e with rules := (n, ⟨n, ls⟩) :: e.rules } }
  | build (o oi : List (List Part)) (rn : Bytes) (i ii io : List (List Part)) (ls : List Let) (r : Rule) (bs : List (Bytes × Bytes))
      (os is : List Bytes) (pool : Option Bytes) (scope : Bytes → Option Bytes) :
      SeesRule s.envs env rn r → Binds (Sees s.envs env) ls bs →
      Paths (InEdge s.envs env bs) (o ++ oi) os → Paths (InEdge s.envs env bs) (i ++ ii ++ io) is →
      os.Nodup → (∀ p ∈ os, ∀ e ∈ s.edges, p ∉ e.outs) →
      (∀ v x, scope v = some x ↔ Sees s.envs env v x) →
      Value scope ⟨os, o.length, is, i.length, i.length + ii.length, r, bs.reverse, env, none⟩ true (ascii "pool") pool →
      (∀ p, pool = some p → ∃ d, (p, d) ∈ s.pools) →
      Step w s env (.build o oi rn i ii io ls)
        { s with edges := s.edges ++ [⟨os, o.length, is, i.length, i.length + ii.length, r, bs.reverse, env, pool⟩] }
  | default (ps : List (List Part)) (xs : List Bytes) : Paths (Sees s.envs env) ps xs → (∀ x ∈ xs, ∃ e ∈ s.edges, x ∈ e.outs ∨ x ∈ e.ins) →
      Step w s env (.default ps) { s with defaults := s.defaults ++ xs }
  | pool (n : Bytes) (ls : List Let) (bs : List (Bytes × Bytes)) (l : Bytes) (d : Int) : (∀ d, (n, d) ∉ s.pools) → Binds (Sees s.envs env) ls bs →
      (∀ b ∈ bs, b.1 = ascii "depth" ∧ (w.number b.2).isSome = true) → bs.getLast?.map (·.2) = some l → w.number l = some d → d ≠ 0 →
      Step w s env (.pool n ls) { s with pools := (n, d) :: s.pools }

/-- The statements of a file. Those of an included file are run in the same scope, those of a `subninja` file in a new scope inside it. -/
inductive Does (w : World) : St → Nat → List Stmt → St → Prop
  | nil (s : St) (env : Nat) : Does w s env [] s
  | step (s s1 s2 : St) (env : Nat) (x : Stmt) (xs : List Stmt) : Step w s env x s1 → Does w s1 env xs s2 → Does w s env (x :: xs) s2
  | incl (s s1 s2 : St) (env : Nat) (p : List Part) (path txt : Bytes) (ys xs : List Stmt) : Expands (Sees s.envs env) p path →
      w.read path = some txt → file txt = .ok ys → Does w s env ys s1 → Does w s1 env xs s2 → Does w s env (.incl p false :: xs) s2
  | sub (s s1 s2 : St) (env : Nat) (p : List Part) (path txt : Bytes) (ys xs : List Stmt) : Expands (Sees s.envs env) p path →
      w.read path = some txt → file txt = .ok ys → Does w { s with envs := s.envs ++ [⟨some env, [], []⟩] } s.envs.length ys s1 →
      Does w s1 env xs s2 → Does w s env (.incl p true :: xs) s2

end Muon.Manifest.Spec
