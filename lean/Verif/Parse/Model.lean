import Verif.Lex.Model
/-
The parser, src/lang/parser.c, for build files (the modes for formatting and for functions are not modelled). Nodes are
a tree instead of indices into an array; line and column numbers are left out. After an error the C parser goes on with
the next line to find more errors, but then returns false; the model stops at the first error.
-/
namespace Muon.Parse
open Muon Lex

/-- `enum comparison_type`, include/lang/parser.h:17-26. -/
inductive Comp | eq | neq | lt | le | gt | ge | isIn | notIn
deriving DecidableEq

/-- `enum arithmetic_type`, include/lang/parser.h:28-34. -/
inductive Arith | add | sub | mod | mul | div
deriving DecidableEq

/-- Nodes, `enum node_type`, include/lang/parser.h:47-84. A chain of calls, which in C hangs from its first link by
`node_child_d`, is nested to the left here: `index`, `method` and `call` carry what they are applied to. An argument
list ends with `empty`, also where C has no child (no comma after the last argument). -/
inductive Node
  | empty
  | bool (b : Bool)
  | id (s : Bytes)
  | number (n : Int)
  | string (s : Bytes)
  | argument (l rest : Node)
  | kwarg (k v rest : Node)
  | array (args : Node)
  | dict (args : Node)
  | or (l r : Node)
  | and (l r : Node)
  | comparison (op : Comp) (l r : Node)
  | arith (op : Arith) (l r : Node)
  | not (e : Node)
  | uminus (e : Node)
  | stringify (e : Node)
  | index (l i : Node)
  | method (l : Node) (name : Bytes) (args : Node)
  | call (l args : Node)
  | ternary (c a b : Node)
  | assign (id : Bytes) (v : Node)
  | plusAssign (id : Bytes) (v : Node)
  | ifElse (c block els : Node)
  | foreach (v : Bytes) (w : Option Bytes) (e block : Node)
  | «continue»
  | «break»
  | block (l r : Node)
deriving DecidableEq

/-- Outcomes: a result, an error message, an abort (`UNREACHABLE`), or more steps than allowed. -/
inductive PR (α : Type)
  | ok (a : α)
  | fail
  | abort
  | fuel
deriving DecidableEq

def PR.bind {α β : Type} : PR α → (α → PR β) → PR β
  | .ok a, f => f a
  | .fail, _ => .fail
  | .abort, _ => .abort
  | .fuel, _ => .fuel

instance : Monad PR where
  pure := .ok
  bind := PR.bind

/-- `accept`, src/lang/parser.c:142-159 (comments and `tok_fmt_eol` only occur when formatting). -/
def accept (t : Tok) : List Tok → Option (List Tok)
  | x :: ts => if x = t then some ts else none
  | [] => none

/-- `expect`, src/lang/parser.c:161-172. -/
def expect (t : Tok) (ts : List Tok) : PR (List Tok) :=
  match accept t ts with
  | some ts => .ok ts
  | none => .fail

/-- `enum parse_list_mode`, src/lang/parser.c:452-458. -/
inductive ListMode | array | dictionary | arguments
deriving DecidableEq

/-- The functions of the expression parser; the loops are separate. -/
inductive Call
  | expr | e2 | e3 | e4
  | arith (op : Arith) | arithLoop (op : Arith) (l : Node)
  | e6 | e7 | e8
  | chained (l : Node)
  | list (mode : ListMode)
deriving DecidableEq

/-- The table of `parse_arith`, src/lang/parser.c:956-964. -/
def arithTok : Arith → Tok
  | .add => .plus
  | .sub => .minus
  | .mod => .modulo
  | .mul => .star
  | .div => .slash

/-- `parse_arith_upper`, src/lang/parser.c:942-951. -/
def upper : Arith → Call
  | .add => .arith .sub
  | .sub => .arith .mod
  | .mod => .arith .mul
  | .mul => .arith .div
  | .div => .e6

/-- The table of `parse_e4`, src/lang/parser.c:1036-1044. -/
def compTok : Tok → Option Comp
  | .eq => some .eq
  | .neq => some .neq
  | .lt => some .lt
  | .leq => some .le
  | .gt => some .gt
  | .geq => some .ge
  | .kIn => some .isIn
  | _ => none

/-- `check_binary_operands`, src/lang/parser.c:345-355, and making the node. -/
def binary (f : Node → Node → Node) (l r : Node) (ts : List Tok) : PR (Node × List Tok) :=
  if l = .empty ∨ r = .empty then .fail else .ok (f l r, ts)

/-- The operator of `parse_e4`, src/lang/parser.c:1051-1059. A `not` without `in` is consumed. -/
def compOp : List Tok → Option Comp × List Tok
  | [] => (none, [])
  | t :: ts =>
    match compTok t with
    | some c => (some c, ts)
    | none =>
      if t = .kNot then
        match accept .kIn ts with
        | some ts => (some .notIn, ts)
        | none => (none, ts)
      else (none, t :: ts)

/-- `parse_e9`, src/lang/parser.c:660-698. -/
def e9 : List Tok → Node × List Tok
  | .kTrue :: ts => (.bool true, ts)
  | .kFalse :: ts => (.bool false, ts)
  | .identifier s :: ts => (.id s, ts)
  | .number n :: ts => (.number n, ts)
  | .string s :: ts => (.string s, ts)
  | ts => (.empty, ts)

/-- The prefix operator of `parse_e6`, src/lang/parser.c:912-918. -/
def unary : List Tok → Option (Node → Node) × List Tok
  | .kNot :: ts => (some .not, ts)
  | .minus :: ts => (some .uminus, ts)
  | .stringify :: ts => (some .stringify, ts)
  | ts => (none, ts)

/-- The identifier of a method, src/lang/parser.c:710-713. -/
def name : List Tok → PR (Bytes × List Tok)
  | .identifier s :: ts => .ok (s, ts)
  | _ => .fail

/-- The part of an argument after the colon, src/lang/parser.c:510-530. -/
def value (rec : Call → Nat → List Tok → PR (Node × List Tok)) (mode : ListMode) (s : Node) (d : Nat) (ts : List Tok) :
    PR (Node × List Tok) :=
  match mode, s with
  | .arguments, .id _ | .dictionary, _ | .array, _ => do
    let (v, ts) ← rec .expr d ts
    if v = .empty then .fail else .ok (v, ts)
  | .arguments, _ => .fail

/-- The colon of an argument, src/lang/parser.c:499-508: the text after it, or `none`. -/
def colon (mode : ListMode) (ts : List Tok) : PR (Option (List Tok)) :=
  match mode with
  | .array => .ok none
  | .arguments => .ok (accept .colon ts)
  | .dictionary => do
    let ts ← expect .colon ts
    .ok (some ts)

/-- The comma and the following arguments, src/lang/parser.c:532-544. -/
def more (rec : Call → Nat → List Tok → PR (Node × List Tok)) (mode : ListMode) (d : Nat) (ts : List Tok) :
    PR (Node × List Tok) :=
  match accept .comma ts with
  | some ts => rec (.list mode) d ts
  | none => .ok (.empty, ts)

/-- The bodies of the functions, with calls going to `rec`; `d` is `parse_depth`. -/
def body (rec : Call → Nat → List Tok → PR (Node × List Tok)) : Call → Nat → List Tok → PR (Node × List Tok)
  /- `parse_expr`, src/lang/parser.c:1123-1177 -/
  | .expr, d, ts => do
    if d + 1 > 4096 then .fail
    else
      let (l, ts) ← rec .e2 (d + 1) ts
      match accept .question ts with
      | some ts => do
        let (a, ts) ← rec .expr (d + 1) ts
        let ts ← expect .colon ts
        let (b, ts) ← rec .expr (d + 1) ts
        if l = .empty ∨ a = .empty ∨ b = .empty then .fail else .ok (.ternary l a b, ts)
      | none => .ok (l, ts)
  /- `parse_e2`, src/lang/parser.c:1094-1121 -/
  | .e2, d, ts => do
    let (l, ts) ← rec .e3 d ts
    match accept .kOr ts with
    | some ts => do
      let (r, ts) ← rec .e2 d ts
      binary .or l r ts
    | none => .ok (l, ts)
  /- `parse_e3`, src/lang/parser.c:1065-1092 -/
  | .e3, d, ts => do
    let (l, ts) ← rec .e4 d ts
    match accept .kAnd ts with
    | some ts => do
      let (r, ts) ← rec .e3 d ts
      binary .and l r ts
    | none => .ok (l, ts)
  /- `parse_e4` and `make_comparison_node`, src/lang/parser.c:1010-1063 -/
  | .e4, d, ts => do
    let (l, ts) ← rec (.arith .add) d ts
    match compOp ts with
    | (some op, ts) => do
      let (r, ts) ← rec (.arith .add) d ts
      binary (.comparison op) l r ts
    | (none, ts) => .ok (l, ts)
  /- `parse_arith`, src/lang/parser.c:953-1002 -/
  | .arith op, d, ts => do
    let (l, ts) ← rec (upper op) d ts
    rec (.arithLoop op l) d ts
  /- the loop of `parse_arith`, src/lang/parser.c:977-998 -/
  | .arithLoop op l, d, ts =>
    match accept (arithTok op) ts with
    | some ts => do
      let (r, ts) ← rec (upper op) d ts
      let (l, ts) ← binary (.arith op) l r ts
      rec (.arithLoop op l) d ts
    | none => .ok (l, ts)
  /- `parse_e6`, src/lang/parser.c:906-938 -/
  | .e6, d, ts => do
    match unary ts with
    | (some f, ts) => do
      let (l, ts) ← rec .e7 d ts
      if l = .empty then .fail else .ok (f l, ts)
    | (none, ts) => rec .e7 d ts
  /- `parse_e7`, src/lang/parser.c:891-904 -/
  | .e7, d, ts => do
    let (l, ts) ← rec .e8 d ts
    rec (.chained l) d ts
  /- `parse_chained` with `parse_method_call` and `parse_index_call`, src/lang/parser.c:580-605, 700-750, 817-889 -/
  | .chained l, d, ts =>
    match accept .dot ts with
    | some ts => do
      if l = .empty then .fail
      else
        let (n, ts) ← name ts
        let ts ← expect .lparen ts
        let (args, ts) ← rec (.list .arguments) d ts
        let ts ← expect .rparen ts
        rec (.chained (.method l n args)) d ts
    | none =>
      match accept .lbrack ts with
      | some ts => do
        if l = .empty then .fail
        else
          let (i, ts) ← rec .expr d ts
          if i = .empty then .abort
          else
            let ts ← expect .rbrack ts
            rec (.chained (.index l i)) d ts
      | none =>
        match accept .lparen ts with
        | some ts => do
          if l = .empty then .fail
          else
            let (args, ts) ← rec (.list .arguments) d ts
            let ts ← expect .rparen ts
            rec (.chained (.call l args)) d ts
        | none => .ok (l, ts)
  /- `parse_e8`, src/lang/parser.c:752-815 -/
  | .e8, d, ts =>
    match accept .lparen ts with
    | some ts => do
      let (v, ts) ← rec .expr d ts
      let ts ← expect .rparen ts
      if v = .empty then .fail else .ok (v, ts)
    | none =>
      match accept .lbrack ts with
      | some ts => do
        let (v, ts) ← rec (.list .array) d ts
        let ts ← expect .rbrack ts
        .ok (.array v, ts)
      | none =>
        match accept .lcurl ts with
        | some ts => do
          let (v, ts) ← rec (.list .dictionary) d ts
          let ts ← expect .rcurl ts
          .ok (.dict v, ts)
        | none => .ok (e9 ts)
  /- `parse_list_recurse`, src/lang/parser.c:460-557 -/
  | .list mode, d, ts => do
    let (s, ts) ← rec .expr d ts
    if s = .empty then .ok (.empty, ts)
    else
      match ← colon mode ts with
      | some ts => do
        let (v, ts) ← value rec mode s d ts
        let (r, ts) ← more rec mode d ts
        .ok (.kwarg s v r, ts)
      | none => do
        let (r, ts) ← more rec mode d ts
        .ok (.argument s r, ts)

/-- The expression parser with a bound on the nesting of calls. -/
def run : Nat → Call → Nat → List Tok → PR (Node × List Tok)
  | 0, _, _, _ => .fuel
  | n + 1, c, d, ts => body (run n) c d ts

/-- How far a call is from consuming a token. -/
def rank : Call → Nat
  | .list _ => 17
  | .expr => 16
  | .e2 => 15
  | .e3 => 14
  | .e4 => 13
  | .arith .add => 12
  | .arith .sub => 11
  | .arith .mod => 10
  | .arith .mul => 9
  | .arith .div => 8
  | .e6 => 7
  | .e7 => 6
  | .e8 => 5
  | .chained _ => 1
  | .arithLoop _ _ => 1

/-- A bound on the nesting of calls for a list of tokens. -/
def bound (c : Call) (ts : List Tok) : Nat := 20 * ts.length + rank c + 1

/-- `parse_expr` on a list of tokens. -/
def parseExpr (d : Nat) (ts : List Tok) : PR (Node × List Tok) := run (bound .expr ts) .expr d ts

/-! ### Statements -/

/-- Whether a node has an effect: it contains a call, it assigns a variable, or one of its blocks is not empty. In C this
is the flag `caused_effect`, set when such a node is made and cleared before each statement; src/lang/parser.c:703, 854,
1188, 1211, 1288, 1363, 1406-1408, 1442, 1450, 1474-1480. -/
def effect : Node → Bool
  | .method .. | .call .. | .assign .. | .plusAssign .. | .continue | .break => true
  | .argument l r => effect l || effect r
  | .kwarg k v r => effect k || effect v || effect r
  | .array a | .dict a => effect a
  | .or l r | .and l r | .comparison _ l r | .arith _ l r => effect l || effect r
  | .not e | .uminus e | .stringify e => effect e
  | .index l i => effect l || effect i
  | .ternary c a b => effect c || effect a || effect b
  | .ifElse c b e => effect c || effect b || effect e
  | .foreach _ _ e b => effect e || effect b
  | .block .. => true
  | .empty | .bool _ | .id _ | .number _ | .string _ => false

/-- `parse_assignment`, src/lang/parser.c:1179-1235. -/
def assignment (ts : List Tok) : PR (Node × List Tok) := do
  let (l, ts) ← parseExpr 0 ts
  match accept .plusAssign ts with
  | some ts =>
    match l with
    | .id s => do
      let (v, ts) ← parseExpr 0 ts
      if v = .empty then .fail else .ok (.plusAssign s v, ts)
    | _ => .fail
  | none =>
    match accept .assign ts with
    | some ts =>
      match l with
      | .id s => do
        let (v, ts) ← parseExpr 0 ts
        if v = .empty then .fail else .ok (.assign s v, ts)
      | _ => .fail
    | none => .ok (l, ts)

/-- The functions parsing statements. -/
inductive SCall | block | line | ifs | els

/-- The loop variables, `parse_foreach_args`, src/lang/parser.c:1299-1326. -/
def foreachArgs (ts : List Tok) : PR ((Bytes × Option Bytes) × List Tok) := do
  let (v, ts) ← name ts
  match accept .comma ts with
  | some ts => do
    let (w, ts) ← name ts
    .ok ((v, some w), ts)
  | none => .ok ((v, none), ts)

/-- A condition or what a loop is over: an expression that is not empty, and the end of the line,
src/lang/parser.c:1245-1258, 1339-1353. -/
def head (ts : List Tok) : PR (Node × List Tok) := do
  let (c, ts) ← parseExpr 0 ts
  let ts ← expect .eol ts
  if c = .empty then .fail else .ok (c, ts)

/-- `tok_eol` skipped at the start of a line, src/lang/parser.c:1388-1391. -/
def skipEol : List Tok → List Tok
  | .eol :: ts => skipEol ts
  | ts => ts

/-- Tokens at which a block ends, src/lang/parser.c:1393-1404. -/
def endsBlock : List Tok → Bool
  | .kEndforeach :: _ | .kElse :: _ | .kElif :: _ | .kEndif :: _ | .kEndfunc :: _ | .eof :: _ | [] => true
  | _ => false

/-- A statement is rejected if it has no effect, src/lang/parser.c:1474-1478. -/
def checked (strict : Bool) (n : Node) (ts : List Tok) : PR (Node × List Tok) :=
  if strict && !effect n then .fail else .ok (n, ts)

/-- The bodies of the functions; `loop` is whether `loop_depth` is not zero, `strict` is the absence of
`pm_ignore_statement_with_no_effect`. -/
def sbody (strict : Bool) (rec : SCall → Bool → List Tok → PR (Node × List Tok)) :
    SCall → Bool → List Tok → PR (Node × List Tok)
  /- `parse_block`, src/lang/parser.c:1491-1539 -/
  | .block, loop, ts => do
    let (l, ts) ← rec .line loop ts
    if l = .empty then .ok (.empty, ts)
    else
      match accept .eol ts with
      | some ts => do
        let (r, ts) ← rec .block loop ts
        .ok (.block l r, ts)
      | none => .ok (.block l .empty, ts)
  /- `parse_line` and `parse_foreach`, src/lang/parser.c:1328-1489 -/
  | .line, loop, ts =>
    let ts := skipEol ts
    if endsBlock ts then .ok (.empty, ts)
    else
      match accept .kIf ts with
      | some ts => do
        let (n, ts) ← rec .ifs loop ts
        let ts ← expect .kEndif ts
        checked strict n ts
      | none =>
        match accept .kForeach ts with
        | some ts => do
          let (v, ts) ← foreachArgs ts
          let ts ← expect .colon ts
          let (e, ts) ← head ts
          let (b, ts) ← rec .block true ts
          let ts ← expect .kEndforeach ts
          checked strict (.foreach v.1 v.2 e b) ts
        | none =>
          match accept .kContinue ts with
          | some ts => if loop then .ok (.continue, ts) else .fail
          | none =>
            match accept .kBreak ts with
            | some ts => if loop then .ok (.break, ts) else .fail
            | none => do
              let (n, ts) ← assignment ts
              checked strict n ts
  /- `parse_if` for `if` and `elif`, src/lang/parser.c:1237-1297 -/
  | .ifs, loop, ts => do
    let (c, ts) ← head ts
    let (b, ts) ← rec .block loop ts
    let (e, ts) ← rec .els loop ts
    .ok (.ifElse c b e, ts)
  /- the rest of `parse_if`, src/lang/parser.c:1264-1278: `elif`, `else` (a block; `empty` if there is none) -/
  | .els, loop, ts =>
    match accept .kElif ts with
    | some ts => rec .ifs loop ts
    | none =>
      match accept .kElse ts with
      | some ts => do
        let ts ← expect .eol ts
        rec .block loop ts
      | none => .ok (.empty, ts)

/-- The statement parser with a bound on the nesting of calls. -/
def srun (strict : Bool) : Nat → SCall → Bool → List Tok → PR (Node × List Tok)
  | 0, _, _, _ => .fuel
  | n + 1, c, loop, ts => sbody strict (srun strict n) c loop ts

/-- `parser_parse`, src/lang/parser.c:1541-1593, on the tokens. After an error the C code goes on to report further
errors (`consume_until`); here the outcome is that of the first error. -/
def parse (strict : Bool) (ts : List Tok) : PR Node := do
  let (b, ts) ← srun strict (10 * ts.length + 10) .block false ts
  let _ ← expect .eof ts
  .ok b

/-- `parser_parse` on the text of a build file. -/
def parseText (strict : Bool) (src : Bytes) : PR Node :=
  match lex false false src with
  | .ok (true, ts) => parse strict ts
  | .ok (false, _) => .fail
  | .error => .fuel
  | .bad => .abort

end Muon.Parse
