import Verif.Parse.Model
/-
Model of the formatter, src/lang/fmt.c, for the trees that the parser builds when it keeps formatting.

The output buffer is a list of bytes; lengths and columns are natural numbers (the code uses `uint32_t`). Left out:
functions with types (only in files named *.meson), and comments other than those on lines of their own between statements;
without them `ctx->trailing_comment` is never set where it is read, and is left out too.
-/
namespace Muon.Fmt
open Muon Parse

/-- Expressions as parsed with `pm_keep_formatting`, src/lang/parser.c:753-1155: literals keep their text (and, for reference
only, their value), parentheses are nodes. A chain of calls, methods and indexes is nested to the left here; in the code it
is linked through `node_child_d`, and printed in the same order. A list of arguments ends with `nil c`, where `c`
says whether a comma comes before the end. -/
inductive E
  | bool (b : Bool)
  | string (raw s : Bytes)
  | number (raw : Bytes) (n : Int)
  | id (s : Bytes)
  | array (a : E)
  | dict (a : E)
  | paren (e : E)
  | not (e : E)
  | uminus (e : E)
  | and (l r : E)
  | or (l r : E)
  | comparison (op : Comp) (l r : E)
  | arith (op : Arith) (l r : E)
  | ternary (c a b : E)
  | call (l a : E)
  | method (l : E) (n : Bytes) (a : E)
  | index (l i : E)
  | nil (comma : Bool)
  | arg (e rest : E)
  | kwarg (k v rest : E)
deriving DecidableEq

/-- Statements and blocks as parsed with `pm_keep_formatting`, src/lang/parser.c:1157-1526. `blank` is an empty line, or a line with
only a comment. `branch c b e` is an `if` or `elif`, and `e` is what follows its block: `nothing`, another branch, or `els`. -/
inductive S
  | nothing
  | block (s rest : S)
  | blank (comment : Option Bytes)
  | expr (e : E)
  | assign (s : Bytes) (e : E)
  | plusAssign (s : Bytes) (e : E)
  | continue
  | break
  | ifs (s : S)
  | branch (c : E) (b e : S)
  | els (b : S)
  | foreach (v : Bytes) (w : Option Bytes) (e : E) (b : S)
deriving DecidableEq

/-- The options of `struct fmt_ctx`, src/lang/fmt.c:38-41. -/
structure Opts where
  spaceArray : Bool := false
  kwaMl : Bool := false
  wideColon : Bool := false
  noSingleComma : Bool := false
  maxLineLen : Nat := 80
  indentBy : Bytes := ascii "    "

/-- The part of `struct fmt_ctx` that changes, src/lang/fmt.c:33-36. -/
structure St where
  out : Bytes := []
  indent : Nat := 0
  col : Nat := 0
  enclosed : Nat := 0
  forceMl : Bool := false
deriving DecidableEq

/-- `struct fmt_stack`, src/lang/fmt.c:50-58. Of the special formats, `cmd` is `special_fmt_cmd_array`; the other two, for
`files()`, are carried out beforehand, see `arrange`. The containers of arguments are parameters. -/
structure Fst where
  sep : Option Bytes := none
  cmd : Bool := false
  write : Bool := true
  ml : Bool := false
  andOr : Bool := false

/-- Something that prints: it gives the length and the new state. -/
abbrev Pr := St → Nat × St

/-- `len += a; len += b`, the pattern of all functions in src/lang/fmt.c:112-993. -/
def seq (a b : Pr) : Pr := fun s => ((a s).1 + (b (a s).2).1, (b (a s).2).2)

@[inherit_doc] infixr:65 " ⊹ " => seq

/-- Nothing printed. -/
def nop : Pr := fun s => (0, s)

/-- A call whose length is not added, as at src/lang/fmt.c:394. -/
def mute (a : Pr) : Pr := fun s => (0, (a s).2)

/-- `fmt_setup_fst`, src/lang/fmt.c:103-110. -/
def setup (f : Fst) : Fst := { f with sep := none }

/-- The length of a character, src/lang/fmt.c:145-149. -/
def wid (c : UInt8) : Nat := if c = 9 then 8 else 1

/-- `fmt_write`, src/lang/fmt.c:139-156. -/
def write (f : Fst) (c : UInt8) : Pr := fun s =>
  (wid c, if f.write then { s with out := s.out ++ [c], col := s.col + wid c } else s)

/-- `fmt_writes`, src/lang/fmt.c:178-186. -/
def writes (f : Fst) : Bytes → Pr
  | [] => nop
  | c :: t => write f c ⊹ writes f t

/-- `fmt_writeml`, src/lang/fmt.c:158-176. -/
def writeml (f : Fst) : Bytes → Pr
  | [] => nop
  | c :: t =>
    (if c = 10 then fun s => (0, { if f.write then { s with out := s.out ++ [10], col := 0 } else s with forceMl := true })
      else write f c) ⊹ writeml f t

/-- The indentation, src/lang/fmt.c:211-213. -/
def indents (o : Opts) (f : Fst) : Nat → Pr
  | 0 => nop
  | n + 1 => writes f o.indentBy ⊹ indents o f n

/-- `fmt_newline`, src/lang/fmt.c:188-215; `bare`: the next node is an empty line without a comment. -/
def newline (o : Opts) (f : Fst) (bare : Bool := false) : Pr := fun s =>
  (0, if f.write && f.ml then
      let s := { s with out := s.out ++ [10], col := 0 }
      if bare then s else (indents o f s.indent s).2
    else s)

/-- `fmt_newline_force`, src/lang/fmt.c:217-224. -/
def newlineForce (o : Opts) (f : Fst) (bare : Bool := false) : Pr := newline o { setup f with ml := true } bare

/-- `fmt_newline_or_space`, src/lang/fmt.c:226-235. -/
def newlineOrSpace (o : Opts) (f : Fst) : Pr := if f.ml then newline o f else write f 32

/-- `fmt_breaking_space`, src/lang/fmt.c:237-247. -/
def breakingSpace (o : Opts) (f : Fst) : Pr := fun s =>
  if s.col ≥ o.maxLineLen then (0, { (newlineForce o f false s).2 with forceMl := true }) else write f 32 s

/-- `fmt_begin_block` and `fmt_end_block`, src/lang/fmt.c:249-259, and `++ctx->enclosed`, `--ctx->enclosed`. -/
def begin : Pr := fun s => (0, { s with indent := s.indent + 1 })
@[inherit_doc begin] def «end» : Pr := fun s => (0, { s with indent := s.indent - 1 })
@[inherit_doc begin] def enclose : Pr := fun s => (0, { s with enclosed := s.enclosed + 1 })
@[inherit_doc begin] def disclose : Pr := fun s => (0, { s with enclosed := s.enclosed - 1 })
/-- `ctx->force_ml = true` if the condition holds. -/
def force (b : Bool) : Pr := fun s => (0, { s with forceMl := s.forceMl || b })

/-- `fmt_check`, src/lang/fmt.c:112-137. -/
def check (o : Opts) (f : Fst) (g : Fst → Pr) : Pr := fun s =>
  if f.write then
    let dry := g { f with write := false, ml := false } { s with forceMl := false }
    let r := g { f with ml := dry.2.forceMl || decide (dry.1 + dry.2.col > o.maxLineLen) } dry.2
    (r.1, { r.2 with forceMl := s.forceMl })
  else g f s

/-- `fmt_tail`, src/lang/fmt.c:326-337, without comments. -/
def tail (f : Fst) : Pr := match f.sep with
  | some t => writes f t
  | none => nop

/-- The number of arguments, the number of them with keywords and whether there is a comma before the end:
the loop at src/lang/fmt.c:402-436. -/
def argCount : E → Nat
  | .arg _ r | .kwarg _ _ r => argCount r + 1
  | _ => 0
@[inherit_doc argCount] def kwCount : E → Nat
  | .arg _ r => kwCount r
  | .kwarg _ _ r => kwCount r + 1
  | _ => 0
@[inherit_doc argCount] def trailing : E → Bool
  | .arg _ r | .kwarg _ _ r => trailing r
  | .nil c => c
  | _ => false

/-- `fmt_str_startwith(ctx, n, "-")`, src/lang/fmt.c:70-90. -/
def startsDash : E → Bool
  | .string raw _ =>
    let s := if raw.head? = some 102 then raw.tail else raw
    let s := if s.take 3 = ascii "'''" then s.drop 3 else s.drop 1
    s.head? = some 45
  | _ => false

/-- The value of the first argument, `ae->next`, src/lang/fmt.c:427. -/
def firstDash : E → Bool
  | .arg e _ | .kwarg _ e _ => startsDash e
  | _ => false

/-- `arg->type == node_empty`, src/lang/fmt.c:387, 402. -/
def isNil : E → Bool
  | .nil _ => true
  | _ => false

/-- `fmt_id_eql`, src/lang/fmt.c:92-101. -/
def isId (s : Bytes) : E → Bool
  | .id t => t == s
  | _ => false

/-- The tables of operators, src/lang/fmt.c:928-937, 963. -/
def compText : Comp → Bytes
  | .eq => ascii "=="
  | .neq => ascii "!="
  | .lt => ascii "<"
  | .le => ascii "<="
  | .gt => ascii ">"
  | .ge => ascii ">="
  | .isIn => ascii "in"
  | .notIn => ascii "not in"
@[inherit_doc compText] def arithText : Arith → UInt8
  | .add => 43
  | .sub => 45
  | .mod => 37
  | .mul => 42
  | .div => 47

/-- What to print: a node, or arguments in a container with a number of arguments. -/
inductive Mode
  | node
  | args (opening : UInt8) (count : Nat)
deriving DecidableEq

/-- Whether a comma is printed after an argument, src/lang/fmt.c:474-487. -/
def needComma (o : Opts) (f : Fst) (opening : UInt8) (count : Nat) (kw last : Bool) : Bool :=
  if opening == 40 && o.noSingleComma && count == 1 && !kw then false
  else if last && !f.ml then false
  else true

/-- The separators after a value and after a keyword, src/lang/fmt.c:459, 489. -/
def comma (b : Bool) : Option Bytes := if b then some (ascii ",") else none
@[inherit_doc comma] def kwSep (o : Opts) : Option Bytes := some (if o.wideColon then ascii " : " else ascii ": ")

/-- What is printed between two arguments, src/lang/fmt.c:502-512. -/
def between (o : Opts) (f : Fst) (e rest : E) : Pr :=
  if f.cmd && startsDash e && !firstDash rest then write f 32 else newlineOrSpace o f

/-- `fmt_args`, src/lang/fmt.c:369-525, but for the loop at lines 445-513, which is `p`. -/
def argsWith (o : Opts) (opening : UInt8) (a : E) (p : Fst → Pr) (f : Fst) : Pr :=
  if isNil a then nop
  else
    enclose ⊹ begin ⊹ (if opening == 91 && o.spaceArray then mute (newlineOrSpace o f) else newline o f) ⊹
    force (trailing a) ⊹ force (decide (kwCount a > 1) && o.kwaMl) ⊹ p f ⊹
    disclose ⊹ «end» ⊹ (if opening == 91 && o.spaceArray then mute (newlineOrSpace o f) else newline o f)

/-- `fmt_arg_container`, src/lang/fmt.c:527-544. -/
def containerWith (o : Opts) (opening closing : UInt8) (a : E) (p : Fst → Pr) (f : Fst) : Pr :=
  write (setup f) opening ⊹ argsWith o opening a p (setup f) ⊹ write (setup f) closing

/-- The operators `and` and `or`, `fmt_and_or`, src/lang/fmt.c:744-766. -/
def andOrWith (o : Opts) (f : Fst) (word : Bytes) (l r : Fst → Pr) : Pr :=
  check o f l ⊹ fun s =>
    if (s.enclosed != 0 && f.ml) || f.andOr then
      (mute (newlineForce o f) ⊹ writes f word ⊹ check o { f with andOr := true } r) s
    else (writes f [32] ⊹ writes f word ⊹ check o f r) s

/-- `fmt_parens`, src/lang/fmt.c:649-677. -/
def parensWith (o : Opts) (p : Fst → Pr) (f : Fst) : Pr :=
  write f 40 ⊹ enclose ⊹ (if f.ml then begin ⊹ newline o f else nop) ⊹ p f ⊹
    (if f.ml then «end» ⊹ newline o f else nop) ⊹ disclose ⊹ write f 41

/-- `fmt_node`, src/lang/fmt.c:768-993, for expressions (and `fmt_chain`, lines 710-742, `fmt_function` and `fmt_method`, lines
563-602), and the loop over arguments of `fmt_args`, lines 445-513. -/
def pr (o : Opts) : E → Mode → Fst → Pr
  | .bool b, .node, f => writes f (if b then ascii "true" else ascii "false") ⊹ tail f
  | .string raw _, .node, f => writeml f raw ⊹ tail f
  | .number raw _, .node, f => writes f raw ⊹ tail f
  | .id s, .node, f => writes f s ⊹ tail f
  | .array a, .node, f => check o (setup f) (containerWith o 91 93 a (pr o a (.args 91 (argCount a)))) ⊹ tail f
  | .dict a, .node, f => check o (setup f) (containerWith o 123 125 a (pr o a (.args 123 (argCount a)))) ⊹ tail f
  | .paren e, .node, f => check o (setup f) (parensWith o (pr o e .node)) ⊹ tail f
  | .not e, .node, f => writes f (ascii "not ") ⊹ pr o e .node (setup f) ⊹ tail f
  | .uminus e, .node, f => write f 45 ⊹ pr o e .node (setup f) ⊹ tail f
  | .and l r, .node, f => andOrWith o (setup f) (ascii "and ") (pr o l .node) (pr o r .node) ⊹ tail f
  | .or l r, .node, f => andOrWith o (setup f) (ascii "or ") (pr o l .node) (pr o r .node) ⊹ tail f
  | .comparison op l r, .node, f =>
    pr o l .node (setup f) ⊹ write f 32 ⊹ writes f (compText op ++ [32]) ⊹ pr o r .node (setup f) ⊹ tail f
  | .arith op l r, .node, f =>
    pr o l .node (setup f) ⊹ write f 32 ⊹ write f (arithText op) ⊹ breakingSpace o (setup f) ⊹ pr o r .node (setup f) ⊹ tail f
  | .ternary c a b, .node, f =>
    pr o c .node (setup f) ⊹ write f 32 ⊹ writes f (ascii "? ") ⊹ pr o a .node (setup f) ⊹ write f 32 ⊹
    writes f (ascii ": ") ⊹ pr o b .node (setup f) ⊹ tail f
  | .call l a, .node, f =>
    pr o l .node (setup f) ⊹
    check o (setup f) (fun f => containerWith o 40 41 a (pr o a (.args 40 (argCount a))) { f with cmd := false }) ⊹ tail f
  | .method l n a, .node, f =>
    pr o l .node (setup f) ⊹ write f 46 ⊹
    check o (setup f) (fun f => writes f n ⊹ containerWith o 40 41 a (pr o a (.args 40 (argCount a))) f) ⊹ tail f
  | .index l i, .node, f =>
    pr o l .node (setup f) ⊹ write f 91 ⊹ enclose ⊹ check o (setup f) (pr o i .node) ⊹ disclose ⊹ write f 93 ⊹ tail f
  | .arg e rest, .args op n, f =>
    check o { f with cmd := false, sep := comma (needComma o f op n false (isNil rest)) } (pr o e .node) ⊹
    if isNil rest then nop else between o f e rest ⊹ pr o rest (.args op n) f
  | .kwarg k v rest, .args op n, f =>
    pr o k .node { f with cmd := isId (ascii "command") k, sep := kwSep o } ⊹
    check o { f with cmd := isId (ascii "command") k, sep := comma (needComma o f op n true (isNil rest)) } (pr o v .node) ⊹
    if isNil rest then nop else between o f v rest ⊹ pr o rest (.args op n) f
  | _, _, _ => nop

/-! ### `files()` -/

/-- An element of a list of arguments, `struct arg_elem`, src/lang/fmt.c:25-28. -/
abbrev Elem := Option E × E

/-- The elements of a list of arguments, src/lang/fmt.c:402-436. -/
def elems : E → List Elem
  | .arg e r => (none, e) :: elems r
  | .kwarg k v r => (some k, v) :: elems r
  | _ => []

/-- A list of arguments. -/
def ofElems (c : Bool) : List Elem → E
  | [] => .nil c
  | (none, e) :: l => .arg e (ofElems c l)
  | (some k, v) :: l => .kwarg k v (ofElems c l)

/-- The only argument, if it is an array: what is in it; src/lang/fmt.c:573-582, 380-385. -/
def lone : E → E
  | .arg (.array a) (.nil _) => a
  | a => a

/-- The effect of `special_fmt_collapse_lone_array_arg` and `special_fmt_sort_files`, src/lang/fmt.c:572-585, 380-385, 441-443: the
arguments of `files` as they are printed. The code does this on the fly; as neither changes how an argument is printed, the model does it
beforehand. `sort` stands for `arr_sort` with `fmt_files_args_sort_cmp`, which calls `qsort`. -/
def arrange (sort : List Elem → List Elem) : E → E
  | .array a => .array (arrange sort a)
  | .dict a => .dict (arrange sort a)
  | .paren e => .paren (arrange sort e)
  | .not e => .not (arrange sort e)
  | .uminus e => .uminus (arrange sort e)
  | .and l r => .and (arrange sort l) (arrange sort r)
  | .or l r => .or (arrange sort l) (arrange sort r)
  | .comparison op l r => .comparison op (arrange sort l) (arrange sort r)
  | .arith op l r => .arith op (arrange sort l) (arrange sort r)
  | .ternary c a b => .ternary (arrange sort c) (arrange sort a) (arrange sort b)
  | .call l a =>
    let a' := arrange sort a
    if isId (ascii "files") l then .call l (ofElems (trailing (lone a')) (sort (elems (lone a'))))
    else .call (arrange sort l) a'
  | .method l n a => .method (arrange sort l) n (arrange sort a)
  | .index l i => .index (arrange sort l) (arrange sort i)
  | .arg e r => .arg (arrange sort e) (arrange sort r)
  | .kwarg k v r => .kwarg (arrange sort k) (arrange sort v) (arrange sort r)
  | e => e

/-- `fmt_files_args_sort_cmp`, src/lang/fmt.c:339-367: whether the first may come before the second; the order of
`strcmp` is that of lists of bytes. -/
def filesLe : E → E → Bool
  | .string a _, .string b _ =>
    if a.contains 47 == b.contains 47 then decide (a ≤ b) else a.contains 47
  | .string _ _, _ => true
  | _, .string _ _ => false
  | _, _ => true

/-! ### Statements -/

/-- The nodes that `fmt_node_wrapped` does not put into parentheses, src/lang/fmt.c:612-626. -/
def needsParen : E → Bool
  | .method .. | .array _ | .dict _ | .call .. | .index .. | .paren _ | .string .. | .number .. => false
  | _ => true

/-- `fmt_node_wrapped`, src/lang/fmt.c:604-647. -/
def wrapped (o : Opts) (e : E) (f : Fst) : Pr := fun s =>
  let f := setup f
  if f.ml && needsParen e && s.enclosed == 0 then
    (enclose ⊹ write f 40 ⊹ begin ⊹ newline o f ⊹ pr o e .node f ⊹ disclose ⊹ «end» ⊹ newline o f ⊹ write f 41) s
  else pr o e .node f s

/-- Whether a block is there, and whether it begins with an empty line without a comment. -/
def isNothing : S → Bool
  | .nothing => true
  | _ => false
@[inherit_doc isNothing] def startsBare : S → Bool
  | .block (.blank none) _ => true
  | _ => false

/-- The block of an `if` or of a loop, src/lang/fmt.c:693-703, 841-851. -/
def inner (o : Opts) (f : Fst) (b : S) (p : Pr) : Pr :=
  if isNothing b then newlineForce o f
  else begin ⊹ newlineForce o f (startsBare b) ⊹ p ⊹ «end» ⊹ newlineForce o f

/-- `fmt_node`, src/lang/fmt.c:768-993, for statements and blocks, and `fmt_if`, lines 679-708; `first` tells `if` from `elif`. The text
of a comment is cut at 4095 characters with the `#`, as `fmt_writef` has a buffer of 4096 bytes. -/
def prS (o : Opts) : S → Bool → Fst → Pr
  | .nothing, _, f => tail f
  | .block s rest, _, f =>
    check o (setup f) (prS o s true) ⊹
    (if isNothing rest then nop else mute (newlineForce o f (startsBare rest)) ⊹ mute (prS o rest true (setup f))) ⊹ tail f
  | .blank none, _, f => tail f
  | .blank (some c), _, f => tail f ⊹ (if f.write then writes f ((35 :: c).take 4095) else fun s => ((35 :: c).length, s)) ⊹ force true
  | .expr e, _, f => pr o e .node f
  | .assign s e, _, f => writes f s ⊹ write f 32 ⊹ writes f (ascii "= ") ⊹ wrapped o e f ⊹ tail f
  | .plusAssign s e, _, f => writes f s ⊹ write f 32 ⊹ writes f (ascii "+= ") ⊹ wrapped o e f ⊹ tail f
  | .continue, _, f => writes f (ascii "continue") ⊹ tail f
  | .break, _, f => writes f (ascii "break") ⊹ tail f
  | .ifs s, _, f => mute (prS o s true (setup f)) ⊹ mute (writes f (ascii "endif")) ⊹ tail f
  | .branch c b e, first, f =>
    writes f (if first then ascii "if " else ascii "elif ") ⊹ check o (setup f) (wrapped o c) ⊹
    inner o (setup f) b (prS o b true (setup f)) ⊹ if isNothing e then nop else prS o e false (setup f)
  | .els b, _, f => writes f (ascii "else") ⊹ inner o (setup f) b (prS o b true (setup f))
  | .foreach v w e b, _, f =>
    mute (writes f (ascii "foreach ")) ⊹
    mute (writes f v ⊹ match w with | some w => writes f (ascii ", ") ⊹ writes f w | none => nop) ⊹
    mute (writes f (ascii " : ")) ⊹ mute (check o (setup f) (wrapped o e)) ⊹
    mute (inner o (setup f) b (prS o b true (setup f))) ⊹ mute (writes f (ascii "endforeach")) ⊹ tail f

/-- `arrange` on the expressions of a program. -/
def arrangeS (sort : List Elem → List Elem) : S → S
  | .block s r => .block (arrangeS sort s) (arrangeS sort r)
  | .expr e => .expr (arrange sort e)
  | .assign s e => .assign s (arrange sort e)
  | .plusAssign s e => .plusAssign s (arrange sort e)
  | .ifs s => .ifs (arrangeS sort s)
  | .branch c b e => .branch (arrange sort c) (arrangeS sort b) (arrangeS sort e)
  | .els b => .els (arrangeS sort b)
  | .foreach v w e b => .foreach v w (arrange sort e) (arrangeS sort b)
  | s => s

/-- `fmt`, src/lang/fmt.c:1091-1172: the text written for a parsed program. -/
def fmt (o : Opts) (sort : List Elem → List Elem) (p : S) : Bytes :=
  ((prS o (arrangeS sort p) true {}) ⊹ newlineForce o {}) {} |>.2.out

end Muon.Fmt
