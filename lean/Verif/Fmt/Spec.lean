import Verif.Fmt.Model
import Verif.Parse.Spec
import Verif.Lex.Spec
/-
What a formatted program has to do with the source: a specification independent of the formatter. (From the model it uses the types
of trees; the lexer is used to say what a literal stands for.)
-/
namespace Muon.Fmt.Spec
open Muon Lex Parse Parse.Spec

/-- The expression that a tree stands for: without parentheses, the text of literals and commas at the end. -/
def erase : E → Node
  | .bool b => .bool b
  | .string _ s => .string s
  | .number _ n => .number n
  | .id s => .id s
  | .array a => .array (erase a)
  | .dict a => .dict (erase a)
  | .paren e => erase e
  | .not e => .not (erase e)
  | .uminus e => .uminus (erase e)
  | .and l r => .and (erase l) (erase r)
  | .or l r => .or (erase l) (erase r)
  | .comparison op l r => .comparison op (erase l) (erase r)
  | .arith op l r => .arith op (erase l) (erase r)
  | .ternary c a b => .ternary (erase c) (erase a) (erase b)
  | .call l a => .call (erase l) (erase a)
  | .method l n a => .method (erase l) n (erase a)
  | .index l i => .index (erase l) (erase i)
  | .nil _ => .empty
  | .arg e r => .argument (erase e) (erase r)
  | .kwarg k v r => .kwarg (erase k) (erase v) (erase r)

/-- The program that a tree stands for: without empty lines and comments. -/
def eraseS : S → Node
  | .nothing => .empty
  | .block (.blank _) r => eraseS r
  | .block s r => .block (eraseS s) (eraseS r)
  | .blank _ => .empty
  | .expr e => erase e
  | .assign s e => .assign s (erase e)
  | .plusAssign s e => .plusAssign s (erase e)
  | .continue => .continue
  | .break => .break
  | .ifs s => eraseS s
  | .branch c b e => .ifElse (erase c) (eraseS b) (eraseS e)
  | .els b => eraseS b
  | .foreach v w e b => .foreach v w (erase e) (eraseS b)

/-- `Tree L r e ts`: the tree that the parser makes of the tokens `ts` when it keeps formatting. This is the grammar `Derives`,
with parentheses, and with commas at the end of arguments noted. -/
inductive Tree : Lv → Nat → E → List Tok → Prop
  | orExpr {r e ts} : Tree .or r e ts → Tree .expr (r + 1) e ts
  | ternary {r c a b ts us vs} : Tree .or r c ts → Tree .expr r a us → Tree .expr r b vs →
      Tree .expr (r + 1) (.ternary c a b) (ts ++ .question :: us ++ .colon :: vs)
  | andOr {r e ts} : Tree .and r e ts → Tree .or r e ts
  | or {r a b ts us} : Tree .and r a ts → Tree .or r b us → Tree .or r (.or a b) (ts ++ .kOr :: us)
  | compAnd {r e ts} : Tree .comp r e ts → Tree .and r e ts
  | and {r a b ts us} : Tree .comp r a ts → Tree .and r b us → Tree .and r (.and a b) (ts ++ .kAnd :: us)
  | arithComp {r e ts} : Tree (.arith 0) r e ts → Tree .comp r e ts
  | comparison {r op a b ts us} : Tree (.arith 0) r a ts → Tree (.arith 0) r b us →
      Tree .comp r (.comparison op a b) (ts ++ compToks op ++ us)
  | strayNot {r e ts} : Tree (.arith 0) r e ts → Tree .comp r e (ts ++ [.kNot])
  | arithLift {r n e ts} : n < 5 → Tree (.arith (n + 1)) r e ts → Tree (.arith n) r e ts
  | arith {r op a b ts us} : Tree (.arith (muonLevel op)) r a ts → Tree (.arith (muonLevel op + 1)) r b us →
      Tree (.arith (muonLevel op)) r (.arith op a b) (ts ++ opTok op :: us)
  | postUnary {r e ts} : Tree .post r e ts → Tree (.arith 5) r e ts
  | not {r e ts} : Tree .post r e ts → Tree (.arith 5) r (.not e) (.kNot :: ts)
  | uminus {r e ts} : Tree .post r e ts → Tree (.arith 5) r (.uminus e) (.minus :: ts)
  | atomPost {r e ts} : Tree .atom r e ts → Tree .post r e ts
  | index {r l i ts us} : Tree .post r l ts → Tree .expr r i us →
      Tree .post r (.index l i) (ts ++ .lbrack :: us ++ [.rbrack])
  | method {r l n a ts us} : Tree .post r l ts → Tree (.args .arguments) r a us →
      Tree .post r (.method l n a) (ts ++ .dot :: .identifier n :: .lparen :: us ++ [.rparen])
  | call {r l a ts us} : Tree .post r l ts → Tree (.args .arguments) r a us →
      Tree .post r (.call l a) (ts ++ .lparen :: us ++ [.rparen])
  | true {r} : Tree .atom r (.bool true) [.kTrue]
  | false {r} : Tree .atom r (.bool false) [.kFalse]
  | id {r s} : Tree .atom r (.id s) [.identifier s]
  | number {r raw n} : Tree .atom r (.number raw n) [.number n]
  | string {r raw s} : Tree .atom r (.string raw s) [.string s]
  | paren {r e ts} : Tree .expr r e ts → Tree .atom r (.paren e) (.lparen :: ts ++ [.rparen])
  | array {r a ts} : Tree (.args .array) r a ts → Tree .atom r (.array a) (.lbrack :: ts ++ [.rbrack])
  | dict {r a ts} : Tree (.args .dictionary) r a ts → Tree .atom r (.dict a) (.lcurl :: ts ++ [.rcurl])
  | noArgs {r m c} : Tree (.args m) (r + 1) (.nil c) []
  | lastArg {r m e ts} : m ≠ .dictionary → Tree .expr r e ts → Tree (.args m) r (.arg e (.nil false)) ts
  | arg {r m e ts a us} : m ≠ .dictionary → Tree .expr r e ts → Tree (.args m) r a us →
      a ≠ .nil false → Tree (.args m) r (.arg e a) (ts ++ .comma :: us)
  | lastKey {r m k v ts us} : (m = .dictionary ∨ m = .arguments ∧ ∃ s, k = .id s) → Tree .expr r k ts →
      Tree .expr r v us → Tree (.args m) r (.kwarg k v (.nil false)) (ts ++ .colon :: us)
  | key {r m k v ts us a vs} : (m = .dictionary ∨ m = .arguments ∧ ∃ s, k = .id s) → Tree .expr r k ts →
      Tree .expr r v us → Tree (.args m) r a vs → a ≠ .nil false →
      Tree (.args m) r (.kwarg k v a) (ts ++ .colon :: us ++ .comma :: vs)

/-- Where a piece of a program stands. -/
inductive At | block | stmt | ifs | els

/-- `Source strict depth p loop s ts`: the tree that the parser makes of the tokens `ts` of a program when it keeps
formatting: the grammar `Program` with a node for each empty line. Expressions are nested at most `depth` deep. -/
inductive Source (strict : Bool) (depth : Nat) : At → Bool → S → List Tok → Prop
  | nothing {loop} : Source strict depth .block loop .nothing []
  | last {loop s ts} : Source strict depth .stmt loop s ts → Source strict depth .block loop (.block s .nothing) ts
  | cons {loop s ts b us} : Source strict depth .stmt loop s ts → Source strict depth .block loop b us →
      Source strict depth .block loop (.block s b) (ts ++ .eol :: us)
  | blank {loop c b us} : Source strict depth .block loop b us → Source strict depth .block loop (.block (.blank c) b) (.eol :: us)
  | expr {loop e ts} : Tree .expr depth e ts → (strict = true → Effective (erase e)) → Source strict depth .stmt loop (.expr e) ts
  | assign {loop s v us} : Tree .expr depth v us →
      Source strict depth .stmt loop (.assign s v) (.identifier s :: .assign :: us)
  | plusAssign {loop s v us} : Tree .expr depth v us →
      Source strict depth .stmt loop (.plusAssign s v) (.identifier s :: .plusAssign :: us)
  | continue : Source strict depth .stmt true .continue [.kContinue]
  | break : Source strict depth .stmt true .break [.kBreak]
  | if {loop s ts} : Source strict depth .ifs loop s ts → (strict = true → Effective (eraseS s)) →
      Source strict depth .stmt loop (.ifs s) (.kIf :: ts ++ [.kEndif])
  | foreach {loop v w e b ts us} : Tree .expr depth e ts → Source strict depth .block true b us →
      (strict = true → Effective (.foreach v w (erase e) (eraseS b))) →
      Source strict depth .stmt loop (.foreach v w e b) (.kForeach :: loopVars v w ++ .colon :: ts ++ .eol :: us ++ [.kEndforeach])
  | branch {loop c b e ts us vs} : Tree .expr depth c ts → Source strict depth .block loop b us →
      Source strict depth .els loop e vs → Source strict depth .ifs loop (.branch c b e) (ts ++ .eol :: us ++ vs)
  | noElse {loop} : Source strict depth .els loop .nothing []
  | elif {loop s ts} : Source strict depth .ifs loop s ts → Source strict depth .els loop s (.kElif :: ts)
  | else {loop b ts} : Source strict depth .block loop b ts → Source strict depth .els loop (.els b) (.kElse :: .eol :: ts)

/-- A literal: when formatting, the lexer keeps its text; otherwise it makes the token `t` of it. -/
def Literal (raw : Bytes) (kept t : Tok) : Prop :=
  lex true false raw = .ok (true, [kept, .eof]) ∧ lex false false raw = .ok (true, [t, .eof])

/-- A text beginning with a quote that is a string, and a text of letters and digits that is a number. -/
def StringLit (raw s : Bytes) : Prop := raw.head? = some 39 ∧ Literal raw (.string raw) (.string s)
@[inherit_doc StringLit] def NumberLit (raw : Bytes) (n : Int) : Prop :=
  (∃ c, raw.head? = some c ∧ isDigit c = true) ∧ (∀ c ∈ raw, isAlnum c = true) ∧ Literal raw (.numberText raw) (.number n)

/-- The names in an expression are names and its literals stand for what the tree says. -/
def Words : E → Prop
  | .string raw s => StringLit raw s
  | .number raw n => NumberLit raw n
  | .id s => Lex.Spec.isName false s
  | .array a | .dict a | .paren a | .not a | .uminus a => Words a
  | .and l r | .or l r | .comparison _ l r | .arith _ l r | .call l r | .index l r | .arg l r => Words l ∧ Words r
  | .ternary c a b | .kwarg c a b => Words c ∧ Words a ∧ Words b
  | .method l n a => Words l ∧ Lex.Spec.isName false n ∧ Words a
  | .bool _ | .nil _ => True

/-- The same for a program; a comment is on one line. -/
def WordsS : S → Prop
  | .block s r => WordsS s ∧ WordsS r
  | .blank (some c) => ∀ x ∈ c, x ≠ 0 ∧ x ≠ 10
  | .expr e => Words e
  | .assign s e | .plusAssign s e => Lex.Spec.isName false s ∧ Words e
  | .ifs s | .els s => WordsS s
  | .branch c b e => Words c ∧ WordsS b ∧ WordsS e
  | .foreach v w e b => Lex.Spec.isName false v ∧ (∀ x, w = some x → Lex.Spec.isName false x) ∧ Words e ∧ WordsS b
  | .nothing | .blank none | .continue | .break => True

/-- An expression has no arithmetic operator outside of brackets. -/
def NoArith : E → Prop
  | .arith .. => False
  | .not a | .uminus a => NoArith a
  | .and l r | .or l r | .comparison _ l r => NoArith l ∧ NoArith r
  | .ternary c a b => NoArith c ∧ NoArith a ∧ NoArith b
  | .call l _ | .index l _ | .method l _ _ => NoArith l
  | _ => True

/-- No statement of a program is just an expression with an arithmetic operator outside of brackets. -/
def Plain : S → Prop
  | .block s r => Plain s ∧ Plain r
  | .expr e => NoArith e
  | .ifs s | .els s => Plain s
  | .branch _ b e => Plain b ∧ Plain e
  | .foreach _ _ _ b => Plain b
  | _ => True

/-- The arguments in a list. -/
def items : Node → List (Option Node × Node)
  | .argument e r => (none, e) :: items r
  | .kwarg k v r => (some k, v) :: items r
  | _ => []

/-- The elements of an array that is the only argument; otherwise the arguments. -/
def flat : List (Option Node × Node) → List (Option Node × Node)
  | [(none, .array a)] => items a
  | l => l

/-- Two programs that differ at most in calls of `files`: the arguments may be in another order, and if the
only argument is an array, its elements may be given instead. -/
inductive Same : Node → Node → Prop
  | refl (n) : Same n n
  | files {a b c} : Same a b → (items c).Perm (items b) ∨ (items c).Perm (flat (items b)) →
      Same (.call (.id (ascii "files")) a) (.call (.id (ascii "files")) c)
  | call {l a l' a'} : Same l l' → Same a a' → Same (.call l a) (.call l' a')
  | argument {l r l' r'} : Same l l' → Same r r' → Same (.argument l r) (.argument l' r')
  | kwarg {k v r k' v' r'} : Same k k' → Same v v' → Same r r' → Same (.kwarg k v r) (.kwarg k' v' r')
  | array {a a'} : Same a a' → Same (.array a) (.array a')
  | dict {a a'} : Same a a' → Same (.dict a) (.dict a')
  | or {l r l' r'} : Same l l' → Same r r' → Same (.or l r) (.or l' r')
  | and {l r l' r'} : Same l l' → Same r r' → Same (.and l r) (.and l' r')
  | comparison {o l r l' r'} : Same l l' → Same r r' → Same (.comparison o l r) (.comparison o l' r')
  | arith {o l r l' r'} : Same l l' → Same r r' → Same (.arith o l r) (.arith o l' r')
  | not {a a'} : Same a a' → Same (.not a) (.not a')
  | uminus {a a'} : Same a a' → Same (.uminus a) (.uminus a')
  | index {l r l' r'} : Same l l' → Same r r' → Same (.index l r) (.index l' r')
  | method {l n r l' r'} : Same l l' → Same r r' → Same (.method l n r) (.method l' n r')
  | ternary {c a b c' a' b'} : Same c c' → Same a a' → Same b b' → Same (.ternary c a b) (.ternary c' a' b')
  | assign {s a a'} : Same a a' → Same (.assign s a) (.assign s a')
  | plusAssign {s a a'} : Same a a' → Same (.plusAssign s a) (.plusAssign s a')
  | ifElse {c a b c' a' b'} : Same c c' → Same a a' → Same b b' → Same (.ifElse c a b) (.ifElse c' a' b')
  | foreach {v w a b a' b'} : Same a a' → Same b b' → Same (.foreach v w a b) (.foreach v w a' b')
  | block {l r l' r'} : Same l l' → Same r r' → Same (.block l r) (.block l' r')

end Muon.Fmt.Spec
