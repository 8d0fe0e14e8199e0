import Verif.Parse.Model
/-
The grammar of expressions and statements: a specification independent of the parser. (From the model it uses only the
types of tokens and nodes.)
-/
namespace Muon.Parse.Spec
open Muon Lex

/-- Levels of expressions, from the loosest operators to the tightest. Arithmetic operators have numbered levels; a
prefix operator is at level 5. `args` are the contents of brackets: of an array, a dictionary or a call. -/
inductive Lv
  | expr | or | and | comp
  | arith (n : Nat)
  | post | atom
  | args (m : ListMode)

/-- The tokens of a comparison operator. -/
def compToks : Comp → List Tok
  | .eq => [.eq]
  | .neq => [.neq]
  | .lt => [.lt]
  | .le => [.leq]
  | .gt => [.gt]
  | .ge => [.geq]
  | .isIn => [.kIn]
  | .notIn => [.kNot, .kIn]

/-- The token of an arithmetic operator. -/
def opTok : Arith → Tok
  | .add => .plus
  | .sub => .minus
  | .mod => .modulo
  | .mul => .star
  | .div => .slash

/-- Levels of the arithmetic operators in the Meson language: `+` and `-` are at one level, `*`, `/` and `%` at another. -/
def mesonLevel : Arith → Nat
  | .add | .sub => 0
  | .mul | .div | .mod => 1

/-- Levels of the arithmetic operators in muon: each one has its own. -/
def muonLevel : Arith → Nat
  | .add => 0
  | .sub => 1
  | .mod => 2
  | .mul => 3
  | .div => 4

/-- `Derives level stray lv r e ts`: the tokens `ts` are the text of the expression `e`, which can stand where the level `lv`
is required; brackets and conditionals are nested at most `r` deep. Binary arithmetic operators associate to the left,
`and` and `or` to the right; comparisons do not associate. If `stray` holds, a comparison operand may be followed by a
meaningless `not`. -/
inductive Derives (level : Arith → Nat) (stray : Prop) : Lv → Nat → Node → List Tok → Prop
  | orExpr {r e ts} : Derives level stray .or r e ts → Derives level stray .expr (r + 1) e ts
  | ternary {r c a b ts us vs} : Derives level stray .or r c ts → Derives level stray .expr r a us → Derives level stray .expr r b vs →
      Derives level stray .expr (r + 1) (.ternary c a b) (ts ++ .question :: us ++ .colon :: vs)
  | andOr {r e ts} : Derives level stray .and r e ts → Derives level stray .or r e ts
  | or {r a b ts us} : Derives level stray .and r a ts → Derives level stray .or r b us → Derives level stray .or r (.or a b) (ts ++ .kOr :: us)
  | compAnd {r e ts} : Derives level stray .comp r e ts → Derives level stray .and r e ts
  | and {r a b ts us} : Derives level stray .comp r a ts → Derives level stray .and r b us → Derives level stray .and r (.and a b) (ts ++ .kAnd :: us)
  | arithComp {r e ts} : Derives level stray (.arith 0) r e ts → Derives level stray .comp r e ts
  | comparison {r op a b ts us} : Derives level stray (.arith 0) r a ts → Derives level stray (.arith 0) r b us →
      Derives level stray .comp r (.comparison op a b) (ts ++ compToks op ++ us)
  | strayNot {r e ts} : stray → Derives level stray (.arith 0) r e ts → Derives level stray .comp r e (ts ++ [.kNot])
  | arithLift {r n e ts} : n < 5 → Derives level stray (.arith (n + 1)) r e ts → Derives level stray (.arith n) r e ts
  | arith {r op a b ts us} : Derives level stray (.arith (level op)) r a ts → Derives level stray (.arith (level op + 1)) r b us →
      Derives level stray (.arith (level op)) r (.arith op a b) (ts ++ opTok op :: us)
  | postUnary {r e ts} : Derives level stray .post r e ts → Derives level stray (.arith 5) r e ts
  | not {r e ts} : Derives level stray .post r e ts → Derives level stray (.arith 5) r (.not e) (.kNot :: ts)
  | uminus {r e ts} : Derives level stray .post r e ts → Derives level stray (.arith 5) r (.uminus e) (.minus :: ts)
  | stringify {r e ts} : Derives level stray .post r e ts → Derives level stray (.arith 5) r (.stringify e) (.stringify :: ts)
  | atomPost {r e ts} : Derives level stray .atom r e ts → Derives level stray .post r e ts
  | index {r l i ts us} : Derives level stray .post r l ts → Derives level stray .expr r i us →
      Derives level stray .post r (.index l i) (ts ++ .lbrack :: us ++ [.rbrack])
  | method {r l n a ts us} : Derives level stray .post r l ts → Derives level stray (.args .arguments) r a us →
      Derives level stray .post r (.method l n a) (ts ++ .dot :: .identifier n :: .lparen :: us ++ [.rparen])
  | call {r l a ts us} : Derives level stray .post r l ts → Derives level stray (.args .arguments) r a us →
      Derives level stray .post r (.call l a) (ts ++ .lparen :: us ++ [.rparen])
  | true {r} : Derives level stray .atom r (.bool true) [.kTrue]
  | false {r} : Derives level stray .atom r (.bool false) [.kFalse]
  | id {r s} : Derives level stray .atom r (.id s) [.identifier s]
  | number {r n} : Derives level stray .atom r (.number n) [.number n]
  | string {r s} : Derives level stray .atom r (.string s) [.string s]
  | paren {r e ts} : Derives level stray .expr r e ts → Derives level stray .atom r e (.lparen :: ts ++ [.rparen])
  | array {r a ts} : Derives level stray (.args .array) r a ts → Derives level stray .atom r (.array a) (.lbrack :: ts ++ [.rbrack])
  | dict {r a ts} : Derives level stray (.args .dictionary) r a ts → Derives level stray .atom r (.dict a) (.lcurl :: ts ++ [.rcurl])
  | noArgs {r m} : Derives level stray (.args m) (r + 1) .empty []
  | lastArg {r m e ts} : m ≠ .dictionary → Derives level stray .expr r e ts → Derives level stray (.args m) r (.argument e .empty) ts
  | arg {r m e ts a us} : m ≠ .dictionary → Derives level stray .expr r e ts → Derives level stray (.args m) r a us →
      Derives level stray (.args m) r (.argument e a) (ts ++ .comma :: us)
  | lastKey {r m k v ts us} : (m = .dictionary ∨ m = .arguments ∧ ∃ s, k = .id s) → Derives level stray .expr r k ts →
      Derives level stray .expr r v us → Derives level stray (.args m) r (.kwarg k v .empty) (ts ++ .colon :: us)
  | key {r m k v ts us a vs} : (m = .dictionary ∨ m = .arguments ∧ ∃ s, k = .id s) → Derives level stray .expr r k ts →
      Derives level stray .expr r v us → Derives level stray (.args m) r a vs →
      Derives level stray (.args m) r (.kwarg k v a) (ts ++ .colon :: us ++ .comma :: vs)

/-- The nodes of a statement that are carried out with it: all but the insides of blocks. -/
def parts : Node → List Node
  | .argument l r => parts l ++ parts r
  | .kwarg k v r => parts k ++ parts v ++ parts r
  | .array a => .array a :: parts a
  | .dict a => .dict a :: parts a
  | .or l r => .or l r :: (parts l ++ parts r)
  | .and l r => .and l r :: (parts l ++ parts r)
  | .comparison o l r => .comparison o l r :: (parts l ++ parts r)
  | .arith o l r => .arith o l r :: (parts l ++ parts r)
  | .not e => .not e :: parts e
  | .uminus e => .uminus e :: parts e
  | .stringify e => .stringify e :: parts e
  | .index l i => .index l i :: (parts l ++ parts i)
  | .ternary c a b => .ternary c a b :: (parts c ++ parts a ++ parts b)
  | .ifElse c b e => .ifElse c b e :: (parts c ++ parts b ++ parts e)
  | .foreach v w e b => .foreach v w e b :: (parts e ++ parts b)
  | n => [n]

/-- Nodes that do something: calls, assignments, jumps, and blocks, which are never empty. -/
def acts : Node → Bool
  | .method .. | .call .. | .assign .. | .plusAssign .. | .continue | .break | .block .. => true
  | _ => false

/-- A statement does something. -/
def Effective (n : Node) : Prop := ∃ x ∈ parts n, acts x = true

/-- The kinds of pieces of a program: a block of statements, one statement, what follows the words `if` and `elif`, and
what follows the last statement of the block of an `if`. -/
inductive Piece | block | stmt | ifs | els

/-- The loop variables of a `foreach`. -/
def loopVars (v : Bytes) : Option Bytes → List Tok
  | some w => [.identifier v, .comma, .identifier w]
  | none => [.identifier v]

/-- `Program level stray strict p loop n ts`: the tokens `ts` are the text of the piece `n`, inside a loop if `loop`. If
`strict`, each statement must do something. The statements of a block are separated by ends of lines, and there may be
empty lines. `continue` and `break` are only allowed in loops. -/
inductive Program (level : Arith → Nat) (stray : Prop) (strict : Bool) : Piece → Bool → Node → List Tok → Prop
  | nothing {loop} (k : Nat) : Program level stray strict .block loop .empty (List.replicate k .eol)
  | last {loop s ts} (k : Nat) : Program level stray strict .stmt loop s ts →
      Program level stray strict .block loop (.block s .empty) (List.replicate k .eol ++ ts)
  | cons {loop s ts b us} (k : Nat) : Program level stray strict .stmt loop s ts → Program level stray strict .block loop b us →
      Program level stray strict .block loop (.block s b) (List.replicate k .eol ++ ts ++ .eol :: us)
  | expr {loop e ts} : Derives level stray .expr 4096 e ts → (strict = true → Effective e) → Program level stray strict .stmt loop e ts
  | assign {loop s v ts us} : Derives level stray .expr 4096 (.id s) ts → Derives level stray .expr 4096 v us →
      Program level stray strict .stmt loop (.assign s v) (ts ++ .assign :: us)
  | plusAssign {loop s v ts us} : Derives level stray .expr 4096 (.id s) ts → Derives level stray .expr 4096 v us →
      Program level stray strict .stmt loop (.plusAssign s v) (ts ++ .plusAssign :: us)
  | continue : Program level stray strict .stmt true .continue [.kContinue]
  | break : Program level stray strict .stmt true .break [.kBreak]
  | if {loop n ts} : Program level stray strict .ifs loop n ts → (strict = true → Effective n) →
      Program level stray strict .stmt loop n (.kIf :: ts ++ [.kEndif])
  | foreach {loop v w e b ts us} : Derives level stray .expr 4096 e ts → Program level stray strict .block true b us →
      (strict = true → Effective (.foreach v w e b)) →
      Program level stray strict .stmt loop (.foreach v w e b) (.kForeach :: loopVars v w ++ .colon :: ts ++ .eol :: us ++ [.kEndforeach])
  | branch {loop c b e ts us vs} : Derives level stray .expr 4096 c ts → Program level stray strict .block loop b us →
      Program level stray strict .els loop e vs → Program level stray strict .ifs loop (.ifElse c b e) (ts ++ .eol :: us ++ vs)
  | noElse {loop} : Program level stray strict .els loop .empty []
  | elif {loop n ts} : Program level stray strict .ifs loop n ts → Program level stray strict .els loop n (.kElif :: ts)
  | else {loop b ts} : Program level stray strict .block loop b ts → Program level stray strict .els loop b (.kElse :: .eol :: ts)

end Muon.Parse.Spec
