import Verif.Interp.Model
/-
What programs mean, without objects: variables stand for values, assignment copies, a loop runs over the list of
elements its array had at the beginning. Programs without aliasing, for which the interpreter follows this meaning.
-/
namespace Muon.Interp
open Muon Val

mutual
/-- Does the value contain a disabler, itself or inside arrays? -/
def Spec.hasDis : Val → Bool
  | .other _ i => i == 1
  | .arr l => Spec.hasDisList l
  | _ => false
def Spec.hasDisList : List Val → Bool
  | [] => false
  | v :: l => Spec.hasDis v || Spec.hasDisList l
end

/-- The variables whose object, not a new one, the expression may evaluate to. -/
def Expr.mayBe : Expr → List Bytes
  | .var x => [x]
  | .ternary _ a b => a.mayBe ++ b.mayBe
  | _ => []

/-- The variables a program extends with `+=`. -/
def Stmt.targets : Stmt → List Bytes
  | .plus x _ => [x]
  | .seq a b => a.targets ++ b.targets
  | .ite _ a b => a.targets ++ b.targets
  | .foreach _ _ b => b.targets
  | .foreachKV _ _ _ b => b.targets
  | _ => []

namespace Spec

/-- Meaning of an expression or program. `unclear`: a dictionary that `+=` may extend later is made an element of an array. -/
inductive Res (α : Type)
  | ok (a : α)
  | error
  | bad
  | unclear

def Res.bind {α β : Type} (x : Res α) (g : α → Res β) : Res β :=
  match x with
  | .ok a => g a
  | .error => .error
  | .bad => .bad
  | .unclear => .unclear

instance : Monad Res where
  pure := .ok
  bind := Res.bind

/-- The value of an expression without value, and a disabler. -/
def isVoid : Val → Bool
  | .other _ i => i == 0
  | _ => false
def isDis : Val → Bool
  | .other _ i => i == 1
  | _ => false

/-- A number if it is a 64-bit integer. -/
def number (n : Int) : Res Int := if -2 ^ 63 ≤ n ∧ n < 2 ^ 63 then .ok n else .bad

/-- Arithmetic on numbers. In C the remainder is undefined if the quotient does not fit. -/
def arithNum (op : Arith) (m n : Int) : Res Int :=
  match op with
  | .add => number (m + n)
  | .sub => number (m - n)
  | .mul => number (m * n)
  | .div => if n = 0 then .error else number (m.tdiv n)
  | .mod => if n = 0 then .error else if -2 ^ 63 ≤ m.tdiv n ∧ m.tdiv n < 2 ^ 63 then .ok (m.tmod n) else .bad

/-- The entries of `l` with the values of `r` where it has any, then the new entries of `r`. -/
def merge {α : Type} (l r : List (Bytes × α)) : List (Bytes × α) :=
  l.map (fun p => (p.1, (r.lookup p.1).getD p.2)) ++ r.filter fun p => (l.lookup p.1).isNone

/-- Arithmetic; `keep`: the right operand is the object of a variable that is extended with `+=`. -/
def arith (op : Arith) (keep : Bool) : Val → Val → Res Val
  | .str s, .str t =>
    match op with
    | .add => .ok (.str (s ++ t))
    | .div => if 0 ∈ s ∨ 0 ∈ t then .error else .ok (.str (Path.join s t))
    | _ => .error
  | .num m, .num n => do pure (.num (← arithNum op m n))
  | .arr l, w =>
    match op with
    | .add =>
      match w with
      | .arr r => .ok (.arr (l ++ r))
      | .dict r => if keep then .unclear else .ok (.arr (l ++ [.dict r]))
      | w => .ok (.arr (l ++ [w]))
    | _ => .error
  | .dict l, .dict r =>
    match op with
    | .add => .ok (.dict (merge l r))
    | _ => .error
  | _, _ => .error

/-- A condition; `none` for a disabler. -/
def cond (v : Val) : Res (Option Bool) :=
  if isDis v then .ok none
  else match v with
  | .bool b => .ok (some b)
  | _ => .error

/-- `in`. -/
noncomputable def isIn (a b : Val) : Res Bool :=
  open Classical in
  match b with
  | .arr l => .ok (decide (∃ w ∈ l, Val.Spec.Same a w))
  | .dict l => match a with | .str s => .ok (decide (s ∈ l.map Prod.fst)) | _ => .error
  | .str r => match a with | .str s => .ok (decide (s <:+: r)) | _ => .error
  | _ => .error

/-- Comparison of values that are not disablers. -/
noncomputable def cmp (op : Cmp) (a b : Val) : Res Bool :=
  open Classical in
  match op with
  | .eq => .ok (decide (Val.Spec.Same a b))
  | .ne => .ok (decide (¬ Val.Spec.Same a b))
  | .isin => isIn a b
  | .notin => do pure (!(← isIn a b))
  | .lt => match a, b with | .num m, .num n => .ok (decide (m < n)) | _, _ => .error
  | .le => match a, b with | .num m, .num n => .ok (decide (m ≤ n)) | _, _ => .error
  | .gt => match a, b with | .num m, .num n => .ok (decide (m > n)) | _, _ => .error
  | .ge => match a, b with | .num m, .num n => .ok (decide (m ≥ n)) | _, _ => .error

/-- The element of a list at position `n`, counted from the end if negative. -/
def element {α : Type} (l : List α) (n : Int) : Res α :=
  let k := if n < 0 then n + l.length else n
  if k < 0 then .bad else match l[k.toNat]? with | some x => .ok x | none => .error

/-- Indexing. A disabler as index, and a negative index that is too small, make the interpreter crash. -/
def index (a i : Val) : Res Val :=
  if isDis a then .ok a
  else match a with
  | .arr l => if isDis i then .bad else match i with | .num n => element l n | _ => .error
  | .dict l => if isDis i then .bad else match i with | .str k => (match l.lookup k with | some v => .ok v | none => .error) | _ => .error
  | .str s => if isDis i then .bad else match i with | .num n => (do pure (.str [← element s n])) | _ => .error
  | _ => .error

/-- `message`: prints a value. -/
def message (v : Val) (out : List Val) : Res (Val × List Val) :=
  if hasDis v then .ok (.other 1 1, out)
  else match v with
  | .str _ | .bool _ | .num _ | .arr _ | .dict _ => .ok (.other 0 0, out ++ [v])
  | _ => .error

mutual
/-- The value of an expression, and the output after it. `own` are the variables extended with `+=`. -/
noncomputable def eval (own : List Bytes) (env : Bytes → Option Val) : Expr → List Val → Res (Val × List Val)
  | .num n, out => .ok (.num n, out)
  | .str t, out => .ok (.str t, out)
  | .bool b, out => .ok (.bool b, out)
  | .var x, out => match env x with | some v => .ok (v, out) | none => .error
  | .arr l, out => do
    let (vs, out) ← evalArgs own env l out
    pure (.arr vs, out)
  | .dict l, out => do
    let (vs, out) ← evalKvs own env l [] out
    pure (.dict vs, out)
  | .neg e, out => do
    let (v, out) ← eval own env e out
    if isDis v then pure (v, out)
    else match v with
    | .num n => do pure (.num (← number (-n)), out)
    | _ => .error
  | .arith op a b, out => do
    let (v, out) ← eval own env a out
    let (w, out) ← eval own env b out
    if isDis v || isDis w then pure (.other 1 1, out)
    else do pure (← arith op (b.mayBe.any own.contains) v w, out)
  | .cmp op a b, out => do
    let (v, out) ← eval own env a out
    let (w, out) ← eval own env b out
    if isDis v || isDis w then pure (.other 1 1, out)
    else do pure (.bool (← cmp op v w), out)
  | .not e, out => do
    let (v, out) ← eval own env e out
    match ← cond v with
    | none => pure (.other 1 1, out)
    | some b => pure (.bool (!b), out)
  | .and a b, out => do
    let (v, out) ← eval own env a out
    match ← cond v with
    | none => pure (.other 1 1, out)
    | some false => pure (.bool false, out)
    | some true => do
      let (w, out) ← eval own env b out
      match ← cond w with
      | none => pure (.other 1 1, out)
      | some r => pure (.bool r, out)
  | .or a b, out => do
    let (v, out) ← eval own env a out
    match ← cond v with
    | none => pure (.other 1 1, out)
    | some true => pure (.bool true, out)
    | some false => do
      let (w, out) ← eval own env b out
      match ← cond w with
      | none => pure (.other 1 1, out)
      | some r => pure (.bool r, out)
  | .ternary c a b, out => do
    let (v, out) ← eval own env c out
    match ← cond v with
    | none => pure (.other 1 1, out)
    | some true => eval own env a out
    | some false => eval own env b out
  | .index a i, out => do
    let (v, out) ← eval own env a out
    let (w, out) ← eval own env i out
    pure (← index v w, out)
  | .message e, out => do
    let (v, out) ← eval own env e out
    message v out
  | .disabler, out => .ok (.other 1 1, out)
  | .isDisabler e, out => do
    let (v, out) ← eval own env e out
    if isVoid v then .error else pure (.bool (isDis v), out)
noncomputable def evalArgs (own : List Bytes) (env : Bytes → Option Val) : Args → List Val → Res (List Val × List Val)
  | .nil, out => .ok ([], out)
  | .cons e l, out => do
    let (v, out) ← eval own env e out
    let (vs, out) ← evalArgs own env l out
    pure (v :: vs, out)
/-- The entries so far are `acc`. -/
noncomputable def evalKvs (own : List Bytes) (env : Bytes → Option Val) : Kvs → List (Bytes × Val) → List Val → Res (List (Bytes × Val) × List Val)
  | .nil, acc, out => .ok (acc, out)
  | .cons k v l, acc, out => do
    let (a, out) ← eval own env k out
    if isDis a then do
      let _ ← eval own env v out
      .bad
    else match a with
    | .str key => do
      let (w, out) ← eval own env v out
      if (acc.lookup key).isSome then .error else evalKvs own env l (acc ++ [(key, w)]) out
    | _ => .error
end

/-- Variables and output. -/
structure Store where
  env : Bytes → Option Val
  out : List Val

/-- Binding a variable. -/
def Store.bind (σ : Store) (x : Bytes) (v : Val) : Store := { σ with env := fun y => if y = x then some v else σ.env y }

/-- How a program ends: at its end, or at a `break` or `continue` for a loop around it. -/
inductive End | normal | brk | cont
deriving DecidableEq

/-- A loop over a list: the body for one element after another. -/
def forEach {α : Type} (body : α → Store → Res (End × Store)) : List α → Store → Res (End × Store)
  | [], σ => .ok (.normal, σ)
  | v :: vs, σ => do
    let (e, σ) ← body v σ
    match e with
    | .brk => pure (.normal, σ)
    | _ => forEach body vs σ

/-- The effect of a program. -/
noncomputable def run (own : List Bytes) : Stmt → Store → Res (End × Store)
  | .skip, σ => .ok (.normal, σ)
  | .expr e, σ => do
    let (_, out) ← eval own σ.env e σ.out
    pure (.normal, { σ with out })
  | .assign x e, σ => do
    let (v, out) ← eval own σ.env e σ.out
    if isVoid v then .error else pure (.normal, Store.bind { σ with out } x v)
  | .setVar x e, σ => do
    let (v, out) ← eval own σ.env e σ.out
    if isVoid v then .error else pure (.normal, Store.bind { σ with out } x v)
  /- `x += e` is `x = x + e` -/
  | .plus x e, σ => do
    let (v, out) ← eval own σ.env (.arith .add (.var x) e) σ.out
    pure (.normal, Store.bind { σ with out } x v)
  | .seq a b, σ => do
    let (e, σ) ← run own a σ
    match e with
    | .normal => run own b σ
    | e => pure (e, σ)
  | .ite c a b, σ => do
    let (v, out) ← eval own σ.env c σ.out
    match ← cond v with
    | none => pure (.normal, { σ with out })
    | some true => run own a { σ with out }
    | some false => run own b { σ with out }
  | .foreach x e b, σ => do
    let (v, out) ← eval own σ.env e σ.out
    match v with
    | .arr vs => forEach (fun v σ => run own b (Store.bind σ x v)) vs { σ with out }
    | _ => .error
  | .foreachKV k x e b, σ => do
    let (v, out) ← eval own σ.env e σ.out
    match v with
    | .dict vs => forEach (fun p σ => run own b (Store.bind (Store.bind σ k (.str p.1)) x p.2)) vs { σ with out }
    | _ => .error
  | .brk, σ => .ok (.brk, σ)
  | .cont, σ => .ok (.cont, σ)

end Spec

/-- No variable of `own` among the values the expression may be. -/
def Expr.fresh (own : List Bytes) (e : Expr) : Prop := ∀ x ∈ e.mayBe, x ∉ own

mutual
/-- Expressions that put no object of a variable of `own` into an array or dictionary literal. -/
def Expr.aliasFree (own : List Bytes) : Expr → Prop
  | .num _ | .str _ | .bool _ | .var _ | .disabler => True
  | .arr l => l.aliasFree own
  | .dict l => l.aliasFree own
  | .neg e | .not e | .message e | .isDisabler e => e.aliasFree own
  | .arith _ a b | .cmp _ a b | .and a b | .or a b | .index a b => a.aliasFree own ∧ b.aliasFree own
  | .ternary c a b => c.aliasFree own ∧ a.aliasFree own ∧ b.aliasFree own
def Args.aliasFree (own : List Bytes) : Args → Prop
  | .nil => True
  | .cons e l => e.aliasFree own ∧ e.fresh own ∧ l.aliasFree own
def Kvs.aliasFree (own : List Bytes) : Kvs → Prop
  | .nil => True
  | .cons k v l => k.aliasFree own ∧ v.aliasFree own ∧ v.fresh own ∧ l.aliasFree own
end

/-- Programs without aliasing of the variables `own`: these are not elements of literals, not set by `set_variable` or a
loop, not copied by `set_variable`; a loop does not extend the variable it runs over, and its body is not empty. -/
def Stmt.aliasFree (own : List Bytes) : Stmt → Prop
  | .skip | .brk | .cont => True
  | .expr e | .assign _ e | .plus _ e => e.aliasFree own
  | .setVar x e => x ∉ own ∧ e.aliasFree own ∧ e.fresh own
  | .seq a b => a.aliasFree own ∧ b.aliasFree own
  | .ite c a b => c.aliasFree own ∧ a.aliasFree own ∧ b.aliasFree own
  | .foreach x e b => x ∉ own ∧ e.aliasFree own ∧ e.fresh b.targets ∧ b ≠ .skip ∧ b.aliasFree own
  | .foreachKV k x e b => k ∉ own ∧ x ∉ own ∧ e.aliasFree own ∧ e.fresh b.targets ∧ b ≠ .skip ∧ b.aliasFree own

end Muon.Interp
