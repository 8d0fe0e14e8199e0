import Verif.Val.Spec
import Verif.Path.Model
/-
The interpreter, src/lang/interpreter.c, for expressions and statements without calls of functions other than
`message`, `disabler`, `is_disabler` and `set_variable`.

Simplifications: one scope of variables (more are only created by calls of user-defined functions); a literal allocates
its object when it is evaluated instead of when it is parsed; the text that `message` prints is represented by the
value printed; an object is never freed (as in the code). Objects are as in Verif.Val.Model. An array is traversed by
position, which is the same as following its links since elements are only ever added at its end.
-/
namespace Muon.Interp
open Muon Val

/-- Outcome: success, reported error, abort or undefined behaviour, fuel used up. -/
inductive Out (α : Type)
  | ok (a : α)
  | error
  | bad
  | fuel

def Out.bind {α β : Type} (x : Out α) (g : α → Out β) : Out β :=
  match x with
  | .ok a => g a
  | .error => .error
  | .bad => .bad
  | .fuel => .fuel

instance : Monad Out where
  pure := .ok
  bind := Out.bind

@[simp] theorem Out.ok_bind {α β : Type} (a : α) (g : α → Out β) : (Out.ok a >>= g) = g a := rfl
@[simp] theorem Out.error_bind {α β : Type} (g : α → Out β) : ((Out.error : Out α) >>= g) = .error := rfl
@[simp] theorem Out.bad_bind {α β : Type} (g : α → Out β) : ((Out.bad : Out α) >>= g) = .bad := rfl
@[simp] theorem Out.fuel_bind {α β : Type} (g : α → Out β) : ((Out.fuel : Out α) >>= g) = .fuel := rfl
@[simp] theorem Out.pure_eq {α : Type} (a : α) : (pure a : Out α) = .ok a := rfl

/-- A value that may not be available because fuel is used up. -/
def Out.get {α : Type} : Option α → Out α
  | some a => .ok a
  | none => .fuel

/-- `enum arithmetic_type`, include/lang/parser.h. -/
inductive Arith | add | div | sub | mod | mul
deriving DecidableEq, Repr

/-- `enum comparison_type`, include/lang/parser.h. -/
inductive Cmp | eq | ne | lt | le | gt | ge | isin | notin
deriving DecidableEq, Repr

mutual
/-- Expressions: the nodes that `interp_node`, interpreter.c:1162-1356, evaluates. -/
inductive Expr
  | num (n : Int)
  | str (s : Bytes)
  | bool (b : Bool)
  | var (x : Bytes)
  | arr (l : Args)
  | dict (l : Kvs)
  | neg (e : Expr)
  | arith (op : Arith) (a b : Expr)
  | cmp (op : Cmp) (a b : Expr)
  | not (e : Expr)
  | and (a b : Expr)
  | or (a b : Expr)
  | ternary (c a b : Expr)
  | index (a i : Expr)
  | message (e : Expr)
  | disabler
  | isDisabler (e : Expr)
/-- The elements of an array literal. -/
inductive Args
  | nil
  | cons (e : Expr) (l : Args)
/-- The entries of a dictionary literal. -/
inductive Kvs
  | nil
  | cons (k v : Expr) (l : Kvs)
end

/-- Statements. `skip` is a block without statements (`node_empty`). -/
inductive Stmt
  | skip
  | expr (e : Expr)
  | assign (x : Bytes) (e : Expr)
  | plus (x : Bytes) (e : Expr)
  | setVar (x : Bytes) (e : Expr)
  | seq (a b : Stmt)
  | ite (c : Expr) (t e : Stmt)
  | foreach (x : Bytes) (e : Expr) (b : Stmt)
  | foreachKV (k v : Bytes) (e : Expr) (b : Stmt)
  | brk
  | cont

/-- The objects and the output. -/
structure S where
  heap : Heap
  out : List Val

/-- `make_obj`, object.c. -/
def Heap.alloc (h : Heap) (o : Obj) : Heap := { obj := fun i => if i = h.next then o else h.obj i, next := h.next + 1 }

/-- Changing an object. -/
def Heap.set (h : Heap) (i : Nat) (o : Obj) : Heap := { h with obj := fun j => if j = i then o else h.obj j }

/-- A new object. -/
def mk (s : S) (o : Obj) : Out (Nat × S) := .ok (s.heap.next, { s with heap := Heap.alloc s.heap o })

/-- Is the number an `int64_t`? -/
def fits (n : Int) : Bool := -9223372036854775808 ≤ n && n ≤ 9223372036854775807

/-- The result of an operation on `int64_t`; overflow is undefined behaviour. -/
def int64 (n : Int) : Out Int := if fits n then .ok n else .bad

/-- Arithmetic on numbers, interpreter.c:455-482. -/
def numArith (op : Arith) (l r : Int) : Out Int :=
  match op with
  | .add => int64 (l + r)
  | .div => if r = 0 then .error else int64 (l.tdiv r)
  | .sub => int64 (l - r)
  | .mod => if r = 0 then .error else if fits (l.tdiv r) then .ok (l.tmod r) else .bad
  | .mul => int64 (l * r)

/-- `obj_dict_set` on the list of entries: an existing key keeps its place. -/
def dictSet : List (Bytes × Nat) → Bytes × Nat → List (Bytes × Nat)
  | [], p => [p]
  | (k, v) :: l, p => if k = p.1 then (k, p.2) :: l else (k, v) :: dictSet l p

/-- `obj_dict_merge_nodup`, object.c:1124-1128. -/
def dictMerge (l r : List (Bytes × Nat)) : List (Bytes × Nat) := r.foldl dictSet l

/-- `interp_arithmetic`, interpreter.c:407-532, for operands that are not disablers; `plus` for `+=`. The result and the
objects afterwards. -/
def arithObj (h : Heap) (op : Arith) (plus : Bool) (a b : Nat) : Out (Nat × Heap) :=
  match h.obj a with
  | .str s =>
    match h.obj b with
    | .str t =>
      match op with
      | .add => .ok (h.next, Heap.alloc h (.str (s ++ t)))
      | .div => if 0 ∈ s ∨ 0 ∈ t then .error else .ok (h.next, Heap.alloc h (.str (Path.join s t)))
      | _ => .error
    | _ => .error
  | .num m =>
    match h.obj b with
    | .num n => do
      let r ← numArith op m n
      pure (h.next, Heap.alloc h (.num r))
    | _ => .error
  | .arr l =>
    match op with
    | .add =>
      let l' := match h.obj b with | .arr r => l ++ r | _ => l ++ [b]
      if plus then .ok (a, Heap.set h a (.arr l')) else .ok (h.next, Heap.alloc h (.arr l'))
    | _ => .error
  | .dict l =>
    match h.obj b with
    | .dict r =>
      match op with
      | .add => if plus then .ok (a, Heap.set h a (.dict (dictMerge l r))) else .ok (h.next, Heap.alloc h (.dict (dictMerge l r)))
      | _ => .error
    | _ => .error
  | _ => .error

/-- A condition, interpreter.c:728-737, 709-716, 866-873 and 889-898: `none` for a disabler. -/
def cond (h : Heap) (i : Nat) : Out (Option Bool) :=
  if i = disablerId then .ok none
  else match h.obj i with
  | .bool b => .ok (some b)
  | _ => .error

/-- `memmem(r, l) != NULL`: does `r` contain `l`? -/
def contains (l : Bytes) : Bytes → Bool
  | [] => l.isPrefixOf []
  | c :: r => l.isPrefixOf (c :: r) || contains l r

/-- The comparisons `<`, `<=`, `>`, `>=`, interpreter.c:832-850. -/
def numCmp (op : Cmp) (m n : Int) : Bool :=
  match op with
  | .lt => m < n
  | .le => m ≤ n
  | .gt => m > n
  | _ => m ≥ n

/-- `in`, interpreter.c:789-816. -/
def inObj (f : Nat) (h : Heap) (a b : Nat) : Out Bool :=
  match h.obj b with
  | .arr l => Out.get (arrayIn h f l a)
  | .dict l =>
    match h.obj a with
    | .str s => .ok (l.lookup s).isSome
    | _ => .error
  | .str r =>
    match h.obj a with
    | .str s => .ok (contains s r)
    | _ => .error
  | _ => .error

/-- `interp_comparison`, interpreter.c:779-855, for operands that are not disablers. -/
def cmpObj (f : Nat) (h : Heap) (op : Cmp) (a b : Nat) : Out Bool :=
  match op with
  | .eq => Out.get (equal h f a b)
  | .ne => (!·) <$> Out.get (equal h f a b)
  | .isin => inObj f h a b
  | .notin => (!·) <$> inObj f h a b
  | op =>
    match h.obj a, h.obj b with
    | .num m, .num n => .ok (numCmp op m n)
    | _, _ => .error

/-- `bounds_adjust` and `boundscheck`, interpreter.c:63-82: the adjusted index. -/
def boundscheck (len : Nat) (i : Int) : Option Int :=
  let i := if i < 0 then i + len else i
  if i < len then some i else none

/-- `interp_index`, interpreter.c:276-342, on an array, dictionary or string (objects of other types are not modelled here). A disabler passes the check of the
type of the index (src/lang/typecheck.c:268) and then aborts in `get_obj_internal` (object.c:30-34). A negative index that is out
of bounds is not rejected: an assertion fails (object.c:661), or memory before a string is read. -/
def indexObj (s : S) (a i : Nat) : Out (Nat × S) :=
  if a = disablerId then .ok (disablerId, s)
  else match s.heap.obj a with
  | .arr l =>
    if i = disablerId then .bad
    else match s.heap.obj i with
    | .num n =>
      match boundscheck l.length n with
      | none => .error
      | some k => if k < 0 then .bad else match l[k.toNat]? with | some x => .ok (x, s) | none => .bad
    | _ => .error
  | .dict l =>
    if i = disablerId then .bad
    else match s.heap.obj i with
    | .str k => match l.lookup k with | some x => .ok (x, s) | none => .error
    | _ => .error
  | .str t =>
    if i = disablerId then .bad
    else match s.heap.obj i with
    | .num n =>
      match boundscheck t.length n with
      | none => .error
      | some k => if k < 0 then .bad else match t[k.toNat]? with | some c => mk s (.str [c]) | none => .bad
    | _ => .error
  | _ => .error

/-- The check for disablers among the arguments of a function, src/functions/common.c:292-319: the object is a disabler, or an array that contains one at any
depth (`obj_array_foreach_flat`, object.c:531-563). -/
def flatDis (h : Heap) : Nat → Nat → Option Bool
  | 0, _ => none
  | f + 1, i =>
    if i = disablerId then some true
    else match h.obj i with
    | .arr l => l.anyM (flatDis h f)
    | _ => some false

/-- `func_message`, src/functions/kernel.c:935-950, with the types it accepts, include/lang/typecheck.h:101. -/
def messageObj (f : Nat) (s : S) (i : Nat) : Out (Nat × S) := do
  let d ← Out.get (flatDis s.heap f i)
  if d then pure (disablerId, s)
  else
    match s.heap.obj i with
    | .str _ | .bool _ | .num _ | .arr _ | .dict _ => do
      let v ← Out.get (Spec.valOf s.heap f i)
      pure (nullId, { s with out := s.out ++ [v] })
    | _ => .error

mutual
/-- `interp_node` for expressions; `f` bounds the depth of comparisons and printing. -/
def eval (f : Nat) (env : Bytes → Option Nat) : Expr → S → Out (Nat × S)
  | .num n, s => mk s (.num n)
  | .str t, s => mk s (.str t)
  | .bool b, s => mk s (.bool b)
  /- interpreter.c:1191-1198 -/
  | .var x, s => match env x with | some i => .ok (i, s) | none => .error
  /- `interp_array`, interpreter.c:592-641 -/
  | .arr l, s => do
    let (is, s) ← evalArgs f env l s
    mk s (.arr is)
  /- `interp_dict`, interpreter.c:643-702 -/
  | .dict l, s => do
    let (es, s) ← evalKvs f env l [] s
    mk s (.dict es)
  /- `interp_u_minus`, interpreter.c:371-388 -/
  | .neg e, s => do
    let (i, s) ← eval f env e s
    if i = disablerId then pure (disablerId, s)
    else match s.heap.obj i with
    | .num n => do
      let r ← int64 (-n)
      mk s (.num r)
    | _ => .error
  | .arith op a b, s => do
    let (i, s) ← eval f env a s
    let (j, s) ← eval f env b s
    if i = disablerId ∨ j = disablerId then pure (disablerId, s)
    else do
      let (r, h) ← arithObj s.heap op false i j
      pure (r, { s with heap := h })
  | .cmp op a b, s => do
    let (i, s) ← eval f env a s
    let (j, s) ← eval f env b s
    if i = disablerId ∨ j = disablerId then pure (disablerId, s)
    else do
      let r ← cmpObj f s.heap op i j
      mk s (.bool r)
  /- `interp_not`, interpreter.c:704-721 -/
  | .not e, s => do
    let (i, s) ← eval f env e s
    match ← cond s.heap i with
    | none => pure (disablerId, s)
    | some b => mk s (.bool (!b))
  /- `interp_andor`, interpreter.c:723-760 -/
  | .and a b, s => do
    let (i, s) ← eval f env a s
    match ← cond s.heap i with
    | none => pure (disablerId, s)
    | some false => mk s (.bool false)
    | some true => do
      let (j, s) ← eval f env b s
      match ← cond s.heap j with
      | none => pure (disablerId, s)
      | some r => mk s (.bool r)
  | .or a b, s => do
    let (i, s) ← eval f env a s
    match ← cond s.heap i with
    | none => pure (disablerId, s)
    | some true => mk s (.bool true)
    | some false => do
      let (j, s) ← eval f env b s
      match ← cond s.heap j with
      | none => pure (disablerId, s)
      | some r => mk s (.bool r)
  /- `interp_ternary`, interpreter.c:862-878 -/
  | .ternary c a b, s => do
    let (i, s) ← eval f env c s
    match ← cond s.heap i with
    | none => pure (disablerId, s)
    | some true => eval f env a s
    | some false => eval f env b s
  | .index a i, s => do
    let (x, s) ← eval f env a s
    let (y, s) ← eval f env i s
    indexObj s x y
  | .message e, s => do
    let (i, s) ← eval f env e s
    messageObj f s i
  /- `func_disabler`, src/functions/kernel.c:1640-1649 -/
  | .disabler, s => .ok (disablerId, s)
  /- `func_is_disabler`, src/functions/kernel.c:1624-1638. The flag that permits disablers is cleared while arguments are
  evaluated, src/functions/common.c:70-82. -/
  | .isDisabler e, s => do
    let (i, s) ← eval f env e s
    if i = nullId then .error else mk s (.bool (i == disablerId))
def evalArgs (f : Nat) (env : Bytes → Option Nat) : Args → S → Out (List Nat × S)
  | .nil, s => .ok ([], s)
  | .cons e l, s => do
    let (i, s) ← eval f env e s
    let (is, s) ← evalArgs f env l s
    pure (i :: is, s)
/- The entries so far are `acc`. A disabler as key passes the check of its type
(src/lang/typecheck.c:268); after the value is evaluated, looking it up aborts in `get_obj_internal` (object.c:26-34, from 1231-1243). -/
def evalKvs (f : Nat) (env : Bytes → Option Nat) : Kvs → List (Bytes × Nat) → S → Out (List (Bytes × Nat) × S)
  | .nil, acc, s => .ok (acc, s)
  | .cons k v l, acc, s => do
    let (i, s) ← eval f env k s
    if i = disablerId then do
      let _ ← eval f env v s
      .bad
    else match s.heap.obj i with
    | .str key => do
      let (j, s) ← eval f env v s
      if (acc.lookup key).isSome then .error else evalKvs f env l (acc ++ [(key, j)]) s
    | _ => .error
end

/-- `enum loop_ctl`, include/lang/workspace.h. -/
inductive Ctl | norm | breaking | continuing
deriving DecidableEq, Repr

/-- The state of a program: `env` is the scope, `ctl` is `wk->loop_ctl`. -/
structure St where
  s : S
  env : Bytes → Option Nat
  ctl : Ctl

/-- `assign_variable`, interpreter.c:174-195. -/
def bindVar (env : Bytes → Option Nat) (x : Bytes) (i : Nat) : Bytes → Option Nat := fun y => if y = x then some i else env y

/-- The copy made by `interp_assign`, interpreter.c:543-566. -/
def dupObj (s : S) (i : Nat) : Nat × S :=
  match s.heap.obj i with
  | .dict l => (s.heap.next, { s with heap := Heap.alloc s.heap (.dict l) })
  | .arr l => (s.heap.next, { s with heap := Heap.alloc s.heap (.arr l) })
  | _ => (i, s)

/-- After an iteration, `interp_foreach_common`, interpreter.c:947-958: go on? -/
def afterBody (st : St) : Bool × St :=
  match st.ctl with
  | .continuing => (true, { st with ctl := .norm })
  | .breaking => (false, { st with ctl := .norm })
  | .norm => (true, st)

/-- The iterations of `interp_foreach_arr_iter`, interpreter.c:972-980, over array `a` from position `k` on. `empty`: the body is empty. -/
def loopArr (body : St → Out St) (empty : Bool) (x : Bytes) (a : Nat) : Nat → Nat → St → Out St
  | 0, _, _ => .fuel
  | f + 1, k, st =>
    match st.s.heap.obj a with
    | .arr l =>
      match l[k]? with
      | none => .ok st
      | some v =>
        let st := { st with env := bindVar st.env x v }
        if empty then .ok st
        else do
          let st ← body st
          let (go, st) := afterBody st
          if go then loopArr body empty x a f (k + 1) st else pure st
    | _ => .bad

/-- The iterations of `interp_foreach_dict_iter`, interpreter.c:961-970 (from `obj_dict_foreach`, object.c:1047-1094). A key is a new string here; in the
code it is the string object that was used as the key. If the body adds entries to the dictionary itself so that it
is converted to a hash table, the code goes on with the old entries; this is not modelled. -/
def loopDict (body : St → Out St) (empty : Bool) (kx vx : Bytes) (a : Nat) : Nat → Nat → St → Out St
  | 0, _, _ => .fuel
  | f + 1, k, st =>
    match st.s.heap.obj a with
    | .dict l =>
      match l[k]? with
      | none => .ok st
      | some (key, v) =>
        let st := { st with s := { st.s with heap := Heap.alloc st.s.heap (.str key) }, env := bindVar (bindVar st.env kx st.s.heap.next) vx v }
        if empty then .ok st
        else do
          let st ← body st
          let (go, st) := afterBody st
          if go then loopDict body empty kx vx a f (k + 1) st else pure st
    | _ => .bad

/-- An empty block, `node_empty`. -/
def Stmt.isSkip : Stmt → Bool
  | .skip => true
  | _ => false

/-- `interp_node` for statements; `f` also bounds the number of iterations of every loop. -/
def exec (f : Nat) : Stmt → St → Out St
  | p, st =>
    if st.ctl ≠ .norm then .ok st
    else match p with
    | .skip => .ok st
    | .expr e => do
      let (_, s) ← eval f st.env e st.s
      pure { st with s }
    /- `interp_assign`, interpreter.c:534-576 -/
    | .assign x e => do
      let (i, s) ← eval f st.env e st.s
      let (i, s) := dupObj s i
      if i = nullId then .error else pure { st with s, env := bindVar st.env x i }
    /- `interp_plusassign`, interpreter.c:578-590 -/
    | .plus x e => do
      let (i, s) ← eval f st.env (.var x) st.s
      let (j, s) ← eval f st.env e s
      if i = disablerId ∨ j = disablerId then pure { st with s, env := bindVar st.env x disablerId }
      else do
        let (r, h) ← arithObj s.heap .add true i j
        pure { st with s := { s with heap := h }, env := bindVar st.env x r }
    /- `func_set_variable`, src/functions/kernel.c:1651-1663 -/
    | .setVar x e => do
      let (i, s) ← eval f st.env e st.s
      if i = nullId then .error else pure { st with s, env := bindVar st.env x i }
    /- interpreter.c:1201-1255 -/
    | .seq a b => do
      let st ← exec f a st
      exec f b st
    /- `interp_if`, interpreter.c:880-922 -/
    | .ite c t e => do
      let (i, s) ← eval f st.env c st.s
      match ← cond s.heap i with
      | none => pure { st with s }
      | some true => exec f t { st with s }
      | some false => exec f e { st with s }
    /- `interp_foreach`, interpreter.c:1038-1092; iterating directly over `range()` is in Verif.Range -/
    | .foreach x e b => do
      let (i, s) ← eval f st.env e st.s
      match s.heap.obj i with
      | .arr _ => loopArr (exec f b) b.isSkip x i f 0 { st with s }
      | _ => .error
    | .foreachKV k v e b => do
      let (i, s) ← eval f st.env e st.s
      match s.heap.obj i with
      | .dict _ => loopDict (exec f b) b.isSkip k v i f 0 { st with s }
      | _ => .error
    | .brk => .ok { st with ctl := .breaking }
    | .cont => .ok { st with ctl := .continuing }

end Muon.Interp
