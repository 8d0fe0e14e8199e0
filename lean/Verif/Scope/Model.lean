import Verif.Interp.Model
import Verif.Args.Model
/-
Variables, scopes and user-defined functions (`func name(a any, k any: 1) -> any ... endfunc`) of the language of muon's
scripts: src/lang/interpreter.c, src/functions/common.c and src/functions/kernel.c. Objects that change (arrays and
dictionaries) are in Verif.Interp; values are numbers (without bounds, see Verif.Interp for overflow) and functions here.
All parameters have the type `any`. Names of builtin functions are not used for functions of the user. Not modelled:
languages modes, the source and tree that are restored after a call, the debugger, disablers, `subdir_done()` and the analyzer.
-/
namespace Muon.Scope
open Muon
open Muon.Interp (Out Ctl)

/-- An object: nothing (0), a number, or the number of a function in `St.fns`. -/
inductive Val
  | void
  | num (n : Int)
  | fn (i : Nat)
deriving DecidableEq, Repr

/-- Expressions; an argument of a call has a keyword or not, as `next_arg` (common.c:84-111) delivers it. -/
inductive Expr
  | num (n : Int)
  | var (x : Bytes)
  | add (a b : Expr)
  | call (f : Expr) (args : List (Option Bytes × Expr))
  | getVar (x : Bytes) (d : Option Expr)
  | isVar (x : Bytes)

/-- Statements. `rep x n p` is `foreach x : range(n)`; `fdef` has the names of the positional parameters, the keyword
parameters with their defaults, whether the return type is `any` (otherwise there is none), and the block. -/
inductive Stmt
  | skip
  | expr (e : Expr)
  | assign (x : Bytes) (e : Expr)
  | plus (x : Bytes) (e : Expr)
  | setVar (x : Bytes) (e : Expr)
  | unset (x : Bytes)
  | seq (a b : Stmt)
  | ite (c : Expr) (a b : Stmt)
  | rep (x : Bytes) (n : Nat) (p : Stmt)
  | brk
  | cont
  | ret (e : Option Expr)
  | fdef (name : Bytes) (pos : List Bytes) (kws : List (Bytes × Option Expr)) (any : Bool) (body : Stmt)

/-- One scope, a dictionary from names to objects. -/
abbrev Scope := Bytes → Option Val

/-- `obj_func`, include/lang/object.h; `stack` is the number of its scope stack in `St.stacks`. -/
structure Fn where
  pos : List Bytes
  kws : List (Bytes × Val)
  any : Bool
  body : Stmt
  stack : Nat

/-- An element of `an` in `func_obj_eval`, common.c:797: is its type `any` (or `ARG_TYPE_NULL`), and the value. -/
structure Slot where
  live : Bool
  val : Val
deriving DecidableEq, Repr

/-- An element of `akw`, common.c:799. `val` is `void` exactly if it is not `set`. -/
structure KSlot where
  key : Option Bytes
  val : Val
deriving DecidableEq, Repr

/-- The state: all scope stacks (the innermost scope is first here and last in the code), the number of the one in use
(`proj->scope_stack`), the functions, the arrays `an` and `akw`, which are static in `func_obj_eval`, `wk->loop_ctl`,
`wk->returning` and `wk->returned`. -/
structure St where
  stacks : List (List Scope)
  cur : Nat
  fns : List Fn
  an : List Slot
  akw : List KSlot
  ctl : Ctl
  returning : Bool
  returned : Val

/-- At the start: one stack with one scope (src/lang/workspace.c:26); static arrays are zero. -/
def St.init : St :=
  { stacks := [[fun _ => none]], cur := 0, fns := [], an := List.replicate 64 ⟨true, .void⟩,
    akw := List.replicate 128 ⟨none, .void⟩, ctl := .norm, returning := false, returned := .void }

/-- The scopes in use. -/
def St.here (st : St) : List Scope := st.stacks.getD st.cur []

/-- `get_local_variable` with `check_scope`, interpreter.c:101-126: the innermost scope that has the name. -/
def lookup (x : Bytes) : List Scope → Option Val
  | [] => none
  | s :: l => match s x with
    | some v => some v
    | none => lookup x l

/-- `obj_dict_set`. -/
def put (s : Scope) (x : Bytes) (v : Val) : Scope := fun y => if y = x then some v else s y

/-- `obj_dict_del_str`. -/
def del (s : Scope) (x : Bytes) : Scope := fun y => if y = x then none else s y

/-- `assign_variable` with `assign_local`, interpreter.c:184-189. -/
def putLocal (x : Bytes) (v : Val) : List Scope → List Scope
  | [] => []
  | s :: l => put s x v :: l

/-- `assign_variable` with `assign_reassign`, interpreter.c:179-183, 189: in the innermost scope that has the name. -/
def putFound (x : Bytes) (v : Val) : List Scope → List Scope
  | [] => []
  | s :: l => if (s x).isSome then put s x v :: l else s :: putFound x v l

/-- `unassign_variable`, interpreter.c:197-206. -/
def delFound (x : Bytes) : List Scope → List Scope
  | [] => []
  | s :: l => if (s x).isSome then del s x :: l else s :: delFound x l

/-- Change the stack with number `i`. -/
def St.on (st : St) (i : Nat) (g : List Scope → List Scope) : St := { st with stacks := st.stacks.set i (g (st.stacks.getD i [])) }

/-- Is everything skipped? interpreter.c:1172. -/
def St.skipping (st : St) : Bool := decide (st.ctl ≠ .norm) || st.returning

/-- Before the arguments are evaluated, common.c:795-829. -/
def St.prepare (st : St) (f : Fn) : St :=
  { st with
    an := List.replicate f.pos.length ⟨true, .void⟩ ++ ⟨false, .void⟩ :: st.an.drop (f.pos.length + 1)
    akw := f.kws.map (fun k => ⟨some k.1, .void⟩) ++ ⟨none, .void⟩ :: st.akw.drop (f.kws.length + 1) }

/-- `process_kwarg`, common.c:374-401; a value that is nothing does not have type `any`. -/
def setKw (k : Bytes) (v : Val) : List KSlot → Out (List KSlot)
  | [] => .bad
  | s :: l => match s.key with
    | none => .error
    | some k' =>
      if k = k' then (if v = .void then .error else if s.val ≠ .void then .error else .ok ({ s with val := v } :: l))
      else do
        let l ← setKw k v l
        pure (s :: l)

/-- The new scope with the parameters, common.c:737-754: `vals` are the values of `an` and `akw`; a keyword parameter without one gets
its default. -/
def params (f : Fn) (vals kvals : List Val) : Scope :=
  (f.kws.zip kvals).foldl (fun s p => put s p.1.1 (if p.2 = .void then p.1.2 else p.2))
    ((f.pos.zip vals).foldl (fun s p => put s p.1 p.2) fun _ => none)

/-- After the block of a function, common.c:763-782: the type of the result is checked, the scope is removed, the old scopes are in use. -/
def leave (f : Fn) (old : Nat) (st : St) : Out (Val × St) :=
  if (st.returned = .void) = (f.any = true) then .error
  else .ok (st.returned, { st.on st.cur List.tail with cur := old, returning := false, returned := .void })

/-- After an iteration, interpreter.c:947-958: go on? -/
def after (st : St) : Bool × St :=
  match st.ctl with
  | .continuing => (true, { st with ctl := .norm })
  | .breaking => (false, { st with ctl := .norm })
  | .norm => (true, st)

/-- An empty block. -/
def Stmt.isSkip : Stmt → Bool
  | .skip => true
  | _ => false

/-- `interp_arithmetic` for `+`, interpreter.c:390-398; both must be numbers. -/
def plus : Val → Val → Out Val
  | .num a, .num b => .ok (.num (a + b))
  | _, _ => .error

/-- A condition; in this language true and false are the numbers 1 and 0 (there are booleans in the code). -/
def cond : Val → Out Bool
  | .num a => .ok (decide (a ≠ 0))
  | _ => .error

/-- An argument was evaluated for parameter `i`, common.c:578-587: the assertion of `typecheck_function_arg`, line 326, and the check; a value that is
nothing does not have type `any`. -/
def store (i : Nat) (v : Val) (st : St) : Out St :=
  match st.an[i]? with
  | none => .bad
  | some s =>
    if s.live = false then .bad
    else if v = .void then .error
    else .ok { st with an := st.an.set i { s with val := v } }

/-- The values of the parameters, common.c:842-863. -/
def St.vals (st : St) (f : Fn) : List Val := (st.an.take f.pos.length).map Slot.val

/-- The values of the keyword parameters. -/
def St.kvals (st : St) (f : Fn) : List Val := (st.akw.take f.kws.length).map KSlot.val

/-- The state in which the block of a function is run, common.c:724-760. -/
def St.enter (st : St) (f : Fn) (vals kvals : List Val) : St :=
  { st.on f.stack (params f vals kvals :: ·) with cur := f.stack, returning := false, returned := .void }

/-- The result of `get_variable()` with the default `w`, kernel.c:1705-1711. -/
def getVar (x : Bytes) (d : Bool) (w : Val) (st : St) : Out (Val × St) :=
  if d && decide (w = .void) then .error
  else match lookup x st.here with
    | some v => .ok (v, st)
    | none => if d then .ok (w, st) else .error

/-- `assign_variable` with a value, interpreter.c:569-575. -/
def assignTo (x : Bytes) (v : Val) (st : St) : Out St :=
  if v = .void then .error else .ok (st.on st.cur (putLocal x v))

/-- `assign_variable` with `assign_reassign`; the `UNREACHABLE` on line 182. -/
def reassign (x : Bytes) (v : Val) (st : St) : Out St :=
  if (lookup x st.here).isNone then .bad else .ok (st.on st.cur (putFound x v))

/-- `func_unset_variable`, kernel.c:1665-1685. -/
def unset (x : Bytes) (st : St) : Out St :=
  if (lookup x st.here).isNone then .error else .ok (st.on st.cur (delFound x))

/-- The new function is assigned to its name, interpreter.c:1140-1142. -/
def St.define (st : St) (name : Bytes) (f : Fn) : St :=
  { st with fns := st.fns ++ [f] }.on st.cur (putLocal name (.fn st.fns.length))

mutual
/-- `interp_node` for expressions, interpreter.c:1163-1340. -/
def eval : Nat → Expr → St → Out (Val × St)
  | 0, _, _ => .fuel
  | n + 1, e, st =>
    if st.skipping then .ok (.void, st)
    else match e with
    | .num a => .ok (.num a, st)
    /- interpreter.c:1191-1198, `get_variable` 128-140 -/
    | .var x => getVar x false .void st
    | .add a b =>
      eval n a st >>= fun r => eval n b r.2 >>= fun q => plus r.1 q.1 >>= fun u => .ok (u, q.2)
    /- `interp_func`, interpreter.c:210-246, `builtin_run` common.c:956-1082 -/
    | .call f args =>
      eval n f st >>= fun r => match r.1 with
        | .fn i => callFn n i args r.2
        | _ => .error
    /- `func_get_variable`, kernel.c:1687-1714 -/
    | .getVar x d => evalOpt n d st >>= fun r => getVar x d.isSome r.1 r.2
    /- `func_is_variable`, kernel.c:1716-1732 -/
    | .isVar x => .ok (.num (if (lookup x st.here).isSome then 1 else 0), st)

/-- An expression that may be missing (`node_empty`). -/
def evalOpt : Nat → Option Expr → St → Out (Val × St)
  | 0, _, _ => .fuel
  | _ + 1, none, st => .ok (.void, st)
  | n + 1, some e, st => eval n e st

/-- `interp_args` for the positional parameters, common.c:485-588, from parameter `i` on. The array `an` is read and written
again after each argument was evaluated. -/
def posArgs : Nat → Nat → List (Option Bytes × Expr) → St → Out (List (Option Bytes × Expr) × St)
  | 0, _, _, _ => .fuel
  | n + 1, i, args, st =>
    match st.an[i]? with
    | none => .bad
    | some s =>
      if s.live = false then .ok (args, st)
      else match args with
        | [] => .error
        | (some _, _) :: _ => .error
        | (none, e) :: rest => eval n e st >>= fun r => store i r.1 r.2 >>= fun st => posArgs n (i + 1) rest st

/-- `interp_args` for the keyword arguments, common.c:590-624. The keyword `kwargs` needs a dictionary. -/
def kwArgs : Nat → List (Option Bytes × Expr) → St → Out St
  | 0, _, _ => .fuel
  | _ + 1, [], st => .ok st
  | _ + 1, (none, _) :: _, _ => .error
  | n + 1, (some k, e) :: rest, st =>
    eval n e st >>= fun r =>
    if k = Args.kwargs then .error
    else setKw k r.1 r.2.akw >>= fun l => kwArgs n rest { r.2 with akw := l }

/-- `func_obj_eval`, common.c:787-866; a call of function `i`. The assertions are on lines 798 and 800. -/
def callFn : Nat → Nat → List (Option Bytes × Expr) → St → Out (Val × St)
  | 0, _, _, _ => .fuel
  | n + 1, i, args, st =>
    match st.fns[i]? with
    | none => .bad
    | some f =>
      if 64 ≤ f.pos.length + 1 ∨ 128 ≤ f.kws.length + 1 then .bad
      else posArgs n 0 args (st.prepare f) >>= fun r => kwArgs n r.1 r.2 >>= fun st => run n f (st.vals f) (st.kvals f) st

/-- `func_obj_call`, common.c:709-785. -/
def run : Nat → Fn → List Val → List Val → St → Out (Val × St)
  | 0, _, _, _, _ => .fuel
  | n + 1, f, vals, kvals, st => exec n f.body (st.enter f vals kvals) >>= fun st' => leave f st.cur st'

/-- The defaults of keyword parameters, interpreter.c:1123-1135. -/
def defaults : Nat → List (Bytes × Option Expr) → St → Out (List (Bytes × Val) × St)
  | 0, _, _ => .fuel
  | _ + 1, [], st => .ok ([], st)
  | n + 1, (k, d) :: l, st =>
    evalOpt n d st >>= fun r => defaults n l r.2 >>= fun q => .ok ((k, r.1) :: q.1, q.2)

/-- `interp_foreach` over a range, interpreter.c:1001-1033, from `a` on, `k` iterations; `interp_foreach_arr_iter` 972-980. -/
def loop : Nat → Bytes → Stmt → Int → Nat → St → Out St
  | 0, _, _, _, _, _ => .fuel
  | _ + 1, _, _, _, 0, st => .ok st
  | n + 1, x, p, a, k + 1, st =>
    if p.isSkip then .ok (st.on st.cur (putLocal x (.num a)))
    else exec n p (st.on st.cur (putLocal x (.num a))) >>= fun st =>
      if (after st).1 then loop n x p (a + 1) k (after st).2 else .ok (after st).2

/-- `interp_node` for statements, interpreter.c:1163-1340. -/
def exec : Nat → Stmt → St → Out St
  | 0, _, _ => .fuel
  | n + 1, p, st =>
    if st.skipping then .ok st
    else match p with
    | .skip => .ok st
    | .expr e => eval n e st >>= fun r => .ok r.2
    /- `interp_assign`, interpreter.c:534-576 -/
    | .assign x e => eval n e st >>= fun r => assignTo x r.1 r.2
    /- `interp_plusassign`, interpreter.c:578-590 -/
    | .plus x e =>
      eval n (.var x) st >>= fun r => eval n e r.2 >>= fun q => plus r.1 q.1 >>= fun u => reassign x u q.2
    /- `func_set_variable`, kernel.c:1651-1663 -/
    | .setVar x e => eval n e st >>= fun r => assignTo x r.1 r.2
    | .unset x => unset x st
    | .seq a b => exec n a st >>= fun st => exec n b st
    /- `interp_if`, interpreter.c:880-922 -/
    | .ite c a b => eval n c st >>= fun r => cond r.1 >>= fun t => exec n (if t then a else b) r.2
    | .rep x k p => loop n x p 0 k { st with ctl := .norm }
    | .brk => .ok { st with ctl := .breaking }
    | .cont => .ok { st with ctl := .continuing }
    /- interpreter.c:1270-1274 -/
    | .ret e => evalOpt n e st >>= fun r => .ok { r.2 with returned := r.1, returning := true }
    /- `interp_func_def`, interpreter.c:1094-1144; `scope_stack_dup` 139-158 -/
    | .fdef name pos kws any body =>
      defaults n kws { st with stacks := st.stacks ++ [st.here] } >>= fun r =>
      .ok (r.2.define name ⟨pos, r.1, any, body, st.stacks.length⟩)
end

end Muon.Scope
