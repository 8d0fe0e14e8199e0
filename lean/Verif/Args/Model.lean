import Verif.Tc.Model
/-
Binding of the arguments of a call to the parameters of a function, src/functions/common.c. The arguments are values
already; in the code an argument is evaluated when it is bound, so that arguments after an error are not evaluated.
The modes of the analyzer (`analyze_function_opts`) are not modelled.
-/
namespace Muon.Args
open Muon Muon.Tc

/-- An argument of a call, as `next_arg` (common.c:84-111) delivers it: its keyword, if any, and value. -/
abbrev Arg := Option Bytes × V

/-- `struct args_kw`, include/functions/common.h:18-25, as declared. -/
structure Kw where
  key : Bytes
  type : Tag
  required : Bool
  deriving DecidableEq

/-- The keyword parameters with the values given so far (`set` and `val`). -/
abbrev Kws := List (Kw × Option V)

/-- The parameters of a function: the arrays `positional_args`, `optional_positional_args` (empty if there are none) and
`keyword_args`. -/
structure Params where
  pos : List Tag
  opt : List Tag
  kws : Option (List Kw)

/-- What a function gets: the values of the positional parameters, of those optional ones that are set, and of the keyword
parameters. -/
structure Bound where
  pos : List V
  opt : List V
  kws : Kws

/-- A glob parameter takes arrays as they are, common.c:527-529. `tc_any` has the bit of `tc_array`. -/
def takesArrays (t : Tag) : Bool := decide (t = 9 ∨ t &&& tcArray = tcArray)

/-- Elements of the array an argument became. -/
def elems : V → List V
  | .arr l => l
  | _ => []

/-- One value for a glob parameter, common.c:523-548: what is added to the array. -/
def globOne (chk : V → Tag → Out V) (t : Tag) (v : V) : Out (List V) :=
  if v.type = 9 ∧ takesArrays t = false then chk v (listify ||| t) >>= fun w => .ok (elems w)
  else chk v t >>= fun w => .ok [w]

/-- The loop over the values for a glob parameter, common.c:508-549. -/
def globLoop (chk : V → Tag → Out V) (t : Tag) : List Arg → Out (List V × List Arg)
  | (none, v) :: args => globOne chk t v >>= fun c => globLoop chk t args >>= fun r => .ok (c ++ r.1, r.2)
  | args => .ok ([], args)

/-- The loop over the required positional parameters, common.c:485-588 with `stage` 0; `chk` is `typecheck_function_arg`,
`hasOpt` says whether there are optional parameters. The rest of the arguments is returned. -/
def posLoop (chk : V → Tag → Out V) (hasOpt : Bool) : List Tag → List Arg → Out (List V × List Arg)
  | [], args => .ok ([], args)
  | t :: ts, args =>
    if t &&& glob ≠ 0 then
      if hasOpt = true ∨ ts ≠ [] ∨ t &&& listify ≠ 0 then .bad
      else globLoop chk (t &&& ~~~glob) args >>= fun r => .ok ([.arr r.1], r.2)
    else
      match args with
      | [] => .error
      | (some _, _) :: _ => .error
      | (none, v) :: args => chk v t >>= fun w => posLoop chk hasOpt ts args >>= fun r => .ok (w :: r.1, r.2)

/-- The loop over the optional positional parameters, common.c:485-588 with `stage` 1. -/
def optLoop (chk : V → Tag → Out V) : List Tag → List Arg → Out (List V × List Arg)
  | t :: ts, (none, v) :: args => chk v t >>= fun w => optLoop chk ts args >>= fun r => .ok (w :: r.1, r.2)
  | _, args => .ok ([], args)

/-- `process_kwarg`, common.c:374-401. -/
def setKw (chk : V → Tag → Out V) (k : Bytes) (v : V) : Kws → Out Kws
  | [] => .error
  | (d, old) :: st =>
    if k = d.key then chk v d.type >>= fun w => if old.isSome then .error else .ok ((d, some w) :: st)
    else setKw chk k v st >>= fun st => .ok ((d, old) :: st)

/-- `obj_dict_foreach` with `process_kwarg_dict_iter`, common.c:409-419. `get_cstr` of a key with a NUL byte ends the
program, src/lang/string.c:56-70. -/
def dictLoop (chk : V → Tag → Out V) : List (Bytes × V) → Kws → Out Kws
  | [], st => .ok st
  | (k, v) :: l, st => if 0 ∈ k then .bad else setKw chk k v st >>= dictLoop chk l

/-- The word "kwargs". -/
def kwargs : Bytes := [107, 119, 97, 114, 103, 115]

/-- The loop over the keyword arguments, common.c:590-635. -/
def kwLoop (chk : V → Tag → Out V) : List Arg → Kws → Out Kws
  | [], st => .ok st
  | (none, _) :: _, _ => .error
  | (some k, v) :: args, st =>
    (if k = kwargs then
      outOf (typecheck [] 1 v 10) v >>= fun v => match v with
        | .dict l => dictLoop chk l st
        | _ => .bad
    else setKw chk k v st) >>= kwLoop chk args

/-- `interp_args`, common.c:469-654. -/
def bind (chk : V → Tag → Out V) (p : Params) (args : List Arg) : Out Bound :=
  posLoop chk (p.opt ≠ []) p.pos args >>= fun r =>
  optLoop chk p.opt r.2 >>= fun s =>
  match p.kws with
  | none => if s.2 = [] then .ok ⟨r.1, s.1, []⟩ else .error
  | some kws =>
    kwLoop chk s.2 (kws.map fun d => (d, none)) >>= fun st =>
    if st.any (fun e => e.1.required && e.2.isNone) then .error else .ok ⟨r.1, s.1, st⟩

end Muon.Args
