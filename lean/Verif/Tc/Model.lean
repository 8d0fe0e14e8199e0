import Verif.Base
/-
Type checking of values, src/lang/typecheck.c, and of the arguments of functions, src/functions/common.c.
-/
namespace Muon.Tc
open Muon

/-- A value as a tree: an object that is neither an array nor a dictionary has a type (`enum obj_type`,
include/lang/object.h:30-75: 0 is `obj_null`, the result of a function without one; 2 is `obj_disabler`, 5 is
`obj_file`) and an identity. The objects of the analyzer (`obj_typeinfo`) are not modelled. -/
inductive V
  | obj (t : Nat) (id : Nat)
  | arr (l : List V)
  | dict (l : List (Bytes × V))

/-- `get_obj_type`: `obj_array` is 9 and `obj_dict` is 10. -/
def V.type : V → Nat
  | .obj t _ => t
  | .arr _ => 9
  | .dict _ => 10

/-- `type_tag`, a `uint64_t`. -/
abbrev Tag := BitVec 64

/-- `TYPE_TAG_ALLOW_VOID`, include/lang/typecheck.h:18. -/
def allowVoid : Tag := 1#64 <<< 59
/-- `TYPE_TAG_COMPLEX`, include/lang/typecheck.h:19. -/
def complex : Tag := 1#64 <<< 60
/-- `TYPE_TAG_GLOB`, include/lang/typecheck.h:20. -/
def glob : Tag := 1#64 <<< 61
/-- `TYPE_TAG_LISTIFY`, include/lang/typecheck.h:21. -/
def listify : Tag := 1#64 <<< 62
/-- `obj_typechecking_type_tag`, include/lang/typecheck.h:22. -/
def tagged : Tag := 1#64 <<< 63
/-- `TYPE_TAG_MASK`, include/lang/typecheck.h:24-27. -/
def mask : Tag := allowVoid ||| complex ||| glob ||| listify ||| tagged

/-- `obj_type_to_tc_type`, typecheck.c:12-21; the assertion is `t ≤ 32`. -/
def ofObjType (t : Nat) : Tag := if t = 0 then tagged else (1#64 <<< (t - 1)) ||| tagged

/-- `tc_disabler`, `tc_file`, `tc_array`, `tc_dict` and `tc_func`, include/lang/typecheck.h:43-73. -/
def tcDisabler : Tag := tagged ||| (1#64 <<< 1)
@[inherit_doc tcDisabler] def tcFile : Tag := tagged ||| (1#64 <<< 4)
@[inherit_doc tcDisabler] def tcArray : Tag := tagged ||| (1#64 <<< 8)
@[inherit_doc tcDisabler] def tcDict : Tag := tagged ||| (1#64 <<< 9)
@[inherit_doc tcDisabler] def tcFunc : Tag := tagged ||| (1#64 <<< 31)

/-- `COMPLEX_TYPE`, include/lang/typecheck.h:38: `k` is 0 for `complex_type_or`, 1 for `complex_type_nested`. -/
def complexTag (idx k : Nat) : Tag := BitVec.ofNat 64 idx ||| (BitVec.ofNat 64 k <<< 48) ||| complex ||| tagged

/-- The objects of type `obj_typeinfo`: `type` and `subtype`. -/
abbrev Infos := List (Tag × Tag)

/-- `make_complex_type`, typecheck.c:23-30. -/
def makeComplex (ti : Infos) (k : Nat) (type sub : Tag) : Infos × Tag :=
  (ti ++ [(type, sub)], complexTag ti.length k)

/-- The part of `typecheck_complex_type` for types without `TYPE_TAG_COMPLEX`, typecheck.c:256-274. -/
def checkSimple (got type : Tag) : Res Bool :=
  let got := got &&& ~~~tagged
  if got = 0 ∧ (type &&& allowVoid ≠ 0 ∨ type &&& ~~~mask = 0) then .ok true
  else if got = 0 ∧ type = tcFunc then .bad
  else
    let type := (type ||| tcDisabler) &&& ~~~(tagged ||| allowVoid)
    if got &&& mask ≠ 0 then .bad
    else if type &&& mask ≠ 0 then .bad
    else .ok (decide ((got = 0 ∧ type = 0) ∨ got &&& type ≠ 0))

/-- `obj_array_foreach` with an iteration that fails if the value does not pass. -/
def every (f : V → Res Bool) : List V → Res Bool
  | [] => .ok true
  | v :: l => f v >>= fun b => if b then every f l else .ok false

/-- `typecheck_complex_type`, typecheck.c:252-310, with recursion bounded. `get_obj_array` and `get_obj_dict` of an
object of another type abort, src/lang/object.c:26-35. -/
def check (ti : Infos) : Nat → V → Tag → Tag → Res Bool
  | 0, _, _, _ => .bad
  | n + 1, v, got, type =>
    if type &&& complex = 0 then checkSimple got type
    else
      match ti[(type &&& 0xffffffff#64).toNat]? with
      | none => .bad
      | some (t, sub) =>
        let ct := ((type >>> 48) &&& 0xff#64).toNat
        if ct = 0 then
          check ti n v got t >>= fun b => if b then .ok true else check ti n v got sub
        else if ct = 1 then
          check ti n v got t >>= fun b =>
          if !b then .ok false
          else if t = tcArray then
            match v with
            | .arr l => every (fun x => check ti n x (ofObjType x.type) sub) l
            | _ => .bad
          else if t = tcDict then
            match v with
            | .dict l => every (fun x => check ti n x (ofObjType x.type) sub) (l.map (·.2))
            | _ => .bad
          else .bad
        else .bad

/-- `typecheck` and `typecheck_custom`, typecheck.c:312-348. -/
def typecheck (ti : Infos) (n : Nat) (v : V) (type : Tag) : Res Bool :=
  check ti n v (ofObjType v.type) (if type &&& tagged = 0 then ofObjType type.toNat else type)

/-! ### Arguments -/

/-- Outcome of looking at an argument: the call goes on, is an error, gives a disabler because of one among the arguments
(`disabler_among_args`, common.c:1071-1076), or aborts. -/
inductive Out (α : Type)
  | ok (a : α)
  | error
  | disabled
  | bad
  deriving DecidableEq, Repr

/-- Sequencing of outcomes. -/
def Out.bind {α β : Type} : Out α → (α → Out β) → Out β
  | .ok a, f => f a
  | .error, _ => .error
  | .disabled, _ => .disabled
  | .bad, _ => .bad

instance : Monad Out where
  pure := .ok
  bind := Out.bind

mutual
/-- The elements that `obj_array_foreach_flat` visits, src/lang/object.c:530-563: those of an array and of the arrays in it. -/
def flat : V → List V
  | .arr l => flatList l
  | v => [v]
/-- The elements visited for a list. -/
def flatList : List V → List V
  | [] => []
  | v :: l => flat v ++ flatList l
end

/-- The result of a type check as an outcome. -/
def outOf (b : Res Bool) (v : V) : Out V := match b with
  | .ok true => .ok v
  | .ok false => .error
  | .error => .error
  | .bad => .bad

/-- The array of an argument declared `TYPE_TAG_LISTIFY`, common.c:350-366: the elements to check, in order. -/
def listOf : V → List V
  | .arr l => flatList l
  | v => [v]

/-- An array of one file as the file, common.c:331-345. -/
def oneFile : V → V
  | .arr [f] => if f.type = 5 then f else .arr [f]
  | v => v

/-- `typecheck_function_arg`, common.c:304-370; `immune` is `disabler_among_args_immunity`. -/
def checkArg (ti : Infos) (n : Nat) (immune : Bool) (v : V) (type : Tag) : Out V :=
  if !immune && (listOf v).any (fun x => x.type == 2) then .disabled
  else if type &&& listify ≠ 0 then
    outOf (every (fun x => typecheck ti n x (type &&& ~~~listify)) (listOf v)) (.arr (listOf v))
  else
    let v := if type = 5 ∨ type &&& tcFile = tcFile then oneFile v else v
    outOf (typecheck ti n v type) v

end Muon.Tc
