import Verif.Base
/-
Model of feature options: their methods (src/functions/feature_opt.c), the option `auto_features`
(src/lang/object.c) and the keyword `required` (src/coerce.c).
-/
namespace Muon.Feature
open Muon

/-- `enum feature_opt_state`, include/lang/object.h. -/
inductive State
  | auto | enabled | disabled
  deriving DecidableEq, Repr

/-- `get_obj_feature_opt`, src/lang/object.c:136-156. `af` is the option `auto_features`, if the global options are loaded. -/
def get (af : Option State) (s : State) : State :=
  if s = .auto then (match af with | some a => a | none => s) else s

/-- `func_feature_opt_auto`, `_disabled`, `_enabled`, `_allowed`, src/functions/feature_opt.c:14-57. -/
def isAuto (af : Option State) (s : State) : Bool := get af s == .auto
def isDisabled (af : Option State) (s : State) : Bool := get af s == .disabled
def isEnabled (af : Option State) (s : State) : Bool := get af s == .enabled
def isAllowed (af : Option State) (s : State) : Bool := get af s == .auto || get af s == .enabled

/-- The methods that make a feature option from a feature option, with the condition, and for some whether
`error_message` is given. -/
inductive Call
  | disableAutoIf (c : Bool)
  | enableAutoIf (c : Bool)
  | enableIf (c : Bool) (msg : Bool)
  | disableIf (c : Bool) (msg : Bool)
  | require (c : Bool) (msg : Bool)
  deriving DecidableEq, Repr

/-- Lines 126-131, 162-167, 197-201: the message is looked up as the object whose number is the flag `set`, that is
object 1, the disabler, which is not a string: `get_obj_internal` aborts. -/
def fails (msg : Bool) : Res State := if msg then .bad else .error

/-- `func_feature_opt_disable_auto_if` … `func_feature_opt_require`, src/functions/feature_opt.c:59-210. -/
def call (af : Option State) (s : State) : Call → Res State
  | .disableAutoIf c =>
    if !c then .ok s
    else if get af s = .disabled ∨ get af s = .enabled then .ok s
    else .ok .disabled
  | .enableAutoIf c =>
    if !c then .ok s
    else if get af s = .disabled ∨ get af s = .enabled then .ok s
    else .ok .enabled
  | .enableIf c msg =>
    if !c then .ok s
    else if get af s = .disabled then fails msg
    else .ok .enabled
  | .disableIf c msg =>
    if !c then .ok s
    else if get af s = .enabled then fails msg
    else .ok .disabled
  | .require c msg =>
    if !c then
      if get af s = .enabled then fails msg else .ok .disabled
    else .ok s

/-- A chain of such calls, `opt.a(…).b(…)…`. -/
def chain (af : Option State) (s : State) : List Call → Res State
  | [] => .ok s
  | c :: cs => (call af s c).bind fun s' => chain af s' cs

/-- `enum requirement_type`, include/coerce.h. -/
inductive Req
  | skip | required | auto
  deriving DecidableEq, Repr

/-- The value of `required`. -/
inductive ReqVal
  | bool (b : Bool)
  | feature (s : State)
  | other
  deriving DecidableEq, Repr

/-- `coerce_requirement`, src/coerce.c:280-319. -/
def requirement (af : Option State) : Option ReqVal → Res Req
  | none => .ok .required
  | some (.bool b) => .ok (if b then .required else .auto)
  | some (.feature s) => match get af s with
    | .disabled => .ok .skip
    | .enabled => .ok .required
    | .auto => .ok .auto
  | some .other => .error

end Muon.Feature
