import Verif.Lex.Model
/-
Build options: src/options.c.

Messages are left out. The options that can be found by name are a list, those of the current project first. What
`eval_str` gives for the text of an array is a parameter.
-/
namespace Muon.Opt
open Muon

/-- An element of an array: a string, or something else. -/
inductive El
  | s (b : Bytes)
  | o (n : Nat)
deriving DecidableEq, Repr

/-- Values that occur as values of options. `other`: objects of other types. -/
inductive OV
  | str (s : Bytes)
  | bool (b : Bool)
  | int (n : Int)
  | arr (l : List El)
  | feature (state : Nat)
  | disabler
  | other
deriving DecidableEq, Repr

/-- `enum build_option_type`, include/lang/object.h:407-415. -/
inductive Ty
  | string | boolean | combo | integer | array | feature
deriving DecidableEq, Repr

/-- The keyword `deprecated` of an option: nothing or a boolean, the name of another option, or values and what they are
replaced by. -/
inductive Dep
  | flag
  | rename (name : Bytes)
  | values (l : List (Bytes × Option Bytes))
deriving DecidableEq, Repr

/-- `struct obj_option`, include/lang/object.h:434-446. -/
structure Opt where
  name : Bytes
  ty : Ty
  val : OV
  choices : Option (List El)
  min : Option Int
  max : Option Int
  source : Nat
  dep : Option Dep
deriving DecidableEq, Repr

/-- `enum option_value_source`, include/lang/object.h:422-432. -/
def srcUnset : Nat := 0
def srcDefault : Nat := 1
def srcEnvironment : Nat := 2
def srcYield : Nat := 3
def srcDefaultOptions : Nat := 4
def srcSubprojectDefaultOptions : Nat := 5
def srcOverrideOptions : Nat := 6
def srcDeprecatedRename : Nat := 7
def srcCommandline : Nat := 8

/-- `struct option_override`, include/options.h:12-17. -/
structure Override where
  proj : Option Bytes
  name : Bytes
  val : Bytes
  source : Nat
deriving DecidableEq, Repr

/-- The options, and the assignments for later. -/
structure W where
  opts : List Opt
  overrides : List Override
deriving DecidableEq, Repr

/-! ### `-D` -/

/-- The variables of the loop of `parse_config_string`; strings that are slices are kept as bytes. -/
structure PSt where
  sub : Option Bytes
  key : Bytes
  cur : Bytes
  readingKey : Bool
deriving DecidableEq, Repr

/-- The loop of `parse_config_string`, options.c:51-77. -/
def parseLoop : Bytes → PSt → Option PSt
  | [], st => some st
  | c :: r, st =>
    if st.readingKey && c == 58 then
      if st.sub.isSome then none else parseLoop r { st with sub := some st.cur, cur := [] }
    else if st.readingKey && c == 61 then parseLoop r { st with key := st.cur, cur := [], readingKey := false }
    else parseLoop r { st with cur := st.cur ++ [c] }

/-- `parse_config_string`, options.c:37-94: subproject, name and value. -/
def parseConfig (s : Bytes) : Option (Option Bytes × Bytes × Bytes) :=
  if s.contains 0 then none
  else match parseLoop s ⟨none, [], [], true⟩ with
  | none => none
  | some st =>
    if st.key = [] then none
    else if st.sub = some [] then none
    else some (st.sub, st.key, st.cur)

/-! ### Values -/

/-- `coerce_feature_opt`, options.c:174-194: auto, enabled and disabled are 0, 1 and 2 (include/lang/object.h:100-104). -/
def coerceFeature (s : Bytes) : Option OV :=
  if s = ascii "auto" then some (.feature 0)
  else if s = ascii "enabled" then some (.feature 1)
  else if s = ascii "disabled" then some (.feature 2)
  else none

/-- `str_split(wk, val, ",")` (lang/string.c:421-468), see `Verif.Str`. -/
def splitComma : Bytes → List Bytes
  | [] => [[]]
  | c :: r => if c = 44 then [] :: splitComma r else match splitComma r with
    | p :: ps => (c :: p) :: ps
    | [] => [[c]]

/-- `strtol(val->s, &endptr, 10)` and `!val->len || *endptr`, options.c:336-344, on 64 bit. -/
def coerceInt (s : Bytes) : Option OV :=
  match Lex.strtol 10 s with
  | some (n, []) => some (.int (max (-2 ^ 63) (min (2 ^ 63 - 1) n)))
  | _ => none

/-- The value of an array option before deprecated values are replaced, options.c:285-298. -/
def coerceArray (ev : Bytes → Option OV) (s : Bytes) : Option OV :=
  if s = [] then some (.arr [])
  else if s.head? = some 91 then ev s
  else some (.arr ((splitComma s).map .s))

/-- `coerce_option_override`, options.c:314-360: the value without regard to deprecation; `early` is the value of an
array. -/
def coerceTy (ty : Ty) (early : Option OV) (s : Bytes) : Option OV :=
  match ty with
  | .combo => some (.str s)
  | .string => some (.str s)
  | .boolean => if s = ascii "true" then some (.bool true) else if s = ascii "false" then some (.bool false) else none
  | .integer => coerceInt s
  | .array => early
  | .feature => coerceFeature s

/-- Replacing the first element equal to a string: `obj_array_index_of` and `obj_array_set`, options.c:208-218. -/
def setFirst (old new : Bytes) : List El → List El
  | [] => []
  | e :: l => if e = .s old then .s new :: l else e :: setFirst old new l

/-- `check_deprecated_option_iter` for all values, options.c:202-231: of an array. -/
def deprecateArray : List (Bytes × Option Bytes) → List El → List El
  | [], l => l
  | (old, some new) :: r, l => deprecateArray r (setFirst old new l)
  | (_, none) :: r, l => deprecateArray r l

/-- The same for other types: the value to use instead, if any. -/
def deprecateStr (s : Bytes) : List (Bytes × Option Bytes) → Option Bytes → Option Bytes
  | [], cur => cur
  | (old, new) :: r, cur => deprecateStr s r (if s = old ∧ new.isSome then new else cur)

/-- `typecheck_complex_type`, lang/typecheck.c:252-278, for a simple type: a disabler has every type. -/
def hasType : Ty → OV → Bool
  | _, .disabler => true
  | .string, .str _ => true
  | .combo, .str _ => true
  | .boolean, .bool _ => true
  | .integer, .int _ => true
  | .array, .arr _ => true
  | .feature, .feature _ => true
  | _, _ => false

/-- `typecheck_opt`, options.c:362-393. -/
def typecheckOpt (ty : Ty) (v : OV) : Option OV :=
  let v' := match ty, v with
    | .feature, .str s => coerceFeature s
    | _, v => some v
  match v' with
  | some v => if hasType ty v then some v else none
  | none => none

/-- The checks at the end of `set_option`, options.c:507-546. `bad`: a value that is not a number or an array is used as
one. -/
def validate (o : Opt) (v : OV) : Res Bool :=
  match o.ty with
  | .combo => match o.choices, v with
    | some cs, .str s => .ok (cs.contains (.s s))
    | some _, _ => .ok false
    | none, _ => .bad
  | .integer => match v with
    | .int n => .ok (!((match o.max with | some m => decide (n > m) | none => false) || (match o.min with | some m => decide (n < m) | none => false)))
    | _ => .bad
  | .array => match o.choices with
    | none => .ok true
    | some cs => match v with
      | .arr l => .ok (l.all cs.contains)
      | _ => .bad
  | _ => .ok true

/-! ### Setting options -/

/-- `get_option_overridable`, options.c:584-598, and `get_option`, options.c:600-605: the first option of that name, its position. -/
def find (opts : List Opt) (name : Bytes) : Option Nat := opts.findIdx? fun o => o.name == name

/-- Changing an option. -/
def W.upd (w : W) (i : Nat) (f : Opt → Opt) : W := { w with opts := w.opts.modify i f }

/-- `coerce_option_override`, options.c:280-361, without deprecation to another name: after the early value of arrays. -/
def coerceWith (o : Opt) (early : Option OV) (s : Bytes) : Res (Option OV) :=
  match o.dep with
  | some (.values l) =>
    match o.ty with
    | .array => match early with
      | some (.arr a) => .ok (some (.arr (deprecateArray l a)))
      | _ => if l = [] then .ok early else .bad
    | ty => match deprecateStr s l none with
      | some s' => .ok (coerceTy ty none s')
      | none => .ok (coerceTy ty none s)
  | _ => .ok (coerceTy o.ty early s)

/-- `typecheck_opt` and the checks that follow, then storing the value, options.c:503-549. -/
def store (w : W) (i : Nat) (o : Opt) (v : OV) : Res (Bool × W) :=
  match typecheckOpt o.ty v with
  | none => .ok (false, w)
  | some v => validate o v >>= fun b => if b then .ok (true, w.upd i fun o => { o with val := v }) else .ok (false, w)

/-- `check_deprecated_option`, options.c:232-279, for an option deprecated to another name: the other option is set, by
`set`, now or when it is known. -/
def renameTo (set : W → Nat → Res (Bool × W)) (proj : Option Bytes) (w : W) (s : Bytes) : Option Dep → Res W
  | some (.rename n) => match find w.opts n with
    | some j => set w j >>= fun r => .ok r.2
    | none => .ok { w with overrides := w.overrides ++ [⟨proj, n, s, srcDeprecatedRename⟩] }
  | _ => .ok w

/-- `set_option`, options.c:450-550. `fuel` bounds the depth of the recursion for options deprecated to another name. The
name of the current project is `proj`. -/
def setOption (ev : Bytes → Option OV) (proj : Option Bytes) : Nat → W → Nat → OV → Nat → Bool → Res (Bool × W)
  | 0, _, _, _, _, _ => .bad
  | fuel + 1, w, i, v, src, coerce =>
    match w.opts[i]? with
    | none => .bad
    | some o =>
      if o.source > src then .ok (true, w)
      else
        let w1 := w.upd i fun o => { o with source := src }
        if coerce then
          match v with
          | .str s =>
            let early := if o.ty = .array then coerceArray ev s else none
            if o.ty = .array ∧ early = none then .ok (false, w1)
            else
              renameTo (fun w j => setOption ev proj fuel w j (.str s) srcDeprecatedRename true) proj w1 s o.dep >>= fun w2 =>
              coerceWith o early s >>= fun c => match c with
                | some v => store w2 i o v
                | none => .ok (false, w2)
          | _ => .bad
        else store w1 i o v

/-- `create_option`, options.c:551-583: `o` is the new option, without a value. The options of the project are all those of
`w`; that an option is builtin is left out. -/
def createOption (ev : Bytes → Option OV) (proj : Option Bytes) (fuel : Nat) (w : W) (o : Opt) (v : OV) : Res (Bool × W) :=
  setOption ev proj fuel { w with opts := w.opts ++ [o] } w.opts.length v srcDefault false >>= fun r =>
    if !r.1 then .ok (false, w)
    else if o.name.contains 0 || o.name.contains 58 then .ok (false, w)
    else if (find w.opts o.name).isSome then .ok (false, w)
    else .ok (true, r.2)

/-- `extend_array_option`, options.c:436-449, with strings. -/
def extendArray (w : W) (i : Nat) (l : List Bytes) (src : Nat) : Res W :=
  match w.opts[i]? with
  | none => .bad
  | some o =>
    if o.source > src then .ok w
    else match o.val with
      | .arr a => .ok (w.upd i fun o => { o with source := src, val := .arr (a ++ l.map .s) })
      | _ => .bad

/-- The loop of `setup_project_options` over the assignments, options.c:785-808; `lookup` is the search in the options of the
project, and for the main project also in the global ones. -/
def applyOverrides (ev : Bytes → Option OV) (proj : Option Bytes) (fuel : Nat) (lookup : Bytes → Option Nat) : List Override → Bool × W → Res (Bool × W)
  | [], r => .ok r
  | oo :: rest, (ok, w) =>
    if oo.proj = proj then
      match lookup oo.name with
      | some i => setOption ev proj fuel w i (.str oo.val) oo.source true >>= fun r => applyOverrides ev proj fuel lookup rest (ok && r.1, r.2)
      | none => applyOverrides ev proj fuel lookup rest (false, w)
    else applyOverrides ev proj fuel lookup rest (ok, w)

end Muon.Opt
