import Verif.Opt.Props
import Verif.Path.Props
/-
Declaring options and giving them values in build files: src/functions/kernel/options.c and src/options.c.

The options, their values and `set_option` are those of `Verif.Opt`. Descriptions and messages are left out.
-/
namespace Muon.Odecl
open Muon Muon.Opt

/-- The keywords given to `option()`, after their types were checked, functions/kernel/options.c:87-100. Descriptions are left
out. `kind` is known only while the builtin options are made. -/
structure Decl where
  type : Option Bytes
  value : Option OV := none
  choices : Option (List El) := none
  max : Option Int := none
  min : Option Int := none
  yld : Option Bool := none
  dep : Option Dep := none
deriving DecidableEq, Repr

/-- The keywords, functions/kernel/options.c:68-78. -/
inductive Kw
  | type | value | choices | max | min | yld | dep
deriving DecidableEq, Repr

/-- `enum keyword_req`, functions/kernel/options.c:122-126. -/
inductive Need
  | opt | req | inv
deriving DecidableEq, Repr

/-- `build_option_type_from_s`, functions/kernel/options.c:18-40. -/
def typeOf (s : Bytes) : Option Ty :=
  if s = ascii "string" then some .string
  else if s = ascii "boolean" then some .boolean
  else if s = ascii "combo" then some .combo
  else if s = ascii "integer" then some .integer
  else if s = ascii "array" then some .array
  else if s = ascii "feature" then some .feature
  else none

/-- `validate_option_name`, functions/kernel/options.c:42-62. -/
def nameOk (s : Bytes) : Bool :=
  s.all fun c => (97 ≤ c && c ≤ 122) || (65 ≤ c && c ≤ 90) || (48 ≤ c && c ≤ 57) || c == 45 || c == 95

/-- `keyword_validity`, functions/kernel/options.c:128-136. -/
def need : Ty → Kw → Need
  | _, .type => .req
  | .integer, .value => .req
  | _, .value => .opt
  | .combo, .choices => .req
  | .array, .choices => .opt
  | _, .choices => .inv
  | .integer, .max => .opt
  | _, .max => .inv
  | .integer, .min => .opt
  | _, .min => .inv
  | _, .yld => .opt
  | _, .dep => .opt

/-- `akw[i].set`. -/
def isSet (d : Decl) : Kw → Bool
  | .type => d.type.isSome
  | .value => d.value.isSome
  | .choices => d.choices.isSome
  | .max => d.max.isSome
  | .min => d.min.isSome
  | .yld => d.yld.isSome
  | .dep => d.dep.isSome

/-- The loop over the keywords, functions/kernel/options.c:138-158. -/
def kwLoop (d : Decl) (ty : Ty) : List Kw → Bool
  | [] => true
  | k :: ks => match need ty k with
    | .opt => kwLoop d ty ks
    | .inv => if isSet d k then false else kwLoop d ty ks
    | .req => if !isSet d k then false else kwLoop d ty ks

/-- An element of an array as a value. -/
def elVal : El → OV
  | .s b => .str b
  | .o _ => .other

/-- The value of an option declared without one, functions/kernel/options.c:160-194; an integer needs a value. -/
def defaultOf (ty : Ty) (choices : Option (List El)) : Res (Option OV) :=
  match ty with
  | .string => .ok (some (.str []))
  | .boolean => .ok (some (.bool true))
  | .combo => match choices with
    | some (e :: _) => .ok (some (elVal e))
    | some [] => .ok none
    | none => .bad
  | .array => match choices with
    | some cs => .ok (some (.arr cs))
    | none => .ok (some (.arr []))
  | .feature => .ok (some (.feature 0))
  | .integer => .bad

/-- The value, functions/kernel/options.c:160-194. -/
def firstValue (d : Decl) (ty : Ty) : Res (Option OV) :=
  match d.value with
  | some v => .ok (some v)
  | none => defaultOf ty d.choices

/-- The new option, functions/kernel/options.c:196-206. -/
def newOption (name : Bytes) (d : Decl) (ty : Ty) : Opt :=
  { name := name, ty := ty, val := .other, choices := d.choices, min := d.min, max := d.max, source := srcUnset, dep := d.dep }

/-- The end of `func_option`, functions/kernel/options.c:196-234. -/
def withValue (ev : Bytes → Option OV) (proj : Option Bytes) (fuel : Nat) (inProject : Bool) (w : W) (name : Bytes) (d : Decl) (ty : Ty) : Option OV → Res (Bool × W)
  | none => .ok (false, w)
  | some v =>
    if inProject && !nameOk name then .ok (false, w)
    else createOption ev proj fuel w (newOption name d ty) v

/-- `func_option`, functions/kernel/options.c:64-235, without `kind`. `inProject`: not one of the options known to every build. -/
def funcOption (ev : Bytes → Option OV) (proj : Option Bytes) (fuel : Nat) (inProject : Bool) (w : W) (name : Bytes) (d : Decl) : Res (Bool × W) :=
  match d.type with
  | none => .ok (false, w)
  | some t => match typeOf t with
    | none => .ok (false, w)
    | some ty =>
      if !kwLoop d ty [.type, .value, .choices, .max, .min, .yld, .dep] then .ok (false, w)
      else firstValue d ty >>= withValue ev proj fuel inProject w name d ty

/-- `get_option_overridable`, options.c:585-598: the options of the target, of the project, and those of every build. -/
def getOption (overrides : Option (List Opt)) (proj : Option (List Opt)) (glob : List Opt) (name : Bytes) : Option Opt :=
  match overrides.bind fun l => l.find? fun o => o.name == name with
  | some o => some o
  | none => match proj.bind fun l => l.find? fun o => o.name == name with
    | some o => some o
    | none => glob.find? fun o => o.name == name

/-- `func_get_option`, functions/kernel/options.c:237-255. -/
def funcGetOption (proj : List Opt) (glob : List Opt) (name : Bytes) : Option OV :=
  match getOption none (some proj) glob name with
  | none => none
  | some o => some o.val

/-- `set_yielding_project_options_iter`, options.c:705-734: `yields` are the names of the options declared with `yield: true`,
`mproj` the options of the main project. -/
def yieldOne (ev : Bytes → Option OV) (proj : Option Bytes) (fuel : Nat) (yields : List Bytes) (mproj glob : List Opt) (w : W) (i : Nat) : Res (Bool × W) :=
  match w.opts[i]? with
  | none => .bad
  | some o =>
    if !yields.contains o.name then .ok (true, w)
    else match getOption none (some mproj) glob o.name with
      | none => .ok (true, w)
      | some po =>
        if po.ty ≠ o.ty then .ok (true, w)
        else setOption ev proj fuel w i po.val srcYield false

/-- `obj_dict_foreach` with it, options.c:776-780: the options of the subproject at these positions. -/
def yieldAll (ev : Bytes → Option OV) (proj : Option Bytes) (fuel : Nat) (yields : List Bytes) (mproj glob : List Opt) : List Nat → W → Res (Bool × W)
  | [], w => .ok (true, w)
  | i :: is, w => yieldOne ev proj fuel yields mproj glob w i >>= fun r =>
    if r.1 then yieldAll ev proj fuel yields mproj glob is r.2 else .ok (false, r.2)

/-- The file the options of a project are read from, options.c:747-763. -/
def optionFile (isFile : Bytes → Bool) (cwd : Bytes) : Option Bytes :=
  [ascii "meson.options", ascii "meson_options.txt"].findSome? fun n => if isFile (Path.join cwd n) then some (Path.join cwd n) else none

/-- `parse_and_set_default_options_iter`, options.c:876-912. -/
def defaultOne (ev : Bytes → Option OV) (proj : Option Bytes) (fuel : Nat) (pname : Option Bytes) (forSub : Bool) (w : W) (s : Bytes) : Res (Bool × W) :=
  match parseConfig s with
  | none => .ok (false, w)
  | some (sub, key, val) =>
    if forSub || sub.isSome then
      .ok (true, { w with overrides := w.overrides ++ [⟨if sub.isSome then sub else pname, key, val, srcSubprojectDefaultOptions⟩] })
    else match find w.opts key with
      | some i => setOption ev proj fuel w i (.str val) srcDefaultOptions true
      | none => .ok (false, w)

/-- `parse_and_set_default_options`, options.c:914-929. -/
def defaultAll (ev : Bytes → Option OV) (proj : Option Bytes) (fuel : Nat) (pname : Option Bytes) (forSub : Bool) : List Bytes → W → Res (Bool × W)
  | [], w => .ok (true, w)
  | s :: l, w => defaultOne ev proj fuel pname forSub w s >>= fun r =>
    if r.1 then defaultAll ev proj fuel pname forSub l r.2 else .ok (false, r.2)

/-- The copy of an option, set, options.c:958-966: the copy is placed after the others, where no search by name finds it. -/
def setCopy (ev : Bytes → Option OV) (proj : Option Bytes) (fuel : Nat) (w : W) (o : Opt) (val : Bytes) : Res (Option (Opt × W)) :=
  setOption ev proj fuel { w with opts := w.opts ++ [o] } w.opts.length (.str val) srcOverrideOptions true >>= fun r =>
    if !r.1 then .ok none
    else match r.2.opts.getLast? with
      | some o' => .ok (some (o', { r.2 with opts := r.2.opts.dropLast }))
      | none => .bad

/-- `parse_and_set_override_options_iter`, options.c:936-974: one more option for the target. -/
def overrideOne (ev : Bytes → Option OV) (proj : Option Bytes) (fuel : Nat) (acc : List Opt) (w : W) (s : Bytes) : Res (Option (List Opt × W)) :=
  match parseConfig s with
  | none => .ok none
  | some (sub, key, val) =>
    if sub.isSome then .ok none
    else match find w.opts key with
      | none => .ok none
      | some i => match w.opts[i]? with
        | none => .bad
        | some o => setCopy ev proj fuel w o val >>= fun r => match r with
          | none => .ok none
          | some (o', w') => if acc.any fun x => x.name == o'.name then .ok none else .ok (some (acc ++ [o'], w'))

/-- `parse_and_set_override_options`, options.c:976-992. -/
def overrideAll (ev : Bytes → Option OV) (proj : Option Bytes) (fuel : Nat) : List Bytes → List Opt → W → Res (Option (List Opt × W))
  | [], acc, w => .ok (some (acc, w))
  | s :: l, acc, w => overrideOne ev proj fuel acc w s >>= fun r => match r with
    | none => .ok none
    | some (acc', w') => overrideAll ev proj fuel l acc' w'

/-- A project, as far as `check_invalid_subproject_option` needs it. -/
structure Proj where
  sub : Bytes
  notOk : Bool
deriving DecidableEq, Repr

/-- `check_invalid_subproject_option`, options.c:118-155: `subs` are the projects after the first. -/
def checkSubs (subs : List Proj) : List Override → Bool → Bool
  | [], ret => ret
  | oo :: l, ret => match oo.proj with
    | none => checkSubs subs l ret
    | some p =>
      if oo.source < srcCommandline then checkSubs subs l ret
      else checkSubs subs l (if subs.any fun s => !s.notOk && s.sub == p then ret else false)

/-- `prefix_dir_opts_iter`, options.c:399-424; `dirs` are the names of the options of kind `prefixed_dir`. -/
def prefixOne (pre : Bytes) (dirs : List Bytes) (o : Opt) : Res Opt :=
  if !dirs.contains o.name then .ok o
  else match o.val with
    | .str p =>
      if !Path.isAbsolute p then .ok o
      else Path.isSubpath pre p >>= fun b =>
        if b then Path.relativeTo pre p >>= fun q => .ok { o with val := .str q }
        else .ok { o with val := .str (Path.join pre p) }
    | _ => .bad

/-- `prefix_dir_opts`, options.c:426-435. -/
def prefixAll (pre : Bytes) (dirs : List Bytes) : List Opt → Res (List Opt)
  | [] => .ok []
  | o :: l => prefixOne pre dirs o >>= fun o' => prefixAll pre dirs l >>= fun l' => .ok (o' :: l')

end Muon.Odecl
