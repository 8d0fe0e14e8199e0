import Verif.Base
/-
Environment objects, src/functions/environment.c: the list of recorded operations and the dictionary of variables
made from it when a command is run.
-/
namespace Muon.Env
open Muon

/-- `enum environment_set_mode`, include/functions/environment.h:10-14. -/
inductive Mode | set | append | prepend
  deriving DecidableEq, Repr

/-- An element of `actions`, environment.c:125-132: mode, key, joined values, separator. -/
structure Action where
  mode : Mode
  key : Bytes
  val : Bytes
  sep : Bytes
  deriving DecidableEq, Repr

/-- `get_cstr`, src/lang/string.c:56-70: a string with a NUL byte ends the program. -/
def cstr (b : Bytes) : Res Bytes := if b.contains 0 then .bad else .ok b

/-- `obj_dict_index`, src/lang/object.c:1231-1236: the value of a key. The dictionary is kept as the list of its
entries in order; Verif/Dict proves that the code's two representations behave like this. -/
def index (d : List (Bytes × Bytes)) (k : Bytes) : Option Bytes := (d.find? (·.1 == k)).map (·.2)

/-- `obj_dict_set`, src/lang/object.c:1329-1336: a key that is present keeps its place (simplified as `index`). -/
def dictSet : List (Bytes × Bytes) → Bytes → Bytes → List (Bytes × Bytes)
  | [], k, v => [(k, v)]
  | e :: d, k, v => if e.1 == k then (k, v) :: d else e :: dictSet d k v

/-- The iterations of `obj_array_join_iter`, src/lang/object.c:728-748, from index `i`, with the result so far. -/
def joinLoop (sep : Bytes) (len : Nat) : Nat → Bytes → List Bytes → Bytes
  | _, res, [] => res
  | i, res, s :: l =>
    let res := res ++ s
    joinLoop sep len (i + 1) (if i < len - 1 then res ++ sep else res) l

/-- `obj_array_join` of an array of strings, src/lang/object.c:766-787. -/
def join (l : List Bytes) (sep : Bytes) : Bytes := joinLoop sep l.length 0 [] l

/-- `environment_set` with an array of strings, environment.c:108-134. The separator is optional; its default is
`ENV_PATH_SEP_STR`, include/platform/path.h:22 (not on Windows). -/
def envSet (acts : List Action) (mode : Mode) (key : Bytes) (vals : List Bytes) (sep : Option Bytes) : List Action :=
  let sep := sep.getD (ascii ":")
  acts ++ [⟨mode, key, join vals sep, sep⟩]

/-- A call of `env.set()`, `env.append()` or `env.prepend()`: the arguments after `interp_args`. -/
structure Call where
  mode : Mode
  key : Bytes
  vals : List Bytes
  sep : Option Bytes
  deriving DecidableEq, Repr

/-- `func_environment_set_common`, environment.c:137-158, after `interp_args` (not modelled here). -/
def call (acts : List Action) (c : Call) : Res (List Action) :=
  if c.vals = [] then .error
  else .ok (envSet acts c.mode c.key c.vals c.sep)

/-- A sequence of calls on one environment object: the first error ends the evaluation. -/
def calls : List Action → List Call → Res (List Action)
  | acts, [] => .ok acts
  | acts, c :: cs => call acts c >>= fun acts => calls acts cs

/-- The old value of a variable, environment.c:36-44: `oval` in `evironment_to_dict_iter`, `none` if `getenv` gives
NULL. -/
def oldVal (getenv : Bytes → Option Bytes) (env : List (Bytes × Bytes)) (key : Bytes) : Res (Option Bytes) :=
  match index env key with
  | some v => cstr v >>= fun v => .ok (some v)
  | none => cstr key >>= fun k => .ok (getenv k)

/-- `evironment_to_dict_iter`, environment.c:18-60; `getenv` is the environment muon was started in. -/
def toDictStep (getenv : Bytes → Option Bytes) (env : List (Bytes × Bytes)) (a : Action) : Res (List (Bytes × Bytes)) :=
  match a.mode with
  | .set => .ok (dictSet env a.key a.val)
  | m =>
    oldVal getenv env a.key >>= fun old =>
    match old with
    | none => .ok (dictSet env a.key a.val)
    | some oval =>
      cstr a.sep >>= fun sep => cstr a.val >>= fun val =>
      .ok (dictSet env a.key (match m with
        | .append => oval ++ sep ++ val
        | _ => val ++ sep ++ oval))

/-- `environment_to_dict` of an environment object, environment.c:63-73. -/
def toDict (getenv : Bytes → Option Bytes) : List (Bytes × Bytes) → List Action → Res (List (Bytes × Bytes))
  | env, [] => .ok env
  | env, a :: acts => toDictStep getenv env a >>= fun env => toDict getenv env acts

end Muon.Env
