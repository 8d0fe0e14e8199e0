import Verif.Base
/-
Source sets, src/functions/source_set.c.
-/
namespace Muon.Sset
open Muon

/-- A condition in `when`: a dependency or the key of a configuration value. Dependencies are numbered. -/
inductive Cond
  | dep (d : Nat)
  | key (k : Bytes)
  deriving DecidableEq, Repr

/-- An element of `if_true` or `if_false`: a source (string, file, custom target or generated list), a dependency or a
source set. Sources are numbered so that equal numbers are equal objects (`obj_equal`). -/
inductive Item
  | src (s : Nat)
  | dep (d : Nat)
  | set (i : Nat)
  deriving DecidableEq, Repr

/-- A rule, source_set.c:50-54: three array elements, each 0 if it was not given. The lists are flat, because
`interp_args` flattens arguments declared `TYPE_TAG_LISTIFY` and `TYPE_TAG_GLOB`, src/functions/common.c:350-353. -/
structure Rule where
  when : Option (List Cond)
  ifTrue : Option (List Item)
  ifFalse : Option (List Item)
  deriving DecidableEq, Repr

/-- `struct obj_source_set`, include/lang/object.h:464-467. -/
structure SS where
  frozen : Bool
  rules : List Rule
  deriving DecidableEq, Repr

/-- A configuration value. `other` is a value that is not a boolean, string or number. -/
inductive CVal
  | bool (b : Bool)
  | str (s : Bytes)
  | num (n : Int)
  | other
  deriving DecidableEq, Repr

/-- `enum source_set_collect_mode`, source_set.c:127-130. -/
inductive Mode | sources | dependencies
  deriving DecidableEq, Repr

/-- The part of `struct source_set_collect_ctx` that changes, source_set.c:132-142. -/
structure St where
  res : List Nat
  mat : Bool
  deriving DecidableEq, Repr

/-- How an iteration ended: `ir_cont`, `ir_err`, or the program aborted or overran its stack. -/
inductive Out
  | cont (st : St)
  | err (st : St)
  | bad
  deriving DecidableEq, Repr

/-- A function call whose result is not looked at, source_set.c:266 and 270. -/
def Out.ignore : Out → Out
  | .err st => .cont st
  | o => o

/-- `source_set_rule_match_iter` over the conditions, source_set.c:178-234: whether all of them hold. `found` is
`dep_flag_found`; `conf` is `none` in `all_sources()` and `all_dependencies()`. -/
def matchWhen (found : Nat → Bool) (conf : Option (Bytes → Option CVal)) (strict : Bool) : List Cond → Res Bool
  | [] => .ok true
  | .dep d :: cs => if found d then matchWhen found conf strict cs else .ok false
  | .key k :: cs =>
    match conf with
    | none => matchWhen found conf strict cs
    | some c =>
      match c k with
      | none => if strict then .error else .ok false
      | some (.bool b) => if b then matchWhen found conf strict cs else .ok false
      | some (.str s) => if s.length > 0 then matchWhen found conf strict cs else .ok false
      | some (.num n) => if n > 0 then matchWhen found conf strict cs else .ok false
      | some .other => .bad

/-- `source_set_collect_iter` over a list, source_set.c:146-176; `nested` collects the rules of a source set. -/
def collectItems (mode : Mode) (nested : Nat → St → Out) : List Item → St → Out
  | [], st => .cont st
  | .src s :: is, st =>
    collectItems mode nested is (if mode = .sources then { st with res := st.res ++ [s] } else st)
  | .dep d :: is, st =>
    collectItems mode nested is (if mode = .dependencies then { st with res := st.res ++ [d] } else st)
  | .set i :: is, st =>
    match nested i st with
    | .cont st => collectItems mode nested is st
    | o => o

/-- `source_set_collect_when_deps_iter` over the conditions, source_set.c:236-244. -/
def whenDeps : List Cond → List Nat
  | [] => []
  | .dep d :: cs => d :: whenDeps cs
  | .key _ :: cs => whenDeps cs

/-- The dependencies among the conditions of a rule that holds, source_set.c:262-264. -/
def pushWhen (mode : Mode) (r : Rule) (st : St) : St :=
  match r.when with
  | some w => if mode = .dependencies then { st with res := st.res ++ whenDeps w } else st
  | none => st

/-- `source_set_collect_rules_iter`, source_set.c:261-267, up to the elements of `if_true`. -/
def collectTrue (mode : Mode) (nested : Nat → St → Out) (r : Rule) (st : St) : Out :=
  match r.ifTrue with
  | none => .cont st
  | some t =>
    if st.mat then (collectItems mode nested t (pushWhen mode r st)).ignore else .cont st

/-- `source_set_collect_rules_iter`, source_set.c:269-272: the elements of `if_false`. -/
def collectFalse (conf : Option (Bytes → Option CVal)) (mode : Mode) (nested : Nat → St → Out) (r : Rule) (st : St) : Out :=
  match r.ifFalse with
  | none => .cont st
  | some f => if conf.isNone || !st.mat then (collectItems mode nested f st).ignore else .cont st

/-- The conditions of a rule, source_set.c:256-259. -/
def matchRule (found : Nat → Bool) (conf : Option (Bytes → Option CVal)) (strict : Bool) (r : Rule) : Res Bool :=
  match r.when with
  | none => .ok true
  | some w => matchWhen found conf strict w

/-- `source_set_collect_rules_iter`, source_set.c:246-273. -/
def collectRule (found : Nat → Bool) (conf : Option (Bytes → Option CVal)) (mode : Mode) (strict : Bool)
    (nested : Nat → St → Out) (r : Rule) (st : St) : Out :=
  match matchRule found conf strict r with
  | .error => .err { st with mat := true }
  | .bad => .bad
  | .ok m =>
    match collectTrue mode nested r { st with mat := m } with
    | .cont st => collectFalse conf mode nested r st
    | o => o

/-- `obj_array_foreach` over the rules with `source_set_collect_rules_iter`. -/
def collectRules (found : Nat → Bool) (conf : Option (Bytes → Option CVal)) (mode : Mode) (strict : Bool)
    (nested : Nat → St → Out) : List Rule → St → Out
  | [], st => .cont st
  | r :: rs, st =>
    match collectRule found conf mode strict nested r st with
    | .cont st => collectRules found conf mode strict nested rs st
    | o => o

/-- The rules of a source set. -/
def rulesOf (S : List SS) (i : Nat) : List Rule := match S[i]? with
  | some s => s.rules
  | none => []

/-- Collecting the rules of a set with the recursion of source_set.c:165-170 bounded by a number of stack frames. -/
def collectSet (found : Nat → Bool) (conf : Option (Bytes → Option CVal)) (mode : Mode) (strict : Bool) (S : List SS) :
    Nat → Nat → St → Out
  | 0, _, _ => .bad
  | n + 1, i, st => collectRules found conf mode strict (collectSet found conf mode strict S n) (rulesOf S i) st

/-- `obj_array_dedup`, src/lang/object.c:898-905. Verif/Val models it in full and proves that it keeps the first of
equal elements. -/
def dedup : List Nat → List Nat
  | [] => []
  | x :: l => x :: (dedup l).filter (· ≠ x)

/-- `source_set_collect`, source_set.c:275-296. -/
def collect (found : Nat → Bool) (conf : Option (Bytes → Option CVal)) (mode : Mode) (strict : Bool) (S : List SS)
    (n i : Nat) : Res (List Nat) :=
  match collectSet found conf mode strict S n i ⟨[], false⟩ with
  | .cont st => .ok (dedup st.res)
  | .err _ => .error
  | .bad => .bad

/-- `source_set_freeze_nested_iter` over a list, source_set.c:15-22. -/
def freezeNested (S : List SS) : List Item → List SS
  | [] => S
  | .set j :: is => freezeNested (S.modify j fun s => { s with frozen := true }) is
  | _ :: is => freezeNested S is

/-- A keyword argument: whether it was given, and its value. -/
abbrev Kw (α : Type) := Option (List α)

/-- `source_set_add_rule`, source_set.c:24-58. -/
def addRule (S : List SS) (i : Nat) (pos : List Item) (when : Kw Cond) (ifTrue ifFalse : Kw Item) : Res (List SS) :=
  if pos.length ≠ 0 ∧ (when.isSome ∨ ifTrue.isSome ∨ ifFalse.isSome) then .error
  else
    let r : Rule := if pos.length ≠ 0 then ⟨none, some pos, none⟩ else ⟨when, ifTrue, ifFalse⟩
    let S := match r.ifTrue with
      | some t => freezeNested S t
      | none => S
    .ok (S.modify i fun s => { s with rules := s.rules ++ [r] })

/-- What `add()` accepts besides source sets: sources and dependencies, source_set.c:74-78. -/
inductive Leaf
  | src (s : Nat)
  | dep (d : Nat)
  deriving DecidableEq, Repr

/-- A source or dependency as an element of a rule. -/
def Leaf.item : Leaf → Item
  | .src s => .src s
  | .dep d => .dep d

/-- The operations on source sets that change something: `source_set()`, `add()`, `add_all()`, `apply()`. The types
of the arguments are those checked by `interp_args`, source_set.c:77-89 and 105-114. -/
inductive Op
  | new
  | add (i : Nat) (pos : List Leaf) (when : Kw Cond) (ifTrue : Kw Leaf) (ifFalse : Kw Nat)
  | addAll (i : Nat) (pos : List Nat) (when : Kw Cond) (ifTrue : Kw Nat)
  | apply (i : Nat)
  deriving DecidableEq, Repr

/-- `source_set_check_not_frozen`, source_set.c:60-69; using a set that does not exist is not possible in the code. -/
def checkNotFrozen (S : List SS) (i : Nat) : Res Unit :=
  match S[i]? with
  | none => .bad
  | some s => if s.frozen then .error else .ok ()

/-- The effect of an operation on the source sets: `func_source_set_add`, `func_source_set_add_all`,
`func_source_set_apply` (source_set.c:71-125 and 318-367) and `source_set()` (src/functions/modules/sourceset.c:11-22).
What `apply()` returns is `collect`. -/
def step (S : List SS) : Op → Res (List SS)
  | .new => .ok (S ++ [⟨false, []⟩])
  | .add i pos when t f =>
    checkNotFrozen S i >>= fun _ =>
    addRule S i (pos.map Leaf.item) when (t.map (·.map Leaf.item)) (f.map (·.map Item.src))
  | .addAll i pos when t =>
    if (pos ++ t.getD []).all (· < S.length) then
      checkNotFrozen S i >>= fun _ => addRule S i (pos.map Item.set) when (t.map (·.map Item.set)) none
    else .bad
  | .apply i => .ok (S.modify i fun s => { s with frozen := true })

/-- Operations in sequence, starting without source sets. -/
def run : List SS → List Op → Res (List SS)
  | S, [] => .ok S
  | S, op :: ops => step S op >>= fun S => run S ops

end Muon.Sset
