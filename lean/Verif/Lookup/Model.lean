import Verif.Version.Model
/-
Model of `dependency()`: where a dependency is looked for and what is remembered
(src/functions/kernel/dependency.c:48-691, `subproject` in src/functions/kernel/subproject.c:84-174).

Left out: messages; `not_found_message`, `default_options`, `method`, which do not decide what is found (`default_options`
is handed to the subproject, whose evaluation is a parameter); the checks of the types of keywords.
-/
namespace Muon.Lookup
open Muon

/-- `enum dep_lib_mode`, src/functions/kernel/dependency.c:48-52. -/
inductive Mode
  | default | static | shared
  deriving DecidableEq, Repr

/-- `enum requirement_type`, include/coerce.h:10-14. -/
inductive Req
  | skip | required | auto
  deriving DecidableEq, Repr

/-- `enum include_type`, include/lang/object.h:293-297. -/
inductive Inc
  | preserve | system | nonSystem
  deriving DecidableEq, Repr

/-- `enum dependency_type`, include/lang/object.h:280-287; for pkg-config, whether the static libraries were asked for
(which decides `link_with` and the other fields of the dependency). -/
inductive Kind
  | declared | pkgconf (static : Bool) | threads | library | frameworks | notFound
  deriving DecidableEq, Repr

/-- `struct obj_dependency`, include/lang/object.h:299-309, without `variables` and `dep`. `version` is `none` for the
object 0, which is not a string; `name` is empty for it. -/
structure Dep where
  name : Bytes
  version : Option Bytes
  found : Bool
  kind : Kind
  inc : Inc
  deriving DecidableEq, Repr

/-- What a variable of a subproject holds: a dependency, given by its place in `St.heap`, or something else. -/
inductive Var
  | dep (i : Nat) | other
  deriving DecidableEq, Repr

/-- The part of the workspace that lookups read and write: the dependency objects; of each project
`dep_cache.static_deps` and `dep_cache.shared_deps`; `dep_overrides_static` and `dep_overrides_dynamic`; and
`subprojects`, with the variables of each that was found. Dictionaries are functions. -/
structure St where
  heap : List Dep
  cacheS : Nat → Bytes → Option Nat
  cacheD : Nat → Bytes → Option Nat
  ovS : Bytes → Option Nat
  ovD : Bytes → Option Nat
  subs : Bytes → Option (Bytes → Option Var)

/-- `enum wrap_mode`, src/options.c:997-1019. -/
inductive Wrap
  | nopromote | nodownload | nofallback | forcefallback
  deriving DecidableEq, Repr

/-- What a call depends on besides its arguments: the project it is made in, the options `wrap_mode` and
`force_fallback_for`, the dependencies that wrap files provide (`wrap_provides_deps`), what pkg-config knows (the version
of a package; `muon_pkgconf_lookup`), the host, and what evaluating a subproject does: it may change everything, and
gives its version and variables if it is found and evaluates without an error
(src/functions/kernel/subproject.c:96-135). -/
structure Env where
  proj : Nat
  wrap : Wrap
  forceFor : List Bytes
  provides : Bytes → Option (List Bytes)
  pkg : Bytes → Bool → Option Bytes
  darwin : Bool
  eval : St → Req → Bytes → Mode → St × Option (Bytes × (Bytes → Option Var))

/-- The arguments of `dependency()`. `modules` is whether that keyword is given. -/
structure Call where
  names : List Bytes
  req : Req := .required
  versions : Option (List Bytes) := none
  static : Option Bool := none
  allow : Option Bool := none
  fallback : Option (List Bytes) := none
  disabler : Bool := false
  modules : Bool := false
  inc : Inc := .preserve
  deriving DecidableEq, Repr

/-- `check_dependency_override_iter`, `check_dependency_override`, src/functions/kernel/dependency.c:73-103: the first of
the names that is overridden. -/
def override (st : St) (m : Mode) : List Bytes → Option (Nat × Mode)
  | [] => none
  | n :: ns =>
    match (if m ≠ .shared then st.ovS n else none) with
    | some i => some (i, .static)
    | none =>
      match (if m ≠ .static then st.ovD n else none) with
      | some i => some (i, .shared)
      | none => override st m ns

/-- `check_dependency_cache`, src/functions/kernel/dependency.c:105-123. -/
def cached (E : Env) (st : St) (m : Mode) (n : Bytes) : Option (Nat × Mode) :=
  match (if m ≠ .shared then st.cacheS E.proj n else none) with
  | some i => some (i, .static)
  | none =>
    match (if m ≠ .static then st.cacheD E.proj n else none) with
    | some i => some (i, .shared)
    | none => none

/-- `check_dependency_version`, src/functions/kernel/dependency.c:125-138. `get_str` of the object 0 aborts
(src/lang/object.c:27-35). -/
def versionOk (v : Option Bytes) : Option (List Bytes) → Res Bool
  | none => .ok true
  | some cs =>
    match v with
    | none => .bad
    | some v => .ok (Version.versionCompare v cs)

/-- The comparison of the version of a subproject, src/functions/kernel/subproject.c:135-152. -/
def subVersionOk (c : Call) (ver : Bytes) : Bool :=
  match c.versions with
  | none => true
  | some cs => Version.versionCompare ver cs

/-- `subproject`, src/functions/kernel/subproject.c:84-174, and `found` of its result. A subproject that was found is
not evaluated again; its version is compared only when it is evaluated, and a mismatch matters only if it is required. -/
def subproject (E : Env) (c : Call) (m : Mode) (st : St) (name : Bytes) : St × Option (Bytes → Option Var) :=
  match st.subs name with
  | some vars => (st, some vars)
  | none =>
    match E.eval st c.req name m with
    | (st', none) => (st', none)
    | (st', some (ver, vars)) =>
      if !subVersionOk c ver && c.req == .required then (st', none)
      else ({ st' with subs := fun n => if n = name then some vars else st'.subs n }, some vars)

/-- `handle_dependency_fallback`, src/functions/kernel/dependency.c:140-216, from where the array is taken apart. -/
def useSub (E : Env) (c : Call) (m : Mode) (st : St) (name : Bytes) (var : Option Bytes) : St × Option (Nat × Mode) :=
  match subproject E c m st name with
  | (st', none) => (st', none)
  | (st', some vars) =>
    match var with
    | some v =>
      match vars v with
      | some (.dep i) => (st', some (i, m))
      | _ => (st', none)
    | none => (st', override st' m c.names)

/-- `handle_dependency_fallback`, src/functions/kernel/dependency.c:140-216. -/
def useFallback (E : Env) (c : Call) (m : Mode) (st : St) (fb : List Bytes) : Res (St × Option (Nat × Mode)) :=
  if E.wrap = .nofallback then .ok (st, none)
  else match fb with
    | [s, v] => .ok (useSub E c m st s (some v))
    | [s] => .ok (useSub E c m st s none)
    | _ => .error

/-- `get_dependency_pkgconfig`, src/functions/kernel/dependency.c:218-252: the new dependency goes to the end of the
heap. -/
def usePkg (E : Env) (c : Call) (m : Mode) (st : St) (n : Bytes) : Res (St × Option (Nat × Mode)) :=
  match E.pkg n (m == .static) with
  | none => .ok (st, none)
  | some v =>
    match versionOk (some v) c.versions with
    | .bad => .bad
    | .error => .error
    | .ok false => .ok (st, none)
    | .ok true =>
      .ok ({ st with heap := st.heap ++ [⟨n, some v, true, .pkgconf (m == .static), .preserve⟩] },
        some (st.heap.length, m))

/-- A dependency that was found: where it is, `lib_mode`, and `from_cache`. -/
structure Hit where
  id : Nat
  mode : Mode
  cache : Bool
  deriving DecidableEq, Repr

/-- A dependency found outside the cache. -/
def fresh : Res (St × Option (Nat × Mode)) → Res (St × Option Hit)
  | .ok (st, some (i, m)) => .ok (st, some ⟨i, m, false⟩)
  | .ok (st, none) => .ok (st, none)
  | .error => .error
  | .bad => .bad

/-- `ctx->fallback` once a wrap file or the name itself have been considered,
src/functions/kernel/dependency.c:285-297. -/
def fallbackOf (E : Env) (fb : Option (List Bytes)) (implicit : Bool) (n : Bytes) : Option (List Bytes) :=
  match fb with
  | some f => some f
  | none =>
    match E.provides n with
    | some f => some f
    | none => if implicit then some [n] else none

/-- `force_fallback`, src/functions/kernel/dependency.c:299-309; `obj_array_index` asserts that there is an element. -/
def forced (E : Env) (st : St) (fb : List Bytes) (n : Bytes) : Res Bool :=
  match fb with
  | [] => .bad
  | s :: _ => .ok (E.wrap == .forcefallback || E.forceFor.contains n || (st.subs s).isSome)

/-- pkg-config, and then the fallback, src/functions/kernel/dependency.c:316-326. -/
def pkgThen (E : Env) (c : Call) (m : Mode) (st : St) (n : Bytes) (fb : Option (List Bytes)) :
    Res (St × Option (Nat × Mode)) :=
  match usePkg E c m st n with
  | .ok (st', none) =>
    match fb with
    | none => .ok (st', none)
    | some f => useFallback E c m st' f
  | r => r

/-- `get_dependency` past the cache, src/functions/kernel/dependency.c:278-330. `second` is `fallback_allowed` and
`fallback_only`, which are set together. -/
def lookFresh (E : Env) (c : Call) (m : Mode) (st : St) (n : Bytes) (fb : Option (List Bytes)) (second : Bool) :
    Res (St × Option (Nat × Mode)) :=
  match override st m c.names with
  | some h => .ok (st, some h)
  | none =>
    match fallbackOf E fb second n with
    | none => pkgThen E c m st n none
    | some f =>
      match forced E st f n with
      | .bad => .bad
      | .error => .error
      | .ok force => if force || second then useFallback E c m st f else pkgThen E c m st n (some f)

/-- `get_dependency`, src/functions/kernel/dependency.c:254-330. -/
def getDep (E : Env) (c : Call) (m : Mode) (st : St) (n : Bytes) (fb : Option (List Bytes)) (second : Bool) :
    Res (St × Option Hit) :=
  match cached E st m n with
  | some (i, m') =>
    match st.heap[i]? with
    | none => .bad
    | some d =>
      match versionOk d.version c.versions with
      | .bad => .bad
      | .error => .error
      | .ok true => .ok (st, some ⟨i, m', true⟩)
      | .ok false => .ok (st, none)
  | none => fresh (lookFresh E c m st n fb second)

/-- A dependency made on the spot: at the end of the heap. -/
def made (m : Mode) (st : St) (d : Dep) : Res (St × Option Hit) :=
  .ok ({ st with heap := st.heap ++ [d] }, some ⟨st.heap.length, m, false⟩)

/-- `handle_special_dependency` and `dependency_iter`, src/functions/kernel/dependency.c:343-427. For `curses` the
dependency `ncurses` is looked up, and again if it is not found. In the program the second lookup starts from the
`fallback` and `lib_mode` the first one left; it would come to the same from the original ones (the fallback that
`fallbackOf` gives, and the mode of an entry of the cache whose version does not match), which are used here. -/
def lookName (E : Env) (c : Call) (m : Mode) (fb : Option (List Bytes)) (second : Bool) (st : St) (n : Bytes) :
    Res (St × Option Hit) :=
  if n = ascii "threads" then made m st ⟨n, none, true, .threads, .preserve⟩
  else if n = ascii "curses" then
    match getDep E c m st (ascii "ncurses") fb second with
    | .ok (st', none) => getDep E c m st' (ascii "ncurses") fb second
    | r => r
  else if n = ascii "appleframeworks" then
    if !c.modules then .error
    else if E.darwin then made m st ⟨n, none, true, .frameworks, .preserve⟩
    else made m st ⟨[], none, false, .declared, .preserve⟩
  else if n = [] then
    if c.req = .required then .error
    else made m st ⟨[], none, false, .declared, .preserve⟩
  else getDep E c m st n fb second

/-- The loop over the names, src/functions/kernel/dependency.c:606, 612: up to the first that is found. -/
def lookNames (E : Env) (c : Call) (m : Mode) (fb : Option (List Bytes)) (second : Bool) :
    St → List Bytes → Res (St × Option Hit)
  | st, [] => .ok (st, none)
  | st, n :: ns =>
    match lookName E c m fb second st n with
    | .ok (st', none) => lookNames E c m fb second st' ns
    | r => r

/-- `lib_mode`, src/functions/kernel/dependency.c:559-566. -/
def modeOf (c : Call) : Mode :=
  match c.static with
  | none => .default
  | some true => .static
  | some false => .shared

/-- `fallback_allowed`, src/functions/kernel/dependency.c:568-576. -/
def allowed (c : Call) : Bool :=
  match c.allow with
  | some b => b
  | none => c.req == .required || (match c.fallback with
    | some f => !f.isEmpty
    | none => false)

/-- `fallback`, src/functions/kernel/dependency.c:578-589. -/
def explicit (c : Call) : Option (List Bytes) := if allowed c then c.fallback else none

/-- The two passes over the names, src/functions/kernel/dependency.c:606-615. -/
def look (E : Env) (c : Call) (st : St) : Res (St × Option Hit) :=
  match lookNames E c (modeOf c) (explicit c) false st c.names with
  | .ok (st', none) =>
    if allowed c then lookNames E c (modeOf c) (explicit c) true st' c.names
    else .ok (st', none)
  | r => r

/-- What `dependency()` returns. -/
inductive Result
  | dep (i : Nat) | disabler
  deriving DecidableEq, Repr

/-- `set_dependency_cache_iter`, src/functions/kernel/dependency.c:429-443, over all names. -/
def setCache (E : Env) (m : Mode) (i : Nat) (names : List Bytes) (st : St) : St :=
  { st with
    cacheS := fun p n => if m ≠ .shared ∧ p = E.proj ∧ n ∈ names then some i else st.cacheS p n
    cacheD := fun p n => if m ≠ .static ∧ p = E.proj ∧ n ∈ names then some i else st.cacheD p n }

/-- What is done with a dependency that was found, src/functions/kernel/dependency.c:670-688. The object found is
changed, or a copy of it if it comes from the cache. -/
def deliver (E : Env) (c : Call) (st : St) (h : Hit) : Res (St × Result) :=
  match st.heap[h.id]? with
  | none => .bad
  | some d =>
    if h.cache then .ok ({ st with heap := st.heap ++ [{ d with inc := c.inc }] }, .dep st.heap.length)
    else
      let st' := { st with heap := st.heap.set h.id { d with inc := c.inc } }
      .ok (if d.found then setCache E h.mode h.id c.names st' else st', .dep h.id)

/-- `func_dependency`, src/functions/kernel/dependency.c:445-691. The name of a dependency that is not found is the last
one tried; with `required` disabled, the first. -/
def dependency (E : Env) (c : Call) (st : St) : Res (St × Result) :=
  match c.names with
  | [] => .error
  | n :: _ =>
    if c.req = .skip then
      .ok ({ st with heap := st.heap ++ [⟨n, none, false, .declared, .preserve⟩] }, .dep st.heap.length)
    else match look E c st with
      | .bad => .bad
      | .error => .error
      | .ok (st', some h) => deliver E c st' h
      | .ok (st', none) =>
        if c.req = .required then .error
        else if c.disabler then .ok (st', .disabler)
        else .ok ({ st' with heap := st'.heap ++ [⟨c.names.getLast?.getD [], none, false, .notFound, c.inc⟩] },
          .dep st'.heap.length)

/-- `meson.override_dependency`, src/functions/meson.c:239-278; `static` is the keyword, or whether `default_library` is
static. -/
def overrideDependency (static : Bool) (n : Bytes) (i : Nat) (st : St) : St :=
  if static then { st with ovS := fun k => if k = n then some i else st.ovS k }
  else { st with ovD := fun k => if k = n then some i else st.ovD k }

end Muon.Lookup
