import Verif.Conf.Model
import Verif.Fsmod.Model
import Verif.Ini.Model
/-
Configuration data: the objects `configuration_data()` makes and their methods (src/functions/configuration_data.c), the
decisions of `configure_file()` (src/functions/kernel/configure_file.c), and `keyval.load()`
(src/functions/modules/keyval.c). Dictionaries are lists of keys and values in the order of insertion: Verif/Dict proves
that the tables in src/lang/object.c behave like that. What is written into the output is modelled in Verif/Conf. The
checks of the arguments (`interp_args`) are in Verif/Args: here the arguments have the types that are asked for.
-/
namespace Muon.Cdata
open Muon
open Muon.Conf (Val)

/-- A dictionary. -/
abbrev Map := List (Bytes × Val)

/-- `obj_dict_index`, src/lang/object.c:1231-1236 (Verif/Dict). -/
def dget : Map → Bytes → Option Val
  | [], _ => none
  | e :: m, k => if e.1 = k then some e.2 else dget m k

/-- `obj_dict_set`, src/lang/object.c:1329-1336 (Verif/Dict). -/
def dset : Map → Bytes → Val → Map
  | [], k, v => [(k, v)]
  | e :: m, k, v => if e.1 = k then (k, v) :: m else e :: dset m k v

/-- `obj_dict_merge_nodup`, src/lang/object.c:1114-1128. -/
def dmerge (m n : Map) : Map := n.foldl (fun m e => dset m e.1 e.2) m

/-- The objects: dictionaries; the dictionary in each variable for one; and for each `configuration_data` object its
field `dict`. -/
structure St where
  heap : List Map
  vars : List Nat
  data : List Nat
  deriving DecidableEq, Repr

/-- A statement of a program. `dict` is an assignment of a dictionary with these entries to a new variable, `new` and
`newFrom` are `configuration_data()` and `configuration_data(v)` for a variable `v`, and the others are the methods that
change an object. -/
inductive Cmd
  | dict (m : Map)
  | new
  | newFrom (v : Nat)
  | set (c : Nat) (k : Bytes) (v : Val)
  | set10 (c : Nat) (k : Bytes) (b : Bool)
  | setQuoted (c : Nat) (k : Bytes) (s : Bytes)
  | mergeFrom (c d : Nat)
  deriving DecidableEq, Repr

/-- The loop of `set_quoted`, src/functions/configuration_data.c:36-42. -/
def escape : Bytes → Bytes
  | [] => []
  | c :: s => if c = 34 then 92 :: c :: escape s else c :: escape s

/-- The text of `set_quoted`, src/functions/configuration_data.c:33-44. -/
def quote (s : Bytes) : Bytes := [34] ++ escape s ++ [34]

/-- Changing the dictionary of an object; `error` if there is no such variable. -/
def change (st : St) (c : Nat) (f : Map → Map) : Res St :=
  match st.data[c]? with
  | none => .error
  | some d => .ok { st with heap := st.heap.set d (f (st.heap.getD d [])) }

/-- A statement. `dict` adds an object with the entries; `new` and `newFrom`: src/functions/kernel.c:1212-1231; `set`:
src/functions/configuration_data.c:51-71; `set10`: src/functions/configuration_data.c:73-97; `setQuoted`:
src/functions/configuration_data.c:16-49, where `get_cstr` aborts on NUL bytes; `mergeFrom`:
src/functions/configuration_data.c:196-209. -/
def step (st : St) : Cmd → Res St
  | .dict m => .ok { st with heap := st.heap ++ [dmerge [] m], vars := st.vars ++ [st.heap.length] }
  | .new => .ok { st with heap := st.heap ++ [[]], data := st.data ++ [st.heap.length] }
  | .newFrom v =>
    match st.vars[v]? with
    | none => .error
    | some d => .ok { st with data := st.data ++ [d] }
  | .set c k v => change st c fun m => dset m k v
  | .set10 c k b => change st c fun m => dset m k (.num (if b then 1 else 0))
  | .setQuoted c k s => Conf.cstr s >>= fun s => change st c fun m => dset m k (.str (quote s))
  | .mergeFrom c d =>
    match st.data[d]? with
    | none => .error
    | some n => change st c fun m => dmerge m (st.heap.getD n [])

/-- A program. -/
def run : St → List Cmd → Res St
  | st, [] => .ok st
  | st, c :: cs => step st c >>= fun st => run st cs

/-- The beginning. -/
def start : St := ⟨[], [], []⟩

/-- The entries of an object. -/
def entries (st : St) (c : Nat) : Option Map := st.data[c]?.map fun d => st.heap.getD d []

/-- The entries of the dictionary in a variable. -/
def varEntries (st : St) (v : Nat) : Option Map := st.vars[v]?.map fun d => st.heap.getD d []

/-- `get`, src/functions/configuration_data.c:99-128, on the entries. -/
def get (m : Map) (k : Bytes) (dflt : Option Val) : Res Val :=
  match dget m k with
  | some v => .ok v
  | none =>
    match dflt with
    | some v => .ok v
    | none => .error

/-- Taking quotes away, src/functions/configuration_data.c:145-152. -/
def unquote (s : Bytes) : Bytes :=
  if 2 ≤ s.length ∧ s.head? = some 34 ∧ s.getLast? = some 34 then (s.drop 1).dropLast else s

/-- `get_unquoted`, src/functions/configuration_data.c:130-155; `get_cstr` aborts on NUL bytes and on what is not a
string. -/
def getUnquoted (m : Map) (k : Bytes) (dflt : Option Val) : Res Val :=
  get m k dflt >>= fun v =>
  match v with
  | .str s => Conf.cstr s >>= fun s => .ok (.str (unquote s))
  | _ => .bad

/-- `has`, src/functions/configuration_data.c:181-194. -/
def has (m : Map) (k : Bytes) : Bool := (dget m k).isSome

/-- `keys`, src/functions/configuration_data.c:157-179. -/
def keys (m : Map) : List Bytes := m.map (·.1)

/-! ### `configure_file()` -/

/-- A call; `input` are the paths of the files, `command` whether there is one, `conf` the dictionary, `copy` the value of
the keyword. -/
structure Call where
  output : Bytes
  input : Option (List Bytes) := none
  command : Bool := false
  conf : Option Map := none
  copy : Option Bool := none
  format : Option Bytes := none
  outputFormat : Option Bytes := none
  install : Option Bool := none
  installDir : Option Bytes := none
  deriving DecidableEq, Repr

/-- What is done: the command is run, an input is copied, an input is a template, or a header is made with `#` or `%`
before its directives. -/
inductive Act
  | command
  | copy (input : Bytes)
  | template (x : Conf.Syntax) (input : Bytes) (m : Map)
  | header (c : UInt8) (m : Map)
  deriving DecidableEq, Repr

/-- `array_to_elem_or_err`, src/functions/kernel/configure_file.c:457-471; without the keyword the array is the null
object. -/
def one : Option (List Bytes) → Res Bytes
  | some [f] => .ok f
  | _ => .error

/-- `perform_output_string_substitutions`, src/functions/kernel/configure_file.c:480-521; the first argument is at least
the length of the text. -/
def outName (input : Option (List Bytes)) : Nat → Bytes → Res Bytes
  | 0, _ => .ok []
  | _ + 1, [] => .ok []
  | n + 1, c :: s =>
    if (ascii "@BASENAME@").isPrefixOf (c :: s) then
      one input >>= fun f => outName input n ((c :: s).drop 10) >>= fun o => .ok (Fsmod.cutDot (Path.basename f) ++ o)
    else if (ascii "@PLAINNAME@").isPrefixOf (c :: s) then
      one input >>= fun f => outName input n ((c :: s).drop 11) >>= fun o => .ok (Path.basename f ++ o)
    else outName input n s >>= fun o => .ok (c :: o)

/-- `exclusive_or`, src/functions/kernel/configure_file.c:523-539; `found` is whether one was found. -/
def xor : Bool → List Bool → Bool
  | found, [] => found
  | found, v :: l => if v then (if found then false else xor true l) else xor found l

/-- The output format, src/functions/kernel/configure_file.c:583-594, and the character of
src/functions/kernel/configure_file.c:320-323. -/
def directiveChar : Option Bytes → Res UInt8
  | none => .ok 35
  | some f => if f = ascii "c" then .ok 35 else if f = ascii "nasm" then .ok 37 else .error

/-- The format of the template, src/functions/kernel/configure_file.c:707-726. -/
def syntaxOf : Option Bytes → Res Conf.Syntax
  | none => .ok ⟨false, false⟩
  | some f =>
    if f = ascii "meson" then .ok ⟨false, false⟩
    else if f = ascii "cmake" then .ok ⟨true, true⟩
    else if f = ascii "cmake@" then .ok ⟨true, false⟩
    else .error

/-- What is to be done, src/functions/kernel/configure_file.c:637-738. -/
def act (c : Call) (dir : UInt8) : Res Act :=
  if c.command then .ok .command
  else if c.copy.isSome then one c.input >>= fun f => .ok (.copy f)
  else match c.conf with
    | none => .error
    | some m =>
      if c.input.isSome then one c.input >>= fun f => syntaxOf c.format >>= fun x => .ok (.template x f m)
      else .ok (.header dir m)

/-- The output and what is done, src/functions/kernel/configure_file.c:541-738; `build` is the build directory of the
project. -/
def resolve (build : Bytes) (c : Call) : Res (Bytes × Act) :=
  directiveChar c.outputFormat >>= fun dir =>
  Conf.cstr c.output >>= fun o =>
  outName c.input o.length o >>= fun name =>
  if !Path.isBasename name then .error
  else if !xor false [c.command, c.conf.isSome, c.copy.isSome] then .error
  else act c dir >>= fun a => .ok (Path.join build name, a)

/-- The directory the output is installed to, if it is, src/functions/kernel/configure_file.c:740-748. -/
def installTo (c : Call) : Res (Option Bytes) :=
  if c.install = some true ∨ (c.install = none ∧ c.installDir.isSome) then
    match c.installDir with
    | none => .error
    | some d => .ok (some d)
  else .ok none

/-- The call, when what is done succeeds or not (Verif/Conf): the file that is returned, and where it is installed. -/
def configureFile (build : Bytes) (perform : Bytes → Act → Bool) (c : Call) : Res (Bytes × Option Bytes) :=
  resolve build c >>= fun r =>
  if !perform r.1 r.2 then .error
  else installTo c >>= fun i => .ok (r.1, i)

/-! ### `keyval.load()` -/

/-- `keyval_parse_cb`, src/functions/modules/keyval.c:21-28; an event without a key does not occur. -/
def loadCb (m : Map) (e : Ini.Event) : Map × Bool :=
  match e.kv with
  | some (k, v) => (dset m k (.str v), true)
  | none => (m, true)

/-- `keyval.load()`, src/functions/modules/keyval.c:30-71; `none` is a file that cannot be read. -/
def load (content : Option Bytes) : Res Map :=
  match content with
  | none => .error
  | some t => Ini.parse true loadCb [] t >>= fun r => if r.2 then .ok r.1 else .error

end Muon.Cdata
