import Verif.Cdata.Model
import Verif.Conf.Spec
import Verif.Ini.Spec
import Verif.Names.Spec
/-
What configuration data are: each object has its own values, a key has the value it was given last.
-/
namespace Muon.Cdata.Spec
open Muon Muon.Cdata
open Muon.Conf (Val)
open Muon.Path.Spec

/-! ### Histories

A history is the list of the statements that were carried out, the latest first. -/

/-- How many `configuration_data` objects were made. -/
def made : List Cmd → Nat
  | [] => 0
  | .new :: h => made h + 1
  | .newFrom _ :: h => made h + 1
  | _ :: h => made h

/-- How many variables for dictionaries there are. -/
def variables : List Cmd → Nat
  | [] => 0
  | .dict _ :: h => variables h + 1
  | _ :: h => variables h

/-- The entries of the dictionary that was written for a variable. -/
def written : List Cmd → Nat → Map
  | [], _ => []
  | .dict m :: h, v => if v = variables h then m else written h v
  | _ :: h, v => written h v

/-- The last value of a key in a list of entries. -/
def last : Map → Bytes → Option Val
  | [], _ => none
  | (k', v) :: m, k => (last m k).or (if k' = k then some v else none)

/-- The value of the key `k` in the object `c`: the one given last. -/
def value : List Cmd → Nat → Bytes → Option Val
  | [], _, _ => none
  | .dict _ :: h, c, k => value h c k
  | .new :: h, c, k => if c = made h then none else value h c k
  | .newFrom v :: h, c, k => if c = made h then last (written h v) k else value h c k
  | .set c' k' v :: h, c, k => if c = c' ∧ k = k' then some v else value h c k
  | .set10 c' k' true :: h, c, k => if c = c' ∧ k = k' then some (.num 1) else value h c k
  | .set10 c' k' false :: h, c, k => if c = c' ∧ k = k' then some (.num 0) else value h c k
  | .setQuoted c' k' s :: h, c, k =>
    if c = c' ∧ k = k' then some (.str ([34] ++ (s.map fun b => if b = 34 then [92, 34] else [b]).flatten ++ [34])) else value h c k
  | .mergeFrom c' d :: h, c, k => if c = c' then (value h d k).or (value h c k) else value h c k

/-- Adding the keys that are not there yet, in order. -/
def add (l : List Bytes) : List Bytes → List Bytes
  | [] => l
  | k :: r => add (if k ∈ l then l else l ++ [k]) r

/-- The keys of an object, in the order in which they were first given. -/
def order : List Cmd → Nat → List Bytes
  | [], _ => []
  | .dict _ :: h, c => order h c
  | .new :: h, c => if c = made h then [] else order h c
  | .newFrom v :: h, c => if c = made h then add [] ((written h v).map (·.1)) else order h c
  | .set c' k _ :: h, c => if c = c' then add (order h c) [k] else order h c
  | .set10 c' k _ :: h, c => if c = c' then add (order h c) [k] else order h c
  | .setQuoted c' k _ :: h, c => if c = c' then add (order h c) [k] else order h c
  | .mergeFrom c' d :: h, c => if c = c' then add (order h c) (order h d) else order h c

/-- The variables that are given to `configuration_data()`. -/
def given : List Cmd → List Nat
  | [] => []
  | .newFrom v :: h => v :: given h
  | _ :: h => given h

/-- The statements speak of objects and variables that exist, and texts to be quoted have no NUL bytes. -/
def Valid : List Cmd → Prop
  | [] => True
  | .dict _ :: h => Valid h
  | .new :: h => Valid h
  | .newFrom v :: h => v < variables h ∧ Valid h
  | .set c _ _ :: h => c < made h ∧ Valid h
  | .set10 c _ _ :: h => c < made h ∧ Valid h
  | .setQuoted c _ s :: h => c < made h ∧ 0 ∉ s ∧ Valid h
  | .mergeFrom c d :: h => c < made h ∧ d < made h ∧ Valid h

/-! ### Literals of C -/

/-- The text `t` between quotes is a literal of C for `s`; of the escapes, those of the quote and the backslash. -/
inductive Literal : Bytes → Bytes → Prop
  | nil : Literal [] []
  | char {c : UInt8} {t s : Bytes} : c ≠ 34 → c ≠ 92 → c ≠ 10 → Literal t s → Literal (c :: t) (c :: s)
  | quote {t s : Bytes} : Literal t s → Literal (92 :: 34 :: t) (34 :: s)
  | backslash {t s : Bytes} : Literal t s → Literal (92 :: 92 :: t) (92 :: s)

/-! ### Directives -/

/-- What a header says. -/
inductive Directive
  | define (name : Bytes) (text : Option Bytes)
  | undef (name : Bytes)
  deriving DecidableEq, Repr

/-- The line of a directive, as a preprocessor reads it: the name ends at the first blank. -/
inductive LineSays (c : UInt8) : Bytes → Directive → Prop
  | flag {k : Bytes} : 32 ∉ k → LineSays c ([c] ++ ascii "define " ++ k) (.define k none)
  | text {k t : Bytes} : 32 ∉ k → LineSays c ([c] ++ ascii "define " ++ k ++ ascii " " ++ t) (.define k (some t))
  | undef {k : Bytes} : 32 ∉ k → LineSays c ([c] ++ ascii "undef " ++ k) (.undef k)

/-- The lines of a text, each of which ends with a newline. -/
inductive HeaderSays (c : UInt8) : Bytes → List Directive → Prop
  | nil : HeaderSays c [] []
  | cons {l r : Bytes} {d : Directive} {ds : List Directive} : 10 ∉ l → LineSays c l d → HeaderSays c r ds →
      HeaderSays c (l ++ [10] ++ r) (d :: ds)

/-- What an entry should become. -/
inductive Means : Bytes × Val → Directive → Prop
  | yes {k : Bytes} : Means (k, .bool true) (.define k none)
  | no {k : Bytes} : Means (k, .bool false) (.undef k)
  | text {k s : Bytes} : Means (k, .str s) (.define k (some s))
  | num {k : Bytes} {n : Int} : Means (k, .num n) (.define k (some (Conf.Spec.decimal n)))

/-- Entry by entry. -/
inductive AllMean : Map → List Directive → Prop
  | nil : AllMean [] []
  | cons {e : Bytes × Val} {m : Map} {d : Directive} {ds : List Directive} : Means e d → AllMean m ds → AllMean (e :: m) (d :: ds)

/-! ### `configure_file()` -/

/-- The names that stand for an input: its name, and its name without what follows the last dot. -/
inductive NameOf : Bytes → Bytes → Bytes → Prop
  | dot {f b e : Bytes} : (comps f).getLast? = some (b ++ [46] ++ e) → 46 ∉ e → NameOf f (b ++ [46] ++ e) b
  | plain {f n : Bytes} : (comps f).getLast? = some n → 46 ∉ n → NameOf f n n

/-- What the text of `output` stands for; the references need exactly one input. -/
inductive Output (input : Option (List Bytes)) : Bytes → Bytes → Prop
  | nil : Output input [] []
  | base {f n b t o : Bytes} : input = some [f] → NameOf f n b → Output input t o → Output input (ascii "@BASENAME@" ++ t) (b ++ o)
  | name {f n b t o : Bytes} : input = some [f] → NameOf f n b → Output input t o → Output input (ascii "@PLAINNAME@" ++ t) (n ++ o)
  | char {c : UInt8} {t o : Bytes} : ¬ ascii "@BASENAME@" <+: c :: t → ¬ ascii "@PLAINNAME@" <+: c :: t → Output input t o →
      Output input (c :: t) (c :: o)

/-- The formats of templates and what they mean: whether `#cmakedefine` is read, and whether `${...}` is. -/
inductive Format : Option Bytes → Conf.Syntax → Prop
  | none : Format none ⟨false, false⟩
  | meson : Format (some (ascii "meson")) ⟨false, false⟩
  | cmake : Format (some (ascii "cmake")) ⟨true, true⟩
  | cmakeAt : Format (some (ascii "cmake@")) ⟨true, false⟩

/-- The output formats and the character before directives. -/
inductive OutFormat : Option Bytes → UInt8 → Prop
  | none : OutFormat none 35
  | c : OutFormat (some (ascii "c")) 35
  | nasm : OutFormat (some (ascii "nasm")) 37

/-- What a call asks for. -/
inductive Asks (c : Call) : Act → Prop
  | command : c.command = true → c.conf = none → c.copy = none → Asks c .command
  | copy {f : Bytes} {b : Bool} : c.command = false → c.conf = none → c.copy = some b → c.input = some [f] → Asks c (.copy f)
  | template {f : Bytes} {x : Conf.Syntax} {m : Map} : c.command = false → c.conf = some m → c.copy = none → c.input = some [f] →
      Format c.format x → Asks c (.template x f m)
  | header {d : UInt8} {m : Map} : c.command = false → c.conf = some m → c.copy = none → c.input = none → OutFormat c.outputFormat d →
      Asks c (.header d m)

/-- Where the output is installed. -/
inductive Installs (c : Call) : Option Bytes → Prop
  | asked {d : Bytes} : c.install = some true → c.installDir = some d → Installs c (some d)
  | implied {d : Bytes} : c.install = none → c.installDir = some d → Installs c (some d)
  | no : c.install = some false → Installs c none
  | nothing : c.install = none → c.installDir = none → Installs c none

/-! ### `keyval.load()` -/

/-- The pairs among what is reported. -/
def pairs : List Ini.Event → Map
  | [] => []
  | e :: es => match e.kv with
    | some (k, v) => (k, .str v) :: pairs es
    | none => pairs es

end Muon.Cdata.Spec
