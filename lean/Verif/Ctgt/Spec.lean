import Verif.Ctgt.Model
import Verif.Names.Spec
import Verif.Path.Spec
/-
What the command line of a custom target is to be. Texts are written in pieces.
-/
namespace Muon.Ctgt.Spec
open Muon

/-- A piece of a text: characters that stand for themselves, an escaped `@`, or a key between two `@`. -/
inductive Piece
  | text (t : Bytes)
  | at_
  | key (k : Bytes)
  deriving DecidableEq, Repr

/-- How it is written. -/
def Piece.written : Piece → Bytes
  | .text t => t
  | .at_ => [92, 64]
  | .key k => [64] ++ k ++ [64]

def written (ps : List Piece) : Bytes := ps.flatMap Piece.written

/-- Texts have no `@`, and neither texts nor keys end with a backslash. -/
def Piece.Ok : Piece → Prop
  | .text t => 64 ∉ t ∧ t.getLast? ≠ some 92
  | .at_ => True
  | .key k => k ≠ [] ∧ 64 ∉ k ∧ k.getLast? ≠ some 92

/-- The text with a value for each key. -/
inductive Filled (V : Bytes → Bytes → Prop) : List Piece → Bytes → Prop
  | nil : Filled V [] []
  | text (t : Bytes) {ps : List Piece} {r : Bytes} : Filled V ps r → Filled V (.text t :: ps) (t ++ r)
  | at_ {ps : List Piece} {r : Bytes} : Filled V ps r → Filled V (.at_ :: ps) (64 :: r)
  | key {k v : Bytes} {ps : List Piece} {r : Bytes} : V k v → Filled V ps r → Filled V (.key k :: ps) (v ++ r)

/-- The words for a path: the path itself, or, if it is absolute and the command is run in the build directory, the way
from there, possibly with `./` before a name (C16, C61). -/
def Word (build : Bytes) (rel : Bool) (p w : Bytes) : Prop :=
  if rel = true ∧ p.head? = some 47 then ∃ r, Path.relativeTo build p = .ok r ∧ (w = r ∨ w = Path.executable r) else w = p

/-- The words for a list of paths. -/
inductive Words (build : Bytes) (rel : Bool) : List Bytes → List Bytes → Prop
  | nil : Words build rel [] []
  | cons {p w : Bytes} {ps ws : List Bytes} : Word build rel p w → Words build rel ps ws → Words build rel (p :: ps) (w :: ws)

/-- The value of a string of decimal digits. -/
def number (ds : Bytes) : Nat := ds.foldl (fun n c => 10 * n + (c.toNat - 48)) 0

/-- The path a key stands for. -/
inductive Path' (E : Env) (o : Opts) : Bytes → Bytes → Prop
  | input {p : Bytes} {l : List Bytes} : o.input = some (p :: l) → Path' E o (ascii "INPUT") p
  | output {p : Bytes} {l : List Bytes} : o.output = some (p :: l) → Path' E o (ascii "OUTPUT") p
  | outdir {l : List Bytes} : o.output = some l → Path' E o (ascii "OUTDIR") E.dir
  | depfile {p : Bytes} : o.depfile = some p → Path' E o (ascii "DEPFILE") p
  | plain {p : Bytes} : o.input = some [p] → Path' E o (ascii "PLAINNAME") (Path.basename p)
  | base {p : Bytes} : o.input = some [p] → Path' E o (ascii "BASENAME") (Path.withoutExt (Path.basename p))
  | priv {l : List Bytes} {n : Bytes} : o.output = some l → o.name = some n →
      Path' E o (ascii "PRIVATE_DIR") (Path.join E.dir n ++ ascii ".p")
  | source : Path' E o (ascii "SOURCE_ROOT") E.source
  | build : Path' E o (ascii "BUILD_ROOT") E.build
  | buildDir {p : Bytes} : o.buildDir = some p → Path' E o (ascii "BUILD_DIR") p
  | cwd : Path' E o (ascii "CURRENT_SOURCE_DIR") E.cwd
  | inputN {l : List Bytes} {p ds : Bytes} : ds ≠ [] → (∀ c ∈ ds, isDigit c = true) → o.input = some l → l[number ds]? = some p →
      Path' E o (ascii "INPUT" ++ ds) p
  | outputN {l : List Bytes} {p ds : Bytes} : ds ≠ [] → (∀ c ∈ ds, isDigit c = true) → o.output = some l → l[number ds]? = some p →
      Path' E o (ascii "OUTPUT" ++ ds) p

/-- The keys there are. -/
def Known (k : Bytes) : Prop :=
  k ∈ ["INPUT", "OUTPUT", "OUTDIR", "DEPFILE", "PLAINNAME", "BASENAME", "PRIVATE_DIR", "SOURCE_ROOT", "BUILD_ROOT", "BUILD_DIR",
    "CURRENT_SOURCE_DIR"].map ascii ∨
  ∃ ds, ds ≠ [] ∧ (∀ c ∈ ds, isDigit c = true) ∧ (k = ascii "INPUT" ++ ds ∨ k = ascii "OUTPUT" ++ ds)

/-- The value of a key. -/
def Value (E : Env) (o : Opts) (k v : Bytes) : Prop := ∃ p, Path' E o k p ∧ Word E.build o.relativize p v

/-- A text that can be written in pieces with keys that there are. -/
def Clean (ps : List Piece) : Prop := ∀ p ∈ ps, p.Ok ∧ ∀ k, p = .key k → Known k

/-- Whether a string stands for several words. -/
def Whole (o : Opts) (s : Bytes) : Prop :=
  (s = ascii "@INPUT@" ∧ ∃ l, o.input = some l) ∨ (s = ascii "@OUTPUT@" ∧ ∃ l, o.output = some l) ∨ (s = ascii "@EXTRA_ARGS@" ∧ o.extraValid = true)

/-- The words of a string. -/
inductive Str' (E : Env) (o : Opts) : Bytes → List Bytes → Prop
  | input {l ws : List Bytes} : o.input = some l → Words E.build o.relativize l ws → Str' E o (ascii "@INPUT@") ws
  | output {l ws : List Bytes} : o.output = some l → Words E.build o.relativize l ws → Str' E o (ascii "@OUTPUT@") ws
  | extra : o.extraValid = true → Str' E o (ascii "@EXTRA_ARGS@") (o.extra.getD [])
  | text {ps : List Piece} {w : Bytes} : Clean ps → ¬ Whole o (written ps) → Filled (Value E o) ps w → Str' E o (written ps) [w]

/-- The words of strings. -/
inductive Strs (E : Env) (o : Opts) : List Bytes → List Bytes → Prop
  | nil : Strs E o [] []
  | cons {s : Bytes} {l ws vs : List Bytes} : Str' E o s ws → Strs E o l vs → Strs E o (s :: l) (ws ++ vs)

/-- The words of an element of `command`, and the files it makes the target depend on. -/
inductive Means (E : Env) (o : Opts) : Arg → List Bytes → List Bytes → Prop
  | str {s : Bytes} {ws : List Bytes} : Str' E o s ws → Means E o (.str s) ws []
  | file {p w : Bytes} : Word E.build o.relativize p w → Means E o (.file p) [w] [w]
  | prog {c w : Bytes} {as : List Bytes} : Word E.build o.relativize c w → Means E o (.prog true (c :: as)) (w :: as) [w]
  | target {d n r : Bytes} {w : Bytes} : Path.relativeTo E.build (Path.join d n) = .ok r → Word E.build o.relativize (Path.executable r) w →
      Means E o (.target d n) [w] [w]
  | custom {l ws : List Bytes} : Words E.build o.relativize l ws → Means E o (.custom l) ws ws
  | compiler {l ws : List Bytes} : Strs E o l ws → Means E o (.compiler l) ws []

/-- The words of all elements. -/
inductive All (E : Env) (o : Opts) : List Arg → List Bytes → List Bytes → Prop
  | nil : All E o [] [] []
  | cons {a : Arg} {l : List Arg} {ws ds vs es : List Bytes} : Means E o a ws ds → All E o l vs es → All E o (a :: l) (ws ++ vs) (ds ++ es)

/-- A string that is a whole key, or can be written in pieces. -/
def CleanStr (o : Opts) (s : Bytes) : Prop := Whole o s ∨ ∃ ps, Clean ps ∧ s = written ps

/-- So are all strings of an element, and of keys with a number there are inputs or outputs. -/
def CleanArg (o : Opts) : Arg → Prop
  | .str s => CleanStr o s
  | .compiler l => ∀ s ∈ l, CleanStr o s
  | _ => True

/-! ### Outputs -/

/-- The value of a key in the name of an output. -/
inductive OutValue (p : Bytes) : Bytes → Bytes → Prop
  | plain : OutValue p (ascii "PLAINNAME") (Path.basename p)
  | base : OutValue p (ascii "BASENAME") (Path.withoutExt (Path.basename p))

/-- A name of an output that can be written in pieces with these two keys. -/
def OutClean (ps : List Piece) : Prop := ∀ p ∈ ps, p.Ok ∧ ∀ k, p = .key k → k = ascii "PLAINNAME" ∨ k = ascii "BASENAME"

/-- The text of a directory other than the root, with a separator after it. -/
def slashed (dir : Bytes) : Bytes := Path.Spec.render true (Path.Spec.comps dir) ++ [47]

/-- The outputs: for each name, the directory and the name with its keys filled in. -/
inductive Outs (dir src : Bytes) : List Bytes → List Bytes → Prop
  | nil : Outs dir src [] []
  | cons {ps : List Piece} {name : Bytes} {ts fs : List Bytes} : OutClean ps → Filled (OutValue src) ps name → Outs dir src ts fs →
      Outs dir src (written ps :: ts) ((slashed dir ++ name) :: fs)

/-- A source in a directory, and the components that lead from it to the source. -/
def Below (b s : Bytes) (x : List Bytes) : Prop := x ≠ [] ∧ Path.Spec.comps s = Path.Spec.comps b ++ x

end Muon.Ctgt.Spec
