import Verif.Pc.Model
/-
What `pkgconfig.generate()` is to write, without the functions of the model: which flags the libraries given stand for, and
how pkg-config reads a file.
-/
namespace Muon.Pc.Spec
open Muon

/-! ### What the libraries stand for -/

/-- A library, whether it is public or private, and whether it was linked whole. -/
structure Item where
  vis : Vis
  whole : Bool
  lib : Lib

/-- The libraries behind a library: those of a target that has no pc file of its own, and those of a declared
dependency. Dependencies are private; what a static library is linked with is public, as the user of it has to link with
that too. -/
inductive Part : Item → Item → Prop
  | deps {v w n k i ds lw lh l} : l ∈ ds → Part ⟨v, w, .target n k i none ds lw lh⟩ ⟨.priv, false, l⟩
  | withStatic {v w n i ds lw lh l} : l ∈ lw → Part ⟨v, w, .target n .static i none ds lw lh⟩ ⟨.pub, false, l⟩
  | wholeStatic {v w n i ds lw lh l} : l ∈ lh → Part ⟨v, w, .target n .static i none ds lw lh⟩ ⟨.pub, true, l⟩
  | withShared {v w n i ds lw lh l} : l ∈ lw → Part ⟨v, w, .target n .shared i none ds lw lh⟩ ⟨.priv, false, l⟩
  | wholeShared {v w n i ds lw lh l} : l ∈ lh → Part ⟨v, w, .target n .shared i none ds lw lh⟩ ⟨.priv, true, l⟩
  | declWith {v w c lw lh ds l} : l ∈ lw → Part ⟨v, w, .declared c lw lh ds⟩ ⟨v, false, l⟩
  | declWhole {v w c lw lh ds l} : l ∈ lh → Part ⟨v, w, .declared c lw lh ds⟩ ⟨v, true, l⟩
  | declDeps {v w c lw lh ds l} : l ∈ ds → Part ⟨v, w, .declared c lw lh ds⟩ ⟨.priv, false, l⟩

/-- A library, or one behind it. -/
inductive Behind : Item → Item → Prop
  | self (x : Item) : Behind x x
  | part {x y z : Item} : Part x y → Behind y z → Behind x z

/-- The flag for the name of a library: options are kept, and `lib` is taken off. -/
inductive Flag : Bytes → Bytes → Prop
  | opt (s : Bytes) : Flag (45 :: s) (45 :: s)
  | lib (s : Bytes) : Flag (ascii "lib" ++ s) (ascii "-l" ++ s)
  | plain (s : Bytes) : s.head? ≠ some 45 → (∀ r, s ≠ ascii "lib" ++ r) → Flag s (ascii "-l" ++ s)

/-- The flag for a file: that for the last part of its path, without the extension. -/
def FileFlag (p f : Bytes) : Prop :=
  (∃ stem ext, Path.basename p = stem ++ 46 :: ext ∧ 46 ∉ ext ∧ Flag stem f) ∨ (46 ∉ Path.basename p ∧ Flag (Path.basename p) f)

/-- The file is in the source tree or the build tree. -/
def InTree (R : Roots) (p : Bytes) : Prop := Path.isSubpath R.source p = .ok true ∨ Path.isSubpath R.build p = .ok true

/-- The file is of a kind that can be linked. -/
def Linkable (p : Bytes) : Prop :=
  ∃ s ∈ [ascii ".a", ascii ".dll", ascii ".lib", ascii ".so", ascii ".dylib"], ∃ a, p = a ++ s

/-- Something a library stands for. -/
inductive What
  | lib (v : Vis) (f : Bytes)
  | req (v : Vis) (f : Bytes)
  | cflag (f : Bytes)
  /-- The library is part of another one already. -/
  | contained (f : Bytes)
  /-- There is a library of the project. -/
  | internal (v : Vis)

/-- What a library stands for itself, apart from those behind it. -/
inductive Adds (R : Roots) : Item → What → Prop
  | str {v w s f} : Flag s f → Adds R ⟨v, w, .str s⟩ (.lib v f)
  | file {v w p f} : FileFlag p f → Adds R ⟨v, w, .file p⟩ (.lib v f)
  | fileIn {v w p} : InTree R p → Adds R ⟨v, w, .file p⟩ (.internal v)
  | hasPc {v w n k i g ds lw lh} : Adds R ⟨v, w, .target n k i (some g) ds lw lh⟩ (.req v g)
  | shared {v n i ds lw lh f} : Flag n f → Adds R ⟨v, false, .target n .shared i none ds lw lh⟩ (.lib v f)
  | sharedIn {v n i ds lw lh} : Adds R ⟨v, false, .target n .shared i none ds lw lh⟩ (.internal v)
  | static {v n ds lw lh f} : Flag n f → Adds R ⟨v, false, .target n .static true none ds lw lh⟩ (.lib v f)
  | staticIn {v n ds lw lh} : Adds R ⟨v, false, .target n .static true none ds lw lh⟩ (.internal v)
  | whole {v n k i ds lw lh f} : Flag n f → Adds R ⟨v, true, .target n k i none ds lw lh⟩ (.contained f)
  | cargs {v w c lw lh ds f} : f ∈ c → Adds R ⟨v, w, .declared c lw lh ds⟩ (.cflag f)
  | pkg {v w n} : Adds R ⟨v, w, .pkg n⟩ (.req v n)
  | threads {v w} : Adds R ⟨v, w, .threads⟩ (.lib .priv (ascii "-pthread"))
  | ext {v w ps p f} : p ∈ ps → FileFlag p f → Adds R ⟨v, w, .external ps⟩ (.lib v f)
  | extIn {v w ps p} : p ∈ ps → InTree R p → Adds R ⟨v, w, .external ps⟩ (.internal v)
  | custom {v w o f} : (∀ a, o ≠ a ++ ascii ".a") → FileFlag o f → Adds R ⟨v, w, .custom [o]⟩ (.lib v f)
  | customIn {v w o} : (∀ a, o ≠ a ++ ascii ".a") → Adds R ⟨v, w, .custom [o]⟩ (.internal v)

/-- What can be a library. -/
inductive Proper : Item → Prop
  | str {v w s} : Proper ⟨v, w, .str s⟩
  | file {v w p} : Linkable p → Proper ⟨v, w, .file p⟩
  | hasPc {v w n k i g ds lw lh} : Proper ⟨v, w, .target n k i (some g) ds lw lh⟩
  | target {v w n k i ds lw lh} : k ≠ .exe → Proper ⟨v, w, .target n k i none ds lw lh⟩
  | nothing {v w} : Proper ⟨v, w, .nothing⟩
  | declared {v w c lw lh ds} : Proper ⟨v, w, .declared c lw lh ds⟩
  | pkg {v w n} : Proper ⟨v, w, .pkg n⟩
  | threads {v w} : Proper ⟨v, w, .threads⟩
  | ext {v w ps} : (∀ p ∈ ps, Linkable p) → Proper ⟨v, w, .external ps⟩
  | custom {v w o} : Linkable o → Proper ⟨v, w, .custom [o]⟩

/-- The libraries of a call. -/
inductive Root (c : Call) : Item → Prop
  | main {l} : c.main = some l → Root c ⟨.pub, false, l⟩
  | pub {l} : l ∈ c.libraries → Root c ⟨.pub, false, l⟩
  | priv {l} : l ∈ c.librariesPrivate → Root c ⟨.priv, false, l⟩

/-- What the libraries of a call stand for. -/
def Stands (R : Roots) (c : Call) (x : What) : Prop := ∃ r y, Root c r ∧ Behind r y ∧ Adds R y x

/-! ### How pkg-config reads a file -/

/-- A line of a file: a variable or a field. -/
inductive Line
  | var (key value : Bytes)
  | fld (key value : Bytes)
  deriving DecidableEq, Repr

/-- The characters of names. -/
def keyChar (c : UInt8) : Bool :=
  (48 ≤ c && c ≤ 57) || (65 ≤ c && c ≤ 90) || (97 ≤ c && c ≤ 122) || c = 95 || c = 46

/-- Spaces and tabs. -/
def blank (c : UInt8) : Bool := c = 32 || c = 9

/-- Without the blanks around it. -/
def trim (s : Bytes) : Bytes := ((s.dropWhile blank).reverse.dropWhile blank).reverse

/-- The lines of a text. -/
def lines : Bytes → List Bytes
  | [] => [[]]
  | c :: s => if c = 10 then [] :: lines s
    else match lines s with
      | [] => [[c]]
      | l :: ls => (c :: l) :: ls

/-- A line: a name, `=` or `:`, and a value, up to a comment. (A backslash before the end of a line, which joins it with the
next, is left out.) -/
def readLine (l : Bytes) : Option Line :=
  let l := (l.takeWhile (· ≠ 35)).dropWhile blank
  match (l.dropWhile keyChar).dropWhile blank with
  | 61 :: v => some (.var (l.takeWhile keyChar) (trim v))
  | 58 :: v => some (.fld (l.takeWhile keyChar) (trim v))
  | _ => none

/-- The file. -/
def read (t : Bytes) : List Line := (lines t).filterMap readLine

/-- A text with the references to variables replaced by their values; the argument before the text is the name in a
reference that is being read. -/
def expandFrom (env : Bytes → Bytes) : Option Bytes → Bytes → Bytes
  | _, [] => []
  | none, c :: s =>
    if c = 36 then match s with
      | 123 :: s => expandFrom env (some []) s
      | s => 36 :: expandFrom env none s
    else c :: expandFrom env none s
  | some n, c :: s => if c = 125 then env n ++ expandFrom env none s else expandFrom env (some (n ++ [c])) s

def expand (env : Bytes → Bytes) (s : Bytes) : Bytes := expandFrom env none s

/-- The values of the variables: references are replaced where a variable is defined, by what was defined before. A variable
that is not defined is empty. -/
def env : List Line → (Bytes → Bytes) → Bytes → Bytes
  | [], e => e
  | .var k v :: ls, e => env ls (fun n => if n = k then expand e v else e n)
  | .fld _ _ :: ls, e => env ls e

/-- The values of the variables of a file. -/
def value (t : Bytes) : Bytes → Bytes := env (read t) (fun _ => [])

/-- The value of a line, if it is that field. -/
def ofLine (e : Bytes → Bytes) (key : Bytes) : Line → Option Bytes
  | .fld k v => if k = key then some (expand e v) else none
  | .var _ _ => none

/-- The value of a field. -/
def fieldOf (t key : Bytes) : Option Bytes :=
  (read t).findSome? (ofLine (value t) key)

/-- The arguments of a value, as pkg-config splits it: blanks separate them, and a backslash takes away the meaning of what
follows. The first argument is the argument that is being read. Quotes are left out. -/
def argsFrom : Option Bytes → Bytes → List Bytes
  | none, [] => []
  | some a, [] => [a]
  | cur, c :: s =>
    if c = 92 then match s with
      | [] => argsFrom (some (cur.getD [] ++ [92])) []
      | d :: s => argsFrom (some (cur.getD [] ++ [d])) s
    else if blank c then cur.toList ++ argsFrom none s
    else argsFrom (some (cur.getD [] ++ [c])) s

def args (s : Bytes) : List Bytes := argsFrom none s

/-- A text with backslashes before its spaces. -/
def quoted (s : Bytes) : Bytes := s.flatMap fun c => if c = 32 then [92, 32] else [c]

/-- A value that a line can hold: no newline, no comment, no blanks around it, and no backslash at the end. -/
def Clean (v : Bytes) : Prop :=
  10 ∉ v ∧ 35 ∉ v ∧ v.head?.all (fun c => !blank c) = true ∧ v.getLast?.all (fun c => !blank c && c ≠ 92) = true

/-! ### Texts with references -/

/-- A part of a text: text, or a reference to a variable. -/
inductive Piece
  | txt (s : Bytes)
  | ref (n : Bytes)

def Piece.ok : Piece → Bool
  | .txt s => !s.contains 36
  | .ref n => n.all keyChar

def Piece.text : Piece → Bytes
  | .txt s => s
  | .ref n => ascii "${" ++ n ++ ascii "}"

/-- A text that is made of such parts: every dollar sign begins a reference. -/
def WellRef (s : Bytes) : Prop := ∃ ps : List Piece, (∀ p ∈ ps, p.ok = true) ∧ s = ps.flatMap Piece.text

/-- A text that is fit for a value, once its spaces have backslashes: no newline, `#`, tab, backslash or quote, no space at the
end, and proper references. -/
def Plain (s : Bytes) : Prop :=
  (10 ∉ s ∧ 35 ∉ s ∧ 9 ∉ s ∧ 92 ∉ s ∧ 34 ∉ s ∧ 39 ∉ s) ∧ s.getLast? ≠ some 32 ∧ WellRef s

/-- The variables of a call: its strings at the first `=`, or its dictionary. -/
inductive Pairs : Given → List (Bytes × Bytes) → Prop
  | nil : Pairs (.strs []) []
  | cons {k v l ps} : 61 ∉ k → Pairs (.strs l) ps → Pairs (.strs ((k ++ 61 :: v) :: l)) ((k, v) :: ps)
  | dict (l) : Pairs (.dict l) l

/-- No variables are given, or these. -/
def PairsOpt : Option Given → List (Bytes × Bytes) → Prop
  | none, ps => ps = []
  | some g, ps => Pairs g ps

/-! ### What is to be in the file -/

/-- The flags for the directories of headers. -/
inductive Header (c : Call) : Bytes → Prop
  | default : c.subdirs = none → Header c (ascii "-I${includedir}")
  | dot {ds} : c.subdirs = some ds → ascii "." ∈ ds → Header c (ascii "-I${includedir}")
  | sub {ds d} : c.subdirs = some ds → d ∈ ds → d ≠ ascii "." → Header c (ascii "-I${includedir}/" ++ d)

/-- The flags of the compiler. -/
inductive Cflag (R : Roots) (c : Call) : Bytes → Prop
  | header {f} : Header c f → Cflag R c f
  | declared {f} : Stands R c (.cflag f) → Cflag R c f
  | extra {f} : f ∈ c.extraCflags → Cflag R c f

/-- The libraries that are listed: not those that are part of another, and each once, where it is first. -/
def Listed (R : Roots) (c : Call) : Vis → Bytes → Prop
  | .pub, f => Stands R c (.lib .pub f) ∧ ¬ Stands R c (.contained f) ∧ ¬ Stands R c (.req .pub f)
  | .priv, f => Stands R c (.lib .priv f) ∧ ¬ Stands R c (.contained f) ∧ ¬ Stands R c (.req .pub f) ∧
      ¬ Stands R c (.lib .pub f) ∧ ¬ Stands R c (.req .priv f)

/-- The packages that are required by what the libraries stand for. -/
def Needed (R : Roots) (c : Call) : Vis → Bytes → Prop
  | .pub, f => Stands R c (.req .pub f) ∧ ¬ Stands R c (.contained f)
  | .priv, f => Stands R c (.req .priv f) ∧ ¬ Stands R c (.contained f) ∧ ¬ Stands R c (.req .pub f) ∧
      ¬ Stands R c (.lib .pub f)

/-- The package a requirement names. -/
inductive Names : Req → Bytes → Prop
  | str (s) : Names (.str s) s
  | target (g) : Names (.target (some g)) g
  | pkg (n) : Names (.pkg n) n

/-- The requirements given. -/
def requiresOf (c : Call) : Vis → List Req
  | .pub => c.requires
  | .priv => c.requiresPrivate

/-- The names of the fields. -/
def libsKey : Vis → Bytes
  | .pub => ascii "Libs"
  | .priv => ascii "Libs.private"

def reqsKey : Vis → Bytes
  | .pub => ascii "Requires"
  | .priv => ascii "Requires.private"

/-- A list of packages, as pkg-config reads it. -/
def commas : Bytes → List Bytes
  | [] => [[]]
  | c :: s => if c = 44 then [] :: commas s
    else match commas s with
      | [] => [[c]]
      | l :: ls => (c :: l) :: ls

def packages (s : Bytes) : List Bytes := ((commas s).map trim).filter (· ≠ [])

end Muon.Pc.Spec
