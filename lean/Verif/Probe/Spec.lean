import Verif.Probe.Model
/-
What compiler checks are to come to, and under which conditions the cache does not matter.
-/
namespace Muon.Probe.Spec
open Muon Probe

/-- A check that is carried out by running the compiler, whatever is in the cache. -/
def carriedOut (W : World) (c : Check) : Res Val := if c.req = .skip then .ok (.bool false) else answer W c (attempt W c)

/-- A function all of whose checks are carried out. -/
def direct (W : World) : Prog → Res Val
  | .ret v => .ok v
  | .fail => .error
  | .ask c k =>
    match carriedOut W c with
    | .ok v => direct W (k (some v))
    | .error => direct W (k none)
    | .bad => .bad

/-- The checks a function may make. -/
inductive Asks : Prog → Check → Prop
  | here (c : Check) (k : Option Val → Prog) : Asks (.ask c k) c
  | later {c d : Check} {k : Option Val → Prog} (r : Option Val) : Asks (k r) c → Asks (.ask d k) c

/-- The parts of a check that get into its key: the arguments, each ended by a NUL except the last; the version; the
source. -/
def parts (c : Check) : List Bytes := [argstr c.args, c.ver.getD [], c.src]

/-- What is hashed last. -/
def whole (H : Bytes → Bytes) (c : Check) : Bytes :=
  H (argstr c.args) ++ (match c.ver with
    | some v => H v
    | none => List.replicate 32 0) ++ H c.src

/-- Conditions on the checks of a history: no collisions of the hash among the strings that are hashed, checks of the
same program with the same command line are made by the same function, and none is required. -/
structure Clear (H : Bytes → Bytes) (W : World) (S : Check → Prop) : Prop where
  len : ∀ x, (H x).length = 32
  partsApart : ∀ a b, S a → S b → ∀ x ∈ parts a, ∀ y ∈ parts b, H x = H y → x = y
  wholeApart : ∀ a b, S a → S b → H (whole H a) = H (whole H b) → whole H a = whole H b
  zero : ∀ a, S a → ∀ v, a.ver = some v → H v ≠ List.replicate 32 0
  args : ∀ a, S a → a.args ≠ [] ∧ ∀ s ∈ a.args, 0 ∉ s
  same : ∀ a b, S a → S b → a.args = b.args → a.src = b.src → a.kind = b.kind ∧ a.isPath = b.isPath ∧ a.mode = b.mode
  made : ∀ a, S a → a.kind = .define → ∃ t, W.out a.args (if a.isPath then W.file a.src else a.src) = some t
  auto : ∀ a, S a → a.req ≠ .required

/-- The compiler accepts a text with a command line. -/
def Accepts (W : World) (args : List Bytes) (text : Bytes) : Prop := W.cc args text = some 0

/-- It rejects it. -/
def Rejects (W : World) (args : List Bytes) (text : Bytes) : Prop := ∃ st, st ≠ 0 ∧ W.cc args text = some st

/-- What a check says, given `required` and the status of the compiler. -/
def verdict (r : Req) (st : Option Nat) : Res Val :=
  match r, st with
  | .skip, _ => .ok (.bool false)
  | _, none => .error
  | _, some 0 => .ok (.bool true)
  | .required, some (_ + 1) => .error
  | .auto, some (_ + 1) => .ok (.bool false)

/-- The command line for a text that is to be checked. -/
def line (E : Env) (kw : Kw) (mode : Mode) : List Bytes := command E kw mode (testSource E) (testOutput E mode)

/-- The lines of the keyword `prefix`. -/
def lines (kw : Kw) : Bytes := [10].intercalate kw.pre

/-- The files looked at for a library in a directory, in order. -/
def places (static : Bool) (n d : Bytes) : List Bytes :=
  if static then [Path.join d (n ++ ascii ".a"), Path.join d (ascii "lib" ++ n ++ ascii ".a")]
  else [Path.join d (n ++ ascii ".so"), Path.join d (ascii "lib" ++ n ++ ascii ".so"),
    Path.join d (n ++ ascii ".a"), Path.join d (ascii "lib" ++ n ++ ascii ".a")]

/-- A file is the first of some that there is. -/
def First (there : Bytes → Bool) (l : List Bytes) (p : Bytes) : Prop :=
  ∃ before after, l = before ++ p :: after ∧ there p = true ∧ ∀ q ∈ before, there q = false

/-- The programs of the functions. -/
def headerText (kw : Kw) (h : Bytes) : Bytes := lines kw ++ ascii "\n#include <" ++ h ++ ascii ">\nint main(void) {}\n"
def typeText (kw : Kw) (t : Bytes) : Bytes := lines kw ++ ascii "\nvoid bar(void) { sizeof(" ++ t ++ ascii "); }\n"
def memberText (kw : Kw) (t f : Bytes) : Bytes :=
  lines kw ++ ascii "\nvoid bar(void) {\n" ++ t ++ ascii " foo;\nfoo." ++ f ++ ascii ";\n}\n"
def sizeText (kw : Kw) (t : Bytes) : Bytes :=
  ascii "#include <stdio.h>\n" ++ lines kw ++ ascii "\nint main(void) { printf(\"%ld\", (long)(sizeof(" ++ t ++ ascii "))); return 0; }\n"
def intText (kw : Kw) (e : Bytes) : Bytes :=
  ascii "#include <stdio.h>\n" ++ lines kw ++ ascii "\nint main(void) {\nprintf(\"%ld\", (long)(" ++ e ++ ascii "));\n}\n"
def alignText (kw : Kw) (t : Bytes) : Bytes :=
  ascii "#include <stdio.h>\n#include <stddef.h>\n" ++ lines kw ++ ascii "\nstruct tmp { char c; " ++ t ++
    ascii " target; };\nint main(void) { printf(\"%d\", (int)(offsetof(struct tmp, target))); return 0; }\n"

/-- The program that uses a function: its address if the prefix includes headers, otherwise a declaration of its own. -/
def functionText (kw : Kw) (f : Bytes) : Bytes :=
  lines kw ++ ascii "\n#include <limits.h>\n#if defined __stub_" ++ f ++ ascii " || defined __stub___" ++ f ++
    ascii "\nfail fail fail this function is not going to work\n#endif\nint main(void) {\nvoid *a = (void*) &" ++ f ++
    ascii ";\nlong long b = (long long) a;\nreturn (int) b;\n}\n"
def declaredText (kw : Kw) (f : Bytes) : Bytes :=
  ascii "#define " ++ f ++ ascii " muon_disable_define_of_" ++ f ++ [10] ++ lines kw ++
    ascii "\n#include <limits.h>\n#undef " ++ f ++ ascii "\n#ifdef __cplusplus\nextern \"C\"\n#endif\nchar " ++ f ++
    ascii " (void);\n#if defined __stub_" ++ f ++ ascii " || defined __stub___" ++ f ++
    ascii "\nfail fail fail this function is not going to work\n#endif\nint main(void) { return " ++ f ++ ascii "(); }\n"

/-- The program that uses a builtin `b` for a function, given whether the prefix includes nothing and whether the
function is a builtin itself. -/
def builtinText (kw : Kw) (none builtin f b : Bytes) : Bytes :=
  lines kw ++ ascii "\nint main(void) {\n#if !" ++ none ++ ascii " && !defined(" ++ f ++ ascii ") && !" ++ builtin ++
    ascii "\n\t#error \"No definition for " ++ b ++ ascii " found in the prefix\"\n#endif\n#ifdef __has_builtin\n\t#if !__has_builtin(" ++ b ++
    ascii ")\n\t\t#error \"" ++ b ++ ascii " not found\"\n\t#endif\n#elif ! defined(" ++ f ++ ascii ")\n\t" ++ b ++ ascii ";\n#endif\nreturn 0;\n}\n"

def symbolText (kw : Kw) (h s : Bytes) : Bytes :=
  lines kw ++ ascii "\n#include <" ++ h ++
    ascii ">\nint main(void) {\n    /* If it's not defined as a macro, try to use as a symbol */\n    #ifndef " ++ s ++ ascii "\n        " ++ s ++
    ascii ";\n    #endif\n    return 0;\n}\n"
def usingText (kw : Kw) (h s : Bytes) : Bytes :=
  lines kw ++ ascii "\n#include <" ++ h ++ ascii ">\nusing " ++ s ++ ascii ";\nint main(void) {\n    return 0;\n}\n"

/-- What the preprocessor is given for a definition, and what separates its value in the output. -/
def marker : Bytes := ascii "MUON_GET_DEFINE_DELIMITER\n"
def defineText (kw : Kw) (d : Bytes) : Bytes :=
  lines kw ++ ascii "\n#ifndef " ++ d ++ ascii "\n#define " ++ d ++ ascii "\n#endif \n" ++ marker ++ d ++ [10]
def defineLine (E : Env) (kw : Kw) : List Bytes := command E kw .preprocess (testSource E) (Path.join E.priv (ascii "get_define_output"))

/-- The text of a literal on one line whose only escapes are those of quotes. -/
inductive Plain : Bytes → Prop
  | nil : Plain []
  | char {c : UInt8} {x : Bytes} : c ≠ 34 → c ≠ 92 → c ≠ 10 → Plain x → Plain (c :: x)
  | quote {x : Bytes} : Plain x → Plain (92 :: 34 :: x)

/-- String literals one after the other, each with the blanks before it. -/
def literals (l : List (Bytes × Bytes)) : Bytes := l.flatMap fun p => p.1 ++ [34] ++ p.2 ++ [34]

/-- A text in the form of a decimal number stands for it. -/
def Decimal (s : Bytes) (n : Int) : Prop :=
  ∃ ds : Bytes, ds ≠ [] ∧ (∀ c ∈ ds, isDigit c = true) ∧
    ((s = ds ∧ n = (ds.foldl (fun v c => v * 10 + (c.toNat - 48)) 0 : Nat)) ∨
     (s = 45 :: ds ∧ n = -((ds.foldl (fun v c => v * 10 + (c.toNat - 48)) 0 : Nat) : Int)))

end Muon.Probe.Spec
