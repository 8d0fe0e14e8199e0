import Verif.Path.Model
import Verif.Str.Model
/-
Model of the checks of a compiler object (`cc.has_header()`, `cc.sizeof()`, …) and of their cache,
src/functions/compiler.c:34-2107. Strings have no null bytes (`get_cstr` aborts muon on those). What is written to the
log is left out.
-/
namespace Muon.Probe
open Muon

/-- `enum compile_mode`, src/functions/compiler.c:34-39. -/
inductive Mode
  | preprocess | compile | link | run
  deriving DecidableEq, Repr

/-- `enum requirement_type`, include/coerce.h:10-14; `auto` also where the keyword is missing. -/
inductive Req
  | skip | required | auto
  deriving DecidableEq, Repr

/-- What a program did: `cmd_ctx`. -/
structure Run where
  status : Nat
  out : Bytes
  err : Bytes
  deriving DecidableEq, Repr

/-- Results of checks; `run none` is the result of a program that does not compile, `lib` a library with its path and
whether its directory was given, `noLib` a dependency that was not found. -/
inductive Val
  | bool (b : Bool)
  | num (n : Int)
  | str (s : Bytes)
  | run (r : Option Run)
  | strs (l : List Bytes)
  | lib (path : Bytes) (fromDirs : Bool)
  | noLib
  | disabler
  deriving DecidableEq, Repr

/-- What a caller makes of a check: `compiler_check` alone; `sizeof`; `alignment` and `compute_int`; `run`; `get_define`. -/
inductive Kind
  | plain | size | int | run | define
  deriving DecidableEq, Repr

/-- A check: the command line, the version of the compiler, the source, or the path of it. -/
structure Check where
  args : List Bytes
  ver : Option Bytes
  src : Bytes
  isPath : Bool
  mode : Mode
  kind : Kind
  req : Req
  deriving DecidableEq, Repr

/-- What compilers do: the status of a command, given the text of the source (`none` if it cannot be started); what the
program that was made does; the file that was made, for `get_define`; and the source files. -/
structure World where
  cc : List Bytes → Bytes → Option Nat
  exe : List Bytes → Bytes → Option Run
  out : List Bytes → Bytes → Option Bytes
  file : Bytes → Bytes

/-- The arguments as one string without the last NUL: `join_args_argstr`, src/args.c:280-291, and the length in
src/functions/compiler.c:134-147. -/
def argstr : List Bytes → Bytes
  | [] => []
  | [a] => a
  | a :: b :: l => a ++ [0] ++ argstr (b :: l)

/-- The key of a check, src/functions/compiler.c:149-167; `H` is SHA-256 (Verif/Sha). -/
def key (H : Bytes → Bytes) (c : Check) : Bytes :=
  H (H (argstr c.args) ++ (match c.ver with
    | some v => H v
    | none => List.replicate 32 0) ++ H c.src)

/-- `wk->compiler_check_cache`: the result and the value, which the caller stores. -/
abbrev Cache := Bytes → Option (Bool × Option Val)

/-- `set_compiler_cache`, src/functions/compiler.c:189-212. -/
def Cache.set (m : Cache) (k : Bytes) (e : Bool × Option Val) : Cache := fun q => if q = k then some e else m q

/-- What `compiler_check` comes to: an error, or its result, with what the program did. -/
inductive Out
  | fail | no | yes (r : Run)
  deriving DecidableEq, Repr

/-- `skip_run_check`. -/
def skipRun (k : Kind) : Bool := k = .size || k = .run

/-- The text the compiler reads. -/
def textOf (W : World) (c : Check) : Bytes := if c.isPath then W.file c.src else c.src

/-- `compiler_check` from where the command is run, src/functions/compiler.c:350-388. -/
def attempt (W : World) (c : Check) : Out :=
  match W.cc c.args (textOf W c) with
  | none => .fail
  | some st =>
    if c.mode = .run then
      if st ≠ 0 then (if skipRun c.kind then .no else .fail)
      else match W.exe c.args (textOf W c) with
        | none => .fail
        | some r => if !skipRun c.kind && r.status ≠ 0 then .fail else .yes r
    else if st = 0 then .yes ⟨0, [], []⟩ else .no

/-- `compiler_check_parse_output_int`, src/functions/compiler.c:400-412. -/
def parseInt (s : Bytes) : Int :=
  if (Str.strtol s).2 = s.length then (Str.strtol s).1 else -1

/-- The delimiter of `get_define`. -/
def delim : Bytes := ascii "MUON_GET_DEFINE_DELIMITER\n"

/-- The output after the delimiter, src/functions/compiler.c:1182-1194. -/
def afterDelim : Bytes → Option Bytes
  | [] => none
  | c :: s => if delim.isPrefixOf (c :: s) then some ((c :: s).drop delim.length) else afterDelim s

/-- The blanks between two literals, src/functions/compiler.c:1206-1210; `strchr` finds the NUL as well. -/
def isBlank (c : UInt8) : Bool := c == 9 || c == 32 || c == 0

/-- The rest of the loop, src/functions/compiler.c:1182-1232; the first argument is at least the length of the text. -/
def scan : Nat → Bool → Bool → Bool → Bytes → Bytes
  | 0, _, _, _, _ => []
  | _ + 1, _, _, _, [] => []
  | n + 1, quoted, esc, joining, c :: s =>
    if c = 34 then
      if esc then c :: scan n quoted false joining s
      else if quoted || joining then
        match s.dropWhile isBlank with
        | 34 :: [] => [0]
        | 34 :: d :: r => if d = 10 then [] else d :: scan n (!quoted) esc true r
        | _ => c :: scan n (!quoted) esc joining s
      else c :: scan n (!quoted) esc joining s
    else if c = 92 then c :: scan n quoted true joining s
    else if c = 10 then []
    else c :: scan n quoted esc joining s

/-- The value of a definition, src/functions/compiler.c:1175-1232. -/
def defineOf (t : Bytes) : Bytes :=
  match afterDelim t with
  | none => []
  | some s => scan s.length false false false s

/-- `get_define` on the output, src/functions/compiler.c:1170-1236. -/
def defineVal (W : World) (c : Check) : Option Val := (W.out c.args (textOf W c)).map fun t => .str (defineOf t)

/-- What the caller makes of a check that was carried out: `compiler_check` on its own with `required`
(src/functions/compiler.c:390-397), and src/functions/compiler.c:549-568, 603-613, 652-662, 1637-1663, 1158-1241. -/
def answer (W : World) (c : Check) : Out → Res Val
  | .fail => if c.kind = .size then .ok (.num (-1)) else .error
  | .no =>
    match c.kind with
    | .plain => if c.req = .required then .error else .ok (.bool false)
    | .size => .ok (.num (-1))
    | .int => .error
    | .run => .ok (.run none)
    | .define => .error
  | .yes r =>
    match c.kind with
    | .plain => .ok (.bool true)
    | .size => .ok (.num (parseInt r.out))
    | .int => .ok (.num (parseInt r.out))
    | .run => .ok (.run (some r))
    | .define =>
      match defineVal W c with
      | none => .error
      | some v => .ok v

/-- What is stored after a check that was carried out: by `compiler_check` (src/functions/compiler.c:385-387, where a
program that does not compile is not stored) and then by the caller. -/
def entry (W : World) (c : Check) : Out → Option (Bool × Option Val)
  | .fail => if c.kind = .size then some (true, some (.num (-1))) else none
  | .no =>
    match c.kind with
    | .plain => if c.mode = .run then none else some (false, none)
    | .size => some (true, some (.num (-1)))
    | .int => if c.mode = .run then none else some (false, none)
    | .run => some (false, some (.run none))
    | .define => if c.mode = .run then none else some (false, none)
  | .yes r =>
    match c.kind with
    | .plain => some (true, none)
    | .size => some (true, some (.num (parseInt r.out)))
    | .int => some (true, some (.num (parseInt r.out)))
    | .run => some (true, some (.run (some r)))
    | .define => some (true, defineVal W c)

/-- What the caller makes of an entry of the cache; `get_obj_number` and `get_cstr` abort on objects of other types.
An entry without a value, which `run` would return as the object 0, is taken for the same. -/
def recall (k : Kind) (e : Bool × Option Val) : Res Val :=
  match k with
  | .plain => .ok (.bool e.1)
  | .size =>
    match e.2 with
    | some (.num n) => .ok (.num n)
    | _ => .bad
  | .int =>
    if !e.1 then .error
    else match e.2 with
      | some (.num n) => .ok (.num n)
      | _ => .bad
  | .run =>
    match e.2 with
    | some v => .ok v
    | none => .bad
  | .define =>
    if !e.1 then .error
    else match e.2 with
      | some (.str s) => .ok (.str s)
      | _ => .bad

/-- A check, src/functions/compiler.c:214-398, with what its caller does. -/
def perform (H : Bytes → Bytes) (W : World) (m : Cache) (c : Check) : Res Val × Cache :=
  if c.req = .skip then (.ok (.bool false), m)
  else match m (key H c) with
    | some e => (recall c.kind e, m)
    | none =>
      (answer W c (attempt W c), match entry W c (attempt W c) with
        | none => m
        | some e => m.set (key H c) e)

/-- A function of compiler objects: it makes checks, one after the other, and goes on with the result, or with `none` if
the check was an error. -/
inductive Prog
  | ret (v : Val)
  | fail
  | ask (c : Check) (k : Option Val → Prog)

/-- Running one. -/
def exec (H : Bytes → Bytes) (W : World) : Prog → Cache → Res Val × Cache
  | .ret v, m => (.ok v, m)
  | .fail, m => (.error, m)
  | .ask c k, m =>
    match perform H W m c with
    | (.ok v, m') => exec H W (k (some v)) m'
    | (.error, m') => exec H W (k none) m'
    | (.bad, m') => (.bad, m')

/-- The calls of a run of muon, one after the other. -/
def execAll (H : Bytes → Bytes) (W : World) : List Prog → Cache → List (Res Val) × Cache
  | [], m => ([], m)
  | p :: ps, m => ((exec H W p m).1 :: (execAll H W ps (exec H W p m).2).1, (execAll H W ps (exec H W p m).2).2)

/-! ### The functions -/

/-- A compiler in a project: its command, the arguments for the standard, of the options for linking and compiling,
whether it is one for C++, its version, the arguments of the modes, those for an output and for include directories, those
that make warnings errors, the directory for tests, the extensions of sources and objects, the tests for attributes
(src/functions/compiler.c:673-818), and the directories with libraries. -/
structure Env where
  cmd : List Bytes
  std : List Bytes
  linkOpt : List Bytes
  compileOpt : List Bytes
  cpp : Bool
  ver : Option Bytes
  modeArgs : Mode → List Bytes
  output : Bytes → List Bytes
  includes : List Bytes → List Bytes
  werror : List Bytes
  priv : Bytes
  ext : Bytes
  objExt : Bytes
  attr : Bytes → Option Bytes
  libdirs : List Bytes

/-- The keywords: `args`; of `dependencies` the arguments and directories they stand for (`dep_process_deps`,
`setup_linker_args`); `include_directories`; `prefix`; `required`. -/
structure Kw where
  args : List Bytes := []
  depCompile : List Bytes := []
  depIncludes : List Bytes := []
  depLink : List Bytes := []
  includes : List Bytes := []
  pre : List Bytes := []
  req : Req := .auto

/-- The command line, src/functions/compiler.c:233-324. -/
def command (E : Env) (kw : Kw) (mode : Mode) (source output : Bytes) : List Bytes :=
  E.cmd ++ E.std ++ (if E.cpp then [ascii "-fpermissive"] else []) ++
  (if mode = .run ∨ mode = .link then E.linkOpt else []) ++
  (if mode = .preprocess then [] else E.compileOpt) ++
  kw.depCompile ++ E.includes (kw.includes ++ kw.depIncludes) ++
  E.modeArgs mode ++ [source] ++ E.output output ++ kw.depLink ++ kw.args

/-- The source that is written, and the output, src/functions/compiler.c:282-308. -/
def testSource (E : Env) : Bytes := Path.join E.priv (ascii "test.") ++ E.ext
def testOutput (E : Env) (mode : Mode) : Bytes :=
  if mode = .run then Path.join E.priv (ascii "compiler_check_exe")
  else Path.join E.priv (ascii "test.") ++ E.ext ++ E.objExt

/-- A check of a text. -/
def check (E : Env) (kw : Kw) (mode : Mode) (kind : Kind) (src : Bytes) : Check :=
  ⟨command E kw mode (testSource E) (testOutput E mode), E.ver, src, false, mode, kind, kw.req⟩

/-- A check of a file. -/
def checkFile (E : Env) (kw : Kw) (mode : Mode) (kind : Kind) (path : Bytes) : Check :=
  ⟨command E kw mode path (testOutput E mode), E.ver, path, true, mode, kind, kw.req⟩

/-- `snprintf` into 4096 bytes. -/
def fit (s : Bytes) : Bytes := s.take 4095

/-- `compiler_check_prefix`, src/functions/compiler.c:508-522. -/
def prefixOf : List Bytes → Bytes
  | [] => []
  | [a] => a
  | a :: b :: l => a ++ [10] ++ prefixOf (b :: l)

/-- The result of a check is the result of the function. -/
def orFail : Option Val → Prog
  | some v => .ret v
  | none => .fail

/-- A function that makes one check. -/
def single (c : Check) : Prog := .ask c orFail

/-- `sizeof`, src/functions/compiler.c:524-575. -/
def sizeof (E : Env) (kw : Kw) (t : Bytes) : Prog :=
  single (check E kw .run .size (fit (ascii "#include <stdio.h>\n" ++ prefixOf kw.pre ++
    ascii "\nint main(void) { printf(\"%ld\", (long)(sizeof(" ++ t ++ ascii "))); return 0; }\n")))

/-- `alignment`, src/functions/compiler.c:577-623. -/
def alignment (E : Env) (kw : Kw) (t : Bytes) : Prog :=
  single (check E kw .run .int (fit (ascii "#include <stdio.h>\n#include <stddef.h>\n" ++ prefixOf kw.pre ++
    ascii "\nstruct tmp { char c; " ++ t ++
    ascii " target; };\nint main(void) { printf(\"%d\", (int)(offsetof(struct tmp, target))); return 0; }\n")))

/-- `compute_int`, src/functions/compiler.c:625-671. -/
def computeInt (E : Env) (kw : Kw) (e : Bytes) : Prog :=
  single (check E kw .run .int (fit (ascii "#include <stdio.h>\n" ++ prefixOf kw.pre ++
    ascii "\nint main(void) {\nprintf(\"%ld\", (long)(" ++ e ++ ascii "));\n}\n")))

/-- `compiler_has_function_attribute`, src/functions/compiler.c:820-845. -/
def attrCheck (E : Env) (t : Bytes) : Check := check E {} .compile .plain t

/-- `has_function_attribute`, src/functions/compiler.c:847-863. -/
def hasAttribute (E : Env) (a : Bytes) : Prog :=
  match E.attr a with
  | none => .fail
  | some t => single (attrCheck E t)

/-- The arguments for which a check is passed, in order: `get_supported_function_attributes`,
src/functions/compiler.c:865-904, and `get_supported_arguments`, src/functions/compiler.c:1710-1793. The second argument
is what was found so far. -/
def supported (test : Bytes → Option Check) : List Bytes → List Bytes → Prog
  | [], acc => .ret (.strs acc)
  | a :: l, acc =>
    match test a with
    | none => .fail
    | some c => .ask c fun
      | some (.bool true) => supported test l (acc ++ [a])
      | some _ => supported test l acc
      | none => .fail

/-- `get_supported_function_attributes`. -/
def supportedAttributes (E : Env) (l : List Bytes) : Prog := supported (fun a => (E.attr a).map (attrCheck E)) l []

/-- `strstr(prefix, "#include")`. -/
def hasInclude : Bytes → Bool
  | [] => false
  | c :: s => (ascii "#include").isPrefixOf (c :: s) || hasInclude s

/-- The first program of `has_function`, src/functions/compiler.c:927-964. -/
def functionText (pre f : Bytes) : Bytes :=
  if hasInclude pre then
    fit (pre ++ ascii "\n#include <limits.h>\n#if defined __stub_" ++ f ++ ascii " || defined __stub___" ++ f ++
      ascii "\nfail fail fail this function is not going to work\n#endif\nint main(void) {\nvoid *a = (void*) &" ++ f ++
      ascii ";\nlong long b = (long long) a;\nreturn (int) b;\n}\n")
  else
    fit (ascii "#define " ++ f ++ ascii " muon_disable_define_of_" ++ f ++ [10] ++ pre ++
      ascii "\n#include <limits.h>\n#undef " ++ f ++ ascii "\n#ifdef __cplusplus\nextern \"C\"\n#endif\nchar " ++ f ++
      ascii " (void);\n#if defined __stub_" ++ f ++ ascii " || defined __stub___" ++ f ++
      ascii "\nfail fail fail this function is not going to work\n#endif\nint main(void) { return " ++ f ++ ascii "(); }\n")

/-- `%d` of a truth value. -/
def digit (b : Bool) : Bytes := if b then [49] else [48]

/-- The second one, src/functions/compiler.c:971-1004. -/
def builtinText (pre f : Bytes) : Bytes :=
  let isBuiltin := (ascii "__builtin_").isPrefixOf f
  let b := (if isBuiltin then [] else ascii "__builtin_") ++ f
  fit (pre ++ ascii "\nint main(void) {\n#if !" ++ digit (!hasInclude pre) ++ ascii " && !defined(" ++ f ++ ascii ") && !" ++ digit isBuiltin ++
    ascii "\n\t#error \"No definition for " ++ b ++ ascii " found in the prefix\"\n#endif\n#ifdef __has_builtin\n\t#if !__has_builtin(" ++ b ++
    ascii ")\n\t\t#error \"" ++ b ++ ascii " not found\"\n\t#endif\n#elif ! defined(" ++ f ++ ascii ")\n\t" ++ b ++ ascii ";\n#endif\nreturn 0;\n}\n")

/-- `has_function`, src/functions/compiler.c:906-1021. -/
def hasFunction (E : Env) (kw : Kw) (f : Bytes) : Prog :=
  .ask (check E kw .link .plain (functionText (prefixOf kw.pre) f)) fun
    | some (.bool false) => single (check E kw .link .plain (builtinText (prefixOf kw.pre) f))
    | r => orFail r

/-- `compiler_has_header_symbol_c`, src/functions/compiler.c:1023-1050. -/
def symbolC (pre h s : Bytes) : Bytes :=
  fit (pre ++ ascii "\n#include <" ++ h ++
    ascii ">\nint main(void) {\n    /* If it's not defined as a macro, try to use as a symbol */\n    #ifndef " ++ s ++ ascii "\n        " ++ s ++
    ascii ";\n    #endif\n    return 0;\n}\n")

/-- `compiler_has_header_symbol_cpp`, src/functions/compiler.c:1052-1075. -/
def symbolCpp (pre h s : Bytes) : Bytes :=
  fit (pre ++ ascii "\n#include <" ++ h ++ ascii ">\nusing " ++ s ++ ascii ";\nint main(void) {\n    return 0;\n}\n")

/-- `has_header_symbol`, src/functions/compiler.c:1077-1128. -/
def hasSymbol (E : Env) (kw : Kw) (h s : Bytes) : Prog :=
  .ask (check E kw .compile .plain (symbolC (prefixOf kw.pre) h s)) fun
    | some (.bool false) =>
      if E.cpp then single (check E kw .compile .plain (symbolCpp (prefixOf kw.pre) h s)) else .ret (.bool false)
    | r => orFail r

/-- `compiler_get_define`, src/functions/compiler.c:1130-1155. -/
def getDefine (E : Env) (kw : Kw) (d : Bytes) : Prog :=
  single ⟨command E kw .preprocess (testSource E) (Path.join E.priv (ascii "get_define_output")), E.ver,
    fit (prefixOf kw.pre ++ ascii "\n#ifndef " ++ d ++ ascii "\n#define " ++ d ++ ascii "\n#endif \n" ++ delim ++ d ++ [10]), false,
    .preprocess, .define, kw.req⟩

/-- `compiles` and `links`, src/functions/compiler.c:1283-1361. -/
def checkText (E : Env) (kw : Kw) (mode : Mode) (text : Bytes) : Prog := single (check E kw mode .plain text)
def checkPath (E : Env) (kw : Kw) (mode : Mode) (path : Bytes) : Prog := single (checkFile E kw mode .plain path)

/-- `run`, src/functions/compiler.c:1599-1668. -/
def runText (E : Env) (kw : Kw) (text : Bytes) : Prog := single (check E kw .run .run text)
def runPath (E : Env) (kw : Kw) (path : Bytes) : Prog := single (checkFile E kw .run .run path)

/-- `compiler_check_header`, src/functions/compiler.c:1363-1403. -/
def headerCheck (E : Env) (kw : Kw) (mode : Mode) (h : Bytes) : Check :=
  check E kw mode .plain (fit (prefixOf kw.pre ++ ascii "\n#include <" ++ h ++ ascii ">\nint main(void) {}\n"))

/-- `has_header`, `check_header`, src/functions/compiler.c:1405-1434. -/
def hasHeader (E : Env) (kw : Kw) (h : Bytes) : Prog := single (headerCheck E kw .preprocess h)
def checkHeader (E : Env) (kw : Kw) (h : Bytes) : Prog := single (headerCheck E kw .compile h)

/-- `has_type`, src/functions/compiler.c:1436-1474. -/
def hasType (E : Env) (kw : Kw) (t : Bytes) : Prog :=
  single (check E kw .compile .plain (fit (prefixOf kw.pre ++ ascii "\nvoid bar(void) { sizeof(" ++ t ++ ascii "); }\n")))

/-- `compiler_has_member`, src/functions/compiler.c:1476-1506. -/
def memberCheck (E : Env) (kw : Kw) (t f : Bytes) : Check :=
  check E kw .compile .plain (fit (prefixOf kw.pre ++ ascii "\nvoid bar(void) {\n" ++ t ++ ascii " foo;\nfoo." ++ f ++ ascii ";\n}\n"))

/-- `has_member`, src/functions/compiler.c:1508-1530. -/
def hasMember (E : Env) (kw : Kw) (t f : Bytes) : Prog := single (memberCheck E kw t f)

/-- The loop of `has_members`, src/functions/compiler.c:1540-1561. -/
def membersFrom (E : Env) (kw : Kw) (t : Bytes) : List Bytes → Prog
  | [] => .ret (.bool true)
  | f :: l => .ask (memberCheck E kw t f) fun
    | some (.bool false) => .ret (.bool false)
    | some _ => membersFrom E kw t l
    | none => .fail

/-- `has_members`, src/functions/compiler.c:1563-1597. -/
def hasMembers (E : Env) (kw : Kw) (t : Bytes) (l : List Bytes) : Prog :=
  match l with
  | [] => .fail
  | f :: l => membersFrom E kw t (f :: l)

/-- `compiler_has_argument`, src/functions/compiler.c:1670-1708. -/
def argCheck (E : Env) (mode : Mode) (l : List Bytes) : Check :=
  check E { args := l ++ E.werror } mode .plain (ascii "int main(void){}\n")

/-- `has_argument`, `has_multi_arguments` and those for links, src/functions/compiler.c:1733-1773. -/
def hasArguments (E : Env) (mode : Mode) (l : List Bytes) : Prog := single (argCheck E mode l)

/-- `get_supported_arguments`, `get_supported_link_arguments`, src/functions/compiler.c:1775-1805. -/
def supportedArguments (E : Env) (mode : Mode) (l : List Bytes) : Prog := supported (fun a => some (argCheck E mode [a])) l []

/-- `first_supported_argument`, `first_supported_link_argument`, src/functions/compiler.c:1807-1856. -/
def firstSupported (E : Env) (mode : Mode) : List Bytes → Prog
  | [] => .ret (.strs [])
  | a :: l => .ask (argCheck E mode [a]) fun
    | some (.bool true) => .ret (.strs [a])
    | some _ => firstSupported E mode l
    | none => .fail

/-- The files a library may be in, in the order in which they are tried in a directory,
src/functions/compiler.c:1913-1942. -/
def libNames (static : Bool) (n : Bytes) : List Bytes :=
  (if static then [ascii ".a"] else [ascii ".so", ascii ".a"]).flatMap fun suf =>
    [ascii "", ascii "lib"].map fun pre => pre ++ n ++ suf

/-- The first file there is. -/
def libIn (there : Bytes → Bool) (static : Bool) (n : Bytes) (dirs : List Bytes) : Option Bytes :=
  (dirs.flatMap fun d => (libNames static n).map (Path.join d)).find? there

/-- The checks of headers, src/functions/compiler.c:1951-1963 and 2066-2070: the result of the loop is not looked at, so
that an error ends it, with the result so far. -/
def headersFrom (E : Env) (kw : Kw) (cont : Bool → Prog) : List Bytes → Bool → Prog
  | [], ok => cont ok
  | h :: l, ok => .ask (headerCheck E kw .preprocess h) fun
    | some (.bool b) => headersFrom E kw cont l (ok && b)
    | some _ => headersFrom E kw cont l ok
    | none => cont ok

/-- `find_library` without the library, src/functions/compiler.c:2076-2086. -/
def libMissing (req : Req) (disabler : Bool) : Prog :=
  if req = .required then .fail else if disabler then .ret .disabler else .ret .noLib

/-- `find_library`, src/functions/compiler.c:1965-2107; `req` is `required` where the keyword is missing. -/
def findLibrary (E : Env) (there : Bytes → Bool) (req : Req) (static disabler : Bool) (dirs headers : List Bytes) (kw : Kw) (n : Bytes) : Prog :=
  if req = .skip then .ret .noLib
  else match libIn there static n dirs, libIn there static n E.libdirs with
    | some p, _ => headersFrom E kw (fun ok => if ok then .ret (.lib p true) else libMissing req disabler) headers true
    | none, some p => headersFrom E kw (fun ok => if ok then .ret (.lib p false) else libMissing req disabler) headers true
    | none, none => libMissing req disabler

end Muon.Probe
