import Verif.Base
/-
Model of the quoting of command line arguments and paths (src/platform/posix/path.c, src/args.c), and of the parts of
the embedded ninja implementation that read and write such text (src/external/samurai/scan.c, graph.c, env.c).

C strings are byte lists without the terminator; theorems assume that they contain no NUL.
-/
namespace Muon.Esc
open Muon

/-! ### Writing -/

/-- `need_escaping`, src/platform/posix/path.c:34: `"'$ \><&#` and newline. -/
def needEscaping : Bytes := [34, 39, 36, 32, 92, 62, 60, 38, 35, 10]

/-- `shell_escape`, src/platform/posix/path.c:31-66: what is appended to the buffer. -/
def shellEscape (s : Bytes) : Bytes :=
  if s = [] then [39, 39]
  else if !s.any needEscaping.contains then s
  else [39] ++ s.flatMap (fun c => if c = 39 then [39, 92, 39, 39] else [c]) ++ [39]

/-- `simple_escape`, src/args.c:40-55. `bad`: the assertion about newlines fails. -/
def simpleEscape (need : Bytes) (esc : UInt8) : Bytes → Res Bytes
  | [] => .ok []
  | c :: s =>
    if need.contains c then
      match simpleEscape need esc s with
      | .ok r => .ok (esc :: c :: r)
      | e => e
    else if c = 10 then .bad
    else
      match simpleEscape need esc s with
      | .ok r => .ok (c :: r)
      | e => e

/-- `ninja_escape`, src/args.c:57-61. -/
def ninjaEscape (s : Bytes) : Res Bytes := simpleEscape [32, 58, 36] 36 s

/-- `shell_ninja_escape`, src/args.c:63-72. -/
def shellNinjaEscape (s : Bytes) : Res Bytes := simpleEscape [36, 10] 36 (shellEscape s)

/-- `pkgconf_escape`, src/args.c:74-78. -/
def pkgconfEscape (s : Bytes) : Res Bytes := simpleEscape [32] 92 s

/-- `join_args` with an escape function, src/args.c:88-129: `i` is the position, `len` the length of the array. -/
def joinArgsFrom (esc : Bytes → Res Bytes) (len : Nat) : Nat → List Bytes → Bytes → Res Bytes
  | _, [], o => .ok o
  | i, v :: vs, o =>
    match esc v with
    | .ok s => joinArgsFrom esc len (i + 1) vs (if i < len - 1 then o ++ s ++ [32] else o ++ s)
    | e => e

/-- `join_args_shell`, src/args.c:133-137. -/
def joinArgsShell (args : List Bytes) : Res Bytes := joinArgsFrom (fun s => .ok (shellEscape s)) args.length 0 args []
/-- `join_args_ninja`, src/args.c:139-143. -/
def joinArgsNinja (args : List Bytes) : Res Bytes := joinArgsFrom ninjaEscape args.length 0 args []
/-- `join_args_shell_ninja`, src/args.c:145-149. -/
def joinArgsShellNinja (args : List Bytes) : Res Bytes := joinArgsFrom shellNinjaEscape args.length 0 args []
/-- `join_args_pkgconf`, src/args.c:151-155. -/
def joinArgsPkgconf (args : List Bytes) : Res Bytes := joinArgsFrom pkgconfEscape args.length 0 args []

/-! ### samurai: quoting of `$in` and `$out` -/

/-- The characters `samu_nodepath` leaves unquoted, src/external/samurai/graph.c:100: `isalnum` (C locale) and `_+-./`. -/
def plainPathChar (c : UInt8) : Bool := isAlnum c || [95, 43, 45, 46, 47].contains c

/-- `samu_nodepath(ctx, n, true)`, src/external/samurai/graph.c:87-123, for the path `s` of the node (caching in
`n->shellpath` is left out). -/
def nodePath (s : Bytes) : Bytes :=
  if s.any (fun c => !plainPathChar c) then
    [39] ++ s.flatMap (fun c => if c = 39 then [c, 92, 39, 39] else [c]) ++ [39]
  else s

/-- The size `samu_nodepath` allocates for a quoted path (without the terminator), src/external/samurai/graph.c:105. -/
def nodePathSize (s : Bytes) : Nat := s.length + 2 + 3 * (s.filter (· = 39)).length

/-- `samu_pathlist`, src/external/samurai/env.c:147-171: `none` is NULL. The separator written after the last path is
overwritten by the terminator. -/
def pathList (sep : UInt8) (nodes : List Bytes) : Option Bytes :=
  match nodes with
  | [] => none
  | [n] => some (nodePath n)
  | ns => some ((ns.flatMap fun n => nodePath n ++ [sep]).dropLast)

/-! ### samurai: the scanner

The state of the scanner is the rest of the file, beginning with the current character `s->chr`. The byte 0xff is the
same as EOF in `s->chr` (`src` is an array of `char`, here signed). Line and column numbers are left out. -/

/-- `s->chr`; `none` is EOF. -/
def chr : Bytes → Option UInt8
  | [] => none
  | c :: _ => if c = 255 then none else some c

/-- `samu_newline`, src/external/samurai/scan.c:87-100. -/
def newline : Bytes → Res (Bool × Bytes)
  | 13 :: 10 :: r => .ok (true, r)
  | 13 :: _ => .error
  | 10 :: r => .ok (true, r)
  | r => .ok (false, r)

/-- `samu_space`, src/external/samurai/scan.c:102-128, with `samu_singlespace`: whether anything was skipped and what
follows. A `$` that does not end a line is put back; at the end of the file this makes it appear twice. -/
def space : Bytes → Res (Bool × Bytes)
  | 32 :: r => match space r with | .ok (_, r) => .ok (true, r) | e => e
  | 36 :: 10 :: r => match space r with | .ok (_, r) => .ok (true, r) | e => e
  | 36 :: 13 :: 10 :: r => match space r with | .ok (_, r) => .ok (true, r) | e => e
  | 36 :: 13 :: _ => .error
  | [36] => .ok (false, [36, 36])
  | r => .ok (false, r)

/-- `samu_issimplevar`, src/external/samurai/scan.c:75-79 (C locale; also for EOF and negative characters). -/
def isSimpleVar (c : UInt8) : Bool := isAlnum c || c == 95 || c == 45
/-- `samu_isvar`, src/external/samurai/scan.c:81-85. -/
def isVar (c : UInt8) : Bool := isSimpleVar c || c == 46

/-- `struct samu_evalstring`: a list of literal parts and variables. -/
inductive Part
  | lit (s : Bytes)
  | var (name : Bytes)
  deriving DecidableEq

/-- `if (buf.len > 0) samu_addstringpart(ctx, end, false)`. -/
def flush (parts : List Part) (buf : Bytes) : List Part := if buf = [] then parts else parts ++ [.lit buf]

/-- `samu_escape`, src/external/samurai/scan.c:233-269, after the `$`: parts, buffer and rest. -/
def escape (parts : List Part) (buf : Bytes) (r : Bytes) : Res (List Part × Bytes × Bytes) :=
  match r with
  | [] => .error
  | c :: r' =>
    if c = 36 ∨ c = 32 ∨ c = 58 then .ok (parts, buf ++ [c], r')
    else if c = 123 then
      match r'.dropWhile isVar with
      | 125 :: r'' => .ok (flush parts buf ++ [.var (r'.takeWhile isVar)], [], r'')
      | _ => .error
    else if c = 13 ∨ c = 10 then
      match newline r with
      | .ok (_, r) => match space r with | .ok (_, r) => .ok (parts, buf, r) | _ => .error
      | _ => .error
    else if r.takeWhile isSimpleVar = [] then .error
    else .ok (flush parts buf ++ [.var (r.takeWhile isSimpleVar)], [], r.dropWhile isSimpleVar)

/-- The loop of `samu_scanstring`, src/external/samurai/scan.c:272-295, up to `out:`. The first argument bounds the
number of iterations; `bad` is running out of it, which does not happen when it exceeds the length of the input
(`scanLoop_enough`). -/
def scanLoop (path : Bool) : Nat → List Part → Bytes → Bytes → Res (List Part × Bytes × Bytes)
  | 0, _, _, _ => .bad
  | fuel + 1, parts, buf, r =>
    match chr r with
    | none => .ok (parts, buf, r)
    | some c =>
      if c = 36 then
        match escape parts buf (r.drop 1) with
        | .ok (parts, buf, r) => scanLoop path fuel parts buf r
        | .error => .error
        | .bad => .bad
      else if c = 13 ∨ c = 10 then .ok (parts, buf, r)
      else if path ∧ (c = 58 ∨ c = 124 ∨ c = 32) then .ok (parts, buf, r)
      else scanLoop path fuel parts (buf ++ [c]) (r.drop 1)

/-- `samu_scanstring`, src/external/samurai/scan.c:271-305: the parts (NULL is the empty list) and the rest. -/
def scanString (path : Bool) (r : Bytes) : Res (List Part × Bytes) :=
  match scanLoop path (r.length + 1) [] [] r with
  | .ok (parts, buf, r) =>
    if path then
      match space r with
      | .ok (_, r) => .ok (flush parts buf, r)
      | _ => .error
    else .ok (flush parts buf, r)
  | .error => .error
  | .bad => .bad

/-- `samu_scanpaths`, src/external/samurai/scan.c:307-320: the paths added and the rest. The first argument bounds the
number of iterations. -/
def scanPathsLoop : Nat → Bytes → Res (List (List Part) × Bytes)
  | 0, _ => .bad
  | fuel + 1, r =>
    match scanString true r with
    | .ok ([], r) => .ok ([], r)
    | .ok (p, r) =>
      match scanPathsLoop fuel r with
      | .ok (ps, r) => .ok (p :: ps, r)
      | e => e
    | .error => .error
    | .bad => .bad

def scanPaths (r : Bytes) : Res (List (List Part) × Bytes) := scanPathsLoop (r.length + 1) r

/-- `samu_enveval` and `samu_merge`, src/external/samurai/env.c:86-123, for an environment giving the value of each
variable; unset variables are empty. -/
def envEval (env : Bytes → Option Bytes) (parts : List Part) : Bytes :=
  parts.flatMap fun
    | .lit s => s
    | .var v => (env v).getD []

end Muon.Esc
