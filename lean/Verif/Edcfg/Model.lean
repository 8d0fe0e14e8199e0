import Verif.Lex.Model
import Verif.Path.Model
/-
`.editorconfig` files, which say how `muon fmt` indents: src/formats/editorconfig.c.

A pointer into the section is what follows it in the buffer: the rest of the section, a NUL byte, and what is in the buffer after
it. A pointer into the path is the rest of the path, without the NUL byte at its end. Reading after the end of the buffer, or
moving after the NUL byte of the path, is `bad`; so is running out of fuel.
-/
namespace Muon.Edcfg
open Muon

/-- `struct editorconfig_pat`, editorconfig.c:27-43. -/
inductive Pat
  | lit (c : UInt8)
  | any
  | cls (neg : Bool) (pat : Bytes) (len : Nat)
  | alt (pat : Bytes) (len : Nat)
  | num
  | glob (slash : Bool)
deriving DecidableEq, Repr

/-- `strchr`: where the byte is, before the NUL byte. -/
def strchr (c : UInt8) : Bytes → Option Nat
  | [] => none
  | x :: s => if x = c then some 0 else if x = 0 then none else (strchr c s).map (· + 1)

/-- `strlen`. -/
def strlen (s : Bytes) : Nat := (s.takeWhile (· ≠ 0)).length

/-- `strstr(pat, "..")`. -/
def hasDots : Bytes → Bool
  | 46 :: 46 :: _ => true
  | x :: s => if x = 0 then false else hasDots s
  | [] => false

/-- `editorconfig_parse_pat` after `[`, editorconfig.c:62-78; `len` has 32 bits. -/
def parseClass (neg : Bool) (p : Bytes) : Pat × Bytes :=
  match strchr 93 p with
  | some k => (.cls neg p ((k + 2 ^ 32 - 1) % 2 ^ 32), p.drop (((k + 2 ^ 32 - 1) % 2 ^ 32 + 1) % 2 ^ 32))
  | none => (.cls neg p (strlen p), p.drop (strlen p + 1))

/-- `editorconfig_parse_pat` after `{`, editorconfig.c:79-95. -/
def parseAlt (p : Bytes) : Pat × Bytes :=
  let len := match strchr 125 p with
    | some k => k
    | none => strlen p
  (if hasDots p then .num else .alt p len, p.drop (len + 1))

/-- `editorconfig_parse_pat`, editorconfig.c:45-107. -/
def parsePat : Bytes → Res (Pat × Bytes)
  | [] => .bad
  | c :: r =>
    if c = 92 then match r with
      | [] => .bad
      | x :: r' => .ok (.lit x, r')
    else if c = 42 then match r with
      | 42 :: r' => .ok (.glob true, r')
      | _ => .ok (.glob false, r)
    else if c = 91 then match r with
      | 33 :: r' => .ok (parseClass true r')
      | _ => .ok (parseClass false r)
    else if c = 123 then .ok (parseAlt r)
    else if c = 63 then .ok (.any, r)
    else .ok (.lit c, r)

/-- `strnchr`, editorconfig.c:109-120: it looks at the first byte again and again. -/
def strnchr (s : Bytes) (c : UInt8) (len : Nat) : Bool := decide (0 < len) && s.headD 0 == c

/-- `strncmp(path, part, len) == 0`. -/
def strncmpEq (n : Nat) : Bytes → Bytes → Bool
  | [], part => n == 0 || part.headD 0 == 0
  | c :: p, part => n == 0 || part.headD 0 == c && strncmpEq (n - 1) p part.tail

/-- `path + 1`. -/
def step (path : Bytes) (consume : Bool) : Res (Option (Bytes × Bool)) :=
  match path with
  | [] => .bad
  | _ :: p => .ok (some (p, consume))

/-- The loop over the parts between commas, editorconfig.c:157-180; `off` is the distance of the part from the first one. -/
def altLoop (path : Bytes) (len : Nat) : Nat → Bytes → Nat → Res (Option (Bytes × Bool))
  | 0, _, _ => .bad
  | f + 1, part, off =>
    let e := strchr 44 part
    let n := match e with
      | some k => k
      | none => (len + 2 ^ 32 - off) % 2 ^ 32
    if strncmpEq n path part then (if n ≤ path.length then .ok (some (path.drop n, true)) else .bad)
    else match e with
      | none => .ok none
      | some k => altLoop path len f (part.drop (k + 1)) (off + k + 1)

mutual

/-- `editorconfig_pat_match`, editorconfig.c:125-222: the rest of the path and `consume_pattern`; nothing if it does not match. -/
def patMatch : Nat → Pat → Bytes → Bytes → Res (Option (Bytes × Bool))
  | 0, _, _, _ => .bad
  | f + 1, pat, path, c =>
    match pat with
    | .lit x => if path.headD 0 = x then step path true else .ok none
    | .any => if path = [] then .ok none else step path true
    | .cls neg p len => if strnchr p (path.headD 0) len != neg then step path true else .ok none
    | .alt p len => altLoop path len (p.length + 1) p 0
    | .num => .ok none
    | .glob slash =>
      parsePat c >>= fun n => look f n.1 path n.2 >>= fun r =>
        if r = some [] then .ok (some (path, true))
        else if path.headD 0 = 47 && !slash then .ok none
        else step path false

/-- The loop which tries the patterns after `*`, editorconfig.c:189-199: the last `new_path`. -/
def look : Nat → Pat → Bytes → Bytes → Res (Option Bytes)
  | 0, _, _, _ => .bad
  | f + 1, next, sub, c =>
    patMatch f next sub c >>= fun r => match r with
      | none => .ok none
      | some (np, consume) =>
        if np = [] then .ok (some [])
        else if consume then parsePat c >>= fun n => look f n.1 np n.2
        else look f next np c

end

/-- Is the pattern at its end? editorconfig.c:264. -/
def fin (c : Bytes) : Res Bool :=
  match c with
  | [] => .bad
  | x :: _ => .ok (decide (x = 0))

/-- The loop of `editorconfig_cfg_parse_cb`, editorconfig.c:242-266: does the section match? -/
def mainLoop : Nat → Pat → Bytes → Bytes → Res Bool
  | 0, _, _, _ => .bad
  | f + 1, cur, c, path =>
    patMatch f cur path c >>= fun r => match r with
      | none => .ok false
      | some (np, consume) =>
        (if consume then parsePat c else .ok (cur, c)) >>= fun n =>
          if np = [] then fin n.2
          else mainLoop f n.1 n.2 np

/-- Matching a section, editorconfig.c:242-266; `after` is what is in the buffer after the NUL byte at the end of the section. -/
def sectMatch (fuel : Nat) (sect after path : Bytes) : Res Bool := mainLoop fuel (.glob true) (sect ++ 0 :: after) path

/-! ### Settings -/

/-- A pair of key and value in a file, and its section. -/
structure Pair where
  sect : Option (Bytes × Bytes)
  key : Bytes
  val : Bytes
deriving DecidableEq, Repr

/-- `struct parse_editorconfig_ctx`, editorconfig.c:21-25, without the path. -/
structure Ctx where
  root : Bool := false
  matched : Bool := false
  style : Option Bytes := none
  size : Option Bytes := none
  width : Option Bytes := none
deriving DecidableEq, Repr

/-- `editorconfig_cfg_parse_cb`, editorconfig.c:224-279. -/
def pair (fuel : Nat) (path : Bytes) (x : Ctx) (p : Pair) : Res Ctx :=
  match p.sect with
  | none => .ok (if p.key = ascii "root" ∧ p.val = ascii "true" then { x with root := true } else x)
  | some (s, after) => sectMatch fuel s after path >>= fun b =>
    if !b then .ok x
    else if p.key = ascii "indent_style" then .ok { x with matched := true, style := some p.val }
    else if p.key = ascii "indent_size" then .ok { x with matched := true, size := some p.val }
    else if p.key = ascii "tab_width" then .ok { x with matched := true, width := some p.val }
    else .ok { x with matched := true }

/-- All pairs of a file. -/
def pairs (fuel : Nat) (path : Bytes) : List Pair → Ctx → Res Ctx
  | [], x => .ok x
  | p :: l, x => pair fuel path x p >>= pairs fuel path l

/-- What was found so far: `indent_style`, `indent_size` and `tab_width`, editorconfig.c:291. -/
structure Found where
  style : Option Bytes := none
  size : Option Bytes := none
  width : Option Bytes := none
deriving DecidableEq, Repr

/-- Adding what a file says, editorconfig.c:314-326. -/
def merge (x : Ctx) (g : Found) : Found :=
  if x.matched then { style := g.style.or x.style, size := g.size.or x.size, width := g.width.or x.width } else g

/-- The loop over the directories, editorconfig.c:297-339, for the files in them, the nearest first: no file, a file that cannot be
read, or its pairs. The result is nothing if a file could not be read. -/
def search (fuel : Nat) (path : Bytes) : List (Option (Option (List Pair))) → Found → Res (Option Found)
  | [], g => .ok (some g)
  | none :: l, g => search fuel path l g
  | some none :: _, _ => .ok none
  | some (some ps) :: l, g => pairs fuel path ps {} >>= fun x =>
    if x.root then .ok (some (merge x g)) else search fuel path l (merge x g)

/-- `strtol(indent_size, NULL, 10)` as a number of 32 bits, editorconfig.c:364. -/
def columns (s : Bytes) : Nat :=
  match Lex.strtol 10 s with
  | some (n, _) => ((max (-2 ^ 63) (min (2 ^ 63 - 1) n)) % 2 ^ 32).toNat
  | none => 0

/-- `indent_size`, editorconfig.c:341-359. -/
def sizeText (g : Found) : Bytes :=
  let size := g.size.getD (if g.style.getD (ascii "space") = ascii "tab" then ascii "1" else ascii "4")
  if size = ascii "tab" then g.width.getD (ascii "8") else size

/-- The text to indent by, editorconfig.c:361-373: `error` if the assertion fails, `bad` if it is longer than the buffer of 1024
bytes. -/
def indentBy (g : Found) : Res Bytes :=
  let cols := columns (sizeText g)
  if !decide ((cols + 1) % 2 ^ 32 < 1024) then .error
  else if cols + 1 > 1024 then .bad
  else .ok (List.replicate cols (if g.style.getD (ascii "space") = ascii "tab" then 9 else 32))

/-- The directories in which the loop looks, editorconfig.c:289, 333-338; `wd` is the current one. -/
def dirsUp : Nat → Bytes → List Bytes
  | 0, wd => [wd]
  | n + 1, wd => if wd.length = 1 then [wd] else wd :: dirsUp n (Path.dirname wd)

/-- The paths of the files which are looked for, for an absolute path, editorconfig.c:287-298. -/
def cfgPaths (path : Bytes) : List Bytes :=
  (dirsUp path.length (Path.dirname path)).map fun d => Path.join d (ascii ".editorconfig")

/-- `try_parse_editorconfig`, editorconfig.c:281-373: `file` gives the file at a path. The result is what `muon fmt` indents by if
it says so. -/
def tryParse (fuel : Nat) (file : Bytes → Option (Option (List Pair))) (path : Bytes) : Res (Option Bytes) :=
  search fuel path ((cfgPaths path).map file) {} >>= fun g => match g with
    | none => .ok none
    | some g => indentBy g >>= fun b => .ok (some b)

/-- What `muon fmt` indents by before it reads its own configuration, src/lang/fmt.c:1105, 1121-1127: if a file cannot be parsed, the
pointer which is looked at was never set. -/
def fmtIndent (editorconfig : Bool) (fuel : Nat) (file : Bytes → Option (Option (List Pair))) (path : Bytes) : Res Bytes :=
  if !editorconfig then .ok (ascii "    ")
  else tryParse fuel file path >>= fun r => match r with
    | none => .bad
    | some b => .ok b

end Muon.Edcfg
