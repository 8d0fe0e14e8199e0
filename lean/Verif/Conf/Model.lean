import Verif.Nlog.Model
/-
`configure_file()`, src/functions/kernel/configure_file.c: substitution in a template, generation of a header, writing
the result.
-/
namespace Muon.Conf
open Muon

/-- A value of the configuration. `file` is an `obj_file` with its path, `other` any other kind of object. -/
inductive Val
  | bool (b : Bool)
  | str (s : Bytes)
  | num (n : Int)
  | file (path : Bytes)
  | other
  deriving DecidableEq, Repr

/-- The dictionary, through `obj_dict_index_strn` (src/lang/object.c:1205-1223; modelled in Verif/Dict). -/
abbrev Conf := Bytes → Option Val

/-- `enum configure_file_syntax`, configure_file.c:78-83. -/
structure Syntax where
  cmakeDefine : Bool
  cmakeVar : Bool
  deriving DecidableEq, Repr

/-- `define`, configure_file.c:88-93. -/
def define (x : Syntax) : Bytes :=
  if x.cmakeDefine then [35, 99, 109, 97, 107, 101, 100, 101, 102, 105, 110, 101, 32]
  else [35, 109, 101, 115, 111, 110, 100, 101, 102, 105, 110, 101, 32]

/-- `varstart`, configure_file.c:95-103. -/
def varStart (x : Syntax) : Bytes := if x.cmakeVar then [36, 123] else [64]

/-- `varend`, configure_file.c:95-103. -/
def varEnd (x : Syntax) : UInt8 := if x.cmakeVar then 125 else 64

/-! A position in the text (`&src.src[i]`) is the rest of the text from there with the NUL byte after it
(`fs_read_entire_file`, src/platform/filesystem.c:165-242); reading after the NUL byte is `bad`. -/

/-- `src.src[i]`. -/
def rd : Bytes → Res UInt8
  | [] => .bad
  | c :: _ => .ok c

/-- `configure_file_skip_whitespace`, configure_file.c:51-57. -/
def skipWs : Bytes → Res Bytes
  | [] => .bad
  | c :: p => if c ≠ 0 ∧ (c = 32 ∨ c = 9) then skipWs p else .ok (c :: p)

/-- The characters of names, configure_file.c:65-71. -/
def isKey (c : UInt8) : Bool :=
  (97 ≤ c && c ≤ 122) || (65 ≤ c && c ≤ 90) || (48 ≤ c && c ≤ 57) || 95 == c || 45 == c

/-- `configure_var_len`, configure_file.c:59-76: the name at a position, and what comes after it. -/
def varLen : Bytes → Res (Bytes × Bytes)
  | [] => .bad
  | c :: p => if c ≠ 0 ∧ isKey c = true then varLen p >>= fun r => .ok (c :: r.1, r.2) else .ok ([], c :: p)

/-- `strncmp(p, pat, strlen(pat)) == 0` for a pattern without NUL bytes. -/
def cmpn : Bytes → Bytes → Res Bool
  | [], _ => .ok true
  | _ :: _, [] => .bad
  | c :: pat, d :: p => if d = c then cmpn pat p else .ok false

/-- The loop to the end of the line, configure_file.c:153-155. -/
def toEol : Bytes → Res Bytes
  | [] => .bad
  | c :: p => if c ≠ 0 ∧ c ≠ 10 then toEol p else .ok (c :: p)

/-- What comes after the name on a `#cmakedefine` line, configure_file.c:136-162. The warning is not modelled. -/
def cmakeTail (k q : Bytes) : Res Bytes :=
  rd q >>= fun c =>
  (if c = 64 then cmpn k (q.drop 1) >>= fun b => if b then rd (q.drop (1 + k.length)) >>= fun d => .ok (d == 64) else .ok false
    else Res.ok false) >>= fun (same : Bool) =>
  if same = true then
    skipWs (q.drop (2 + k.length)) >>= fun q =>
    rd q >>= fun c =>
    if c = 10 ∨ c = 0 then .ok q else toEol q
  else toEol q

/-- `get_cstr`, src/lang/string.c:56-70. -/
def cstr (b : Bytes) : Res Bytes := if 0 ∈ b then .bad else .ok b

/-- `deftype` and `sub` for a name, configure_file.c:173-205. -/
def defineVal (conf : Conf) (k : Bytes) : Res (Bytes × Option Bytes) :=
  match conf k with
  | none => .ok (ascii "/* undef", some (ascii "*/"))
  | some (.bool b) => .ok (if b then ascii "#define" else ascii "#undef", none)
  | some (.str s) => cstr s >>= fun s => .ok (ascii "#define", some s)
  | some (.num n) => .ok (ascii "#define", some (Nlog.dec n))
  | some (.file _) => .error
  | some .other => .error

/-- The text written for a definition, configure_file.c:207-214. -/
def writeDefine (k : Bytes) (d : Bytes × Option Bytes) : Bytes :=
  d.1 ++ [32] ++ k ++ (match d.2 with
    | none => []
    | some s => [32] ++ s)

/-- A line that defines something, configure_file.c:118-216, from after `define`: what is written and the position of
the next iteration (`i -= 1` is undone by `++i`). -/
def defineLine (x : Syntax) (conf : Conf) (p : Bytes) : Res (Bytes × Bytes) :=
  skipWs p >>= fun p =>
  varLen p >>= fun kq =>
  skipWs kq.2 >>= fun q =>
  rd q >>= fun c =>
  (if c = 10 ∨ c = 0 then .ok q
    else if x.cmakeDefine then cmakeTail kq.1 q
    else .error) >>= fun q =>
  if q.length = p.length then .error
  else defineVal conf kq.1 >>= fun d => .ok (writeDefine kq.1 d, q)

/-- The backslashes at a position, configure_file.c:229-230. -/
def slashes : Bytes → Res (Nat × Bytes)
  | [] => .bad
  | c :: p => if c ≠ 0 ∧ c = 92 then slashes p >>= fun r => .ok (r.1 + 1, r.2) else .ok (0, c :: p)

/-- Backslashes, configure_file.c:217-256: `p` is the position after the first one. -/
def escape (x : Syntax) (p : Bytes) : Res (Bytes × Bytes) :=
  slashes p >>= fun r =>
  let j := r.1 + 1
  cmpn (varStart x) r.2 >>= fun b =>
  if b then
    if j % 2 ≠ 0 then .ok (List.replicate (j / 2) 92 ++ varStart x, r.2.drop (varStart x).length)
    else .ok (List.replicate (j / 2) 92, r.2)
  else .ok (List.replicate j 92, r.2)

/-- `coerce_string`, src/coerce.c:172-200. -/
def coerceString : Val → Res Bytes
  | .bool b => .ok (if b then ascii "true" else ascii "false")
  | .file p => .ok p
  | .num n => .ok (Nlog.dec n)
  | .str s => .ok s
  | .other => .error

/-- A variable, configure_file.c:257-288, from after `varstart`. -/
def varSub (x : Syntax) (conf : Conf) (p : Bytes) : Res (Bytes × Bytes) :=
  varLen p >>= fun kq =>
  rd kq.2 >>= fun c =>
  if c ≠ varEnd x then .ok (varStart x, p)
  else if kq.1 = [] then .error
  else match conf kq.1 with
    | none => .error
    | some v => coerceString v >>= fun s => .ok (s, kq.2.drop 1)

/-- The iteration of the loop for a position that is not the start of a definition, configure_file.c:217-291. -/
def stepText (x : Syntax) (conf : Conf) (p : Bytes) : Res (Bytes × Bytes) :=
  rd p >>= fun c =>
  if c = 92 then escape x (p.drop 1)
  else cmpn (varStart x) p >>= fun b =>
  if b then varSub x conf (p.drop (varStart x).length)
  else .ok ([c], p.drop 1)

/-- The iteration of the loop for a position, configure_file.c:118-291; `sol` says whether it is the start of a line. -/
def step (x : Syntax) (conf : Conf) (sol : Bool) (p : Bytes) : Res (Bytes × Bytes) :=
  (if sol then cmpn (define x) p else .ok false) >>= fun d =>
  if d then defineLine x conf (p.drop (define x).length)
  else stepText x conf p

/-- The loop, configure_file.c:112-292: from a position, with the position `start_of_line` as the length of the text
from there; `n` bounds the number of iterations. The result is what is appended to `out_buf`. -/
def loop (x : Syntax) (conf : Conf) : Nat → Nat → Bytes → Res Bytes
  | 0, _, _ => .bad
  | n + 1, startOfLine, p =>
    if p.length ≤ 1 then .ok []
    else
      rd p >>= fun c =>
      let startOfLine := if c = 10 then p.length - 1 else startOfLine
      step x conf (p.length = startOfLine) p >>= fun r =>
      loop x conf n startOfLine r.2 >>= fun o => .ok (r.1 ++ o)

/-- The text made from a template, configure_file.c:105-292, whose length is less than 2^32. -/
def substitute (x : Syntax) (conf : Conf) (src : Bytes) : Res Bytes :=
  loop x conf (src.length + 1) (src.length + 1) (src ++ [0])

/-! ### Headers without a template -/

/-- An entry, `generate_config_iter`, configure_file.c:313-351; `c` is `define_prefix`. -/
def genEntry (c : UInt8) (k : Bytes) (v : Val) : Res Bytes :=
  match v with
  | .str s => cstr k >>= fun k => cstr s >>= fun s => .ok ([c] ++ ascii "define " ++ k ++ [32] ++ s ++ [10])
  | .bool true => cstr k >>= fun k => .ok ([c] ++ ascii "define " ++ k ++ [10])
  | .bool false => cstr k >>= fun k => .ok ([c] ++ ascii "undef " ++ k ++ [10])
  | .num n => cstr k >>= fun k => .ok ([c] ++ ascii "define " ++ k ++ [32] ++ Nlog.dec n ++ [10])
  | .file _ => .error
  | .other => .error

/-- The entries in order, as far as they can be written, and whether all could, configure_file.c:366-367. -/
def genEntries (c : UInt8) : List (Bytes × Val) → Res (Bytes × Bool)
  | [] => .ok ([], true)
  | (k, v) :: l =>
    match genEntry c k v with
    | .ok o => genEntries c l >>= fun r => .ok (o ++ r.1, r.2)
    | .error => .ok ([], false)
    | .bad => .bad

/-! ### Writing the result -/

/-- What is at the output path: nothing, a file that can or cannot be read, with its content. -/
inductive Dest
  | missing
  | file (content : Bytes) (readable : Bool)
  deriving DecidableEq, Repr

/-- `file_exists_with_content`, configure_file.c:34-49. -/
def existsWithContent (d : Dest) (out : Bytes) : Bool :=
  match d with
  | .missing => false
  | .file c readable => if readable then out.length == c.length && out == c else false

/-- What happened: what is at the output path afterwards, whether the file was written, whether the function succeeded. -/
structure Outcome where
  dest : Dest
  wrote : Bool
  ok : Bool
  deriving DecidableEq, Repr

/-- Whether a new or existing file can be read after it was written. -/
def readableAfter : Dest → Bool
  | .missing => true
  | .file _ r => r

/-- Writing unless the content is there, configure_file.c:294-306 and 369-373; `canWrite` says whether `fs_write` (which
creates or truncates the file) succeeds; `copyMeta` is whether `fs_copy_metadata` (which gives it the mode of the template,
a file that could be read) succeeds, `none` if it is not called. If the file cannot be opened for writing, it is as it was;
a failure halfway is not modelled. -/
def writeIfChanged (canWrite : Bool) (copyMeta : Option Bool) (d : Dest) (out : Bytes) : Outcome :=
  if existsWithContent d out then ⟨d, false, true⟩
  else if !canWrite then ⟨d, false, false⟩
  else match copyMeta with
    | none => ⟨.file out (readableAfter d), true, true⟩
    | some false => ⟨.file out (readableAfter d), true, false⟩
    | some true => ⟨.file out true, true, true⟩

/-- `substitute_config`, configure_file.c:85-306. `input` is the content of the template, `none` if it cannot be read:
then `goto cleanup` passes the initialisation of `out_buf`, and `sbuf_destroy` (src/lang/string.c:562-569) reads it. -/
def substituteConfig (x : Syntax) (conf : Conf) (input : Option Bytes) (canWrite canCopy : Bool) (d : Dest) : Res Outcome :=
  match input with
  | none => .bad
  | some src =>
    match substitute x conf src with
    | .bad => .bad
    | .error => .ok ⟨d, false, false⟩
    | .ok out => .ok (writeIfChanged canWrite (some canCopy) d out)

/-- `generate_config`, configure_file.c:353-378. -/
def generateConfig (c : UInt8) (dict : List (Bytes × Val)) (canWrite : Bool) (d : Dest) : Res Outcome :=
  genEntries c dict >>= fun r =>
  let o := writeIfChanged canWrite none d r.1
  .ok { o with ok := o.ok && r.2 }

/-- `configure_file(copy: true)`, configure_file.c:652-676. -/
def copyConfig (input : Option Bytes) (canWrite canCopy : Bool) (d : Dest) : Outcome :=
  match input with
  | none => ⟨d, false, false⟩
  | some src => writeIfChanged canWrite (some canCopy) d src

end Muon.Conf
