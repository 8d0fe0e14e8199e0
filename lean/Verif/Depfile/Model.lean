import Verif.Base
/-
Reading the dependency file that a compiler writes: `samu_depsparse`, src/external/samurai/deps.c:345-475.

Characters are signed, as on x86: bytes from 128 are no letters for `isalnum`, and the byte 255 is `EOF`.
-/
namespace Muon.Depfile
open Muon

/-- `\r\n` is read as `\n` by `src_getc`, src/external/samurai/deps.c:139-153. -/
def crlf : Bytes → Bytes
  | [] => []
  | c :: s =>
    match s with
    | [] => [c]
    | d :: s' => if c = 13 ∧ d = 10 then 10 :: crlf s' else c :: crlf (d :: s')

/-- The characters up to `EOF`. `src_getc` returns a `char`, so that the byte 255 is `EOF`, src/external/samurai/deps.c:139-153. Wherever the parser sees `EOF` it ends. -/
def input (src : Bytes) : Bytes := (crlf src).takeWhile (· ≠ 255)

/-- The condition of the loop for names, src/external/samurai/deps.c:370; `strchr` finds the NUL at the end of the string. -/
def nameChar (c : UInt8) : Bool := isAlnum c || (ascii "$+,-./@\\_").contains c || c == 0

/-- `isblank`. -/
def blank (c : UInt8) : Bool := c == 32 || c == 9
/-- `isspace`. -/
def space (c : UInt8) : Bool := blank c || (10 ≤ c && c ≤ 13)

/-- The backslashes that are added to the buffer for `n` of them before a character which is not an escaped blank, src/external/samurai/deps.c:375-380, 384-386. -/
def kept (n : Nat) : Bytes := List.replicate (n / 2) 92 ++ List.replicate ((n - 1) / 2) 92

/-- The loop that reads a name, src/external/samurai/deps.c:370-403; `n` is the number of backslashes that have been seen. The result is the name and the characters from
`c` on. After a backslash and a newline `c` is a blank. -/
def name : Bytes → Nat → Bytes → Res (Bytes × Bytes)
  | buf, n, [] => .ok (if n = 0 then buf else buf ++ (kept n ++ [92]), [])
  | buf, n, c :: s =>
    if c = 92 then name buf (n + 1) s
    else if n % 2 ≠ 0 ∧ blank c then name (buf ++ (List.replicate (n / 2) 92 ++ [c])) 0 s
    else if n ≠ 0 ∧ c = 35 then name (buf ++ (kept n ++ [35])) 0 s
    else if n ≠ 0 ∧ c = 10 then .ok (buf ++ kept n, 32 :: s)
    else
      let buf := if n = 0 then buf else buf ++ (kept n ++ [92])
      if c = 36 then
        match s with
        | [] => .error
        | d :: s' => if d = 36 then name (buf ++ [36]) 0 s' else .error
      else if nameChar c then name (buf ++ [c]) 0 s
      else .ok (buf, c :: s)

/-- The loop that skips blanks and continued lines, src/external/samurai/deps.c:451-462. -/
def skip : Bytes → Res Bytes
  | [] => .ok []
  | c :: s =>
    if c = 92 then
      match s with
      | [] => .error
      | d :: s' => if d = 10 then skip s' else .error
    else if blank c then skip s
    else .ok (c :: s)

/-- The variables of `samu_depsparse`; `rest` are the characters from `c` on. -/
structure St where
  sawcolon : Bool
  out : Option Bytes
  deps : List Bytes
  rest : Bytes
  deriving DecidableEq

/-- `ctx->deps.deps` after a name, src/external/samurai/deps.c:409-419. -/
def push (deps : List Bytes) (buf : Bytes) : List Bytes := if buf = [] then deps else deps ++ [buf]

/-- After a name, in the list of dependencies, src/external/samurai/deps.c:405-428. -/
def afterDep (s : St) (buf rest : Bytes) : St ⊕ Res (List Bytes) :=
  match rest with
  | [] => .inr (.ok (push s.deps buf))
  | c :: r =>
    if !space c then .inr .error
    else if c = 10 then
      if r.dropWhile (· = 10) = [] then .inr (.ok (push s.deps buf))
      else .inl ⟨false, s.out, push s.deps buf, r.dropWhile (· = 10)⟩
    else .inl ⟨true, s.out, push s.deps buf, c :: r⟩

/-- After a name, before the colon, src/external/samurai/deps.c:429-449. -/
def afterOut (s : St) (buf rest : Bytes) : St ⊕ Res (List Bytes) :=
  match rest.dropWhile blank with
  | [] => .inr (.ok s.deps)
  | c :: r =>
    if c ≠ 58 then .inr .error
    else if s.out = none ∨ s.out = some buf then .inl ⟨true, some buf, s.deps, r⟩
    else .inr .error

/-- The loop, src/external/samurai/deps.c:368-463: the next state, or the dependencies. Errors end the program or the dependencies are not used. -/
def step (s : St) : St ⊕ Res (List Bytes) :=
  match name [] 0 s.rest with
  | .ok (buf, rest) =>
    match (if s.sawcolon then afterDep s buf rest else afterOut s buf rest) with
    | .inr r => .inr r
    | .inl t =>
      match skip t.rest with
      | .ok p => .inl { t with rest := p }
      | .error => .inr .error
      | .bad => .inr .bad
  | .error => .inr .error
  | .bad => .inr .bad

/-- `samu_depsparse` of a file with this content ends with a result, src/external/samurai/deps.c:345-475. -/
def Parses (src : Bytes) (r : Res (List Bytes)) : Prop := Loop step ⟨false, none, [], input src⟩ r

end Muon.Depfile
