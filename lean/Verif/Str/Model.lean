import Verif.Base
/-
Model of the string methods: src/functions/string.c and the parts of src/lang/string.c they use.

A `struct str` is the list of its `len` bytes. `at s i` reads byte `i`; reading index `len` gives the NUL terminator.
Lengths and indices (`uint32_t`) are natural numbers: strings are assumed shorter than 4 GiB. Allocation never fails.
-/
namespace Muon.Str
open Muon

/-- `s->s[i]`; the terminator is 0. -/
def at' (s : Bytes) (i : Nat) : UInt8 := s.getD i 0

/-- `make_strn(wk, &s->s[start], n)` for a range inside the string. -/
def slice (s : Bytes) (start n : Nat) : Bytes := (s.drop start).take n

/-- `str_startswith`, src/lang/string.c:320-328. -/
def startswith (ss pre : Bytes) : Bool :=
  if ss.length < pre.length then false else ss.take pre.length == pre

/-- `str_endswith`, src/lang/string.c:346-354. -/
def endswith (ss suf : Bytes) : Bool :=
  if ss.length < suf.length then false else (ss.drop (ss.length - suf.length)).take suf.length == suf

/-- `str_char_to_lower`, src/lang/string.c:310-318. -/
def charToLower (c : UInt8) : UInt8 := if isUpper c then c + 32 else c

/-- `str_startswithi`, src/lang/string.c:330-344: the comparison loop. -/
def startswithi (ss pre : Bytes) : Bool :=
  if ss.length < pre.length then false
  else (List.range pre.length).all fun i => charToLower (at' ss i) == charToLower (at' pre i)

/-- `str_endswithi`, src/lang/string.c:356-372: the comparison loop. -/
def endswithi (ss suf : Bytes) : Bool :=
  if ss.length < suf.length then false
  else (List.range suf.length).all fun i =>
    charToLower (at' ss (ss.length - i - 1)) == charToLower (at' suf (suf.length - i - 1))

/-- The loop of `func_string_contains`, src/functions/string.c:511-524, from index `i`. -/
def containsFrom (s find : Bytes) (i : Nat) : Bool :=
  if i < s.length then
    if startswith (s.drop i) find then true else containsFrom s find (i + 1)
  else false
termination_by s.length - i

/-- `func_string_contains`, src/functions/string.c:500-529. -/
def contains (s find : Bytes) : Bool := containsFrom s find 0

/-! ### split and join -/

/-- Loop variables of `str_split`, src/lang/string.c:421-468. `res` is the array built so far. -/
structure SplitSt where
  i : Nat
  start : Nat
  res : List Bytes

/-- One iteration of the loop of `str_split` with a separator, src/lang/string.c:431-443 and, when the loop ends,
461-466. `i += split->len - 1` followed by `++i` is `i + split->len` also when the subtraction wraps. -/
def splitStep (ss sep : Bytes) (st : SplitSt) : SplitSt ⊕ List Bytes :=
  if st.i < ss.length then
    if startswith (ss.drop st.i) sep then
      .inl { i := st.i + sep.length, start := st.i + sep.length, res := st.res ++ [slice ss st.start (st.i - st.start)] }
    else .inl { st with i := st.i + 1 }
  else .inr (st.res ++ [slice ss st.start (st.i - st.start)])

/-- `str_split(wk, ss, split)` with a separator: it terminates with array `r`. -/
def SplitsInto (ss sep : Bytes) (r : List Bytes) : Prop := Loop (splitStep ss sep) ⟨0, 0, []⟩ r

/-- `strchr(whitespace, c) != NULL` with `whitespace = "\n\r\t "`, src/lang/string.c:424: `strchr` also finds the
terminator, so NUL counts. -/
def isSplitWs (c : UInt8) : Bool := c == 10 || c == 13 || c == 9 || c == 32 || c == 0

/-- `while (start < ss->len && p(ss->s[start])) ++start`, src/lang/string.c:446-453. -/
def skipWhile (ss : Bytes) (p : UInt8 → Bool) (i : Nat) : Nat :=
  if h : i < ss.length then if p ss[i] then skipWhile ss p (i + 1) else i else i
termination_by ss.length - i

/-- One iteration of the loop of `str_split` without a separator, src/lang/string.c:444-459 (`i = end - 1; ++i`). -/
def splitWsStep (ss : Bytes) (st : SplitSt) : SplitSt ⊕ List Bytes :=
  if st.i < ss.length then
    let start := skipWhile ss isSplitWs st.i
    let e := skipWhile ss (fun c => !isSplitWs c) start
    .inl { i := e, start := start, res := if e > start then st.res ++ [slice ss start (e - start)] else st.res }
  else .inr st.res

/-- `str_split(wk, ss, NULL)` terminates with array `r`. -/
def SplitsWsInto (ss : Bytes) (r : List Bytes) : Prop := Loop (splitWsStep ss) ⟨0, 0, []⟩ r

/-- `obj_array_join_iter` iterated over a flat array of strings, src/lang/object.c:722-748: `i` is the position of the
next element, `len` the number of elements. -/
def joinFrom (sep : Bytes) (len : Nat) : Nat → List Bytes → Bytes → Bytes
  | _, [], res => res
  | i, v :: vs, res => joinFrom sep len (i + 1) vs (if i < len - 1 then res ++ v ++ sep else res ++ v)

/-- `func_join`, src/functions/string.c:252-263, on an array of strings (`interp_args` has flattened and type-checked
the arguments); `obj_array_join`, src/lang/object.c:766-788. -/
def join (sep : Bytes) (l : List Bytes) : Bytes := joinFrom sep l.length 0 l []

/-! ### replace -/

/-- Loop variables of `func_string_replace`, src/functions/string.c:457-498; `pre` is given by the start offset and
the length of the slice. -/
structure ReplSt where
  i : Nat
  preStart : Nat
  preLen : Nat
  res : Bytes

/-- One iteration of the loop, src/functions/string.c:475-494 and the end, 496-497. -/
def replStep (s find repl : Bytes) (st : ReplSt) : ReplSt ⊕ Bytes :=
  if st.i < s.length then
    if startswith (s.drop st.i) find then
      .inl { i := st.i + find.length, preStart := st.i + find.length, preLen := 0,
             res := st.res ++ slice s st.preStart st.preLen ++ repl }
    else .inl { st with i := st.i + 1, preLen := st.preLen + 1 }
  else .inr (st.res ++ slice s st.preStart st.preLen)

/-- `s.replace(find, repl)` terminates with `r`. -/
def ReplacesTo (s find repl r : Bytes) : Prop := Loop (replStep s find repl) ⟨0, 0, 0, []⟩ r

/-! ### strip -/

/-- First loop of `str_strip`, src/lang/string.c:493-497. -/
def stripI (ss strip : Bytes) (i : Nat) : Nat :=
  if i < ss.length then if !strip.contains (at' ss i) then i else stripI ss strip (i + 1) else i
termination_by ss.length - i

/-- Second loop and `++len`, src/lang/string.c:499-508. The argument is `len + 1`. -/
def stripLen (ss strip : Bytes) (i : Nat) : Nat → Nat
  | 0 => 0
  | n + 1 => if n < i then n + 1 else if !strip.contains (at' ss n) then n + 1 else stripLen ss strip i n

/-- `str_strip`, src/lang/string.c:483-512. `bad`: the assertion on line 510 fails. `strip = none` is the default set
`" \n\t"`. -/
def strip (ss : Bytes) (strip : Option Bytes) : Res Bytes :=
  let st := strip.getD [32, 10, 9]
  let i := stripI ss st 0
  let len := stripLen ss st i ss.length
  if i ≤ len then .ok (slice ss i (len - i)) else .bad

/-! ### Bytewise methods -/

/-- `func_to_upper`, src/functions/string.c:38-56. -/
def toUpper (s : Bytes) : Bytes := s.map fun c => if 97 ≤ c && c ≤ 122 then c - 32 else c
/-- `func_to_lower`, src/functions/string.c:58-77. -/
def toLower (s : Bytes) : Bytes := s.map fun c => if 65 ≤ c && c ≤ 90 then c + 32 else c
/-- `func_underscorify`, src/functions/string.c:213-233. -/
def underscorify (s : Bytes) : Bytes :=
  s.map fun c => if !((97 ≤ c && c ≤ 122) || (65 ≤ c && c ≤ 90) || (48 ≤ c && c ≤ 57)) then 95 else c

/-! ### Numbers -/

def int64Max : Int := 9223372036854775807
def int64Min : Int := -9223372036854775808

/-- `is_whitespace`, src/lang/string.c:389-393. -/
def isWhitespace (c : UInt8) : Bool := c == 32 || c == 9 || c == 10 || c == 13

/-- Value of a run of decimal digits. -/
def digitsVal (ds : Bytes) : Nat := ds.foldl (fun n c => n * 10 + (c.toNat - 48)) 0

/-- Optional sign at the beginning: whether it is `-`, and how many bytes it takes. -/
def signOf : Bytes → Bool × Nat
  | 45 :: _ => (true, 1)
  | 43 :: _ => (false, 1)
  | _ => (false, 0)

/-- `strtol(start, &endptr, 10)` of the C library (ISO C 7.22.1.4, 64-bit `long`): value and number of bytes consumed.
Leading white space, an optional sign and digits; with no digits nothing is consumed; out-of-range values are clamped
(errno is not looked at by the caller). It stops at the NUL terminator, which is none of these. -/
def strtol (s : Bytes) : Int × Nat :=
  let ws := (s.takeWhile isSpace).length
  let r := s.drop ws
  let sg := (signOf r).2
  let ds := (r.drop sg).takeWhile isDigit
  if ds = [] then (0, 0)
  else
    let v : Int := if (signOf r).1 then -(digitsVal ds : Int) else digitsVal ds
    (max int64Min (min int64Max v), ws + sg + ds.length)

/-- `str_to_i`, src/lang/string.c:395-419, where `buf` is the text from `ss->s` to the end of the underlying string and
`len` is `ss->len`. -/
def strToI (buf : Bytes) (len : Nat) (stripWs : Bool) : Option Int :=
  let k := if stripWs then (buf.takeWhile isWhitespace).length else 0
  let vn := strtol (buf.drop k)
  let e := k + vn.2
  let e' := if stripWs then e + ((buf.drop e).takeWhile isWhitespace).length else e
  if e' = len then some vn.1 else none

/-- `func_string_to_int`, src/functions/string.c:375-392; `none` is the reported error. -/
def toInt (s : Bytes) : Option Int := strToI s s.length true

/-- Decimal digits of a natural number, as printed by `printf`. -/
def natDigits (n : Nat) : Bytes :=
  if n < 10 then [UInt8.ofNat (48 + n)] else natDigits (n / 10) ++ [UInt8.ofNat (48 + n % 10)]

/-- `func_number_to_string`, src/functions/number.c:40-49: `"%" PRId64`. -/
def numToString (n : Int) : Bytes :=
  if n < 0 then 45 :: natDigits n.natAbs else natDigits n.natAbs

/-! ### Indexing and substring -/

/-- `bounds_adjust`, src/lang/interpreter.c:63-71: the adjusted index and whether it is accepted. -/
def boundsAdjust (len : Nat) (i : Int) : Int × Bool :=
  let i := if i < 0 then i + len else i
  (i, decide (i < len))

/-- Reading element `i` of an array of objects: `obj_array_index`, src/lang/object.c:657-664, which asserts that the
index is in range. -/
def arrayIndex {α : Type} (a : List α) (i : Int) : Res α :=
  if 0 ≤ i ∧ i < a.length then
    match a[i.toNat]? with
    | some v => .ok v
    | none => .bad
  else .bad

/-- `a[i]`, `interp_index` case `obj_array`, src/lang/interpreter.c:281-293. -/
def indexArray {α : Type} (a : List α) (i : Int) : Res α :=
  let (j, ok) := boundsAdjust a.length i
  if ok then arrayIndex a j else .error

/-- `a.get(i)` and `a.get(i, default)`, `func_array_get`, src/functions/array.c:27-51. -/
def arrayGet {α : Type} (a : List α) (i : Int) (dflt : Option α) : Res α :=
  let (j, ok) := boundsAdjust a.length i
  if !ok then (match dflt with | some d => .ok d | none => .error) else arrayIndex a j

/-- `s[i]`, `interp_index` case `obj_string`, src/lang/interpreter.c:323-337: `make_strn(wk, &s->s[i], 1)`; reading
before the start of the buffer is undefined behaviour. -/
def indexString (s : Bytes) (i : Int) : Res Bytes :=
  let (j, ok) := boundsAdjust s.length i
  if ok then
    if 0 ≤ j then .ok [at' s j.toNat] else .bad
  else .error

/-- The copy at the end of `func_string_substring`, src/functions/string.c:453: `make_strn(wk, &s->s[MAX(0, start)],
MIN(end - start, s->len))`. Reading beyond the NUL terminator and signed overflow in `end - start` are `bad`. -/
def substringCopy (s : Bytes) (start e : Int) : Res Bytes :=
  if e - start > int64Max then .bad
  else
    let off := (max 0 start).toNat
    let n := (min (e - start) s.length).toNat
    if n = 0 then .ok []
    else if off + n ≤ s.length + 1 then .ok (((s ++ [0]).drop off).take n)
    else .bad

/-- Adjusting a negative position, src/functions/string.c:441-447. -/
def fromEnd (len : Nat) (i : Int) : Int := if i < 0 then len + i else i

/-- `func_string_substring`, src/functions/string.c:422-455; `none` is an argument not given. -/
def substring (s : Bytes) (a b : Option Int) : Res Bytes :=
  let start := fromEnd s.length (a.getD 0)
  let e := fromEnd s.length (b.getD s.length)
  substringCopy s start (if e < start then start else e)

/-! ### format -/

/-- What the callback of `string_format` can answer (`enum format_cb_result`, include/functions/string.h), with the
coerced replacement text. -/
inductive CbResult
  | found (v : Bytes)
  | notFound
  | error
  | skip

/-- Loop variables of `string_format`, src/functions/string.c:79-168. -/
structure FmtSt where
  i : Nat
  idStart : Nat
  idEnd : Nat
  reading : Bool
  res : Bytes

/-- One iteration of the loop of `string_format`, src/functions/string.c:90-152, and the code after it, 154-167.
`cb` is given the start offset and the length of the key. Result `none`: an error was reported. -/
def fmtStep (s : Bytes) (cb : Nat → Nat → CbResult) (st : FmtSt) : FmtSt ⊕ Option Bytes :=
  if st.i < s.length then
    if at' s st.i = 64 then
      if st.reading then
        if st.i = st.idStart then
          .inl { i := st.i + 1, idStart := st.i + 1, idEnd := st.i + 1, reading := true, res := st.res ++ [64] }
        else
          match cb st.idStart (st.i - st.idStart) with
          | .notFound => .inr none
          | .error => .inr none
          | .found v => .inl { st with i := st.i + 1, idEnd := st.i + 1, reading := false, res := st.res ++ v }
          | .skip => .inl { i := st.idStart, idStart := 0, idEnd := st.idStart, reading := false, res := st.res ++ [64] }
      else
        .inl { st with i := st.i + 1, idStart := st.i + 1, reading := true,
                       res := if st.i ≠ 0 then st.res ++ slice s st.idEnd (st.i - st.idEnd) else st.res }
    else if at' s st.i = 92 ∧ at' s (st.i + 1) = 64 then
      .inl { i := st.i + 2, idStart := st.i + 1, idEnd := st.i + 1, reading := false,
             res := if st.i ≠ 0 then
                 (if st.reading then st.res ++ [64] else st.res) ++ slice s st.idEnd (st.i - st.idEnd)
               else st.res }
    else .inl { st with i := st.i + 1 }
  else
    .inr (some (if st.reading then st.res ++ [64] ++ slice s st.idStart (st.i - st.idStart)
      else if st.i > st.idEnd then st.res ++ slice s st.idEnd (st.i - st.idEnd) else st.res))

/-- `func_format_cb`, src/functions/string.c:174-191, on arguments already coerced to strings
(`coerce_string`). An accepted index that is out of range (see `boundsAdjust`) fails the assertion of
`obj_array_index`; the model answers `error` then, see C10. -/
def formatCb (s : Bytes) (args : List Bytes) (start len : Nat) : CbResult :=
  match strToI (s.drop start) len false with
  | none => .skip
  | some i =>
    match indexArray args i with
    | .ok v => .found v
    | .error => .error
    | .bad => .error

/-- `s.format(args)` terminates with `r` (`none`: reported error); `func_format`, src/functions/string.c:193-211. -/
def FormatsTo (s : Bytes) (args : List Bytes) (r : Option Bytes) : Prop :=
  Loop (fmtStep s (formatCb s args)) ⟨0, 0, 0, false, []⟩ r

/-! ### Wildcards -/

/-- `while (!str_eql_glob_impl(..)) ++i2`, src/lang/string.c:280-284: `sub_match_len` and `sub_match_consumed`. `f` is
the recursive call on the rest of the pattern: `none` for `return false`, `some m` for `return true` with
`*match_len = m`. The loop always ends because the call on the empty string returns true. Reading `ss2->s[ss2->len]`
gives NUL (`ss2` is always a suffix of the test's name); the pattern comes from the command line and has no NUL. -/
def starSearch (f : Bytes → Option Nat) : Bytes → Nat × Nat
  | [] => ((f []).getD 0, 0)
  | c :: cs => match f (c :: cs) with
    | some m => (m, 0)
    | none => let (m, k) := starSearch f cs; (m, k + 1)

mutual
/-- `str_eql_glob_impl`, src/lang/string.c:257-301. -/
def globImpl (p s : Bytes) (top : Bool) : Option Nat :=
  if p = [] ∧ top = false then some s.length
  else if s = [] then some 0
  else globLoop p s 0 0
termination_by (p.length, 1, 0)
decreasing_by all_goals (simp_wf; apply Prod.Lex.right; apply Prod.Lex.left; omega)

/-- The loop, src/lang/string.c:273-300, with remaining pattern `p`, string position `i2` and accumulated
`*match_len` `m`. -/
def globLoop (p s : Bytes) (i2 m : Nat) : Option Nat :=
  match p with
  | [] => some m
  | c :: rest =>
    if c = 42 then
      let (sm, k) := starSearch (fun s' => globImpl rest s' false) (s.drop i2)
      let sm := if sm ≠ 0 then sm + k else sm
      -- `i1 += sub_match_len`, then `++i1`
      globLoop (rest.drop sm) s (i2 + k) (m + sm)
    else if c = at' s i2 then globLoop rest s (i2 + 1) (m + 1)
    else none
termination_by (p.length, 0, 0)
decreasing_by all_goals (simp_wf; apply Prod.Lex.left; (try simp); (try omega))
end

/-- `str_eql_glob`, src/lang/string.c:303-308. -/
def eqlGlob (p s : Bytes) : Bool := globImpl p s true == some s.length

end Muon.Str
