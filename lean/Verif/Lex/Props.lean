import Verif.Lex.Round
import Verif.Lex.Layout
/-
Properties C22 to C25, C62 and C63: the lexer.
-/
namespace Muon.Lex
open Muon Spec

/-! ## C22: termination and progress -/

theorem inv_init (cfg : Cfg) (src : Bytes) (h : cfg.len = src.length) : Inv cfg { r := src } := by
  intro _; left; simp [h]

/-- The lexer finishes for every text, in every mode (`error` is the outcome for more iterations than there are
characters), and if it stays within its buffer the tokens end with the end-of-file token. -/
theorem lex_terminates (fmt funcs : Bool) (src : Bytes) :
    lex fmt funcs src ≠ .error ∧ ∀ ok toks, lex fmt funcs src = .ok (ok, toks) → ∃ ts, toks = ts ++ [.eof] := by
  have h := tokenize_safe { len := src.length, fmt, funcs } (src.length + 1) true { r := src } (Nat.lt_succ_self _)
    (inv_init _ src rfl)
  unfold lex
  generalize hx : tokenize _ _ _ _ = x at h ⊢
  cases x with
  | ok p => refine ⟨by simp, fun ok toks he => ?_⟩; cases he; exact h
  | error => exact absurd h id
  | bad => exact ⟨by simp, fun ok toks he => by cases he⟩

/-- A call that finds a token consumes at least one character. -/
theorem lex_progress (cfg : Cfg) (st st' : Lx) (hcfg : Inv cfg st) (h : lexOne cfg (st.r.length + 1) st = .ok (.cont, st')) :
    st'.r.length < st.r.length := by
  have := lexOne_safe cfg (st.r.length + 1) st (Nat.lt_succ_self _) hcfg
  rw [h] at this
  rcases this with ⟨h1, _⟩ | ⟨_, h2⟩
  · cases h1
  · exact h2.1

/-- The hypotheses of `lex_progress` hold at the beginning of each text. -/
example : ∃ st', lexOne { len := 3 } 4 { r := ascii "a=1" } = .ok (.cont, st') ∧ Inv { len := 3 } { r := ascii "a=1" } :=
  ⟨_, rfl, inv_init _ _ rfl⟩
example : lex false false (ascii "x = ") = .ok (true, [.identifier (ascii "x"), .assign, .eof]) := by rfl
example : lex false false (ascii "'x") = .ok (false, [.eof]) := by rfl

/-! ## C23: the buffer -/

/-- Except when formatting, no text makes the lexer write outside of its buffer of one byte more than the text
(`bad` is the outcome for such a write). -/
theorem lex_in_buffer_partial (funcs : Bool) (src : Bytes) : lex false funcs src ≠ .bad := by
  have h := tokenize_safe { len := src.length, fmt := false, funcs } (src.length + 1) true { r := src } (Nat.lt_succ_self _)
    (inv_init _ src rfl)
  unfold lex
  intro hx
  rw [hx] at h
  exact absurd h (by simp [Safe])

/-- When formatting, the buffer overflows: numbers are stored with a terminator, for which no byte of the text is
left if a name follows immediately. -/
theorem lex_in_buffer_counterexample : lex true false (ascii "1a") = .bad ∧ lex true false (ascii "'a''b'") = .bad := by
  decide +kernel

/-- The text fits: the outcome is a result. -/
theorem lex_ok (funcs : Bool) (src : Bytes) : ∃ ok toks, lex false funcs src = .ok (ok, toks) := by
  have h1 := (lex_terminates false funcs src).1
  have h2 := lex_in_buffer_partial funcs src
  cases h : lex false funcs src with
  | ok p => exact ⟨p.1, p.2, rfl⟩
  | error => exact absurd h h1
  | bad => exact absurd h h2

theorem lex_of_okOr (funcs : Bool) (src : Bytes) (p : Bool × List Tok) (h : OkOr (lex false funcs src) p) :
    lex false funcs src = .ok p := by
  rcases h with h | h
  · exact h
  · exact absurd h (lex_in_buffer_partial funcs src)

/-! ## C24: round trip -/

/-- Writing down any list of tokens and lexing the text gives these tokens back: names, keywords, operators, brackets,
decimal numbers and strings with any contents. -/
theorem lex_render (funcs : Bool) (ts : List Tok) (h : Writable funcs 0 0 0 ts) :
    lex false funcs (render ts) = .ok (true, ts ++ [.eof]) := by
  apply lex_of_okOr
  exact tokenize_render { len := (render ts).length, fmt := false, funcs } rfl ts _ { r := render ts } rfl h (Nat.lt_succ_self _)

/-- One token from the whole text. -/
theorem lex_single (funcs : Bool) (src : Bytes) (toks : List Tok) (d : Nat) (hne : src ≠ [])
    (h : OkOr (lexOne { len := src.length, fmt := false, funcs } (src.length + 1) { r := src })
      (.cont, { r := [], dataI := d, toks })) : lex false funcs src = .ok (true, toks ++ [.eof]) := by
  apply lex_of_okOr
  unfold lex
  rw [tokenize]
  refine OkOr.bind h ?_
  dsimp only
  cases src with
  | nil => exact absurd rfl hne
  | cons c src =>
    rw [List.length_cons, tokenize, lexOne, skip]
    exact Or.inl rfl

/-- The literal for any byte string is lexed as that string. -/
theorem lex_string (funcs : Bool) (s : Bytes) :
    lex false funcs (ascii "'" ++ quoteBody s ++ ascii "'") = .ok (true, [.string s, .eof]) := by
  have a : ascii "'" = [39] := by decide +kernel
  rw [a]
  obtain ⟨d, h⟩ := lexOne_string { len := ([39] ++ quoteBody s ++ [39]).length, fmt := false, funcs }
    { r := [39] ++ quoteBody s ++ [39] } ([39] ++ quoteBody s ++ [39]).length s [] rfl (by simp) (by simp)
  exact lex_single funcs _ _ d (by simp) h

/-- Strings in triple quotes are taken verbatim, if the closing quotes are the first occurrence of three quotes and
the string does not contain NUL. -/
theorem lex_verbatim (funcs : Bool) (s : Bytes) (h0 : 0 ∉ s)
    (h : ∀ i, i < s.length → ¬ ascii "'''" <+: (s ++ ascii "'''").drop i) :
    lex false funcs (ascii "'''" ++ s ++ ascii "'''") = .ok (true, [.string s, .eof]) := by
  have a : ascii "'''" = [39, 39, 39] := by decide +kernel
  rw [a] at h ⊢
  refine lex_single funcs _ _ _ (by simp)
    (lexOne_quoted _ _ _ false true (s ++ [39, 39, 39]) ⟨[], 0, s, []⟩ rfl (by simp) (by simp) ?_)
  have := stringLoop_verbatim { len := ([39, 39, 39] ++ s ++ [39, 39, 39]).length, fmt := false, funcs } s 6 0 [] [] [] h0 h
  simpa [Nat.add_assoc, Nat.add_comm 6] using this

example : Writable false 0 0 0 [.identifier (ascii "x"), .assign, .lbrack, .string (ascii "a'b"), .comma, .number 12, .rbrack, .eol] := by
  refine ⟨⟨⟨120, [], rfl, by decide, by simp⟩, by decide +kernel, by simp⟩, by decide, ?_⟩
  exact ⟨by decide, by decide, by decide, by decide, rfl, rfl, rfl, trivial⟩
example : render [.identifier (ascii "x"), .assign, .string (ascii "a'b"), .number 12] = ascii " x = 'a\\'b' 12" := by
  have : digits 10 12 = [49, 50] := by rw [digits, digits]; rfl
  simp only [render, List.flatMap_cons, text, List.flatMap_nil, show (12 : Int).toNat = 12 from rfl, this]
  decide +kernel
example : lex false false (ascii "'''a\\n'b''c'''") = .ok (true, [.string (ascii "a\\n'b''c"), .eof]) := by rfl

/-! ## C25: UTF-8 -/

theorem or_add (a k : Nat) (x : Nat) (h : a % 2 ^ k = 0) (hx : x < 2 ^ k) : a ||| x = a + x := by
  obtain ⟨q, rfl⟩ : ∃ q, a = 2 ^ k * q := ⟨a / 2 ^ k, by have := Nat.div_add_mod a (2 ^ k); omega⟩
  exact (Nat.two_pow_add_eq_or_of_lt hx q).symm

theorem and_3f (x : Nat) : x &&& 0x3f = x % 64 := Nat.and_two_pow_sub_one_eq_mod x 6

theorem or_80 (x : Nat) : 0x80 ||| (x &&& 0x3f) = 0x80 + x % 64 := by
  rw [and_3f]; exact or_add 128 7 _ rfl (by omega)

/-- Escapes for characters are stored as their UTF-8 encoding. -/
theorem utf8_escape_partial (v : Nat) (h : isScalar v) : (writeUtf8 v).map (·.map UInt8.toNat) = some (utf8 v) := by
  obtain ⟨hv, _⟩ := h
  have t : ∀ n, n < 256 → (UInt8.ofNat n).toNat = n := fun n hn => by simp; omega
  unfold writeUtf8 utf8
  dsimp only
  by_cases h1 : v < 0x80
  · rw [if_pos (show v ≤ 0x7f by omega), if_pos h1]
    simp only [Option.map_some, List.map_cons, List.map_nil]; rw [t _ (by omega)]
  rw [if_neg (show ¬ v ≤ 0x7f by omega), if_neg h1]
  by_cases h2 : v < 0x800
  · rw [if_pos (show v ≤ 0x7ff by omega), if_pos h2]
    simp only [Option.map_some, List.map_cons, List.map_nil, List.range', Nat.reduceSub, Nat.reduceMul, Nat.shiftRight_zero, or_80]
    rw [Nat.shiftRight_eq_div_pow, or_add 0xc0 5 _ rfl (by omega), t _ (by omega), t _ (by omega)]
  rw [if_neg (show ¬ v ≤ 0x7ff by omega), if_neg h2]
  by_cases h3 : v < 0x10000
  · rw [if_pos (show v ≤ 0xffff by omega), if_pos h3]
    simp only [Option.map_some, List.map_cons, List.map_nil, List.range', Nat.reduceSub, Nat.reduceMul, Nat.reduceAdd,
      Nat.shiftRight_zero, or_80]
    rw [Nat.shiftRight_eq_div_pow, Nat.shiftRight_eq_div_pow, or_add 0xe0 4 _ rfl (by omega), t _ (by omega), t _ (by omega), t _ (by omega)]
  rw [if_neg (show ¬ v ≤ 0xffff by omega), if_neg h3, if_pos (show v ≤ 0x10ffff by omega)]
  simp only [Option.map_some, List.map_cons, List.map_nil, List.range', Nat.reduceSub, Nat.reduceMul, Nat.reduceAdd,
    Nat.shiftRight_zero, or_80]
  rw [Nat.shiftRight_eq_div_pow, Nat.shiftRight_eq_div_pow, Nat.shiftRight_eq_div_pow, or_add 0xf0 3 _ rfl (by omega),
    t _ (by omega), t _ (by omega), t _ (by omega), t _ (by omega)]

/-- Escapes for values that are not code points are rejected. -/
theorem utf8_escape_invalid (v : Nat) (h : 0x110000 ≤ v) : writeUtf8 v = none := by
  unfold writeUtf8
  dsimp only
  rw [if_neg (by omega), if_neg (by omega), if_neg (by omega), if_neg (by omega)]

/-- Surrogates are accepted and stored as bytes that are not UTF-8. -/
theorem utf8_escape_counterexample : ¬ isScalar 0xD800 ∧ writeUtf8 0xD800 = some [0xED, 0xA0, 0x80] ∧
    lex false false (ascii "'\\ud800'") = .ok (true, [.string [0xED, 0xA0, 0x80], .eof]) := by
  refine ⟨by simp [isScalar], by decide +kernel, by decide +kernel⟩

example : isScalar 0x20AC := by simp [isScalar]
example : lex false false (ascii "'\\u20ac'") = .ok (true, [.string [0xE2, 0x82, 0xAC], .eof]) := by decide +kernel

/-! ## C62: numbers -/

theorem digitVal_of (c : UInt8) (d : Nat) (h : IsDigitOf c d) : digitVal c = d := by
  have k : ∀ c : UInt8, (48 ≤ c.toNat ∧ c.toNat < 58 → digitVal c = c.toNat - 48) ∧
      (97 ≤ c.toNat ∧ c.toNat < 103 → digitVal c = c.toNat - 87) ∧ (65 ≤ c.toNat ∧ c.toNat < 71 → digitVal c = c.toNat - 55) :=
    forall_byte (by decide +kernel)
  obtain ⟨k1, k2, k3⟩ := k c
  rcases h with ⟨h1, h2⟩ | ⟨h1, h2, h3 | h3⟩
  · rw [k1 (by omega)]; omega
  · rw [k2 (by omega)]; omega
  · rw [k3 (by omega)]; omega

theorem digits_value (base : Nat) : ∀ (t : Bytes) (ds : List Nat) (a : Nat), AreDigitsOf t ds →
    t.foldl (fun v c => v * base + digitVal c) a = ds.foldl (fun v d => v * base + d) a := by
  intro t ds a h
  induction h generalizing a with
  | nil => rfl
  | cons h _ ih => rw [List.foldl_cons, List.foldl_cons, digitVal_of _ _ h, ih]

theorem digits_lt (base : Nat) (t : Bytes) (ds : List Nat) (h : AreDigitsOf t ds) (hd : ∀ d ∈ ds, d < base) :
    ∀ c ∈ t, digitVal c < base := by
  induction h with
  | nil => simp
  | cons h _ ih =>
    intro c hc
    rcases List.mem_cons.1 hc with rfl | hc
    · rw [digitVal_of _ _ h]; exact hd _ (by simp)
    · exact ih (fun d hd' => hd d (by simp [hd'])) c hc

theorem prefix_base (e : String × Nat) (he : e ∈ prefixes) (t : Bytes) :
    numberBase (ascii e.1 ++ t) = (e.2, t) ∧ isDigit ((ascii e.1).headD 0) = true ∧ 0 < e.2 ∧ e.2 ≤ 16 := by
  simp only [prefixes, List.mem_cons, List.not_mem_nil, or_false] at he
  rcases he with rfl | rfl | rfl | rfl | rfl | rfl <;> exact ⟨rfl, by decide +kernel, by decide, by decide⟩

/-- A number with a prefix and digits of its base denotes the value of the digits, if that is less than 2^63. -/
theorem lex_number_prefixed (funcs : Bool) (e : String × Nat) (he : e ∈ prefixes) (t : Bytes) (ds : List Nat) (hne : ds ≠ [])
    (h : AreDigitsOf t ds) (hd : ∀ d ∈ ds, d < e.2) (hv : value e.2 ds < 2 ^ 63) :
    lex false funcs (ascii e.1 ++ t) = .ok (true, [.number (value e.2 ds), .eof]) := by
  obtain ⟨h1, h2, h3, h4⟩ := prefix_base e he t
  have e1 : digitsVal e.2 t = value e.2 ds := digits_value e.2 t ds 0 h
  have htne : t ≠ [] := by rintro rfl; cases h; exact hne rfl
  rw [← e1] at hv ⊢
  refine lex_single funcs _ [_] 0 (by simp [htne]) (Or.inl ?_)
  exact lexOne_number _ _ _ e.2 t [] (ascii e.1 ++ t) rfl h4 h3 (by
    have : ascii e.1 ≠ [] := by intro hh; rw [hh] at h2; simp [isDigit] at h2
    cases hh : ascii e.1 with
    | nil => exact absurd hh this
    | cons c w => rw [hh] at h2; exact h2) (by simp) (by simpa using h1) htne (digits_lt e.2 t ds h hd) (Or.inl rfl) hv

/-- A number without prefix that does not begin with `0` is decimal. -/
theorem lex_number_decimal (funcs : Bool) (t : Bytes) (ds : List Nat) (h : AreDigitsOf t ds) (hd : ∀ d ∈ ds, d < 10)
    (h0 : ds.headD 0 ≠ 0) (hv : value 10 ds < 2 ^ 63) :
    lex false funcs t = .ok (true, [.number (value 10 ds), .eof]) := by
  have e1 : digitsVal 10 t = value 10 ds := digits_value 10 t ds 0 h
  have hlt := digits_lt 10 t ds h hd
  rw [← e1] at hv ⊢
  cases h with
  | nil => exact absurd rfl h0
  | @cons c d t ds hc ht =>
    have hc48 : c ≠ 48 := by rintro rfl; exact h0 ((digitVal_of _ _ hc).symm.trans (by decide))
    have hdig : isDigit c = true := by
      have k : ∀ c : UInt8, digitVal c < 10 → isDigit c = true := forall_byte (by decide +kernel)
      exact k c (hlt c (by simp))
    refine lex_single funcs _ [_] 0 (by simp) (Or.inl ?_)
    refine lexOne_number _ _ _ 10 (c :: t) [] (c :: t) rfl (by omega) (by omega) hdig (by simp) ?_ (by simp) hlt (Or.inl rfl) hv
    show numberBase (c :: t) = _
    unfold numberBase
    split
    · next h => exact absurd (List.cons.inj h).1 hc48
    · next h => exact absurd (List.cons.inj h).1 hc48
    · simp

example : ("0x", 16) ∈ prefixes ∧ AreDigitsOf (ascii "fF1") [15, 15, 1] ∧ value 16 [15, 15, 1] = 4081 := by
  have a : ascii "fF1" = [102, 70, 49] := by decide +kernel
  rw [a]
  refine ⟨by decide, ?_, rfl⟩
  refine .cons (Or.inr ⟨by omega, by omega, Or.inl rfl⟩) (.cons (Or.inr ⟨by omega, by omega, Or.inr rfl⟩) (.cons (Or.inl ⟨by omega, rfl⟩) .nil))

/-- A blank, a line end and a sign are accepted between the prefix and the digits; and digits after `0` are a separate
number. -/
theorem lex_number_counterexample : lex false false (ascii "0x\n-5") = .ok (true, [.number (-5), .eof]) ∧
    lex false false (ascii "0x0x5") = .ok (true, [.number 5, .eof]) ∧
    lex false false (ascii "017") = .ok (true, [.number 0, .number 17, .eof]) := by decide +kernel

theorem tokenize_failed (cfg : Cfg) : ∀ (f : Nat) (st : Lx) (p : Bool × List Tok), tokenize cfg f false st = .ok p → p.1 = false := by
  intro f
  induction f with
  | zero => intro st p h; cases h
  | succ f ih =>
    intro st p h
    rw [tokenize] at h
    generalize lexOne cfg (st.r.length + 1) st = x at h
    cases x with
    | error => cases h
    | bad => cases h
    | ok q =>
      rw [Res.ok_bind] at h
      obtain ⟨res, st'⟩ := q
      cases res with
      | cont => exact ih _ _ h
      | fail => exact ih _ _ h
      | done => cases h; rfl

theorem lex_failed (funcs : Bool) (src : Bytes) (st : Lx)
    (h : lexOne { len := src.length, fmt := false, funcs } (src.length + 1) { r := src } = .ok (.fail, st)) :
    ∃ toks, lex false funcs src = .ok (false, toks) := by
  obtain ⟨ok, toks, hl⟩ := lex_ok funcs src
  refine ⟨toks, ?_⟩
  have hl' := hl
  unfold lex at hl'
  rw [tokenize, h, Res.ok_bind] at hl'
  rw [hl, show ok = false from tokenize_failed _ _ _ _ hl']

/-- A number with a prefix of 2^63 or more is rejected. -/
theorem lex_number_prefixed_big (funcs : Bool) (e : String × Nat) (he : e ∈ prefixes) (t : Bytes) (ds : List Nat)
    (h : AreDigitsOf t ds) (hd : ∀ d ∈ ds, d < e.2) (hv : 2 ^ 63 ≤ value e.2 ds) :
    ∃ toks, lex false funcs (ascii e.1 ++ t) = .ok (false, toks) := by
  obtain ⟨h1, h2, h3, h4⟩ := prefix_base e he t
  have e1 : digitsVal e.2 t = value e.2 ds := digits_value e.2 t ds 0 h
  have htne : t ≠ [] := by rintro rfl; cases h; exact absurd hv (by simp [value])
  rw [← e1] at hv
  refine lex_failed funcs _ _ (lexOne_number_big _ _ _ e.2 t [] (ascii e.1 ++ t) h4 h3 ?_ (by simp) (by simpa using h1) htne
    (digits_lt e.2 t ds h hd) (Or.inl rfl) hv)
  have : ascii e.1 ≠ [] := by intro hh; rw [hh] at h2; simp [isDigit] at h2
  cases hh : ascii e.1 with
  | nil => exact absurd hh this
  | cons c w => rw [hh] at h2; exact h2

/-- A decimal number of 2^63 or more is rejected. -/
theorem lex_number_decimal_big (funcs : Bool) (t : Bytes) (ds : List Nat) (h : AreDigitsOf t ds) (hd : ∀ d ∈ ds, d < 10)
    (h0 : ds.headD 0 ≠ 0) (hv : 2 ^ 63 ≤ value 10 ds) :
    ∃ toks, lex false funcs t = .ok (false, toks) := by
  have e1 : digitsVal 10 t = value 10 ds := digits_value 10 t ds 0 h
  have hlt := digits_lt 10 t ds h hd
  rw [← e1] at hv
  cases h with
  | nil => exact absurd rfl h0
  | @cons c d t ds hc ht =>
    have hc48 : c ≠ 48 := by rintro rfl; exact h0 ((digitVal_of _ _ hc).symm.trans (by decide))
    have hdig : isDigit c = true := by
      have k : ∀ c : UInt8, digitVal c < 10 → isDigit c = true := forall_byte (by decide +kernel)
      exact k c (hlt c (by simp))
    refine lex_failed funcs _ _ (lexOne_number_big _ _ _ 10 (c :: t) [] (c :: t) (by omega) (by omega) hdig (by simp) ?_ (by simp) hlt
      (Or.inl rfl) hv)
    show numberBase (c :: t) = _
    unfold numberBase
    split
    · next h => exact absurd (List.cons.inj h).1 hc48
    · next h => exact absurd (List.cons.inj h).1 hc48
    · simp

example : value 16 [8, 0, 0, 0, 0, 0, 0, 0, 0, 0, 0, 0, 0, 0, 0, 0] = 2 ^ 63 := by decide

/-! ## C67: layout -/

/-- Blanks, continued lines, comments at the end of a line, and in brackets line ends and comments do not change the
tokens. -/
theorem lex_layout (funcs : Bool) (l : List (Bytes × Tok)) (hg : Laid (0, 0, 0) l) (hw : Writable funcs 0 0 0 (l.map Prod.snd)) :
    lex false funcs (layout l) = .ok (true, l.map Prod.snd ++ [.eof]) := by
  apply lex_of_okOr
  have := tokenize_layout { len := (layout l).length, fmt := false, funcs } rfl l { r := [] } hg hw
  have h2 := this _ (Nat.lt_succ_self _)
  rw [List.nil_append] at h2
  exact h2

example : layout [(ascii "\\\n", .lbrack), (ascii "# a\n", .rbrack), (ascii "# b", .eol)] = ascii " \\\n[ # a\n] # b\n" := by
  decide +kernel
example : Laid (0, 0, 0) [(ascii "\\\n", .lbrack), (ascii "# a\n", .rbrack), (ascii "# b", .eol)] := by
  have a1 : ascii "\\\n" = [92, 10] := by decide +kernel
  have a2 : ascii "# a\n" = 35 :: [32, 97] ++ 10 :: [] := by decide +kernel
  have a3 : ascii "# b" = [35, 32, 98] := by decide +kernel
  rw [a1, a2, a3]
  exact ⟨.continuation .nil, .comment rfl (by decide) .nil, .lastComment rfl (by decide), trivial⟩

/-! ## C63: format strings -/

/-- A format string is the sum of its texts and of its variables converted to strings. -/
theorem lex_fstring_partial (funcs : Bool) (s : Bytes) (parts : List (Bytes × Bytes)) (h : ∀ p ∈ parts, isName funcs p.1) :
    lex false funcs (fstring s parts) = .ok (true, fstringToks s parts ++ [.eof]) := by
  have a1 : ascii "f'" = [102, 39] := by decide +kernel
  have a2 : ascii "@" = [64] := by decide +kernel
  have a3 : ascii "'" = [39] := by decide +kernel
  have e : fstring s parts = 102 :: 39 :: (quoteBody s ++ (parts.flatMap fun p => ascii "@" ++ p.1 ++ ascii "@" ++ quoteBody p.2) ++ ascii "'" ++ []) := by
    unfold fstring; rw [a1]; simp
  generalize hb : quoteBody s ++ (parts.flatMap fun p => ascii "@" ++ p.1 ++ ascii "@" ++ quoteBody p.2) ++ ascii "'" ++ [] = body at e
  obtain ⟨d', s', g1, g2⟩ := stringLoop_parts { len := (fstring s parts).length, fmt := false, funcs } rfl parts s [] (body.length + 2) 0 [] [] h
    (by rw [hb]; omega)
  rw [hb] at g1
  have hm : ([39, 39, 39] == (39 :: body).take 3) = false := by
    rw [← hb]
    have hh : ∀ c : UInt8, (quoteByte c).head? ≠ some 39 ∧ quoteByte c ≠ [] := forall_byte (by decide +kernel)
    cases s with
    | nil =>
      cases parts with
      | nil => rw [a3]; rfl
      | cons p parts => rw [a2]; simp [quoteBody]
    | cons c s =>
      have h1 := hh c
      cases hq : quoteByte c with
      | nil => exact absurd hq h1.2
      | cons d q =>
        rw [hq] at h1
        have hd : d ≠ 39 := by simpa using h1.1
        have : quoteBody (c :: s) = d :: (q ++ quoteBody s) := by simp [quoteBody, hq]
        rw [this]
        simp [Ne.symm hd]
  have := lexOne_quoted { len := (fstring s parts).length, fmt := false, funcs } { r := fstring s parts } (fstring s parts).length
    true false body _ rfl (by rw [e]; rfl) (fun _ => hm) g1
  have hlast : (fstringToks s parts).dropLast ++ [.string s'] = fstringToks s parts := by
    simp only [List.nil_append] at g2
    obtain ⟨ys, hys⟩ := List.getLast?_eq_some_iff.1 g2
    rw [hys]; simp
  simp only [List.nil_append, hlast] at this
  exact lex_single funcs _ _ _ (by rw [e]; simp) this

example : isName false (ascii "x") ∧ fstring (ascii "a ") [(ascii "x", ascii "b")] = ascii "f'a @x@b'" :=
  ⟨⟨⟨120, [], rfl, by decide, by simp⟩, by decide +kernel, by simp⟩, by decide +kernel⟩

/-- An `@` that is not closed by another one still starts a variable, and the character in place of the closing one is
dropped. -/
theorem lex_fstring_counterexample : lex false false (ascii "f'me@host.org'") =
    .ok (true, [.string (ascii "me"), .plus, .stringify, .identifier (ascii "host"), .plus, .string (ascii "org"), .eof]) := by
  decide +kernel

end Muon.Lex
