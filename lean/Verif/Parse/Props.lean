import Verif.Parse.Stmt
import Verif.Lex.Props
/-
Properties of the parser of build files.
-/
namespace Muon.Parse
open Muon Lex Spec

/-- The parser ends on every list of tokens: the outcome is never the one that stands for running on. -/
theorem parse_terminates (strict : Bool) (ts : List Tok) : parse strict ts ≠ .fuel := by
  intro h
  unfold parse at h
  have h1 := sc_ends strict .block false ts
  unfold sc at h1
  cases hs : srun strict (10 * ts.length + 10) .block false ts with
  | fuel => rw [hs] at h1; exact h1
  | fail => rw [hs] at h; cases h
  | abort => rw [hs] at h; cases h
  | ok p =>
    rw [hs] at h
    simp only [PR.ok_bind] at h
    have h2 := expect_ends .eof p.2
    cases he : expect .eof p.2 with
    | fuel => rw [he] at h2; exact h2
    | fail => rw [he] at h; cases h
    | abort => rw [he] at h; cases h
    | ok q => rw [he] at h; cases h

/-- The parser on a text never runs on either. -/
theorem parseText_terminates (strict : Bool) (src : Bytes) : parseText strict src ≠ .fuel := by
  unfold parseText
  have := lex_terminates false false src
  split
  · exact parse_terminates strict _
  · simp
  · next h => exact absurd h this.1
  · simp

/-- What is accepted: the tokens before the end of the file are a text of the grammar, and the result is its tree. -/
theorem parse_iff (strict : Bool) (ts : List Tok) (n : Node) :
    parse strict ts = .ok n ↔ ∃ us rest, ts = us ++ .eof :: rest ∧ Program muonLevel True strict .block false n us := by
  constructor
  · intro h
    unfold parse at h
    obtain ⟨⟨b, t1⟩, h1, h⟩ := PR.bind_ok h
    obtain ⟨t2, h2, h⟩ := PR.bind_ok h
    cases h
    obtain ⟨us, e, d⟩ := ssound strict _ .block false ts _ t1 h1
    have h2 : t1 = .eof :: t2 := expect_ok h2
    exact ⟨us, t2, by rw [e, h2], d⟩
  · rintro ⟨us, rest, rfl, h⟩
    have := sgood h (.eof :: rest) rfl
    unfold parse
    rw [show srun strict (10 * (us ++ .eof :: rest).length + 10) .block false (us ++ .eof :: rest) = _ from this]
    simp only [PR.ok_bind, expect_cons]

/-- The grammar is unambiguous: a text has at most one tree. -/
theorem program_unique {strict : Bool} {n m : Node} {ts : List Tok} (h1 : Program muonLevel True strict .block false n ts)
    (h2 : Program muonLevel True strict .block false m ts) : n = m := by
  have e1 := (parse_iff strict (ts ++ [Tok.eof]) n).2 ⟨ts, [], rfl, h1⟩
  have e2 := (parse_iff strict (ts ++ [Tok.eof]) m).2 ⟨ts, [], rfl, h2⟩
  rw [e1] at e2
  exact PR.ok.inj e2

/-- The arithmetic operators of an expression. -/
def Spec.ops : Node → List Arith
  | .argument l r => ops l ++ ops r
  | .kwarg k v r => ops k ++ ops v ++ ops r
  | .array a | .dict a => ops a
  | .or l r | .and l r | .comparison _ l r => ops l ++ ops r
  | .arith o l r => o :: (ops l ++ ops r)
  | .not e | .uminus e | .stringify e => ops e
  | .index l i => ops l ++ ops i
  | .ternary c a b => ops c ++ ops a ++ ops b
  | .method l _ a => ops l ++ ops a
  | .call l a => ops l ++ ops a
  | _ => []

theorem lift_to {st : Prop} {r : Nat} {e : Node} {ts : List Tok} {n : Nat} (k : Nat) (hn : n + k ≤ 5)
    (h : Derives muonLevel st (.arith (n + k)) r e ts) : Derives muonLevel st (.arith n) r e ts := by
  induction k with
  | zero => exact h
  | succ k ih => exact ih (by omega) (.arithLift (by omega) h)

/-- The level in muon of what is at a level in Meson, if `a` is the one additive operator and `m` the one multiplicative. -/
def toMuon (a m : Arith) : Lv → Lv
  | .arith 0 => .arith (muonLevel a)
  | .arith 1 => .arith (muonLevel m)
  | .arith _ => .arith 5
  | L => L

theorem meson_muon {st : Prop} {a m : Arith} (ha : mesonLevel a = 0) (hm : mesonLevel m = 1) {L : Lv} {r : Nat} {e : Node} {ts : List Tok}
    (h : Derives mesonLevel st L r e ts) (ho : ∀ o ∈ ops e, o = a ∨ o = m) : Derives muonLevel st (toMuon a m L) r e ts := by
  have hlt : muonLevel a < muonLevel m ∧ muonLevel m < 5 := by cases a <;> cases m <;> simp_all [mesonLevel, muonLevel]
  induction h with
  | orExpr _ ih => exact .orExpr (ih ho)
  | ternary _ _ _ i1 i2 i3 =>
    simp only [ops, List.mem_append] at ho
    exact .ternary (i1 fun o h => ho o (by simp [h])) (i2 fun o h => ho o (by simp [h])) (i3 fun o h => ho o (by simp [h]))
  | andOr _ ih => exact .andOr (ih ho)
  | or _ _ i1 i2 =>
    simp only [ops, List.mem_append] at ho
    exact .or (i1 fun o h => ho o (by simp [h])) (i2 fun o h => ho o (by simp [h]))
  | compAnd _ ih => exact .compAnd (ih ho)
  | and _ _ i1 i2 =>
    simp only [ops, List.mem_append] at ho
    exact .and (i1 fun o h => ho o (by simp [h])) (i2 fun o h => ho o (by simp [h]))
  | arithComp _ ih => exact .arithComp (lift_to (n := 0) (muonLevel a) (by omega) (by rw [Nat.zero_add]; exact ih ho))
  | comparison _ _ i1 i2 =>
    simp only [ops, List.mem_append] at ho
    have j1 := i1 fun o h => ho o (by simp [h])
    have j2 := i2 fun o h => ho o (by simp [h])
    exact .comparison (lift_to (n := 0) (muonLevel a) (by omega) (by rw [Nat.zero_add]; exact j1))
      (lift_to (n := 0) (muonLevel a) (by omega) (by rw [Nat.zero_add]; exact j2))
  | strayNot hs _ ih => exact .strayNot hs (lift_to (n := 0) (muonLevel a) (by omega) (by rw [Nat.zero_add]; exact ih ho))
  | @arithLift r n e ts hn _ ih =>
    have i := ih ho
    match n, hn with
    | 0, _ =>
      refine lift_to (muonLevel m - muonLevel a) (by omega) ?_
      rw [show muonLevel a + (muonLevel m - muonLevel a) = muonLevel m by omega]
      exact i
    | 1, _ =>
      refine lift_to (5 - muonLevel m) (by omega) ?_
      rw [show muonLevel m + (5 - muonLevel m) = 5 by omega]
      exact i
    | n + 2, _ => exact i
  | @arith r op x y ts us _ _ i1 i2 =>
    simp only [ops, List.mem_cons, List.mem_append] at ho
    have j1 := i1 fun o h => ho o (by simp [h])
    have j2 := i2 fun o h => ho o (by simp [h])
    rcases ho op (Or.inl rfl) with rfl | rfl
    · rw [ha] at j1 j2 ⊢
      refine .arith j1 (lift_to (muonLevel m - (muonLevel op + 1)) (by omega) ?_)
      rw [show muonLevel op + 1 + (muonLevel m - (muonLevel op + 1)) = muonLevel m by omega]
      exact j2
    · rw [hm] at j1 j2 ⊢
      refine .arith j1 (lift_to (5 - (muonLevel op + 1)) (by omega) ?_)
      rw [show muonLevel op + 1 + (5 - (muonLevel op + 1)) = 5 by omega]
      exact j2
  | postUnary _ ih => exact .postUnary (ih ho)
  | not _ ih => exact .not (ih ho)
  | uminus _ ih => exact .uminus (ih ho)
  | stringify _ ih => exact .stringify (ih ho)
  | atomPost _ ih => exact .atomPost (ih ho)
  | index _ _ i1 i2 =>
    simp only [ops, List.mem_append] at ho
    exact .index (i1 fun o h => ho o (by simp [h])) (i2 fun o h => ho o (by simp [h]))
  | method _ _ i1 i2 =>
    simp only [ops, List.mem_append] at ho
    exact .method (i1 fun o h => ho o (by simp [h])) (i2 fun o h => ho o (by simp [h]))
  | call _ _ i1 i2 =>
    simp only [ops, List.mem_append] at ho
    exact .call (i1 fun o h => ho o (by simp [h])) (i2 fun o h => ho o (by simp [h]))
  | true => exact .true
  | false => exact .false
  | id => exact .id
  | number => exact .number
  | string => exact .string
  | paren _ ih => exact .paren (ih ho)
  | array _ ih => exact .array (ih ho)
  | dict _ ih => exact .dict (ih ho)
  | noArgs => exact .noArgs
  | lastArg hm _ ih => exact .lastArg hm (ih fun o h => ho o (by simp [ops, h]))
  | arg hm _ _ i1 i2 =>
    simp only [ops, List.mem_append] at ho
    exact .arg hm (i1 fun o h => ho o (by simp [h])) (i2 fun o h => ho o (by simp [h]))
  | lastKey hm _ _ i1 i2 =>
    simp only [ops, List.mem_append] at ho
    exact .lastKey hm (i1 fun o h => ho o (by simp [h])) (i2 fun o h => ho o (by simp [h]))
  | key hm _ _ _ i1 i2 i3 =>
    simp only [ops, List.mem_append] at ho
    exact .key hm (i1 fun o h => ho o (by simp [h])) (i2 fun o h => ho o (by simp [h])) (i3 fun o h => ho o (by simp [h]))

/-- An expression has the tree that the Meson grammar gives it, if at most one of `+` and `-` and at most one of `*`, `/`
and `%` occur in it, and the text after it does not continue it. Missing: expressions with several operators of a level,
see the counterexamples. -/
theorem expr_documented_partial (a m : Arith) (ha : mesonLevel a = 0) (hm : mesonLevel m = 1) (e : Node) (ts rest : List Tok)
    (h : Derives mesonLevel False .expr 4096 e ts) (ho : ∀ o ∈ ops e, o = a ∨ o = m)
    (hr : ∀ t r, rest = t :: r → t ∈ [Tok.eol, .eof, .comma, .colon, .rparen, .rbrack, .rcurl, .assign, .plusAssign]) :
    parseExpr 0 (ts ++ rest) = .ok (e, rest) := by
  refine good_expr (meson_muon ha hm h ho) rest ?_
  intro t r he
  have := hr t r he
  revert this
  cases t <;> simp [cont]

/-- Names for the examples. -/
abbrev va : Tok := .identifier (ascii "a")
abbrev vb : Tok := .identifier (ascii "b")
abbrev vc : Tok := .identifier (ascii "c")

/-- `a - b * c - a`, grouped from the left, with the product first. -/
example : Derives mesonLevel False .expr 4096
    (.arith .sub (.arith .sub (.id (ascii "a")) (.arith .mul (.id (ascii "b")) (.id (ascii "c")))) (.id (ascii "a")))
    [va, .minus, vb, .star, vc, .minus, va] := by
  have up : ∀ {e ts}, Derives mesonLevel False .atom 4095 e ts → Derives mesonLevel False (.arith 2) 4095 e ts :=
    fun h => .arithLift (by decide) (.arithLift (by decide) (.arithLift (by decide) (.postUnary (.atomPost h))))
  have hm : Derives mesonLevel False (.arith 1) 4095 (.arith .mul (.id (ascii "b")) (.id (ascii "c"))) [vb, .star, vc] :=
    Derives.arith (op := .mul) (ts := [vb]) (us := [vc]) (.arithLift (by decide) (up .id)) (up .id)
  refine .orExpr (.andOr (.compAnd (.arithComp ?_)))
  refine Derives.arith (op := .sub) (ts := [va, .minus, vb, .star, vc]) (us := [va]) ?_ (.arithLift (by decide) (up .id))
  exact Derives.arith (op := .sub) (ts := [va]) (us := [vb, .star, vc]) (.arithLift (by decide) (.arithLift (by decide) (up .id))) hm

/-- In the Meson grammar `a % b * c` is `(a % b) * c`; muon reads it as `a % (b * c)`. -/
theorem expr_documented_counterexample :
    Derives mesonLevel False .expr 4096 (.arith .mul (.arith .mod (.id (ascii "a")) (.id (ascii "b"))) (.id (ascii "c")))
      [va, .modulo, vb, .star, vc] ∧
    parseExpr 0 [va, .modulo, vb, .star, vc, .eol] =
      .ok (.arith .mod (.id (ascii "a")) (.arith .mul (.id (ascii "b")) (.id (ascii "c"))), [.eol]) := by
  refine ⟨?_, by decide +kernel⟩
  have up : ∀ {e ts}, Derives mesonLevel False .atom 4095 e ts → Derives mesonLevel False (.arith 2) 4095 e ts :=
    fun h => .arithLift (by decide) (.arithLift (by decide) (.arithLift (by decide) (.postUnary (.atomPost h))))
  refine .orExpr (.andOr (.compAnd (.arithComp (.arithLift (by decide) ?_))))
  refine Derives.arith (op := .mul) (ts := [va, .modulo, vb]) (us := [vc]) ?_ (up .id)
  exact Derives.arith (op := .mod) (ts := [va]) (us := [vb]) (.arithLift (by decide) (up .id)) (up .id)

/-- Likewise `a * b / c` is read as `a * (b / c)`, and `a + b - c` as `a + (b - c)`. -/
theorem expr_documented_counterexample_2 :
    parseExpr 0 [va, .star, vb, .slash, vc, .eol] =
      .ok (.arith .mul (.id (ascii "a")) (.arith .div (.id (ascii "b")) (.id (ascii "c"))), [.eol]) ∧
    parseExpr 0 [va, .plus, vb, .minus, vc, .eol] =
      .ok (.arith .add (.id (ascii "a")) (.arith .sub (.id (ascii "b")) (.id (ascii "c"))), [.eol]) := by
  constructor <;> decide +kernel

/-- A `not` after an operand is accepted and has no meaning: `a = b not` is `a = b`. -/
theorem stray_not_counterexample :
    parse true [va, .assign, vb, .kNot, .eof] = parse true [va, .assign, vb, .eof] ∧
    parse true [va, .assign, vb, .eof] = .ok (.block (.assign (ascii "a") (.id (ascii "b"))) .empty) := by
  constructor <;> decide +kernel

/-- An index without an expression is not an error but the end of the program: `a[]` reaches a line that is marked as
unreachable. -/
theorem parse_abort_counterexample : parse true [va, .lbrack, .rbrack, .eof] = .abort := by decide +kernel

/-- The text of a format string followed by a method call: the call is to the last piece, not to the whole string. -/
theorem fstring_method_counterexample :
    parseText true (ascii "a = f'@b@c'.d()") =
      .ok (.block (.assign (ascii "a") (.arith .add (.arith .add (.string []) (.stringify (.id (ascii "b"))))
        (.method (.string (ascii "c")) (ascii "d") .empty))) .empty) := by decide +kernel

/-! ### From the text to the tree -/

/-- Tokens that can be written: names that are not keywords, numbers in range; the conversion to a string is not
among them, it only occurs in format strings. -/
def Spec.TokOk : Tok → Prop
  | .identifier s => Lex.Spec.isName false s
  | .number n => 0 ≤ n ∧ n < 2 ^ 63
  | .stringify => False
  | _ => True

theorem writable_expr {lv : Arith → Nat} {st : Prop} {L : Lv} {r : Nat} {e : Node} {ts : List Tok} (h : Derives lv st L r e ts) :
    ∀ (p b c : Nat) (rest : List Tok), (∀ t ∈ ts, TokOk t) → Lex.Spec.Writable false p b c rest → Lex.Spec.Writable false p b c (ts ++ rest) := by
  induction h with
  | orExpr _ ih => exact ih
  | andOr _ ih => exact ih
  | compAnd _ ih => exact ih
  | arithComp _ ih => exact ih
  | arithLift _ _ ih => exact ih
  | postUnary _ ih => exact ih
  | atomPost _ ih => exact ih
  | ternary _ _ _ i1 i2 i3 =>
    intro p b c rest ht hw
    rw [List.append_assoc, List.append_assoc]
    refine i1 p b c _ (fun t h => ht t (by simp [h])) ⟨by decide +kernel, i2 p b c _ (fun t h => ht t (by simp [h])) ⟨by decide +kernel, i3 p b c _ (fun t h => ht t (by simp [h])) hw⟩⟩
  | or _ _ i1 i2 | and _ _ i1 i2 =>
    intro p b c rest ht hw
    rw [List.append_assoc]
    exact i1 p b c _ (fun t h => ht t (by simp [h])) ⟨by decide +kernel, i2 p b c _ (fun t h => ht t (by simp [h])) hw⟩
  | @comparison r op _ _ _ _ _ _ i1 i2 =>
    intro p b c rest ht hw
    rw [List.append_assoc, List.append_assoc]
    refine i1 p b c _ (fun t h => ht t (by simp [h])) ?_
    have := i2 p b c rest (fun t h => ht t (by simp [h])) hw
    cases op
    case notIn => exact ⟨by decide +kernel, by decide +kernel, this⟩
    all_goals exact ⟨by decide +kernel, this⟩
  | strayNot _ _ ih =>
    intro p b c rest ht hw
    rw [List.append_assoc]
    exact ih p b c _ (fun t h => ht t (by simp [h])) ⟨by decide +kernel, hw⟩
  | @arith r op _ _ _ _ _ _ i1 i2 =>
    intro p b c rest ht hw
    rw [List.append_assoc]
    refine i1 p b c _ (fun t h => ht t (by simp [h])) ?_
    have := i2 p b c rest (fun t h => ht t (by simp [h])) hw
    cases op <;> exact ⟨by decide +kernel, this⟩
  | not _ ih | uminus _ ih =>
    intro p b c rest ht hw
    exact ⟨by decide +kernel, ih p b c rest (fun t h => ht t (by simp [h])) hw⟩
  | stringify _ ih =>
    intro p b c rest ht hw
    exact absurd (ht .stringify (by simp)) id
  | index _ _ i1 i2 =>
    intro p b c rest ht hw
    rw [List.append_assoc, List.append_assoc]
    exact i1 p b c _ (fun t h => ht t (by simp [h])) (i2 p (b + 1) c _ (fun t h => ht t (by simp [h])) ⟨by omega, hw⟩)
  | @method r l n a ts us _ _ i1 i2 =>
    intro p b c rest ht hw
    rw [List.append_assoc, List.append_assoc]
    refine i1 p b c _ (fun t h => ht t (by simp [h])) ⟨by decide +kernel, ht (.identifier n) (by simp), ?_⟩
    exact i2 (p + 1) b c _ (fun t h => ht t (by simp [h])) ⟨by omega, hw⟩
  | call _ _ i1 i2 =>
    intro p b c rest ht hw
    rw [List.append_assoc, List.append_assoc]
    exact i1 p b c _ (fun t h => ht t (by simp [h])) (i2 (p + 1) b c _ (fun t h => ht t (by simp [h])) ⟨by omega, hw⟩)
  | true | false =>
    intro p b c rest ht hw
    exact ⟨by decide +kernel, hw⟩
  | @id r s =>
    intro p b c rest ht hw
    exact ⟨ht (.identifier s) (by simp), hw⟩
  | @number r n =>
    intro p b c rest ht hw
    have := ht (.number n) (by simp)
    exact ⟨this.1, this.2, hw⟩
  | string =>
    intro p b c rest ht hw
    exact hw
  | paren _ ih =>
    intro p b c rest ht hw
    rw [List.append_assoc]
    exact ih (p + 1) b c _ (fun t h => ht t (by simp [h])) ⟨by omega, hw⟩
  | array _ ih =>
    intro p b c rest ht hw
    rw [List.append_assoc]
    exact ih p (b + 1) c _ (fun t h => ht t (by simp [h])) ⟨by omega, hw⟩
  | dict _ ih =>
    intro p b c rest ht hw
    rw [List.append_assoc]
    exact ih p b (c + 1) _ (fun t h => ht t (by simp [h])) ⟨by omega, hw⟩
  | noArgs => intro p b c rest _ hw; exact hw
  | lastArg _ _ ih => exact ih
  | arg _ _ _ i1 i2 =>
    intro p b c rest ht hw
    rw [List.append_assoc]
    exact i1 p b c _ (fun t h => ht t (by simp [h])) ⟨by decide +kernel, i2 p b c _ (fun t h => ht t (by simp [h])) hw⟩
  | lastKey _ _ _ i1 i2 =>
    intro p b c rest ht hw
    rw [List.append_assoc]
    exact i1 p b c _ (fun t h => ht t (by simp [h])) ⟨by decide +kernel, i2 p b c _ (fun t h => ht t (by simp [h])) hw⟩
  | key _ _ _ _ i1 i2 i3 =>
    intro p b c rest ht hw
    rw [List.append_assoc, List.append_assoc]
    exact i1 p b c _ (fun t h => ht t (by simp [h])) ⟨by decide +kernel, i2 p b c _ (fun t h => ht t (by simp [h])) ⟨by decide +kernel, i3 p b c _ (fun t h => ht t (by simp [h])) hw⟩⟩

theorem writable_eols (k : Nat) (rest : List Tok) (h : Lex.Spec.Writable false 0 0 0 rest) :
    Lex.Spec.Writable false 0 0 0 (List.replicate k .eol ++ rest) := by
  induction k with
  | zero => exact h
  | succ k ih => exact ⟨rfl, rfl, rfl, ih⟩

theorem writable_program {lv : Arith → Nat} {st : Prop} {strict : Bool} {p : Piece} {loop : Bool} {n : Node} {ts : List Tok}
    (h : Program lv st strict p loop n ts) : ∀ (rest : List Tok), (∀ t ∈ ts, TokOk t) → Lex.Spec.Writable false 0 0 0 rest →
      Lex.Spec.Writable false 0 0 0 (ts ++ rest) := by
  induction h with
  | nothing k => intro rest _ hw; exact writable_eols k rest hw
  | last k _ ih =>
    intro rest ht hw
    rw [List.append_assoc]
    exact writable_eols k _ (ih rest (fun t h => ht t (by simp [h])) hw)
  | cons k _ _ i1 i2 =>
    intro rest ht hw
    rw [List.append_assoc, List.append_assoc]
    exact writable_eols k _ (i1 _ (fun t h => ht t (by simp [h])) ⟨rfl, rfl, rfl, i2 rest (fun t h => ht t (by simp [h])) hw⟩)
  | expr h _ => exact fun rest ht hw => writable_expr h 0 0 0 rest ht hw
  | assign h1 h2 | plusAssign h1 h2 =>
    intro rest ht hw
    rw [List.append_assoc]
    exact writable_expr h1 0 0 0 _ (fun t h => ht t (by simp [h])) ⟨by decide +kernel, writable_expr h2 0 0 0 _ (fun t h => ht t (by simp [h])) hw⟩
  | «continue» | «break» => intro rest _ hw; exact ⟨by decide +kernel, hw⟩
  | «if» _ _ ih =>
    intro rest ht hw
    rw [List.append_assoc]
    exact ⟨by decide +kernel, ih _ (fun t h => ht t (by simp [h])) ⟨by decide +kernel, hw⟩⟩
  | @foreach loop v w e b ts us h1 _ _ ih =>
    intro rest ht hw
    have hb : Lex.Spec.Writable false 0 0 0 (.colon :: (ts ++ .eol :: (us ++ .kEndforeach :: rest))) :=
      ⟨by decide +kernel, writable_expr h1 0 0 0 _ (fun t h => ht t (by simp [h]))
        ⟨rfl, rfl, rfl, ih _ (fun t h => ht t (by simp [h])) ⟨by decide +kernel, hw⟩⟩⟩
    cases w with
    | none =>
      have := ht (.identifier v) (by simp [loopVars])
      simpa [loopVars] using (show Lex.Spec.Writable false 0 0 0 (.kForeach :: .identifier v :: _) from ⟨by decide +kernel, this, hb⟩)
    | some w =>
      have h1 := ht (.identifier v) (by simp [loopVars])
      have h2 := ht (.identifier w) (by simp [loopVars])
      simpa [loopVars] using (show Lex.Spec.Writable false 0 0 0 (.kForeach :: .identifier v :: .comma :: .identifier w :: _) from
        ⟨by decide +kernel, h1, by decide +kernel, h2, hb⟩)
  | branch h1 _ _ i1 i2 =>
    intro rest ht hw
    rw [List.append_assoc, List.append_assoc]
    exact writable_expr h1 0 0 0 _ (fun t h => ht t (by simp [h])) ⟨rfl, rfl, rfl, i1 _ (fun t h => ht t (by simp [h])) (i2 _ (fun t h => ht t (by simp [h])) hw)⟩
  | noElse => intro rest _ hw; exact hw
  | elif _ ih => intro rest ht hw; exact ⟨by decide +kernel, ih rest (fun t h => ht t (by simp [h])) hw⟩
  | «else» _ ih => intro rest ht hw; exact ⟨by decide +kernel, rfl, rfl, rfl, ih rest (fun t h => ht t (by simp [h])) hw⟩

theorem parseText_render (strict : Bool) (ts : List Tok) (hw : Lex.Spec.Writable false 0 0 0 ts) :
    parseText strict (Lex.Spec.render ts) = parse strict (ts ++ [Tok.eof]) := by
  have hl := lex_render false ts hw
  unfold parseText
  generalize lex false false (Lex.Spec.render ts) = x at hl
  subst hl
  rfl

theorem writable_all {strict : Bool} {n : Node} {ts : List Tok} (h : Program muonLevel True strict .block false n ts)
    (ht : ∀ t ∈ ts, TokOk t) : Lex.Spec.Writable false 0 0 0 ts := by
  have hn : Lex.Spec.Writable false 0 0 0 [] := by unfold Lex.Spec.Writable; trivial
  have := writable_program h [] ht hn
  rwa [List.append_nil] at this

/-- A program written down and parsed is the same program. -/
theorem parseText_program (strict : Bool) (n : Node) (ts : List Tok) (h : Program muonLevel True strict .block false n ts)
    (ht : ∀ t ∈ ts, TokOk t) : parseText strict (Lex.Spec.render ts) = .ok n := by
  rw [parseText_render strict ts (writable_all h ht)]
  exact (parse_iff strict (ts ++ [Tok.eof]) n).2 ⟨ts, [], rfl, h⟩

/-- `foreach a, b : c`, with `continue` in the body. -/
example : Program muonLevel True true .block false
    (.block (.foreach (ascii "a") (some (ascii "b")) (.id (ascii "c")) (.block .continue .empty)) .empty)
    [.eol, .kForeach, va, .comma, vb, .colon, vc, .eol, .kContinue, .eol, .kEndforeach] := by
  refine Program.last (ts := [.kForeach, va, .comma, vb, .colon, vc, .eol, .kContinue, .eol, .kEndforeach]) 1 ?_
  refine Program.foreach (ts := [vc]) (us := [.kContinue, .eol]) ?_ (Program.cons (ts := [.kContinue]) (us := []) 0 .continue (.nothing 0)) ?_
  · exact .orExpr (.andOr (.compAnd (.arithComp (lift_to 5 (by omega) (.postUnary (.atomPost .id))))))
  · intro _
    exact ⟨.block .continue .empty, by simp [parts], rfl⟩

example : ∀ t ∈ [Tok.eol, .kForeach, va, .comma, vb, .colon, vc, .eol, .kContinue, .eol, .kEndforeach], TokOk t := by
  have n1 : ∀ c : UInt8, isAlpha c = true → (∀ e ∈ Lex.Spec.symbols, ascii e.2 ≠ [c]) → Lex.Spec.isName false [c] :=
    fun c h1 h2 => ⟨⟨c, [], rfl, Or.inl h1, by simp⟩, h2, by simp⟩
  intro t ht
  simp only [List.mem_cons, List.not_mem_nil, or_false] at ht
  rcases ht with rfl | rfl | rfl | rfl | rfl | rfl | rfl | rfl | rfl | rfl | rfl <;>
    first
    | trivial
    | exact n1 97 (by decide +kernel) (by decide +kernel)
    | exact n1 98 (by decide +kernel) (by decide +kernel)
    | exact n1 99 (by decide +kernel) (by decide +kernel)

end Muon.Parse
