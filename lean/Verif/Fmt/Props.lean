import Verif.Fmt.Program
/-
C86: what `muon fmt` writes is the same program.
-/
namespace Muon.Fmt
open Muon Lex Parse Parse.Spec Fmt.Spec

/-- The result of formatting is the same program: let `src` be a text, `p` the tree of its tokens with parentheses, empty lines, comments
on lines of their own and literals as they are written. Then `src` is accepted and so is the formatted text, and the two programs differ
at most in the arguments of `files`. For all options but `space_array`, with an indentation of blanks and tabs.

What is missing: the option `space_array`; programs with a statement that is an expression with an arithmetic operator outside of brackets
(for both see the counterexamples); comments at the ends of lines; programs nested 4096 deep, to which parentheses cannot be added; that
the parser makes `p` of `src` when it keeps formatting. -/
theorem fmt_same_program_partial (o : Opts) (hs : o.spaceArray = false) (hi : ∀ c ∈ o.indentBy, c = 32 ∨ c = 9)
    (sort : List Elem → List Elem) (hsort : ∀ l, (sort l).Perm l) (strict : Bool) (src : Bytes) (ts : List Tok) (p : S)
    (hl : lex false false src = .ok (true, ts ++ [.eof])) (hp : Source strict 4095 .block false p ts) (hw : WordsS p) (hn : Plain p) :
    ∃ n n', parseText strict src = .ok n ∧ parseText strict (fmt o sort p) = .ok n' ∧ Same n n' := by
  refine ⟨eraseS p, eraseS (arrangeS sort p), ?_, ?_, source_same hsort hp⟩
  · unfold parseText
    rw [hl]
    exact (parse_iff strict _ _).2 ⟨ts, [], rfl, source_program (by omega) hp⟩
  · obtain ⟨us, hu⟩ := source_arrange hsort hp
    have h1 := prints o hi hs hu (wordsS_arrange hsort p hw) (plain_arrange p hn) {} 0 rfl rfl rfl
    dsimp only at h1
    obtain ⟨t, ⟨_, _, ⟨vs, h2, h3⟩, ⟨u, hu, rfl⟩, rfl⟩, h4, _⟩ := (h1.seq (Em.line (f := {}) rfl hi false)) {} rfl rfl
    have h5 := Lexes.whole ((h2.append (Lexes.line hu) (fun x _ => ⟨u ++ x, rfl⟩)).mono fun _ _ => trivial)
    unfold fmt parseText
    rw [h4]
    rw [List.nil_append, lex_of_okOr _ _ _ h5]
    exact (parse_iff strict _ _).2 ⟨_, [], rfl, h3⟩

/-- If nothing is sorted and no array taken apart in calls of `files`, it is exactly the same program. -/
theorem fmt_without_files_partial (o : Opts) (hs : o.spaceArray = false) (hi : ∀ c ∈ o.indentBy, c = 32 ∨ c = 9)
    (sort : List Elem → List Elem) (strict : Bool) (src : Bytes) (ts : List Tok) (p : S)
    (hl : lex false false src = .ok (true, ts ++ [.eof])) (hp : Source strict 4095 .block false p ts) (hw : WordsS p) (hn : Plain p)
    (hf : arrangeS sort p = p) : parseText strict (fmt o sort p) = parseText strict src ∧ ∃ n, parseText strict src = .ok n := by
  have h0 : parseText strict src = .ok (eraseS p) := by
    unfold parseText
    rw [hl]
    exact (parse_iff strict _ _).2 ⟨ts, [], rfl, source_program (by omega) hp⟩
  refine ⟨?_, _, h0⟩
  rw [h0]
  have h1 := prints o hi hs hp hw hn {} 0 rfl rfl rfl
  dsimp only at h1
  obtain ⟨t, ⟨_, _, ⟨vs, h2, h3⟩, ⟨u, hu, rfl⟩, rfl⟩, h4, _⟩ := (h1.seq (Em.line (f := {}) rfl hi false)) {} rfl rfl
  have h5 := Lexes.whole ((h2.append (Lexes.line hu) (fun x _ => ⟨u ++ x, rfl⟩)).mono fun _ _ => trivial)
  unfold fmt parseText
  rw [hf, h4]
  rw [List.nil_append, lex_of_okOr _ _ _ h5]
  exact (parse_iff strict _ _).2 ⟨_, [], rfl, h3⟩

/-- A comment on a line of its own is written as it is, but for what follows the first 4094 characters. -/
theorem comment_text (o : Opts) (sort : List Elem → List Elem) (c : Bytes) :
    fmt o sort (.block (.blank (some c)) .nothing) = 35 :: c.take 4094 ++ [10] := by
  have key : Em (prS o (.block (.blank (some c)) .nothing) true {}) 0 0 0 0 (· = 35 :: c.take 4094) := by
    rw [prS, if_pos (show isNothing .nothing = true from rfl)]
    refine (Em.seq (Q := (· = 35 :: c.take 4094)) (Em.check rfl (keep_prS o _ _ _ rfl) fun ml => ?_) (Em.nop.seq (Em.tailNone rfl))).mono ?_
    · rw [prS, if_pos (show (setup {}).write = true from rfl)]
      refine ((Em.tailNone (f := { setup {} with ml }) rfl).seq ((Em.writes (f := { setup {} with ml }) rfl _).seq (Em.force _))).mono ?_
      rintro _ ⟨_, _, rfl, ⟨_, _, rfl, rfl, rfl⟩, rfl⟩
      simp
    · rintro _ ⟨_, _, rfl, ⟨_, _, rfl, rfl, rfl⟩, rfl⟩
      simp
  obtain ⟨t, rfl, h1, h2, h3⟩ := key {} rfl rfl
  unfold fmt
  rw [arrangeS, seq_def]
  dsimp only
  show (newlineForce o {} false (prS o (.block (.blank (some c)) .nothing) true {} {}).2).2.out = _
  unfold newlineForce newline
  simp only [setup, Bool.and_self, if_true, Bool.false_eq_true, if_false]
  rw [h1, h3]
  rfl

/-! ### The hypotheses are met -/

/-- `x = 1 + f('a', k: 2)`, a comment, `if x == 2`, `message(x)`, `endif`. -/
def sample : S :=
  .block (.assign (ascii "x") (.arith .add (.number (ascii "1") 1)
    (.call (.id (ascii "f")) (.arg (.string (ascii "'a'") (ascii "a")) (.kwarg (.id (ascii "k")) (.number (ascii "2") 2) (.nil false))))))
  (.block (.blank (some (ascii " c")))
  (.block (.ifs (.branch (.comparison .eq (.id (ascii "x")) (.number (ascii "2") 2))
    (.block (.expr (.call (.id (ascii "message")) (.arg (.id (ascii "x")) (.nil false)))) .nothing) .nothing)) .nothing))

/-- The text of `sample`, badly formatted. -/
def sampleText : Bytes := ascii "x =1+f( 'a',k :2)\n# c\nif x==2\nmessage ( x)\nendif"

def sampleToks : List Tok :=
  [.identifier (ascii "x"), .assign, .number 1, .plus, .identifier (ascii "f"), .lparen, .string (ascii "a"), .comma, .identifier (ascii "k"),
   .colon, .number 2, .rparen, .eol, .eol, .kIf, .identifier (ascii "x"), .eq, .number 2, .eol, .identifier (ascii "message"), .lparen,
   .identifier (ascii "x"), .rparen, .eol, .kEndif]

theorem up {r : Nat} {e : E} {ts : List Tok} (h : Tree (.arith 0) r e ts) : Tree .expr (r + 1) e ts := .orExpr (.andOr (.compAnd (.arithComp h)))
theorem lift {k r : Nat} {e : E} {ts : List Tok} (hk : k ≤ 5) (h : Tree .post r e ts) : Tree (.arith k) r e ts := by
  have h5 : Tree (.arith 5) r e ts := .postUnary h
  have h4 : Tree (.arith 4) r e ts := .arithLift (by omega) h5
  have h3 : Tree (.arith 3) r e ts := .arithLift (by omega) h4
  have h2 : Tree (.arith 2) r e ts := .arithLift (by omega) h3
  have h1 : Tree (.arith 1) r e ts := .arithLift (by omega) h2
  have h0 : Tree (.arith 0) r e ts := .arithLift (by omega) h1
  match k, hk with
  | 0, _ => exact h0
  | 1, _ => exact h1
  | 2, _ => exact h2
  | 3, _ => exact h3
  | 4, _ => exact h4
  | 5, _ => exact h5
theorem post {r : Nat} {e : E} {ts : List Tok} (h : Tree .post r e ts) : Tree .expr (r + 1) e ts := up (lift (by omega) h)

theorem name_of (c : UInt8) (t : Bytes) (h : ((isAlpha c || c == 95) && t.all (fun d => isAlnum d || d == 95) &&
    Lex.Spec.symbols.all (fun e => ascii e.2 != c :: t)) = true) : Lex.Spec.isName false (c :: t) := by
  simp only [Bool.and_eq_true, Bool.or_eq_true, beq_iff_eq, List.all_eq_true, bne_iff_ne] at h
  exact ⟨⟨c, t, rfl, h.1.1, h.1.2⟩, h.2, by simp⟩

theorem sample_words : WordsS sample := by
  have nx : Lex.Spec.isName false (ascii "x") := name_of 120 [] (by decide +kernel)
  have n1 : NumberLit (ascii "1") 1 := ⟨⟨49, rfl, by decide⟩, by decide +kernel, by decide +kernel, by decide +kernel⟩
  have n2 : NumberLit (ascii "2") 2 := ⟨⟨50, rfl, by decide⟩, by decide +kernel, by decide +kernel, by decide +kernel⟩
  have hc : ∀ x ∈ ascii " c", x ≠ 0 ∧ x ≠ 10 := by decide +kernel
  exact ⟨⟨nx, n1, name_of 102 [] (by decide +kernel), ⟨by decide +kernel, by decide +kernel, by decide +kernel⟩,
    name_of 107 [] (by decide +kernel), n2, trivial⟩, hc,
    ⟨⟨nx, n2⟩, ⟨⟨name_of 109 (ascii "essage") (by decide +kernel), nx, trivial⟩, trivial⟩, trivial⟩, trivial⟩

theorem sample_source : Source true 4095 .block false sample sampleToks := by
  have n1 : ∀ r, Tree .post r (.number (ascii "1") 1) [.number 1] := fun r => .atomPost .number
  have n2 : ∀ r, Tree .post r (.number (ascii "2") 2) [.number 2] := fun r => .atomPost .number
  have h1 := Tree.arith (op := .add) (lift (by decide) (n1 4094)) (lift (by decide) (Tree.call (.atomPost (.id (s := ascii "f")))
    (.arg (m := .arguments) (by decide) (post (.atomPost (.string (raw := ascii "'a'") (s := ascii "a"))))
      (.lastKey (Or.inr ⟨rfl, _, rfl⟩) (post (.atomPost (.id (s := ascii "k")))) (post (n2 4093))) (by simp))))
  have h2 : Tree .expr 4095 _ _ := up h1
  have h3 : Tree .expr 4095 _ _ := .orExpr (.andOr (.compAnd (.comparison (op := .eq) (lift (by decide) (.atomPost (.id (s := ascii "x")))) (lift (by decide) (n2 4094)))))
  have h4 : Tree .expr 4095 _ _ := post (Tree.call (.atomPost (.id (s := ascii "message"))) (.lastArg (m := .arguments) (by decide) (post (r := 4093) (.atomPost (.id (s := ascii "x"))))))
  have h5 := Source.cons (strict := true) (loop := false) (.assign (s := ascii "x") h2) (.blank (c := some (ascii " c")) (.last (.if
    (.branch h3 (.cons (.expr h4 fun _ => ⟨_, List.mem_cons_self, rfl⟩) .nothing) .noElse) fun _ => ?_)))
  · exact h5
  · exact ⟨.block (.call (.id (ascii "message")) (.argument (.id (ascii "x")) .empty)) .empty, by decide +kernel, rfl⟩

example : (∃ n n', parseText true sampleText = .ok n ∧ parseText true (fmt {} id sample) = .ok n' ∧ Same n n') :=
  fmt_same_program_partial {} rfl (by decide +kernel) id (fun _ => .refl _) true sampleText sampleToks sample (by decide +kernel) sample_source sample_words
    ⟨trivial, trivial, ⟨⟨trivial, trivial⟩, trivial⟩, trivial⟩

/-- It is too long for one line, and parentheses are added. -/
example : fmt { maxLineLen := 10 } id sample =
    ascii "x = (\n    1 + f(\n        'a',\n        k: 2,\n    )\n)\n# c\nif x == 2\n    message(\n        x,\n    )\nendif\n" := by decide +kernel

/-! ### Where the program is not the same -/

/-- `fooooo() + 1`: a statement with an operator outside of brackets, on a line that is too short. -/
def bare : S := .block (.expr (.arith .add (.call (.id (ascii "fooooo")) (.nil false)) (.number (ascii "1") 1))) .nothing

/-- The line is broken after the operator, outside of brackets, and the result is not accepted. -/
theorem bare_expression_counterexample :
    Source true 4095 .block false bare [.identifier (ascii "fooooo"), .lparen, .rparen, .plus, .number 1] ∧ WordsS bare ∧
    fmt { maxLineLen := 10 } id bare = ascii "fooooo() +\n1\n" ∧
    parseText true (ascii "fooooo() + 1") = .ok (eraseS bare) ∧ parseText true (fmt { maxLineLen := 10 } id bare) = .fail := by
  refine ⟨.last (.expr (up (Tree.arith (op := .add) (lift (by decide) (Tree.call (.atomPost (.id (s := ascii "fooooo"))) (.noArgs (m := .arguments) (r := 4093))))
    (lift (by decide) (.atomPost (.number (raw := ascii "1")))))) fun _ => ⟨.call (.id (ascii "fooooo")) .empty, by decide +kernel, rfl⟩), ?_, by decide +kernel,
    by decide +kernel, by decide +kernel⟩
  exact ⟨⟨⟨name_of 102 (ascii "ooooo") (by decide +kernel), trivial⟩, ⟨49, rfl, by decide⟩, by decide +kernel, by decide +kernel, by decide +kernel⟩, trivial⟩

/-- `x = [1] + 2`. -/
def spaced : S := .block (.assign (ascii "x") (.arith .add (.array (.arg (.number (ascii "1") 1) (.nil false))) (.number (ascii "2") 2))) .nothing

/-- With `space_array`, the blanks in an array are not counted: the line is taken to fit, and is broken all the same, outside of brackets. -/
theorem space_array_counterexample :
    Source true 4095 .block false spaced [.identifier (ascii "x"), .assign, .lbrack, .number 1, .rbrack, .plus, .number 2] ∧ WordsS spaced ∧ Plain spaced ∧
    fmt { maxLineLen := 11, spaceArray := true } id spaced = ascii "x = [ 1 ] +\n2\n" ∧
    parseText true (ascii "x = [1] + 2") = .ok (eraseS spaced) ∧ parseText true (fmt { maxLineLen := 11, spaceArray := true } id spaced) = .fail := by
  have n1 : NumberLit (ascii "1") 1 := ⟨⟨49, rfl, by decide⟩, by decide +kernel, by decide +kernel, by decide +kernel⟩
  have n2 : NumberLit (ascii "2") 2 := ⟨⟨50, rfl, by decide⟩, by decide +kernel, by decide +kernel, by decide +kernel⟩
  exact ⟨.last (.assign (up (Tree.arith (op := .add) (lift (by decide) (.atomPost (.array (.lastArg (by decide) (post (r := 4093) (.atomPost (.number (raw := ascii "1"))))))))
    (lift (by decide) (.atomPost (.number (raw := ascii "2"))))))), ⟨⟨name_of 120 [] (by decide +kernel), ⟨n1, trivial⟩, n2⟩, trivial⟩, ⟨trivial, trivial⟩,
    by decide +kernel, by decide +kernel, by decide +kernel⟩

/-- `x = aaaaaa and b`; if `indent_by` is not blank, it becomes part of the program: here it is `not `. -/
def indented : S := .block (.assign (ascii "x") (.and (.id (ascii "aaaaaa")) (.id (ascii "b")))) .nothing

theorem indent_by_counterexample :
    fmt { maxLineLen := 10, indentBy := ascii "not " } id indented = ascii "x = (\nnot aaaaaa\nnot and b\n)\n" ∧
    parseText true (ascii "x = aaaaaa and b") = .ok (eraseS indented) ∧
    parseText true (fmt { maxLineLen := 10, indentBy := ascii "not " } id indented) =
      .ok (eraseS (.block (.assign (ascii "x") (.and (.not (.id (ascii "aaaaaa"))) (.id (ascii "b")))) .nothing)) := by
  refine ⟨by decide +kernel, by decide +kernel, by decide +kernel⟩

end Muon.Fmt
