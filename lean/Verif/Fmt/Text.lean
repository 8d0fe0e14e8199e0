import Verif.Fmt.Spec
import Verif.Lex.Layout
/-
Helper lemmas: texts and the tokens that the lexer makes of them, whatever comes before and after.
-/
namespace Muon.Fmt
open Muon Lex Lex.Spec

/-- Where a text stands: inside of brackets, outside of brackets, or in either place. -/
inductive Wh | inside | outside | any
deriving DecidableEq

def Wh.holds (st : Lx) : Wh → Prop
  | .inside => isOpen (st.paren, st.bracket, st.curl) = true
  | .outside => st.paren = 0 ∧ st.bracket = 0 ∧ st.curl = 0
  | .any => True

/-- The lexer makes the tokens `ts` of the text `t`, if what follows satisfies `P`. -/
def Lexes (w : Wh) (P : Bytes → Prop) (t : Bytes) (ts : List Tok) : Prop :=
  ∀ (cfg : Cfg) (st : Lx) (x : Bytes) (R : Bool × List Tok), cfg.fmt = false → cfg.funcs = false → w.holds st → P x →
    (∀ d, LexesTo cfg { st with r := x, dataI := d, toks := st.toks ++ ts } R) → LexesTo cfg { st with r := t ++ x } R

/-- What may follow a word: the end, a blank, a newline, or one of `()[]}.,:`. -/
def Sep (x : Bytes) : Prop := x = [] ∨ ∃ c y, x = c :: y ∧ c ∈ ([32, 10, 40, 41, 91, 93, 125, 46, 44, 58] : Bytes)

/-- What may follow an operator. -/
def NotEq (x : Bytes) : Prop := x.headD 0 ≠ 61 ∧ x.headD 0 ≠ 62

def Any (_ : Bytes) : Prop := True

theorem Sep.props {x : Bytes} (h : Sep x) : isIdent (x.headD 0) = false ∧ x.headD 0 ≠ 39 ∧ NotEq x := by
  rcases h with rfl | ⟨c, y, rfl, hc⟩
  · exact ⟨by decide, by decide, by decide, by decide⟩
  · have : ∀ c ∈ ([32, 10, 40, 41, 91, 93, 125, 46, 44, 58] : Bytes), isIdent c = false ∧ c ≠ 39 ∧ c ≠ 61 ∧ c ≠ 62 := by decide +kernel
    obtain ⟨a, b, c', d⟩ := this c hc
    exact ⟨a, b, c', d⟩

theorem Sep.cons {c : UInt8} {y : Bytes} (h : c ∈ ([32, 10, 40, 41, 91, 93, 125, 46, 44, 58] : Bytes)) : Sep (c :: y) := Or.inr ⟨c, y, rfl, h⟩

theorem Lexes.nil (w : Wh) (P : Bytes → Prop) : Lexes w P [] [] := by
  intro cfg st x R _ _ _ _ h
  have := h st.dataI
  rw [List.append_nil] at this
  exact this

theorem Lexes.append {w : Wh} {P Q : Bytes → Prop} {t u : Bytes} {ts us : List Tok} (h1 : Lexes w P t ts) (h2 : Lexes w Q u us)
    (h : ∀ x, Q x → P (u ++ x)) : Lexes w Q (t ++ u) (ts ++ us) := by
  intro cfg st x R hf hn hw hx hr
  rw [List.append_assoc]
  refine h1 cfg st (u ++ x) R hf hn hw (h x hx) ?_
  intro d
  refine h2 cfg { st with dataI := d, toks := st.toks ++ ts } x R hf hn ?_ hx ?_
  · cases w <;> exact hw
  · intro d'
    have := hr d'
    simpa [List.append_assoc] using this

theorem Lexes.mono {w : Wh} {P Q : Bytes → Prop} {t : Bytes} {ts : List Tok} (h : Lexes w P t ts) (hq : ∀ x, Q x → P x) : Lexes w Q t ts :=
  fun cfg st x R hf hn hw hx hr => h cfg st x R hf hn hw (hq x hx) hr

theorem Lexes.weaken {w : Wh} {P : Bytes → Prop} {t : Bytes} {ts : List Tok} (h : Lexes .any P t ts) : Lexes w P t ts :=
  fun cfg st x R hf hn _ hx hr => h cfg st x R hf hn trivial hx hr

/-- One step of the lexer. -/
theorem Lexes.step {w : Wh} {P : Bytes → Prop} {t : Bytes} {ts : List Tok} (hne : t ≠ [])
    (h : ∀ (cfg : Cfg) (st : Lx) (x : Bytes) (f : Nat), cfg.fmt = false → cfg.funcs = false → w.holds st → P x →
      ∃ d, OkOr (lexOne cfg (f + 1) { st with r := t ++ x }) (.cont, { st with r := x, dataI := d, toks := st.toks ++ ts })) : Lexes w P t ts := by
  intro cfg st x R hf hn hw hx hr f hlen
  cases f with
  | zero => exact absurd hlen (Nat.not_lt_zero _)
  | succ f =>
    obtain ⟨d, hd⟩ := h cfg st x (t ++ x).length hf hn hw hx
    rw [tokenize]
    refine OkOr.bind hd ?_
    refine hr d f ?_
    have := List.length_pos_iff.2 hne
    simp only [List.length_append] at hlen ⊢
    omega

theorem Lexes.gap {w : Wh} {g : Bytes} (hg : Gap (w == .inside) false g) : Lexes w Any g [] := by
  intro cfg st x R hf _ hw _ hr
  refine gap_lexes cfg hf st false g x R (by simp) ?_ (by simpa using hr st.dataI)
  cases w with
  | inside => rw [show isOpen (st.paren, st.bracket, st.curl) = true from hw]; exact hg
  | outside =>
    rw [show isOpen (st.paren, st.bracket, st.curl) = false by obtain ⟨a, b, c⟩ := hw; simp [isOpen, a, b, c]]
    exact hg
  | any =>
    have key : ∀ {i : Bool} {g : Bytes}, Gap false false g → Gap i false g := by
      intro i g h
      induction h with
      | nil => exact .nil
      | blank h _ ih => exact .blank h ih
      | continuation _ ih => exact .continuation ih
      | newline h => cases h
      | comment h => cases h
      | lastComment h => cases h
    exact key hg

theorem Lexes.word {t : Tok} (c : UInt8) (v : Bytes) (hc : isIdentStart c = true) (hv : ∀ d ∈ v, isIdent d = true)
    (ht : ∀ cfg : Cfg, cfg.funcs = false → keyword cfg (c :: v) = some t ∨ keyword cfg (c :: v) = none ∧ t = .identifier (c :: v)) :
    Lexes .any Sep (c :: v) [t] :=
  Lexes.step (by simp) fun cfg st x f _ hn _ hx =>
    lexOne_word cfg { st with r := c :: v ++ x } f c v x hc hv hx.props.1 hx.props.2.1 rfl t (ht cfg hn)

theorem Lexes.op {t : Tok} (c : UInt8) (v : Bytes) (hc : isOperator c = true)
    (ho : ∀ (cfg : Cfg) (n : UInt8), cfg.funcs = false → n ≠ 61 → n ≠ 62 → operator cfg c ((v ++ [n]).headD 0) = some (t, v.length + 1)) :
    Lexes .any NotEq (c :: v) [t] :=
  Lexes.step (by simp) fun cfg st x f _ hn _ hx => by
    refine ⟨st.dataI, Or.inl ?_⟩
    have e : (v ++ x).headD 0 = (v ++ [x.headD 0]).headD 0 := by cases v <;> simp
    rw [lexOne_operator cfg { st with r := c :: v ++ x } f c (v ++ x) hc rfl t (v.length + 1) (by rw [e]; exact ho cfg _ hn hx.1 hx.2)]
    simp

theorem keyword_cfg (cfg cfg' : Cfg) (h : cfg.funcs = cfg'.funcs) (s : Bytes) : keyword cfg s = keyword cfg' s := by
  unfold keyword
  rw [h]

theorem Lexes.kw (c : UInt8) (v : Bytes) (t : Tok)
    (h : (isIdentStart c && v.all isIdent && (keyword { len := 0 } (c :: v) == some t)) = true) : Lexes .any Sep (c :: v) [t] := by
  simp only [Bool.and_eq_true, List.all_eq_true, beq_iff_eq] at h
  exact Lexes.word c v h.1.1 h.1.2 (fun cfg hn => Or.inl (by rw [keyword_cfg cfg { len := 0 } hn]; exact h.2))

theorem Lexes.name {s : Bytes} (h : isName false s) : Lexes .any Sep s [.identifier s] := by
  have h0 := h
  obtain ⟨⟨c, v, rfl, hc, hv⟩, _⟩ := h
  have k1 : ∀ c : UInt8, (isAlpha c = true ∨ c = 95) → isIdentStart c = true := forall_byte (by decide +kernel)
  have k2 : ∀ c : UInt8, (isAlnum c = true ∨ c = 95) → isIdent c = true := forall_byte (by decide +kernel)
  exact Lexes.word c v (k1 c hc) (fun d hd => k2 d (hv d hd)) (fun cfg hn => Or.inr ⟨keyword_none cfg (c :: v) (by rw [hn]; exact h0), rfl⟩)

theorem operator_cfg (cfg cfg' : Cfg) (h : cfg.funcs = cfg'.funcs) (c n : UInt8) : operator cfg c n = operator cfg' c n := by
  unfold operator
  rw [h]

theorem Lexes.op1 (c : UInt8) (t : Tok) (hc : isOperator c = true)
    (h : ∀ n : UInt8, n ≠ 61 → n ≠ 62 → operator { len := 0 } c n = some (t, 1)) : Lexes .any NotEq [c] [t] :=
  Lexes.op c [] hc (fun cfg n hn h1 h2 => by rw [operator_cfg cfg { len := 0 } hn]; exact h n h1 h2)

theorem Lexes.op2 (c d : UInt8) (t : Tok) (hc : isOperator c = true)
    (h : operator { len := 0 } c d = some (t, 2)) : Lexes .any NotEq [c, d] [t] :=
  Lexes.op c [d] hc (fun cfg n hn _ _ => by rw [operator_cfg cfg { len := 0 } hn]; exact h)

/-- Operators that are complete whatever follows. -/
theorem Lexes.point (c : UInt8) (t : Tok) (hc : isOperator c = true)
    (h : ∀ n : UInt8, operator { len := 0 } c n = some (t, 1)) : Lexes .any Any [c] [t] :=
  Lexes.step (by simp) fun cfg st x f _ hn _ _ => by
    refine ⟨st.dataI, Or.inl ?_⟩
    rw [lexOne_operator cfg { st with r := [c] ++ x } f c x hc rfl t 1 (by rw [operator_cfg cfg { len := 0 } hn]; exact h _)]
    simp

theorem Lexes.dot : Lexes .any Any [46] [.dot] := .point _ _ (by decide +kernel) (forall_byte (by decide +kernel))
theorem Lexes.comma : Lexes .any Any [44] [.comma] := .point _ _ (by decide +kernel) (forall_byte (by decide +kernel))
theorem Lexes.colon : Lexes .any Any [58] [.colon] := .point _ _ (by decide +kernel) (forall_byte (by decide +kernel))
theorem Lexes.question : Lexes .any Any [63] [.question] := .point _ _ (by decide +kernel) (forall_byte (by decide +kernel))

theorem Lexes.eol : Lexes .outside Any [10] [.eol] :=
  Lexes.step (by simp) fun cfg st x f _ _ hw _ =>
    ⟨st.dataI, Or.inl (lexOne_eol cfg { st with r := [10] ++ x } f x rfl hw)⟩

/-- A text in brackets. -/
theorem Lexes.paren {t : Bytes} {ts : List Tok} {w : Wh} (h : Lexes .inside Sep t ts) : Lexes w Any (40 :: (t ++ [41])) (.lparen :: (ts ++ [.rparen])) := by
  intro cfg st x R hf hn _ _ hr f hlen
  cases f with
  | zero => exact absurd hlen (Nat.not_lt_zero _)
  | succ f =>
    rw [tokenize]
    rw [(lexOne_open cfg { st with r := 40 :: (t ++ [41]) ++ x } _ (t ++ [41] ++ x)).1 rfl, Res.ok_bind]
    dsimp only
    have := h cfg { st with paren := st.paren + 1, toks := st.toks ++ [.lparen] } (41 :: x) R hf hn (by simp [Wh.holds, isOpen]) (Sep.cons (by decide)) ?_
    · have := this f (by simp at hlen ⊢; omega)
      simpa using this
    · intro d f' hlen'
      cases f' with
      | zero => exact absurd hlen' (Nat.not_lt_zero _)
      | succ f' =>
        rw [tokenize]
        rw [(lexOne_close cfg { st with r := 41 :: x, dataI := d, paren := st.paren + 1, toks := st.toks ++ [.lparen] ++ ts } _ x).1 rfl (by simp), Res.ok_bind]
        have := hr d f' (by simp at hlen' ⊢; omega)
        simpa using this

theorem Lexes.brack {t : Bytes} {ts : List Tok} {w : Wh} (h : Lexes .inside Sep t ts) : Lexes w Any (91 :: (t ++ [93])) (.lbrack :: (ts ++ [.rbrack])) := by
  intro cfg st x R hf hn _ _ hr f hlen
  cases f with
  | zero => exact absurd hlen (Nat.not_lt_zero _)
  | succ f =>
    rw [tokenize]
    rw [(lexOne_open cfg { st with r := 91 :: (t ++ [93]) ++ x } _ (t ++ [93] ++ x)).2.1 rfl, Res.ok_bind]
    dsimp only
    have := h cfg { st with bracket := st.bracket + 1, toks := st.toks ++ [.lbrack] } (93 :: x) R hf hn (by simp [Wh.holds, isOpen]) (Sep.cons (by decide)) ?_
    · have := this f (by simp at hlen ⊢; omega)
      simpa using this
    · intro d f' hlen'
      cases f' with
      | zero => exact absurd hlen' (Nat.not_lt_zero _)
      | succ f' =>
        rw [tokenize]
        rw [(lexOne_close cfg { st with r := 93 :: x, dataI := d, bracket := st.bracket + 1, toks := st.toks ++ [.lbrack] ++ ts } _ x).2.1 rfl (by simp), Res.ok_bind]
        have := hr d f' (by simp at hlen' ⊢; omega)
        simpa using this

theorem Lexes.curl {t : Bytes} {ts : List Tok} {w : Wh} (h : Lexes .inside Sep t ts) : Lexes w Any (123 :: (t ++ [125])) (.lcurl :: (ts ++ [.rcurl])) := by
  intro cfg st x R hf hn _ _ hr f hlen
  cases f with
  | zero => exact absurd hlen (Nat.not_lt_zero _)
  | succ f =>
    rw [tokenize]
    rw [(lexOne_open cfg { st with r := 123 :: (t ++ [125]) ++ x } _ (t ++ [125] ++ x)).2.2 rfl, Res.ok_bind]
    dsimp only
    have := h cfg { st with curl := st.curl + 1, toks := st.toks ++ [.lcurl] } (125 :: x) R hf hn (by simp [Wh.holds, isOpen]) (Sep.cons (by decide)) ?_
    · have := this f (by simp at hlen ⊢; omega)
      simpa using this
    · intro d f' hlen'
      cases f' with
      | zero => exact absurd hlen' (Nat.not_lt_zero _)
      | succ f' =>
        rw [tokenize]
        rw [(lexOne_close cfg { st with r := 125 :: x, dataI := d, curl := st.curl + 1, toks := st.toks ++ [.lcurl] ++ ts } _ x).2.2 rfl (by simp), Res.ok_bind]
        have := hr d f' (by simp at hlen' ⊢; omega)
        simpa using this

/-- A comment before the end of a line. -/
theorem Lexes.remark {c : Bytes} (hc : ∀ x ∈ c, x ≠ 0 ∧ x ≠ 10) : Lexes .outside (fun x => ∃ y, x = 10 :: y) (35 :: c) [] := by
  intro cfg st x R hf _ hw hx hr
  refine gap_lexes cfg hf st true (35 :: c) x R (fun _ => hx) (.lastComment rfl hc) (by simpa using hr st.dataI)

/-- A whole text. -/
theorem Lexes.whole {t : Bytes} {ts : List Tok} (h : Lexes .outside (fun x => x = []) t ts) : OkOr (lex false false t) (true, ts ++ [.eof]) := by
  have := h { len := t.length } { r := [] } [] (true, ts ++ [.eof]) rfl rfl ⟨rfl, rfl, rfl⟩ rfl ?_
  · rw [List.append_nil] at this
    exact this (t.length + 1) (by simp)
  · intro d f hlen
    cases f with
    | zero => exact absurd hlen (Nat.not_lt_zero _)
    | succ f =>
      rw [tokenize, lexOne, skip]
      exact Or.inl (by simp)

end Muon.Fmt
