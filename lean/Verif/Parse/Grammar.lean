import Verif.Parse.Lemmas
import Verif.Parse.Spec
/-
Helper lemmas: the parser finds the tree of each text of the grammar.
-/
namespace Muon.Parse
open Muon Lex Spec

/-- The tokens that would continue an expression of a level. -/
def cont : Lv → List Tok
  | .expr => [.question, .kOr, .kAnd, .eq, .neq, .lt, .leq, .gt, .geq, .kIn, .kNot, .plus, .minus, .modulo, .star, .slash, .dot, .lbrack, .lparen]
  | .or => [.kOr, .kAnd, .eq, .neq, .lt, .leq, .gt, .geq, .kIn, .kNot, .plus, .minus, .modulo, .star, .slash, .dot, .lbrack, .lparen]
  | .and => [.kAnd, .eq, .neq, .lt, .leq, .gt, .geq, .kIn, .kNot, .plus, .minus, .modulo, .star, .slash, .dot, .lbrack, .lparen]
  | .comp => [.eq, .neq, .lt, .leq, .gt, .geq, .kIn, .kNot, .plus, .minus, .modulo, .star, .slash, .dot, .lbrack, .lparen]
  | .arith 0 => [.plus, .minus, .modulo, .star, .slash, .dot, .lbrack, .lparen]
  | .arith 1 => [.minus, .modulo, .star, .slash, .dot, .lbrack, .lparen]
  | .arith 2 => [.modulo, .star, .slash, .dot, .lbrack, .lparen]
  | .arith 3 => [.star, .slash, .dot, .lbrack, .lparen]
  | .arith 4 => [.slash, .dot, .lbrack, .lparen]
  | .arith _ => [.dot, .lbrack, .lparen]
  | .post => [.dot, .lbrack, .lparen]
  | .atom => []
  | .args _ => []

/-- What follows does not continue an expression of the level. -/
def Stop (L : Lv) (rest : List Tok) : Prop := ∀ t r, rest = t :: r → t ∉ cont L

theorem Stop.cons {L : Lv} {t : Tok} (h : t ∉ cont L) (r : List Tok) : Stop L (t :: r) := by
  rintro _ _ h'; cases h'; exact h

theorem Stop.sub {L L' : Lv} {rest : List Tok} (h : Stop L rest) (hs : ∀ t ∈ cont L', t ∈ cont L) : Stop L' rest :=
  fun t r he hm => h t r he (hs t hm)

theorem Stop.accept {L : Lv} {rest : List Tok} (h : Stop L rest) {t : Tok} (ht : t ∈ cont L) : accept t rest = none := by
  cases rest with
  | nil => rfl
  | cons x r =>
    refine accept_ne ?_ r
    rintro rfl
    exact h _ _ rfl ht

theorem Stop.compOp {rest : List Tok} (h : Stop .comp rest) : compOp rest = (none, rest) := by
  cases rest with
  | nil => rfl
  | cons x r =>
    have := h x r rfl
    have h1 : compTok x = none := by
      cases x <;> first | rfl | exact absurd (by decide) this
    have h2 : x ≠ .kNot := by rintro rfl; exact absurd (by decide) this
    simp only [Parse.compOp, h1]
    rw [if_neg h2]

/-- The function for an arithmetic level. -/
def lvOp : Nat → Arith
  | 0 => .add
  | 1 => .sub
  | 2 => .mod
  | 3 => .mul
  | _ => .div

/-- What the parser does with the text of an expression. -/
def Good : Lv → Nat → Node → List Tok → Prop
  | .expr, r, e, ts => ∀ d rest, d + r ≤ 4096 → Stop .expr rest → pc .expr d (ts ++ rest) = .ok (e, rest)
  | .or, r, e, ts => ∀ d rest, d + r ≤ 4096 → Stop .or rest → pc .e2 d (ts ++ rest) = .ok (e, rest)
  | .and, r, e, ts => ∀ d rest, d + r ≤ 4096 → Stop .and rest → pc .e3 d (ts ++ rest) = .ok (e, rest)
  | .comp, r, e, ts => ∀ d rest, d + r ≤ 4096 → Stop .comp rest → pc .e4 d (ts ++ rest) = .ok (e, rest)
  | .arith n, r, e, ts =>
    if n < 5 then ∀ d rest R, d + r ≤ 4096 → Stop (.arith (n + 1)) rest → pc (.arithLoop (lvOp n) e) d rest = R →
      pc (.arith (lvOp n)) d (ts ++ rest) = R
    else ∀ d rest, d + r ≤ 4096 → Stop (.arith 5) rest → pc .e6 d (ts ++ rest) = .ok (e, rest)
  | .post, r, e, ts => ∀ d rest R, d + r ≤ 4096 → pc (.chained e) d rest = R → pc .e7 d (ts ++ rest) = R
  | .atom, r, e, ts => ∀ d rest, d + r ≤ 4096 → pc .e8 d (ts ++ rest) = .ok (e, rest)
  | .args m, r, e, ts => ∀ d t rest, d + r ≤ 4096 → (t = .rparen ∨ t = .rbrack ∨ t = .rcurl) →
      pc (.list m) d (ts ++ t :: rest) = .ok (e, t :: rest)

/-- A derived expression is not empty. -/
theorem Derives.ne {lv : Arith → Nat} {st : Prop} {L : Lv} {r : Nat} {e : Node} {ts : List Tok} (h : Derives lv st L r e ts)
    (hL : ∀ m, L ≠ .args m) : e ≠ .empty := by
  induction h with
  | orExpr _ ih => exact ih (by simp)
  | andOr _ ih => exact ih (by simp)
  | compAnd _ ih => exact ih (by simp)
  | arithComp _ ih => exact ih (by simp)
  | arithLift _ _ ih => exact ih (by simp)
  | strayNot _ _ ih => exact ih (by simp)
  | postUnary _ ih => exact ih (by simp)
  | atomPost _ ih => exact ih (by simp)
  | paren _ ih => exact ih (by simp)
  | noArgs => exact absurd rfl (hL _)
  | _ => simp

/-- How a postfix expression begins. -/
theorem Derives.start {lv : Arith → Nat} {st : Prop} {L : Lv} {r : Nat} {e : Node} {ts : List Tok} (h : Derives lv st L r e ts)
    (hL : L = .post ∨ L = .atom) : ∃ t us, ts = t :: us ∧ t ≠ .kNot ∧ t ≠ .minus ∧ t ≠ .stringify := by
  induction h with
  | atomPost _ ih => exact ih (Or.inr rfl)
  | index _ _ ih _ =>
    obtain ⟨t, us, rfl, h⟩ := ih (Or.inl rfl)
    exact ⟨t, _, rfl, h⟩
  | method _ _ ih _ =>
    obtain ⟨t, us, rfl, h⟩ := ih (Or.inl rfl)
    exact ⟨t, _, rfl, h⟩
  | call _ _ ih _ =>
    obtain ⟨t, us, rfl, h⟩ := ih (Or.inl rfl)
    exact ⟨t, _, rfl, h⟩
  | _ => first
    | (rcases hL with hL | hL <;> exact Lv.noConfusion hL)
    | exact ⟨_, _, rfl, by simp, by simp, by simp⟩

theorem unary_start {t : Tok} (h : t ≠ .kNot ∧ t ≠ .minus ∧ t ≠ .stringify) (us : List Tok) : unary (t :: us) = (none, t :: us) := by
  unfold unary
  split
  · next h' => cases h'; exact absurd rfl h.1
  · next h' => cases h'; exact absurd rfl h.2.1
  · next h' => cases h'; exact absurd rfl h.2.2
  · rfl

theorem chained_stop {rest : List Tok} (h : Stop .post rest) (e : Node) (d : Nat) : pc (.chained e) d rest = .ok (e, rest) := by
  rw [pc_eq]
  simp only [body, h.accept (t := .dot) (by decide), h.accept (t := .lbrack) (by decide), h.accept (t := .lparen) (by decide)]

theorem loop_stop {n : Nat} (hn : n < 5) {rest : List Tok} (h : Stop (.arith n) rest) (e : Node) (d : Nat) :
    pc (.arithLoop (lvOp n) e) d rest = .ok (e, rest) := by
  rw [pc_eq]
  have : accept (arithTok (lvOp n)) rest = none := by
    apply h.accept
    match n, hn with
    | 0, _ | 1, _ | 2, _ | 3, _ | 4, _ => decide
  simp only [body, this]

theorem sub_arith (n : Nat) : ∀ t ∈ cont (.arith (n + 1)), t ∈ cont (.arith n) := by
  match n with
  | 0 | 1 | 2 | 3 | 4 => decide
  | n + 5 => intro t h; exact h

/-- A sum, product, … is parsed as such. -/
theorem good_arith {n r : Nat} {e : Node} {ts : List Tok} (h : Good (.arith n) r e ts) (d : Nat) (rest : List Tok)
    (hd : d + r ≤ 4096) (hs : Stop (.arith n) rest) :
    pc (if n < 5 then .arith (lvOp n) else .e6) d (ts ++ rest) = .ok (e, rest) := by
  simp only [Good] at h
  by_cases hn : n < 5
  · rw [if_pos hn] at h ⊢
    exact h d rest _ hd (hs.sub (sub_arith n)) (loop_stop hn hs e d)
  · rw [if_neg hn] at h ⊢
    refine h d rest hd (hs.sub ?_)
    match n, hn with
    | n + 5, _ => exact fun t h => h
    | 0, h | 1, h | 2, h | 3, h | 4, h => exact absurd (by omega) h

theorem upper_lv (n : Nat) (hn : n < 5) : upper (lvOp n) = if n + 1 < 5 then .arith (lvOp (n + 1)) else .e6 := by
  match n, hn with
  | 0, _ | 1, _ | 2, _ | 3, _ | 4, _ => rfl

theorem expr_closer (d : Nat) (hd : d + 1 ≤ 4096) (t : Tok) (rest : List Tok) (ht : t = .rparen ∨ t = .rbrack ∨ t = .rcurl) :
    pc .expr d (t :: rest) = .ok (.empty, t :: rest) := by
  have h8 : ∀ d, pc .e8 d (t :: rest) = .ok (.empty, t :: rest) := by
    intro d
    rw [pc_eq]
    rcases ht with rfl | rfl | rfl <;> rfl
  have hstop : ∀ L, Stop L (t :: rest) := by
    intro L
    apply Stop.cons
    cases L with
    | arith n =>
      match n with
      | 0 | 1 | 2 | 3 | 4 => rcases ht with rfl | rfl | rfl <;> decide
      | n + 5 =>
        show t ∉ [Tok.dot, .lbrack, .lparen]
        rcases ht with rfl | rfl | rfl <;> decide
    | args m =>
      show t ∉ []
      simp
    | _ => rcases ht with rfl | rfl | rfl <;> decide
  have h7 : ∀ d, pc .e7 d (t :: rest) = .ok (.empty, t :: rest) := by
    intro d
    rw [pc_eq]
    simp only [body, h8, PR.ok_bind]
    exact chained_stop (hstop _) _ _
  have h6 : ∀ d, pc .e6 d (t :: rest) = .ok (.empty, t :: rest) := by
    intro d
    rw [pc_eq]
    have : unary (t :: rest) = (none, t :: rest) := by
      apply unary_start; rcases ht with rfl | rfl | rfl <;> simp
    simp only [body, this, h7]
  have ha : ∀ k d, k ≤ 5 → pc (if 5 - k < 5 then .arith (lvOp (5 - k)) else .e6) d (t :: rest) = .ok (.empty, t :: rest) := by
    intro k d
    induction k with
    | zero => intro _; exact h6 d
    | succ k ih =>
      intro hk
      rw [if_pos (by omega), pc_eq]
      simp only [body]
      rw [upper_lv _ (by omega), show 5 - (k + 1) + 1 = 5 - k by omega, ih (by omega)]
      simp only [PR.ok_bind]
      exact loop_stop (by omega) (hstop _) _ _
  have h4 : ∀ d, pc .e4 d (t :: rest) = .ok (.empty, t :: rest) := by
    intro d
    rw [pc_eq]
    have := ha 5 d (by omega)
    simp only [Nat.sub_self, lvOp, Nat.zero_lt_succ, if_true] at this
    simp only [body, this, PR.ok_bind, Stop.compOp (hstop .comp)]
  have h3 : ∀ d, pc .e3 d (t :: rest) = .ok (.empty, t :: rest) := by
    intro d
    rw [pc_eq]
    simp only [body, h4, PR.ok_bind, (hstop .and).accept (t := .kAnd) (by decide)]
  have h2 : ∀ d, pc .e2 d (t :: rest) = .ok (.empty, t :: rest) := by
    intro d
    rw [pc_eq]
    simp only [body, h3, PR.ok_bind, (hstop .or).accept (t := .kOr) (by decide)]
  rw [pc_eq]
  simp only [body]
  rw [if_neg (by omega), h2]
  simp only [PR.ok_bind, (hstop .expr).accept (t := .question) (by decide)]

theorem lvOp_muon (op : Arith) : lvOp (muonLevel op) = op ∧ muonLevel op < 5 ∧ arithTok op = opTok op := by cases op <;> decide

theorem opTok_stop (op : Arith) : opTok op ∉ cont (.arith (muonLevel op + 1)) := by cases op <;> decide

theorem comp_start (op : Comp) (us : List Tok) : Stop (.arith 0) (compToks op ++ us) ∧ compOp (compToks op ++ us) = (some op, us) := by
  cases op <;> exact ⟨Stop.cons (by decide) _, rfl⟩

theorem good {st : Prop} {L : Lv} {r : Nat} {e : Node} {ts : List Tok} (h : Derives muonLevel st L r e ts) : Good L r e ts := by
  induction h with
  | orExpr h ih =>
    intro d rest hd hs
    rw [pc_eq]
    simp only [body]
    rw [if_neg (by omega), ih (d + 1) rest (by omega) (hs.sub (by decide))]
    simp only [PR.ok_bind, hs.accept (t := .question) (by decide)]
  | @ternary r c a b ts us vs h1 h2 h3 ih1 ih2 ih3 =>
    intro d rest hd hs
    rw [pc_eq]
    simp only [body]
    rw [if_neg (by omega)]
    have e1 : ts ++ .question :: us ++ .colon :: vs ++ rest = ts ++ (.question :: (us ++ (.colon :: (vs ++ rest)))) := by simp
    rw [e1, ih1 (d + 1) _ (by omega) (Stop.cons (by decide) _)]
    simp only [PR.ok_bind, accept_cons]
    rw [ih2 (d + 1) _ (by omega) (Stop.cons (by decide) _)]
    simp only [PR.ok_bind, expect_cons]
    rw [ih3 (d + 1) _ (by omega) hs]
    simp only [PR.ok_bind]
    rw [if_neg (by simp [Derives.ne h1, Derives.ne h2, Derives.ne h3])]
  | andOr h ih =>
    intro d rest hd hs
    rw [pc_eq]
    simp only [body]
    rw [ih d rest (by omega) (hs.sub (by decide))]
    simp only [PR.ok_bind, hs.accept (t := .kOr) (by decide)]
  | @or r a b ts us h1 h2 ih1 ih2 =>
    intro d rest hd hs
    rw [pc_eq]
    simp only [body]
    have e1 : ts ++ .kOr :: us ++ rest = ts ++ (.kOr :: (us ++ rest)) := by simp
    rw [e1, ih1 d _ (by omega) (Stop.cons (by decide) _)]
    simp only [PR.ok_bind, accept_cons]
    rw [ih2 d _ (by omega) hs]
    simp only [PR.ok_bind, binary]
    rw [if_neg (by simp [Derives.ne h1, Derives.ne h2])]
  | compAnd h ih =>
    intro d rest hd hs
    rw [pc_eq]
    simp only [body]
    rw [ih d rest (by omega) (hs.sub (by decide))]
    simp only [PR.ok_bind, hs.accept (t := .kAnd) (by decide)]
  | @and r a b ts us h1 h2 ih1 ih2 =>
    intro d rest hd hs
    rw [pc_eq]
    simp only [body]
    have e1 : ts ++ .kAnd :: us ++ rest = ts ++ (.kAnd :: (us ++ rest)) := by simp
    rw [e1, ih1 d _ (by omega) (Stop.cons (by decide) _)]
    simp only [PR.ok_bind, accept_cons]
    rw [ih2 d _ (by omega) hs]
    simp only [PR.ok_bind, binary]
    rw [if_neg (by simp [Derives.ne h1, Derives.ne h2])]
  | @arithComp r e ts h ih =>
    intro d rest hd hs
    rw [pc_eq]
    simp only [body]
    have := good_arith ih d rest hd (hs.sub (by decide))
    rw [if_pos (by omega)] at this
    simp only [lvOp] at this
    rw [this]
    simp only [PR.ok_bind, hs.compOp]
  | @comparison r op a b ts us h1 h2 ih1 ih2 =>
    intro d rest hd hs
    rw [pc_eq]
    simp only [body]
    obtain ⟨c1, c2⟩ := comp_start op (us ++ rest)
    have g1 := good_arith ih1 d (compToks op ++ (us ++ rest)) hd c1
    have g2 := good_arith ih2 d rest hd (hs.sub (by decide))
    rw [if_pos (by omega)] at g1 g2
    simp only [lvOp] at g1 g2
    rw [show ts ++ compToks op ++ us ++ rest = ts ++ (compToks op ++ (us ++ rest)) by simp, g1]
    simp only [PR.ok_bind, c2]
    rw [g2]
    simp only [PR.ok_bind, binary]
    rw [if_neg (by simp [Derives.ne h1, Derives.ne h2])]
  | @strayNot r e ts hs h ih =>
    simp only [Good] at ih
    intro d rest hd hst
    rw [show ts ++ [.kNot] ++ rest = ts ++ (.kNot :: rest) by simp, pc_eq]
    simp only [body]
    have hl : pc (.arithLoop .add e) d (.kNot :: rest) = .ok (e, .kNot :: rest) := by
      rw [pc_eq]; simp only [body]; rw [show accept (arithTok .add) (.kNot :: rest) = none from accept_ne (by decide) _]
    have := ih d (.kNot :: rest) _ hd (Stop.cons (by decide) _) hl
    rw [show pc (.arith .add) d (ts ++ .kNot :: rest) = _ from this]
    simp only [PR.ok_bind]
    have hc : compOp (.kNot :: rest) = (none, rest) := by
      simp only [Parse.compOp, compTok]
      rw [if_pos trivial, hst.accept (by decide)]
    rw [hc]
  | @arithLift r n e ts hn h ih =>
    show ite _ _ _
    rw [if_pos hn]
    intro d rest R hd hs hR
    rw [pc_eq]
    simp only [body]
    have := good_arith ih d rest hd hs
    rw [upper_lv n hn, this]
    simp only [PR.ok_bind]
    exact hR
  | @arith r op a b ts us h1 h2 ih1 ih2 =>
    obtain ⟨l1, l2, l3⟩ := lvOp_muon op
    show ite _ _ _
    rw [if_pos l2, l1]
    intro d rest R hd hs hR
    simp only [Good] at ih1
    rw [if_pos l2, l1] at ih1
    rw [show ts ++ opTok op :: us ++ rest = ts ++ (opTok op :: (us ++ rest)) by simp]
    refine ih1 d _ R hd (Stop.cons (opTok_stop op) _) ?_
    rw [pc_eq]
    simp only [body]
    rw [l3, accept_cons]
    have := good_arith ih2 d rest hd hs
    have u := upper_lv (muonLevel op) l2
    rw [l1] at u
    simp only [u, this, PR.ok_bind, binary]
    rw [if_neg (by simp [Derives.ne h1, Derives.ne h2])]
    exact hR
  | postUnary h ih =>
    simp only [Good]
    rw [if_neg (by omega)]
    intro d rest hd hs
    rw [pc_eq]
    obtain ⟨t, us, rfl, h3⟩ := Derives.start h (Or.inl rfl)
    simp only [body, List.cons_append, unary_start h3]
    exact ih d rest _ hd (chained_stop (hs.sub (by decide)) _ _)
  | not h ih | uminus h ih | stringify h ih =>
    simp only [Good]
    rw [if_neg (by omega)]
    intro d rest hd hs
    rw [pc_eq]
    simp only [body, List.cons_append, unary]
    rw [ih d rest _ hd (chained_stop (hs.sub (by decide)) _ _)]
    simp only [PR.ok_bind]
    rw [if_neg (Derives.ne h (by simp))]
  | atomPost h ih =>
    intro d rest R hd hR
    rw [pc_eq]
    simp only [body]
    rw [ih d rest hd]
    exact hR
  | @index r l i ts us h1 h2 ih1 ih2 =>
    intro d rest R hd hR
    rw [show ts ++ .lbrack :: us ++ [.rbrack] ++ rest = ts ++ (.lbrack :: (us ++ (.rbrack :: rest))) by simp]
    refine ih1 d _ R hd ?_
    rw [pc_eq]
    simp only [body]
    rw [accept_ne (by simp), accept_cons]
    simp only []
    rw [if_neg (Derives.ne h1 (by simp)), ih2 d _ hd (Stop.cons (by decide) _)]
    simp only [PR.ok_bind, expect_cons]
    rw [if_neg (Derives.ne h2 (by simp))]
    exact hR
  | @method r l n a ts us h1 h2 ih1 ih2 =>
    intro d rest R hd hR
    rw [show ts ++ .dot :: .identifier n :: .lparen :: us ++ [.rparen] ++ rest = ts ++ (.dot :: .identifier n :: .lparen :: (us ++ (.rparen :: rest))) by simp]
    refine ih1 d _ R hd ?_
    rw [pc_eq]
    simp only [body]
    rw [accept_cons]
    simp only []
    rw [if_neg (Derives.ne h1 (by simp))]
    simp only [name, PR.ok_bind, expect_cons]
    rw [ih2 d _ _ hd (Or.inl rfl)]
    simp only [PR.ok_bind, expect_cons]
    exact hR
  | @call r l a ts us h1 h2 ih1 ih2 =>
    intro d rest R hd hR
    rw [show ts ++ .lparen :: us ++ [.rparen] ++ rest = ts ++ (.lparen :: (us ++ (.rparen :: rest))) by simp]
    refine ih1 d _ R hd ?_
    rw [pc_eq]
    simp only [body]
    rw [accept_ne (by simp), accept_ne (by simp), accept_cons]
    simp only []
    rw [if_neg (Derives.ne h1 (by simp)), ih2 d _ _ hd (Or.inl rfl)]
    simp only [PR.ok_bind, expect_cons]
    exact hR
  | true | false | id | number | string =>
    intro d rest hd
    rw [pc_eq]
    simp only [body, List.cons_append, List.nil_append]
    rw [accept_ne (by simp), accept_ne (by simp), accept_ne (by simp)]
    rfl
  | @paren r e ts h ih =>
    intro d rest hd
    rw [show .lparen :: ts ++ [.rparen] ++ rest = .lparen :: (ts ++ (.rparen :: rest)) by simp, pc_eq]
    simp only [body, accept_cons]
    rw [ih d _ hd (Stop.cons (by decide) _)]
    simp only [PR.ok_bind, expect_cons]
    rw [if_neg (Derives.ne h (by simp))]
  | @array r a ts h ih =>
    intro d rest hd
    rw [show .lbrack :: ts ++ [.rbrack] ++ rest = .lbrack :: (ts ++ (.rbrack :: rest)) by simp, pc_eq]
    simp only [body]
    rw [accept_ne (by simp), accept_cons]
    simp only []
    rw [ih d _ _ hd (Or.inr (Or.inl rfl))]
    simp only [PR.ok_bind, expect_cons]
  | @dict r a ts h ih =>
    intro d rest hd
    rw [show .lcurl :: ts ++ [.rcurl] ++ rest = .lcurl :: (ts ++ (.rcurl :: rest)) by simp, pc_eq]
    simp only [body]
    rw [accept_ne (by simp), accept_ne (by simp), accept_cons]
    simp only []
    rw [ih d _ _ hd (Or.inr (Or.inr rfl))]
    simp only [PR.ok_bind, expect_cons]
  | noArgs =>
    intro d t rest hd ht
    rw [pc_eq]
    simp only [body, List.nil_append]
    rw [expr_closer d (by omega) t rest ht]
    simp only [PR.ok_bind, if_true]
  | @lastArg r m e ts hm h ih =>
    intro d t rest hd ht
    rw [pc_eq]
    simp only [body]
    have hst : Stop .expr (t :: rest) := Stop.cons (by rcases ht with rfl | rfl | rfl <;> decide) _
    rw [ih d _ hd hst]
    simp only [PR.ok_bind]
    rw [if_neg (Derives.ne h (by simp))]
    have hc : colon m (t :: rest) = .ok none := by
      cases m with
      | array => rfl
      | arguments => simp only [colon]; rw [accept_ne (by rcases ht with rfl | rfl | rfl <;> simp)]
      | dictionary => exact absurd rfl hm
    have hmore : more pc m d (t :: rest) = .ok (.empty, t :: rest) := by
      unfold more; rw [accept_ne (by rcases ht with rfl | rfl | rfl <;> simp)]
    rw [hc]
    simp only [PR.ok_bind, hmore]
  | @arg r m e ts a us hm h1 h2 ih1 ih2 =>
    intro d t rest hd ht
    rw [show ts ++ .comma :: us ++ t :: rest = ts ++ (.comma :: (us ++ t :: rest)) by simp, pc_eq]
    simp only [body]
    rw [ih1 d _ hd (Stop.cons (by decide) _)]
    simp only [PR.ok_bind]
    rw [if_neg (Derives.ne h1 (by simp))]
    have hc : colon m (.comma :: (us ++ t :: rest)) = .ok none := by
      cases m with
      | array => rfl
      | arguments => rfl
      | dictionary => exact absurd rfl hm
    have hmore : more pc m d (.comma :: (us ++ t :: rest)) = .ok (a, t :: rest) := by
      unfold more; rw [accept_cons]; exact ih2 d t rest hd ht
    rw [hc]
    simp only [PR.ok_bind, hmore]
  | @lastKey r m k v ts us hm h1 h2 ih1 ih2 =>
    intro d t rest hd ht
    rw [show ts ++ .colon :: us ++ t :: rest = ts ++ (.colon :: (us ++ t :: rest)) by simp, pc_eq]
    simp only [body]
    rw [ih1 d _ hd (Stop.cons (by decide) _)]
    simp only [PR.ok_bind]
    rw [if_neg (Derives.ne h1 (by simp))]
    have hst : Stop .expr (t :: rest) := Stop.cons (by rcases ht with rfl | rfl | rfl <;> decide) _
    have hc : colon m (.colon :: (us ++ t :: rest)) = .ok (some (us ++ t :: rest)) := by
      rcases hm with rfl | ⟨rfl, _⟩ <;> rfl
    have hv : value pc m k d (us ++ t :: rest) = .ok (v, t :: rest) := by
      have : (do let (v, ts) ← pc .expr d (us ++ t :: rest); if v = .empty then .fail else .ok (v, ts) : PR (Node × List Tok)) = .ok (v, t :: rest) := by
        rw [ih2 d _ hd hst]
        simp only [PR.ok_bind]
        rw [if_neg (Derives.ne h2 (by simp))]
      rcases hm with rfl | ⟨rfl, s, rfl⟩ <;> exact this
    have hmore : more pc m d (t :: rest) = .ok (.empty, t :: rest) := by
      unfold more; rw [accept_ne (by rcases ht with rfl | rfl | rfl <;> simp)]
    rw [hc]
    simp only [PR.ok_bind, hv, hmore]
  | @key r m k v ts us a vs hm h1 h2 h3 ih1 ih2 ih3 =>
    intro d t rest hd ht
    rw [show ts ++ .colon :: us ++ .comma :: vs ++ t :: rest = ts ++ (.colon :: (us ++ (.comma :: (vs ++ t :: rest)))) by simp, pc_eq]
    simp only [body]
    rw [ih1 d _ hd (Stop.cons (by decide) _)]
    simp only [PR.ok_bind]
    rw [if_neg (Derives.ne h1 (by simp))]
    have hc : colon m (.colon :: (us ++ (.comma :: (vs ++ t :: rest)))) = .ok (some (us ++ (.comma :: (vs ++ t :: rest)))) := by
      rcases hm with rfl | ⟨rfl, _⟩ <;> rfl
    have hv : value pc m k d (us ++ (.comma :: (vs ++ t :: rest))) = .ok (v, .comma :: (vs ++ t :: rest)) := by
      have : (do let (v, ts) ← pc .expr d (us ++ (.comma :: (vs ++ t :: rest))); if v = .empty then .fail else .ok (v, ts) : PR (Node × List Tok)) = .ok (v, .comma :: (vs ++ t :: rest)) := by
        rw [ih2 d _ hd (Stop.cons (by decide) _)]
        simp only [PR.ok_bind]
        rw [if_neg (Derives.ne h2 (by simp))]
      rcases hm with rfl | ⟨rfl, s, rfl⟩ <;> exact this
    have hmore : more pc m d (.comma :: (vs ++ t :: rest)) = .ok (a, t :: rest) := by
      unfold more; rw [accept_cons]; exact ih3 d t rest hd ht
    rw [hc]
    simp only [PR.ok_bind, hv, hmore]

end Muon.Parse
