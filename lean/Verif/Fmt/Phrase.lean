import Verif.Fmt.Tree
import Verif.Fmt.Literal
/-
Helper lemmas: texts of expressions put together from the texts of their parts.
-/
namespace Muon.Fmt
open Muon Lex Lex.Spec Parse Parse.Spec Spec

/-- A text does not begin with `=` or `>`, and is not empty. -/
def Head (t : Bytes) : Prop := ∃ c u, t = c :: u ∧ c ≠ 61 ∧ c ≠ 62

/-- `t` is a text for a tree. -/
def Txt (w : Wh) (e : E) (t : Bytes) : Prop := ∃ ts, Toks e ts ∧ Lexes w Sep t ts ∧ Head t

/-- What is between brackets. -/
def Inner (e : E) (t : Bytes) : Prop := ∃ ts, Toks e ts ∧ Lexes .inside Sep t ts

/-- Blanks: a blank, or inside of brackets, a newline and an indentation. -/
def Ws1 (w : Wh) (g : Bytes) : Prop := g = [32] ∨ w = .inside ∧ ∃ u, (∀ c ∈ u, c = 32 ∨ c = 9) ∧ g = 10 :: u
/-- The same, or nothing. -/
def Ws (w : Wh) (g : Bytes) : Prop := g = [] ∨ Ws1 w g

theorem gap_blanks {inside eol : Bool} : ∀ u : Bytes, (∀ c ∈ u, c = 32 ∨ c = 9) → Gap inside eol u := by
  intro u
  induction u with
  | nil => intro _; exact .nil
  | cons c u ih =>
    intro h
    refine .blank ?_ (ih fun d hd => h d (by simp [hd]))
    rcases h c (by simp) with rfl | rfl <;> simp

theorem Ws1.lex {w : Wh} {g : Bytes} (h : Ws1 w g) : Lexes w Any g [] := by
  rcases h with rfl | ⟨rfl, u, hu, rfl⟩
  · exact .gap (gap_blanks _ (by simp))
  · exact .gap (.newline rfl (gap_blanks u hu))

theorem Ws.lex {w : Wh} {g : Bytes} (h : Ws w g) : Lexes w Any g [] := by
  rcases h with rfl | h
  · exact .nil _ _
  · exact h.lex

theorem Ws1.sep {w : Wh} {g : Bytes} (h : Ws1 w g) (x : Bytes) : Sep (g ++ x) := by
  rcases h with rfl | ⟨rfl, u, hu, rfl⟩
  · exact .cons (by simp)
  · exact .cons (by simp)

theorem Ws.sep {w : Wh} {g : Bytes} (h : Ws w g) {x : Bytes} (hx : Sep x) : Sep (g ++ x) := by
  rcases h with rfl | h
  · exact hx
  · exact h.sep x

theorem Ws1.sp {w : Wh} : Ws1 w [32] := Or.inl rfl

theorem Head.notEq {t : Bytes} (h : Head t) (x : Bytes) : NotEq (t ++ x) := by
  obtain ⟨c, u, rfl, h1, h2⟩ := h
  exact ⟨h1, h2⟩

theorem Head.append {t : Bytes} (h : Head t) (x : Bytes) : Head (t ++ x) := by
  obtain ⟨c, u, rfl, h1, h2⟩ := h
  exact ⟨c, u ++ x, rfl, h1, h2⟩

theorem Sep.notEq {x : Bytes} (h : Sep x) : NotEq x := h.props.2.2

variable {w : Wh} {a b c g : Bytes} {e l r k v : E}

theorem Lexes.then {w : Wh} {P Q : Bytes → Prop} {t u : Bytes} {ts us : List Tok} (h1 : Lexes w P t ts) (h2 : Lexes w Q u us)
    (h : ∀ x, P (u ++ x)) : Lexes w Q (t ++ u) (ts ++ us) := h1.append h2 (fun x _ => h x)

theorem Lexes.sp : Lexes w Any [32] [] := Ws1.sp.lex

theorem kwAnd : Lexes w Sep (ascii "and") [.kAnd] := (Lexes.kw 97 [110, 100] .kAnd (by decide +kernel)).weaken
theorem kwOr : Lexes w Sep (ascii "or") [.kOr] := (Lexes.kw 111 [114] .kOr (by decide +kernel)).weaken
theorem kwNot : Lexes w Sep (ascii "not") [.kNot] := (Lexes.kw 110 [111, 116] .kNot (by decide +kernel)).weaken
theorem kwIn : Lexes w Sep (ascii "in") [.kIn] := (Lexes.kw 105 [110] .kIn (by decide +kernel)).weaken
theorem kwTrue : Lexes w Sep (ascii "true") [.kTrue] := (Lexes.kw 116 [114, 117, 101] .kTrue (by decide +kernel)).weaken
theorem kwFalse : Lexes w Sep (ascii "false") [.kFalse] := (Lexes.kw 102 [97, 108, 115, 101] .kFalse (by decide +kernel)).weaken

theorem arith_lexes (op : Arith) : Lexes w NotEq [arithText op] [opTok op] := by
  cases op <;> exact (Lexes.op1 _ _ (by decide +kernel) (forall_byte (by decide +kernel))).weaken

theorem comp_lexes (op : Comp) : Lexes w Sep (compText op) (compToks op) := by
  cases op with
  | eq => exact (Lexes.weaken (Lexes.op2 61 61 _ (by decide +kernel) (by decide +kernel))).mono fun _ h => h.notEq
  | neq => exact (Lexes.weaken (Lexes.op2 33 61 _ (by decide +kernel) (by decide +kernel))).mono fun _ h => h.notEq
  | lt => exact (Lexes.weaken (Lexes.op1 60 _ (by decide +kernel) (forall_byte (by decide +kernel)))).mono fun _ h => h.notEq
  | le => exact (Lexes.weaken (Lexes.op2 60 61 _ (by decide +kernel) (by decide +kernel))).mono fun _ h => h.notEq
  | gt => exact (Lexes.weaken (Lexes.op1 62 _ (by decide +kernel) (forall_byte (by decide +kernel)))).mono fun _ h => h.notEq
  | ge => exact (Lexes.weaken (Lexes.op2 62 61 _ (by decide +kernel) (by decide +kernel))).mono fun _ h => h.notEq
  | isIn => exact kwIn
  | notIn =>
    have := (kwNot (w := w)).then ((Lexes.sp (w := w)).then (kwIn (w := w)) (fun _ => trivial)) (fun x => .cons (by simp))
    exact this

theorem Txt.bool (x : Bool) : Txt w (.bool x) (if x then ascii "true" else ascii "false") := by
  cases x with
  | true => exact ⟨_, .true, kwTrue, 116, _, rfl, by decide, by decide⟩
  | false => exact ⟨_, .false, kwFalse, 102, _, rfl, by decide, by decide⟩

theorem Txt.id {s : Bytes} (h : isName false s) : Txt w (.id s) s := by
  refine ⟨_, .id, (Lexes.name h).weaken, ?_⟩
  obtain ⟨⟨c, v, rfl, hc, hv⟩, _⟩ := h
  have key : ∀ c : UInt8, (isAlpha c = true ∨ c = 95) → c ≠ 61 ∧ c ≠ 62 := forall_byte (by decide +kernel)
  exact ⟨c, v, rfl, key c hc⟩

theorem Txt.string {raw s : Bytes} (h : StringLit raw s) : Txt w (.string raw s) raw := by
  refine ⟨_, .string, (string_lexes h).weaken, ?_⟩
  cases raw with
  | nil => cases h.1
  | cons c v => cases h.1; exact ⟨39, v, rfl, by decide, by decide⟩

theorem Txt.number {raw : Bytes} {n : Int} (h : NumberLit raw n) : Txt w (.number raw n) raw := by
  refine ⟨_, .number, (number_lexes h).weaken, ?_⟩
  obtain ⟨⟨c, hc, hd⟩, _⟩ := h
  cases raw with
  | nil => cases hc
  | cons c' v =>
    cases hc
    have key : ∀ c : UInt8, isDigit c = true → c ≠ 61 ∧ c ≠ 62 := forall_byte (by decide +kernel)
    exact ⟨c, v, rfl, key c hd⟩

theorem Txt.not (h : Txt w e a) : Txt w (.not e) (ascii "not " ++ a) := by
  obtain ⟨ts, h1, h2, h3⟩ := h
  refine ⟨_, .not h1, ?_, 110, _, rfl, by decide, by decide⟩
  exact (kwNot.then (Lexes.sp.then h2 (fun _ => trivial)) (fun x => .cons (by simp)) :)

theorem Txt.uminus (h : Txt w e a) : Txt w (.uminus e) (45 :: a) := by
  obtain ⟨ts, h1, h2, h3⟩ := h
  refine ⟨_, .uminus h1, ?_, 45, _, rfl, by decide, by decide⟩
  exact (arith_lexes (w := w) .sub).then h2 (fun x => h3.notEq x)

theorem Txt.and (h : Txt w l a) (h' : Txt w r b) (hg : Ws1 w g) : Txt w (.and l r) (a ++ (g ++ (ascii "and " ++ b))) := by
  obtain ⟨ts, h1, h2, h3⟩ := h
  obtain ⟨us, k1, k2, k3⟩ := h'
  refine ⟨_, .and h1 k1, ?_, h3.append _⟩
  rw [show ascii "and " = ascii "and" ++ [32] by decide +kernel, List.append_assoc (ascii "and")]
  exact h2.then (hg.lex.then (kwAnd.then (Lexes.sp.then k2 (fun _ => trivial)) (fun x => .cons (by simp))) (fun _ => trivial))
    (fun x => by rw [List.append_assoc]; exact hg.sep _)

theorem Txt.or (h : Txt w l a) (h' : Txt w r b) (hg : Ws1 w g) : Txt w (.or l r) (a ++ (g ++ (ascii "or " ++ b))) := by
  obtain ⟨ts, h1, h2, h3⟩ := h
  obtain ⟨us, k1, k2, k3⟩ := h'
  refine ⟨_, .or h1 k1, ?_, h3.append _⟩
  rw [show ascii "or " = ascii "or" ++ [32] by decide +kernel, List.append_assoc (ascii "or")]
  exact h2.then (hg.lex.then (kwOr.then (Lexes.sp.then k2 (fun _ => trivial)) (fun x => .cons (by simp))) (fun _ => trivial))
    (fun x => by rw [List.append_assoc]; exact hg.sep _)

theorem Txt.comparison {op : Comp} (h : Txt w l a) (h' : Txt w r b) :
    Txt w (.comparison op l r) (a ++ ([32] ++ ((compText op ++ [32]) ++ b))) := by
  obtain ⟨ts, h1, h2, h3⟩ := h
  obtain ⟨us, k1, k2, k3⟩ := h'
  refine ⟨_, .comparison h1 k1, ?_, h3.append _⟩
  rw [List.append_assoc (compText op)]
  exact h2.then (Lexes.sp.then ((comp_lexes op).then (Lexes.sp.then k2 (fun _ => trivial)) (fun x => .cons (by simp))) (fun _ => trivial))
    (fun x => .cons (by simp))

theorem Txt.arith {op : Arith} (h : Txt w l a) (h' : Txt w r b) (hg : Ws1 w g) :
    Txt w (.arith op l r) (a ++ ([32] ++ ([arithText op] ++ (g ++ b)))) := by
  obtain ⟨ts, h1, h2, h3⟩ := h
  obtain ⟨us, k1, k2, k3⟩ := h'
  refine ⟨_, .arith h1 k1, ?_, h3.append _⟩
  exact h2.then (Lexes.sp.then ((arith_lexes op).then (hg.lex.then k2 (fun _ => trivial)) (fun x => by rw [List.append_assoc]; exact (hg.sep _).notEq)) (fun _ => trivial))
    (fun x => .cons (by simp))

theorem Txt.ternary {c' : E} (h : Txt w c' c) (h' : Txt w l a) (h'' : Txt w r b) :
    Txt w (.ternary c' l r) (c ++ ([32] ++ (ascii "? " ++ (a ++ ([32] ++ (ascii ": " ++ b)))))) := by
  obtain ⟨ts, h1, h2, h3⟩ := h
  obtain ⟨us, k1, k2, k3⟩ := h'
  obtain ⟨vs, l1, l2, l3⟩ := h''
  refine ⟨_, .ternary h1 k1 l1, ?_, h3.append _⟩
  have e1 : ascii "? " = [63] ++ [32] := by decide +kernel
  have e2 : ascii ": " = [58] ++ [32] := by decide +kernel
  rw [e1, e2, List.append_assoc [63], List.append_assoc [58]]
  exact h2.then (Lexes.sp.then (Lexes.question.weaken.then (Lexes.sp.then (k2.then (Lexes.sp.then (Lexes.colon.weaken.then
    (Lexes.sp.then l2 (fun _ => trivial)) (fun _ => trivial)) (fun _ => trivial)) (fun x => .cons (by simp))) (fun _ => trivial)) (fun _ => trivial))
    (fun _ => trivial)) (fun x => .cons (by simp))

theorem Inner.nil {c : Bool} : Inner (.nil c) [] := ⟨_, .nil, .nil _ _⟩

theorem Inner.of {g g' : Bytes} (h : Txt .inside e a) (hg : Ws .inside g) (hg' : Ws .inside g') : Inner e (g ++ (a ++ g')) := by
  obtain ⟨ts, h1, h2, h3⟩ := h
  refine ⟨ts, h1, ?_⟩
  have := hg.lex.append (h2.append (hg'.lex.mono (Q := Sep) (fun _ _ => trivial)) (fun x hx => hg'.sep hx)) (fun _ _ => trivial)
  simpa using this

theorem Inner.any (h : Txt w e a) (hw : w = .any ∨ w = .inside) : Txt .inside e a := by
  rcases hw with rfl | rfl
  · obtain ⟨ts, h1, h2, h3⟩ := h; exact ⟨ts, h1, h2.weaken, h3⟩
  · exact h

theorem sep_any {ts : List Tok} {t : Bytes} (h : Lexes w Any t ts) : Lexes w Sep t ts := h.mono (fun _ _ => trivial)

theorem Txt.array (h : Inner e a) : Txt w (.array e) (91 :: (a ++ [93])) := by
  obtain ⟨ts, h1, h2⟩ := h
  exact ⟨_, .array h1, sep_any (Lexes.brack h2), 91, _, rfl, by decide, by decide⟩

theorem Txt.dict (h : Inner e a) : Txt w (.dict e) (123 :: (a ++ [125])) := by
  obtain ⟨ts, h1, h2⟩ := h
  exact ⟨_, .dict h1, sep_any (Lexes.curl h2), 123, _, rfl, by decide, by decide⟩

theorem Txt.paren (h : Inner e a) : Txt w (.paren e) (40 :: (a ++ [41])) := by
  obtain ⟨ts, h1, h2⟩ := h
  exact ⟨_, .paren h1, sep_any (Lexes.paren h2), 40, _, rfl, by decide, by decide⟩

theorem Txt.call (h : Txt w l b) (h' : Inner e a) : Txt w (.call l e) (b ++ (40 :: (a ++ [41]))) := by
  obtain ⟨ts, h1, h2⟩ := h'
  obtain ⟨us, k1, k2, k3⟩ := h
  exact ⟨_, .call k1 h1, k2.then (sep_any (Lexes.paren h2)) (fun x => .cons (by simp)), k3.append _⟩

theorem Txt.method {n : Bytes} (hn : isName false n) (h : Txt w l b) (h' : Inner e a) : Txt w (.method l n e) (b ++ ([46] ++ (n ++ (40 :: (a ++ [41]))))) := by
  obtain ⟨ts, h1, h2⟩ := h'
  obtain ⟨us, k1, k2, k3⟩ := h
  exact ⟨_, .method k1 h1, k2.then (Lexes.dot.weaken.then ((Lexes.name hn).weaken.then (sep_any (Lexes.paren h2)) (fun x => .cons (by simp)))
    (fun _ => trivial)) (fun x => .cons (by simp)), k3.append _⟩

theorem Txt.index (h : Txt w l b) (h' : Inner e a) : Txt w (.index l e) (b ++ (91 :: (a ++ [93]))) := by
  obtain ⟨ts, h1, h2⟩ := h'
  obtain ⟨us, k1, k2, k3⟩ := h
  exact ⟨_, .index k1 h1, k2.then (sep_any (Lexes.brack h2)) (fun x => .cons (by simp)), k3.append _⟩

theorem Txt.last {c : Bool} (h : Txt w e a) : Txt w (.arg e (.nil c)) a := by
  obtain ⟨ts, h1, h2, h3⟩ := h
  exact ⟨_, .last h1, h2, h3⟩

theorem Txt.lastComma {c : Bool} (h : Txt w e a) : Txt w (.arg e (.nil c)) (a ++ [44]) := by
  obtain ⟨ts, h1, h2, h3⟩ := h
  exact ⟨_, .arg h1 .nil, sep_any (h2.then Lexes.comma.weaken (fun x => .cons (by simp))), h3.append _⟩

theorem Txt.arg (h : Txt w e a) (h' : Txt w r b) (hg : Ws1 w g) : Txt w (.arg e r) ((a ++ [44]) ++ (g ++ b)) := by
  obtain ⟨ts, h1, h2, h3⟩ := h
  obtain ⟨us, k1, k2, k3⟩ := h'
  refine ⟨_, .arg h1 k1, ?_, (h3.append _).append _⟩
  rw [List.append_assoc]
  exact h2.then (Lexes.comma.weaken.then (hg.lex.then k2 (fun _ => trivial)) (fun _ => trivial)) (fun x => .cons (by simp))

/-- A colon, with a blank before it or not. -/
def Colon (c : Bytes) : Prop := c = ascii " : " ∨ c = ascii ": "

theorem Colon.lex (h : Colon c) : Lexes w Any c [.colon] ∧ ∀ x, Sep (c ++ x) := by
  have e1 : ascii " : " = [32] ++ ([58] ++ [32]) := by decide +kernel
  have e2 : ascii ": " = [58] ++ [32] := by decide +kernel
  rcases h with rfl | rfl
  · rw [e1]
    exact ⟨(Lexes.sp (w := w)).then (Lexes.colon.weaken.then Lexes.sp (fun _ => trivial)) (fun _ => trivial), fun x => .cons (by simp)⟩
  · rw [e2]
    exact ⟨Lexes.colon.weaken.then Lexes.sp (fun _ => trivial), fun x => .cons (by simp)⟩

theorem Txt.lastKey {d : Bool} (h : Txt w k a) (h' : Txt w v b) (hc : Colon c) : Txt w (.kwarg k v (.nil d)) ((a ++ c) ++ b) := by
  obtain ⟨ts, h1, h2, h3⟩ := h
  obtain ⟨us, k1, k2, k3⟩ := h'
  refine ⟨_, .lastKey h1 k1, ?_, (h3.append _).append _⟩
  rw [List.append_assoc]
  exact h2.then (hc.lex.1.then k2 (fun _ => trivial)) (fun x => by rw [List.append_assoc]; exact (hc.lex (w := w)).2 _)

theorem Txt.lastKeyComma {d : Bool} (h : Txt w k a) (h' : Txt w v b) (hc : Colon c) :
    Txt w (.kwarg k v (.nil d)) ((a ++ c) ++ (b ++ [44])) := by
  obtain ⟨ts, h1, h2, h3⟩ := h
  obtain ⟨us, k1, k2, k3⟩ := h'
  refine ⟨_, .kwarg h1 k1 .nil, ?_, (h3.append _).append _⟩
  rw [List.append_assoc]
  exact sep_any (h2.then (hc.lex.1.then (k2.then Lexes.comma.weaken (fun x => .cons (by simp))) (fun _ => trivial))
    (fun x => by rw [List.append_assoc]; exact (hc.lex (w := w)).2 _))

theorem Txt.kwarg {d : Bytes} (h : Txt w k a) (h' : Txt w v b) (h'' : Txt w r d) (hc : Colon c) (hg : Ws1 w g) :
    Txt w (.kwarg k v r) ((a ++ c) ++ ((b ++ [44]) ++ (g ++ d))) := by
  obtain ⟨ts, h1, h2, h3⟩ := h
  obtain ⟨us, k1, k2, k3⟩ := h'
  obtain ⟨vs, l1, l2, l3⟩ := h''
  refine ⟨_, .kwarg h1 k1 l1, ?_, (h3.append _).append _⟩
  rw [List.append_assoc, List.append_assoc b]
  exact h2.then (hc.lex.1.then (k2.then (Lexes.comma.weaken.then (hg.lex.then l2 (fun _ => trivial)) (fun _ => trivial)) (fun x => .cons (by simp))) (fun _ => trivial))
    (fun x => by rw [List.append_assoc]; exact (hc.lex (w := w)).2 _)

end Muon.Fmt
