import Verif.Fmt.Spec
import Verif.Parse.Props
/-
Helper lemmas about trees: the tokens that may stand for a tree, and the effect of `arrange`.
-/
namespace Muon.Fmt
open Muon Lex Parse Parse.Spec Spec

/-- The tokens of a tree; there may be a comma at the end of arguments, whether the tree has one or not. -/
inductive Toks : E → List Tok → Prop
  | true : Toks (.bool true) [.kTrue]
  | false : Toks (.bool false) [.kFalse]
  | string {raw s} : Toks (.string raw s) [.string s]
  | number {raw n} : Toks (.number raw n) [.number n]
  | id {s} : Toks (.id s) [.identifier s]
  | array {a ts} : Toks a ts → Toks (.array a) (.lbrack :: (ts ++ [.rbrack]))
  | dict {a ts} : Toks a ts → Toks (.dict a) (.lcurl :: (ts ++ [.rcurl]))
  | paren {a ts} : Toks a ts → Toks (.paren a) (.lparen :: (ts ++ [.rparen]))
  | not {a ts} : Toks a ts → Toks (.not a) (.kNot :: ts)
  | uminus {a ts} : Toks a ts → Toks (.uminus a) (.minus :: ts)
  | and {l r ts us} : Toks l ts → Toks r us → Toks (.and l r) (ts ++ .kAnd :: us)
  | or {l r ts us} : Toks l ts → Toks r us → Toks (.or l r) (ts ++ .kOr :: us)
  | comparison {op l r ts us} : Toks l ts → Toks r us → Toks (.comparison op l r) (ts ++ (compToks op ++ us))
  | arith {op l r ts us} : Toks l ts → Toks r us → Toks (.arith op l r) (ts ++ opTok op :: us)
  | ternary {c a b ts us vs} : Toks c ts → Toks a us → Toks b vs → Toks (.ternary c a b) (ts ++ .question :: (us ++ .colon :: vs))
  | call {l a ts us} : Toks l ts → Toks a us → Toks (.call l a) (ts ++ .lparen :: (us ++ [.rparen]))
  | method {l n a ts us} : Toks l ts → Toks a us → Toks (.method l n a) (ts ++ .dot :: .identifier n :: .lparen :: (us ++ [.rparen]))
  | index {l i ts us} : Toks l ts → Toks i us → Toks (.index l i) (ts ++ .lbrack :: (us ++ [.rbrack]))
  | nil {c} : Toks (.nil c) []
  | last {e c ts} : Toks e ts → Toks (.arg e (.nil c)) ts
  | arg {e r ts us} : Toks e ts → Toks r us → Toks (.arg e r) (ts ++ .comma :: us)
  | lastKey {k v c ts us} : Toks k ts → Toks v us → Toks (.kwarg k v (.nil c)) (ts ++ .colon :: us)
  | kwarg {k v r ts us vs} : Toks k ts → Toks v us → Toks r vs → Toks (.kwarg k v r) (ts ++ .colon :: (us ++ .comma :: vs))

theorem Spec.Tree.pos {r : Nat} {e : E} {ts : List Tok} (h : Tree .expr r e ts) : ∃ k, r = k + 1 := by
  cases h with
  | orExpr _ => exact ⟨_, rfl⟩
  | ternary _ _ _ => exact ⟨_, rfl⟩

theorem Spec.Tree.argsPos {m : ListMode} {r : Nat} {e : E} {ts : List Tok} (h : Tree (.args m) r e ts) : ∃ k, r = k + 1 := by
  cases h with
  | noArgs => exact ⟨_, rfl⟩
  | lastArg _ h => exact h.pos
  | arg _ h _ _ => exact h.pos
  | lastKey _ h _ => exact h.pos
  | key _ h _ _ _ => exact h.pos

theorem key_erase {m : ListMode} {k : E} (h : m = .dictionary ∨ m = .arguments ∧ ∃ s, k = .id s) :
    m = .dictionary ∨ m = .arguments ∧ ∃ s, erase k = .id s := by
  rcases h with h | ⟨h, s, hs⟩
  · exact Or.inl h
  · exact Or.inr ⟨h, s, by rw [hs]; rfl⟩

/-- Any tokens that stand for a tree are those of the same expression. -/
theorem Spec.Tree.derives {L : Lv} {r : Nat} {e : E} {ts0 : List Tok} (h : Tree L r e ts0) :
    ∀ ts, Toks e ts → Derives muonLevel True L r (erase e) ts := by
  induction h with
  | orExpr _ ih => exact fun ts h => .orExpr (ih ts h)
  | ternary _ _ _ i1 i2 i3 =>
    intro ts h
    cases h with
    | ternary a b c => exact by simpa [erase] using Derives.ternary (i1 _ a) (i2 _ b) (i3 _ c)
  | andOr _ ih => exact fun ts h => .andOr (ih ts h)
  | or _ _ i1 i2 => intro ts h; cases h with | or a b => exact .or (i1 _ a) (i2 _ b)
  | compAnd _ ih => exact fun ts h => .compAnd (ih ts h)
  | and _ _ i1 i2 => intro ts h; cases h with | and a b => exact .and (i1 _ a) (i2 _ b)
  | arithComp _ ih => exact fun ts h => .arithComp (ih ts h)
  | comparison _ _ i1 i2 =>
    intro ts h
    cases h with
    | comparison a b => exact by simpa [erase] using Derives.comparison (i1 _ a) (i2 _ b)
  | strayNot _ ih => exact fun ts h => .arithComp (ih ts h)
  | arithLift hn _ ih => exact fun ts h => .arithLift hn (ih ts h)
  | arith _ _ i1 i2 => intro ts h; cases h with | arith a b => exact .arith (i1 _ a) (i2 _ b)
  | postUnary _ ih => exact fun ts h => .postUnary (ih ts h)
  | not _ ih => intro ts h; cases h with | not a => exact .not (ih _ a)
  | uminus _ ih => intro ts h; cases h with | uminus a => exact .uminus (ih _ a)
  | atomPost _ ih => exact fun ts h => .atomPost (ih ts h)
  | index _ _ i1 i2 => intro ts h; cases h with | index a b => exact by simpa [erase] using Derives.index (i1 _ a) (i2 _ b)
  | method _ _ i1 i2 => intro ts h; cases h with | method a b => exact by simpa [erase] using Derives.method (i1 _ a) (i2 _ b)
  | call _ _ i1 i2 => intro ts h; cases h with | call a b => exact by simpa [erase] using Derives.call (i1 _ a) (i2 _ b)
  | true => intro ts h; cases h; exact .true
  | false => intro ts h; cases h; exact .false
  | id => intro ts h; cases h; exact .id
  | number => intro ts h; cases h; exact .number
  | string => intro ts h; cases h; exact .string
  | paren _ ih => intro ts h; cases h with | paren a => exact .paren (ih _ a)
  | array _ ih => intro ts h; cases h with | array a => exact .array (ih _ a)
  | dict _ ih => intro ts h; cases h with | dict a => exact .dict (ih _ a)
  | noArgs => intro ts h; cases h; exact .noArgs
  | lastArg hm ht ih =>
    intro ts h
    obtain ⟨k, rfl⟩ := ht.pos
    cases h with
    | last a => exact .lastArg hm (ih _ a)
    | arg a b => cases b; exact .arg hm (ih _ a) .noArgs
  | arg hm ht _ hne i1 i2 =>
    intro ts h
    cases h with
    | last a => exact .lastArg hm (i1 _ a)
    | arg a b => exact .arg hm (i1 _ a) (i2 _ b)
  | lastKey hk ht _ i1 i2 =>
    intro ts h
    obtain ⟨j, rfl⟩ := ht.pos
    have hk' := key_erase hk
    cases h with
    | lastKey a b => exact .lastKey hk' (i1 _ a) (i2 _ b)
    | kwarg a b c => cases c; exact by simpa [erase] using Derives.key hk' (i1 _ a) (i2 _ b) .noArgs
  | key hk ht _ _ hne i1 i2 i3 =>
    intro ts h
    have hk' := key_erase hk
    cases h with
    | lastKey a b => exact .lastKey hk' (i1 _ a) (i2 _ b)
    | kwarg a b c => exact by simpa [erase] using Derives.key hk' (i1 _ a) (i2 _ b) (i3 _ c)

/-- The tokens of the source are those of the expression. -/
theorem Spec.Tree.source {L : Lv} {r : Nat} {e : E} {ts : List Tok} (h : Tree L r e ts) : Derives muonLevel True L r (erase e) ts := by
  induction h with
  | orExpr _ ih => exact .orExpr ih
  | ternary _ _ _ i1 i2 i3 => exact .ternary i1 i2 i3
  | andOr _ ih => exact .andOr ih
  | or _ _ i1 i2 => exact .or i1 i2
  | compAnd _ ih => exact .compAnd ih
  | and _ _ i1 i2 => exact .and i1 i2
  | arithComp _ ih => exact .arithComp ih
  | comparison _ _ i1 i2 => exact .comparison i1 i2
  | strayNot _ ih => exact .strayNot trivial ih
  | arithLift hn _ ih => exact .arithLift hn ih
  | arith _ _ i1 i2 => exact .arith i1 i2
  | postUnary _ ih => exact .postUnary ih
  | not _ ih => exact .not ih
  | uminus _ ih => exact .uminus ih
  | atomPost _ ih => exact .atomPost ih
  | index _ _ i1 i2 => exact .index i1 i2
  | method _ _ i1 i2 => exact .method i1 i2
  | call _ _ i1 i2 => exact .call i1 i2
  | true => exact .true
  | false => exact .false
  | id => exact .id
  | number => exact .number
  | string => exact .string
  | paren _ ih => exact .paren ih
  | array _ ih => exact .array ih
  | dict _ ih => exact .dict ih
  | noArgs => exact .noArgs
  | lastArg hm _ ih => exact .lastArg hm ih
  | arg hm _ _ _ i1 i2 => exact .arg hm i1 i2
  | lastKey hk _ _ i1 i2 => exact .lastKey (key_erase hk) i1 i2
  | key hk _ _ _ _ i1 i2 i3 => exact .key (key_erase hk) i1 i2 i3

/-- Trees may be nested deeper than needed. -/
theorem Spec.Tree.mono {L : Lv} {r : Nat} {e : E} {ts : List Tok} (h : Tree L r e ts) : ∀ r', r ≤ r' → Tree L r' e ts := by
  have up : ∀ {r r' : Nat}, r + 1 ≤ r' → ∃ k, r' = k + 1 ∧ r ≤ k := fun {r r'} h => ⟨r' - 1, by omega, by omega⟩
  induction h with
  | orExpr _ ih => intro r' h; obtain ⟨k, rfl, hk⟩ := up h; exact .orExpr (ih _ hk)
  | ternary _ _ _ i1 i2 i3 => intro r' h; obtain ⟨k, rfl, hk⟩ := up h; exact .ternary (i1 _ hk) (i2 _ hk) (i3 _ hk)
  | andOr _ ih => exact fun r' h => .andOr (ih r' h)
  | or _ _ i1 i2 => exact fun r' h => .or (i1 r' h) (i2 r' h)
  | compAnd _ ih => exact fun r' h => .compAnd (ih r' h)
  | and _ _ i1 i2 => exact fun r' h => .and (i1 r' h) (i2 r' h)
  | arithComp _ ih => exact fun r' h => .arithComp (ih r' h)
  | comparison _ _ i1 i2 => exact fun r' h => .comparison (i1 r' h) (i2 r' h)
  | strayNot _ ih => exact fun r' h => .strayNot (ih r' h)
  | arithLift hn _ ih => exact fun r' h => .arithLift hn (ih r' h)
  | arith _ _ i1 i2 => exact fun r' h => .arith (i1 r' h) (i2 r' h)
  | postUnary _ ih => exact fun r' h => .postUnary (ih r' h)
  | not _ ih => exact fun r' h => .not (ih r' h)
  | uminus _ ih => exact fun r' h => .uminus (ih r' h)
  | atomPost _ ih => exact fun r' h => .atomPost (ih r' h)
  | index _ _ i1 i2 => exact fun r' h => .index (i1 r' h) (i2 r' h)
  | method _ _ i1 i2 => exact fun r' h => .method (i1 r' h) (i2 r' h)
  | call _ _ i1 i2 => exact fun r' h => .call (i1 r' h) (i2 r' h)
  | true => exact fun r' h => .true
  | false => exact fun r' h => .false
  | id => exact fun r' h => .id
  | number => exact fun r' h => .number
  | string => exact fun r' h => .string
  | paren _ ih => exact fun r' h => .paren (ih r' h)
  | array _ ih => exact fun r' h => .array (ih r' h)
  | dict _ ih => exact fun r' h => .dict (ih r' h)
  | noArgs => intro r' h; obtain ⟨k, rfl, hk⟩ := up h; exact .noArgs
  | lastArg hm _ ih => exact fun r' h => .lastArg hm (ih r' h)
  | arg hm _ _ hne i1 i2 => exact fun r' h => .arg hm (i1 r' h) (i2 r' h) hne
  | lastKey hk _ _ i1 i2 => exact fun r' h => .lastKey hk (i1 r' h) (i2 r' h)
  | key hk _ _ _ hne i1 i2 i3 => exact fun r' h => .key hk (i1 r' h) (i2 r' h) (i3 r' h) hne

/-! ### Arguments -/

/-- An argument of a call. -/
def GoodElem (m : ListMode) (r : Nat) : Elem → Prop
  | (none, e) => m ≠ .dictionary ∧ ∃ ts, Tree .expr r e ts
  | (some k, v) => (m = .dictionary ∨ m = .arguments ∧ ∃ s, k = .id s) ∧ (∃ ts, Tree .expr r k ts) ∧ ∃ ts, Tree .expr r v ts

theorem Spec.Tree.elems {L : Lv} {r : Nat} {e : E} {ts : List Tok} (h : Tree L r e ts) :
    ∀ m, L = .args m → (∀ x ∈ elems e, GoodElem m r x) ∧ ofElems (trailing e) (elems e) = e := by
  induction h with
  | noArgs => intro m _; exact ⟨by simp [Fmt.elems], rfl⟩
  | lastArg hm h _ =>
    rintro m ⟨⟩
    exact ⟨by simpa [Fmt.elems, GoodElem] using ⟨hm, _, h⟩, rfl⟩
  | arg hm h h' _ _ i2 =>
    rintro m ⟨⟩
    obtain ⟨a, b⟩ := i2 _ rfl
    refine ⟨?_, by simp [Fmt.elems, ofElems, trailing, b]⟩
    intro x hx
    rcases List.mem_cons.1 hx with rfl | hx
    · exact ⟨hm, _, h⟩
    · exact a x hx
  | lastKey hk h h' _ _ =>
    rintro m ⟨⟩
    exact ⟨by simpa [Fmt.elems, GoodElem] using ⟨hk, ⟨_, h⟩, _, h'⟩, rfl⟩
  | key hk h h' _ _ _ _ i3 =>
    rintro m ⟨⟩
    obtain ⟨a, b⟩ := i3 _ rfl
    refine ⟨?_, by simp [Fmt.elems, ofElems, trailing, b]⟩
    intro x hx
    rcases List.mem_cons.1 hx with rfl | hx
    · exact ⟨hk, ⟨_, h⟩, _, h'⟩
    · exact a x hx
  | _ => intro m h; cases h

theorem ofElems_tree (m : ListMode) (r : Nat) (c : Bool) : ∀ l : List Elem, (∀ x ∈ l, GoodElem m (r + 1) x) →
    ∃ ts, Tree (.args m) (r + 1) (ofElems c l) ts := by
  intro l
  induction l with
  | nil => intro _; exact ⟨_, .noArgs⟩
  | cons x l ih =>
    intro h
    obtain ⟨us, hl⟩ := ih (fun y hy => h y (by simp [hy]))
    have hx := h x (by simp)
    obtain ⟨k, v⟩ := x
    cases k with
    | none =>
      obtain ⟨hm, ts, ht⟩ := hx
      by_cases hn : ofElems c l = .nil false
      · rw [ofElems, hn]; exact ⟨_, .lastArg hm ht⟩
      · exact ⟨_, .arg hm ht hl hn⟩
    | some k =>
      obtain ⟨hk, ⟨ts, ht⟩, vs, hv⟩ := hx
      by_cases hn : ofElems c l = .nil false
      · rw [ofElems, hn]; exact ⟨_, .lastKey hk ht hv⟩
      · exact ⟨_, .key hk ht hv hl hn⟩

theorem Spec.Tree.ofArray {L : Lv} {r : Nat} {e : E} {ts : List Tok} (h : Tree L r e ts) :
    ∀ a, e = .array a → ∃ us, Tree (.args .array) r a us := by
  induction h with
  | orExpr _ ih => intro a h; obtain ⟨us, hu⟩ := ih a h; exact ⟨us, hu.mono _ (Nat.le_succ _)⟩
  | andOr _ ih => exact ih
  | compAnd _ ih => exact ih
  | arithComp _ ih => exact ih
  | strayNot _ ih => exact ih
  | arithLift _ _ ih => exact ih
  | postUnary _ ih => exact ih
  | atomPost _ ih => exact ih
  | array h _ => rintro a ⟨⟩; exact ⟨_, h⟩
  | _ => intro a h; cases h

theorem lone_tree {r : Nat} {a : E} {ts : List Tok} (h : Tree (.args .arguments) r a ts) : ∃ us, Tree (.args .arguments) r (lone a) us := by
  unfold lone
  split
  · next a c =>
    obtain ⟨h1, _⟩ := h.elems _ rfl
    obtain ⟨k, rfl⟩ := h.argsPos
    obtain ⟨_, us, hu⟩ := h1 (none, .array a) (by simp [Fmt.elems])
    obtain ⟨vs, hv⟩ := hu.ofArray a rfl
    obtain ⟨h2, h3⟩ := hv.elems _ rfl
    rw [← h3]
    apply ofElems_tree
    intro x hx
    have := h2 x hx
    obtain ⟨k', v⟩ := x
    cases k' with
    | none => exact ⟨by simp, this.2⟩
    | some k' => rcases this.1 with h | ⟨h, _⟩ <;> cases h
  · exact ⟨_, h⟩

variable {sort : List Elem → List Elem}

theorem ofElems_ne (c : Bool) (l : List Elem) (h : l ≠ []) : ofElems c l ≠ .nil false := by
  cases l with
  | nil => exact absurd rfl h
  | cons x l => obtain ⟨k, v⟩ := x; cases k <;> simp [ofElems]

theorem isId_eq {s : Bytes} {e : E} (h : isId s e = true) : e = .id s := by
  unfold isId at h
  split at h
  · rw [beq_iff_eq] at h; rw [h]
  · cases h

theorem arrange_ne (e : E) (h : e ≠ .nil false) : arrange sort e ≠ .nil false := by
  cases e with
  | call l a => rw [arrange]; split <;> simp
  | nil c => exact h
  | _ => simp [arrange]

/-- Rearranged trees are trees. -/
theorem Spec.Tree.arrange (hs : ∀ l, (sort l).Perm l) {L : Lv} {r : Nat} {e : E} {ts : List Tok} (h : Tree L r e ts) :
    ∃ us, Tree L r (arrange sort e) us := by
  induction h with
  | orExpr _ ih => exact ih.imp fun _ h => .orExpr h
  | ternary _ _ _ i1 i2 i3 => obtain ⟨_, a⟩ := i1; obtain ⟨_, b⟩ := i2; obtain ⟨_, c⟩ := i3; exact ⟨_, .ternary a b c⟩
  | andOr _ ih => exact ih.imp fun _ h => .andOr h
  | or _ _ i1 i2 => obtain ⟨_, a⟩ := i1; obtain ⟨_, b⟩ := i2; exact ⟨_, .or a b⟩
  | compAnd _ ih => exact ih.imp fun _ h => .compAnd h
  | and _ _ i1 i2 => obtain ⟨_, a⟩ := i1; obtain ⟨_, b⟩ := i2; exact ⟨_, .and a b⟩
  | arithComp _ ih => exact ih.imp fun _ h => .arithComp h
  | comparison _ _ i1 i2 => obtain ⟨_, a⟩ := i1; obtain ⟨_, b⟩ := i2; exact ⟨_, .comparison a b⟩
  | strayNot _ ih => exact ih.imp fun _ h => .arithComp h
  | arithLift hn _ ih => exact ih.imp fun _ h => .arithLift hn h
  | arith _ _ i1 i2 => obtain ⟨_, a⟩ := i1; obtain ⟨_, b⟩ := i2; exact ⟨_, .arith a b⟩
  | postUnary _ ih => exact ih.imp fun _ h => .postUnary h
  | not _ ih => obtain ⟨_, a⟩ := ih; exact ⟨_, .not a⟩
  | uminus _ ih => obtain ⟨_, a⟩ := ih; exact ⟨_, .uminus a⟩
  | atomPost _ ih => exact ih.imp fun _ h => .atomPost h
  | index _ _ i1 i2 => obtain ⟨_, a⟩ := i1; obtain ⟨_, b⟩ := i2; exact ⟨_, .index a b⟩
  | method _ _ i1 i2 => obtain ⟨_, a⟩ := i1; obtain ⟨_, b⟩ := i2; exact ⟨_, .method a b⟩
  | call hl _ i1 i2 =>
    obtain ⟨_, a⟩ := i1; obtain ⟨_, b⟩ := i2
    rw [Fmt.arrange]
    split
    · obtain ⟨us, hu⟩ := lone_tree b
      obtain ⟨k, rfl⟩ := hu.argsPos
      obtain ⟨h1, _⟩ := hu.elems _ rfl
      obtain ⟨vs, hv⟩ := ofElems_tree .arguments k (trailing (lone (Fmt.arrange sort _))) (sort (Fmt.elems (lone (Fmt.arrange sort _))))
        (fun x hx => h1 x ((hs _).mem_iff.1 hx))
      exact ⟨_, .call hl hv⟩
    · exact ⟨_, .call a b⟩
  | true => exact ⟨_, .true⟩
  | false => exact ⟨_, .false⟩
  | id => exact ⟨_, .id⟩
  | number => exact ⟨_, .number⟩
  | string => exact ⟨_, .string⟩
  | paren _ ih => obtain ⟨_, a⟩ := ih; exact ⟨_, .paren a⟩
  | array _ ih => obtain ⟨_, a⟩ := ih; exact ⟨_, .array a⟩
  | dict _ ih => obtain ⟨_, a⟩ := ih; exact ⟨_, .dict a⟩
  | noArgs => exact ⟨_, .noArgs⟩
  | lastArg hm _ ih => obtain ⟨_, a⟩ := ih; exact ⟨_, .lastArg hm a⟩
  | arg hm _ _ hne i1 i2 => obtain ⟨_, a⟩ := i1; obtain ⟨_, b⟩ := i2; exact ⟨_, .arg hm a b (arrange_ne _ hne)⟩
  | lastKey hk _ _ i1 i2 =>
    obtain ⟨_, a⟩ := i1; obtain ⟨_, b⟩ := i2
    exact ⟨_, .lastKey (hk.imp _root_.id (fun h => ⟨h.1, h.2.imp fun s hs => by rw [hs]; rfl⟩)) a b⟩
  | key hk _ _ _ hne i1 i2 i3 =>
    obtain ⟨_, a⟩ := i1; obtain ⟨_, b⟩ := i2; obtain ⟨_, c⟩ := i3
    exact ⟨_, .key (hk.imp _root_.id (fun h => ⟨h.1, h.2.imp fun s hs => by rw [hs]; rfl⟩)) a b c (arrange_ne _ hne)⟩

/-! ### What `arrange` keeps -/

theorem words_elems {a : E} (h : Words a) : ∀ x ∈ elems a, (∀ k, x.1 = some k → Words k) ∧ Words x.2 := by
  induction a with
  | arg e r _ ih =>
    intro x hx
    rcases List.mem_cons.1 hx with rfl | hx
    · exact ⟨by simp, h.1⟩
    · exact ih h.2 x hx
  | kwarg k v r _ _ ih =>
    intro x hx
    rcases List.mem_cons.1 hx with rfl | hx
    · exact ⟨by simpa using h.1, h.2.1⟩
    · exact ih h.2.2 x hx
  | _ => intro x hx; cases hx

theorem words_ofElems (c : Bool) (l : List Elem) (h : ∀ x ∈ l, (∀ k, x.1 = some k → Words k) ∧ Words x.2) : Words (ofElems c l) := by
  induction l with
  | nil => trivial
  | cons x l ih =>
    have h1 := h x (by simp)
    have h2 := ih (fun y hy => h y (by simp [hy]))
    obtain ⟨k, v⟩ := x
    cases k with
    | none => exact ⟨h1.2, h2⟩
    | some k => exact ⟨h1.1 k rfl, h1.2, h2⟩

theorem words_lone {a : E} (h : Words a) : Words (lone a) := by
  unfold lone
  split
  · exact h.1
  · exact h

theorem words_arrange (hs : ∀ l, (sort l).Perm l) (e : E) (h : Words e) : Words (arrange sort e) := by
  induction e with
  | call l a i1 i2 =>
    rw [arrange]
    split
    · exact ⟨h.1, words_ofElems _ _ fun x hx => words_elems (words_lone (i2 h.2)) x ((hs _).mem_iff.1 hx)⟩
    · exact ⟨i1 h.1, i2 h.2⟩
  | bool _ => exact h
  | string _ _ => exact h
  | number _ _ => exact h
  | id _ => exact h
  | nil _ => exact h
  | array a ih => exact ih h
  | dict a ih => exact ih h
  | paren a ih => exact ih h
  | not a ih => exact ih h
  | uminus a ih => exact ih h
  | and l r i1 i2 => exact ⟨i1 h.1, i2 h.2⟩
  | or l r i1 i2 => exact ⟨i1 h.1, i2 h.2⟩
  | comparison o l r i1 i2 => exact ⟨i1 h.1, i2 h.2⟩
  | arith o l r i1 i2 => exact ⟨i1 h.1, i2 h.2⟩
  | ternary c a b i1 i2 i3 => exact ⟨i1 h.1, i2 h.2.1, i3 h.2.2⟩
  | method l n a i1 i2 => exact ⟨i1 h.1, h.2.1, i2 h.2.2⟩
  | index l i i1 i2 => exact ⟨i1 h.1, i2 h.2⟩
  | arg e r i1 i2 => exact ⟨i1 h.1, i2 h.2⟩
  | kwarg k v r i1 i2 i3 => exact ⟨i1 h.1, i2 h.2.1, i3 h.2.2⟩

theorem noArith_arrange (e : E) (h : NoArith e) : NoArith (arrange sort e) := by
  induction e with
  | call l a i1 i2 =>
    rw [arrange]
    split
    · exact h
    · exact i1 h
  | not a ih => exact ih h
  | uminus a ih => exact ih h
  | and l r i1 i2 => exact ⟨i1 h.1, i2 h.2⟩
  | or l r i1 i2 => exact ⟨i1 h.1, i2 h.2⟩
  | comparison o l r i1 i2 => exact ⟨i1 h.1, i2 h.2⟩
  | arith o l r i1 i2 => cases h
  | ternary c a b i1 i2 i3 => exact ⟨i1 h.1, i2 h.2.1, i3 h.2.2⟩
  | method l n a i1 i2 => exact i1 h
  | index l i i1 i2 => exact i1 h
  | _ => trivial

/-- What is not put into parentheses has no arithmetic outside of brackets. -/
theorem Spec.Tree.noArith {L : Lv} {r : Nat} {e : E} {ts : List Tok} (h : Tree L r e ts) :
    (needsParen e = Bool.false → NoArith e) ∧ (L = .post ∨ L = .atom → NoArith e) := by
  induction h with
  | orExpr _ ih => exact ⟨ih.1, by simp⟩
  | andOr _ ih => exact ⟨ih.1, by simp⟩
  | compAnd _ ih => exact ⟨ih.1, by simp⟩
  | arithComp _ ih => exact ⟨ih.1, by simp⟩
  | strayNot _ ih => exact ⟨ih.1, by simp⟩
  | arithLift _ _ ih => exact ⟨ih.1, by simp⟩
  | postUnary _ ih => exact ⟨ih.1, by simp⟩
  | atomPost _ ih => exact ⟨ih.1, fun _ => ih.2 (Or.inr rfl)⟩
  | index _ _ i1 _ => exact ⟨fun _ => i1.2 (Or.inl rfl), fun _ => i1.2 (Or.inl rfl)⟩
  | method _ _ i1 _ => exact ⟨fun _ => i1.2 (Or.inl rfl), fun _ => i1.2 (Or.inl rfl)⟩
  | call _ _ i1 _ => exact ⟨fun _ => i1.2 (Or.inl rfl), fun _ => i1.2 (Or.inl rfl)⟩
  | _ => first | exact ⟨fun _ => trivial, fun _ => trivial⟩ | exact ⟨by simp [needsParen], by simp⟩

/-! ### The same program -/

def eraseElem (x : Elem) : Option Node × Node := (x.1.map erase, erase x.2)

theorem items_ofElems (c : Bool) (l : List Elem) : items (erase (ofElems c l)) = l.map eraseElem := by
  induction l with
  | nil => rfl
  | cons x l ih =>
    obtain ⟨k, v⟩ := x
    cases k with
    | none => simp [ofElems, erase, items, ih, eraseElem]
    | some k => simp [ofElems, erase, items, ih, eraseElem]

theorem Spec.Tree.items {m : ListMode} {r : Nat} {e : E} {ts : List Tok} (h : Tree (.args m) r e ts) : items (erase e) = (Fmt.elems e).map eraseElem := by
  have := (h.elems m rfl).2
  conv => lhs; rw [← this]
  exact items_ofElems _ _

theorem Spec.Tree.same (hs : ∀ l, (sort l).Perm l) {L : Lv} {r : Nat} {e : E} {ts : List Tok} (h : Tree L r e ts) :
    Same (erase e) (erase (Fmt.arrange sort e)) := by
  induction h with
  | orExpr _ ih => exact ih
  | ternary _ _ _ i1 i2 i3 => exact .ternary i1 i2 i3
  | andOr _ ih => exact ih
  | or _ _ i1 i2 => exact .or i1 i2
  | compAnd _ ih => exact ih
  | and _ _ i1 i2 => exact .and i1 i2
  | arithComp _ ih => exact ih
  | comparison _ _ i1 i2 => exact .comparison i1 i2
  | strayNot _ ih => exact ih
  | arithLift hn _ ih => exact ih
  | arith _ _ i1 i2 => exact .arith i1 i2
  | postUnary _ ih => exact ih
  | not _ ih => exact .not ih
  | uminus _ ih => exact .uminus ih
  | atomPost _ ih => exact ih
  | index _ _ i1 i2 => exact .index i1 i2
  | method _ _ i1 i2 => exact .method i1 i2
  | @call r l a _ _ hl ha i1 i2 =>
    rw [Fmt.arrange]
    split
    · next hid =>
      rw [isId_eq hid]
      refine .files i2 ?_
      obtain ⟨_, hb⟩ := ha.arrange hs
      rw [items_ofElems, hb.items]
      generalize Fmt.arrange sort a = b at hb
      unfold lone
      split
      · next a' c =>
        right
        obtain ⟨h1, _⟩ := hb.elems _ rfl
        obtain ⟨_, us, hu⟩ := h1 (none, .array a') (by simp [Fmt.elems])
        obtain ⟨vs, hv⟩ := hu.ofArray a' rfl
        show ((sort _).map eraseElem).Perm (Spec.items (erase a'))
        rw [hv.items]
        exact (hs _).map _
      · exact Or.inl ((hs _).map _)
    · exact .call i1 i2
  | true => exact .refl _
  | false => exact .refl _
  | id => exact .refl _
  | number => exact .refl _
  | string => exact .refl _
  | paren _ ih => exact ih
  | array _ ih => exact .array ih
  | dict _ ih => exact .dict ih
  | noArgs => exact .refl _
  | lastArg hm _ ih => exact .argument ih (.refl _)
  | arg hm _ _ _ i1 i2 => exact .argument i1 i2
  | lastKey hk _ _ i1 i2 => exact .kwarg i1 i2 (.refl _)
  | key hk _ _ _ _ i1 i2 i3 => exact .kwarg i1 i2 i3

theorem Spec.Same.effective {n n' : Node} (h : Same n n') : Effective n → Effective n' := by
  have key : ∀ n : Node, Effective n ↔ ∃ x ∈ parts n, acts x = true := fun _ => Iff.rfl
  induction h with
  | refl _ => exact id
  | files _ _ _ => exact fun _ => ⟨_, List.mem_singleton.2 rfl, rfl⟩
  | call _ _ _ _ => exact fun _ => ⟨_, List.mem_singleton.2 rfl, rfl⟩
  | method _ _ _ _ => exact fun _ => ⟨_, List.mem_singleton.2 rfl, rfl⟩
  | assign _ _ => exact fun _ => ⟨_, List.mem_singleton.2 rfl, rfl⟩
  | plusAssign _ _ => exact fun _ => ⟨_, List.mem_singleton.2 rfl, rfl⟩
  | block _ _ _ _ => exact fun _ => ⟨_, List.mem_singleton.2 rfl, rfl⟩
  | _ =>
    simp only [key, parts, List.mem_append, List.mem_cons, or_and_right, exists_or, exists_eq_left, acts, Bool.false_eq_true, false_or] at *
    first
      | (rename_i i1 i2 i3; exact Or.imp (Or.imp i1 i2) i3)
      | (rename_i i1 i2; exact Or.imp i1 i2)
      | (rename_i i1; exact i1)

end Muon.Fmt
