import Verif.Fmt.Phrase
/-
Helper lemmas: what the formatter prints for an expression inside of brackets, or without arithmetic outside of brackets.
-/
namespace Muon.Fmt
open Muon Lex Lex.Spec Parse Parse.Spec Spec

theorem seq_assoc (a b c : Pr) : (a ⊹ b) ⊹ c = a ⊹ (b ⊹ c) := by
  funext s
  simp only [seq, Nat.add_assoc]

theorem seq_def (a b : Pr) (s : St) : (a ⊹ b) s = ((a s).1 + (b (a s).2).1, (b (a s).2).2) := rfl

/-! ### Dry runs -/

/-- A dry run changes nothing but `force_ml`. -/
def Keep (p : Pr) : Prop := ∀ s, ∃ b, (p s).2 = { s with forceMl := b }

theorem Keep.seq {p q : Pr} (h : Keep p) (h' : Keep q) : Keep (p ⊹ q) := by
  intro s
  obtain ⟨b, hb⟩ := h s
  obtain ⟨b', hb'⟩ := h' (p s).2
  exact ⟨b', by rw [seq_def, hb', hb]⟩

theorem Keep.mute {p : Pr} (h : Keep p) : Keep (mute p) := h
theorem Keep.nop : Keep nop := fun s => ⟨s.forceMl, rfl⟩
theorem Keep.force (b : Bool) : Keep (force b) := fun s => ⟨s.forceMl || b, rfl⟩

variable {o : Opts} {f : Fst}

theorem Keep.write (h : f.write = false) (c : UInt8) : Keep (write f c) := by
  intro s; exact ⟨s.forceMl, by simp [Fmt.write, h]⟩

theorem Keep.writes (h : f.write = false) (t : Bytes) : Keep (writes f t) := by
  induction t with
  | nil => exact .nop
  | cons c t ih => exact (Keep.write h c).seq ih

theorem Keep.writeml (h : f.write = false) (t : Bytes) : Keep (writeml f t) := by
  induction t with
  | nil => exact .nop
  | cons c t ih =>
    refine Keep.seq ?_ ih
    split
    · intro s; exact ⟨true, by simp [h]⟩
    · exact .write h c

theorem Keep.newline (h : f.write = false) (b : Bool) : Keep (newline o f b) := by
  intro s; exact ⟨s.forceMl, by simp [Fmt.newline, h]⟩

theorem Keep.newlineForce (h : f.write = false) (b : Bool) : Keep (newlineForce o f b) :=
  Keep.newline (f := { setup f with ml := true }) h b

theorem Keep.newlineOrSpace (h : f.write = false) : Keep (newlineOrSpace o f) := by
  unfold Fmt.newlineOrSpace
  split
  · exact .newline h _
  · exact .write h _

theorem Keep.breakingSpace (h : f.write = false) : Keep (breakingSpace o f) := by
  intro s
  unfold Fmt.breakingSpace
  split
  · obtain ⟨b, hb⟩ := Keep.newlineForce (o := o) h false s
    exact ⟨true, by rw [hb]⟩
  · exact Keep.write h 32 s

theorem Keep.tail (h : f.write = false) : Keep (tail f) := by
  unfold Fmt.tail
  split
  · exact .writes h _
  · exact .nop

theorem Keep.check {g : Fst → Pr} (h : f.write = false) (hg : Keep (g f)) : Keep (check o f g) := by
  intro s
  unfold Fmt.check
  simp only [h, Bool.false_eq_true, if_false]
  exact hg s

theorem Keep.args {op : UInt8} {a : E} {p : Fst → Pr} (h : f.write = false) (hp : Keep (p f)) : Keep (argsWith o op a p f) := by
  unfold argsWith
  split
  · exact .nop
  · have hn : Keep (if (op == 91 && o.spaceArray) = true then Fmt.mute (Fmt.newlineOrSpace o f) else Fmt.newline o f) := by
      split
      · exact (Keep.newlineOrSpace h).mute
      · exact .newline h _
    intro s
    obtain ⟨b, hb⟩ := (hn.seq ((Keep.force (trailing a)).seq ((Keep.force (decide (kwCount a > 1) && o.kwaMl)).seq hp)))
      { s with enclosed := s.enclosed + 1, indent := s.indent + 1 }
    simp only [seq_def] at hb
    obtain ⟨b', hb'⟩ := hn { s with forceMl := b }
    refine ⟨b', ?_⟩
    simp only [seq_def, enclose, begin, disclose, «end»]
    rw [hb]
    exact hb'

theorem Keep.container {op cl : UInt8} {a : E} {p : Fst → Pr} (h : f.write = false) (hp : Keep (p (setup f))) :
    Keep (containerWith o op cl a p f) :=
  (Keep.write (f := setup f) h _).seq ((Keep.args (f := setup f) h hp).seq (Keep.write (f := setup f) h _))

theorem Keep.andOr {t : Bytes} {l r : Fst → Pr} (h : f.write = false) (hl : Keep (l f)) (hr : ∀ b, Keep (r { f with andOr := b })) :
    Keep (andOrWith o f t l r) := by
  unfold andOrWith
  refine (Keep.check h hl).seq ?_
  intro s
  dsimp only
  split
  · exact ((Keep.newlineForce h _).mute.seq ((Keep.writes h _).seq (Keep.check (f := { f with andOr := true }) h (hr true)))) s
  · exact ((Keep.writes h _).seq ((Keep.writes h _).seq (Keep.check h (hr f.andOr)))) s

theorem Keep.parens {p : Fst → Pr} (h : f.write = false) (hp : Keep (p f)) : Keep (parensWith o p f) := by
  intro s
  unfold parensWith
  obtain ⟨b0, hb0⟩ := Keep.write h 40 s
  rw [seq_def, hb0]
  split
  · next hm =>
    obtain ⟨b1, hb1⟩ := ((Keep.newline (o := o) h false).seq hp) { s with forceMl := b0, enclosed := s.enclosed + 1, indent := s.indent + 1 }
    obtain ⟨b2, hb2⟩ := Keep.newline (o := o) h false { s with forceMl := b1, enclosed := s.enclosed + 1 }
    obtain ⟨b3, hb3⟩ := Keep.write h 41 { s with forceMl := b2 }
    refine ⟨b3, ?_⟩
    simp only [seq_def] at hb1
    simp only [seq_def, enclose, begin, disclose, «end»]
    rw [hb1]
    simp only [Nat.add_sub_cancel]
    rw [hb2]
    exact hb3
  · obtain ⟨b1, hb1⟩ := hp { s with forceMl := b0, enclosed := s.enclosed + 1 }
    obtain ⟨b3, hb3⟩ := Keep.write h 41 { s with forceMl := b1 }
    refine ⟨b3, ?_⟩
    simp only [seq_def, enclose, disclose, Fmt.nop]
    rw [hb1]
    exact hb3

theorem Keep.between {e r : E} (h : f.write = false) : Keep (between o f e r) := by
  unfold Fmt.between
  split
  · exact .write h _
  · exact .newlineOrSpace h

/-- The dry run of an expression. -/
theorem keep_pr (o : Opts) : ∀ (e : E) (m : Mode) (f : Fst), f.write = false → Keep (pr o e m f) := by
  intro e
  induction e with
  | bool b => intro m f h; cases m with | node => exact (Keep.writes h _).seq (.tail h) | args _ _ => exact .nop
  | string raw s => intro m f h; cases m with | node => exact (Keep.writeml h _).seq (.tail h) | args _ _ => exact .nop
  | number raw n => intro m f h; cases m with | node => exact (Keep.writes h _).seq (.tail h) | args _ _ => exact .nop
  | id s => intro m f h; cases m with | node => exact (Keep.writes h _).seq (.tail h) | args _ _ => exact .nop
  | array a ih =>
    intro m f h
    cases m with
    | node => rw [pr]; exact (Keep.check (f := setup f) h (.container (f := setup f) h (ih _ _ h))).seq (.tail h)
    | args _ _ => exact .nop
  | dict a ih =>
    intro m f h
    cases m with
    | node => rw [pr]; exact (Keep.check (f := setup f) h (.container (f := setup f) h (ih _ _ h))).seq (.tail h)
    | args _ _ => exact .nop
  | paren a ih =>
    intro m f h
    cases m with
    | node => rw [pr]; exact (Keep.check (f := setup f) h (.parens (f := setup f) h (ih _ _ h))).seq (.tail h)
    | args _ _ => exact .nop
  | not a ih =>
    intro m f h
    cases m with
    | node => rw [pr]; exact (Keep.writes h _).seq ((ih .node (setup f) h).seq (.tail h))
    | args _ _ => exact .nop
  | uminus a ih =>
    intro m f h
    cases m with
    | node => rw [pr]; exact (Keep.write h _).seq ((ih .node (setup f) h).seq (.tail h))
    | args _ _ => exact .nop
  | and l r i1 i2 =>
    intro m f h
    cases m with
    | node => rw [pr]; exact (Keep.andOr (f := setup f) h (i1 _ _ h) (fun b => i2 _ _ h)).seq (.tail h)
    | args _ _ => exact .nop
  | or l r i1 i2 =>
    intro m f h
    cases m with
    | node => rw [pr]; exact (Keep.andOr (f := setup f) h (i1 _ _ h) (fun b => i2 _ _ h)).seq (.tail h)
    | args _ _ => exact .nop
  | comparison op l r i1 i2 =>
    intro m f h
    cases m with
    | node => rw [pr]; exact (i1 .node (setup f) h).seq ((Keep.write h _).seq ((Keep.writes h _).seq ((i2 .node (setup f) h).seq (.tail h))))
    | args _ _ => exact .nop
  | arith op l r i1 i2 =>
    intro m f h
    cases m with
    | node => rw [pr]; exact (i1 .node (setup f) h).seq ((Keep.write h _).seq ((Keep.write h _).seq ((Keep.breakingSpace (f := setup f) h).seq ((i2 .node (setup f) h).seq (.tail h)))))
    | args _ _ => exact .nop
  | ternary c a b i1 i2 i3 =>
    intro m f h
    cases m with
    | node => rw [pr]; exact (i1 .node (setup f) h).seq ((Keep.write h _).seq ((Keep.writes h _).seq ((i2 .node (setup f) h).seq ((Keep.write h _).seq ((Keep.writes h _).seq ((i3 .node (setup f) h).seq (.tail h)))))))
    | args _ _ => exact .nop
  | call l a i1 i2 =>
    intro m f h
    cases m with
    | node => rw [pr]; exact (i1 .node (setup f) h).seq ((Keep.check (f := setup f) h (.container (f := { setup f with cmd := false }) h (i2 _ _ h))).seq (.tail h))
    | args _ _ => exact .nop
  | method l n a i1 i2 =>
    intro m f h
    cases m with
    | node => rw [pr]; exact (i1 .node (setup f) h).seq ((Keep.write h _).seq ((Keep.check (f := setup f) h ((Keep.writes (f := setup f) h _).seq (.container (f := setup f) h (i2 _ _ h)))).seq (.tail h)))
    | args _ _ => exact .nop
  | index l i i1 i2 =>
    intro m f h
    cases m with
    | node =>
      rw [pr]
      refine (i1 .node (setup f) h).seq ((Keep.write h _).seq ?_)
      intro s
      obtain ⟨b, hb⟩ := (Keep.check (o := o) (f := setup f) h (i2 .node (setup f) h)) { s with enclosed := s.enclosed + 1 }
      obtain ⟨b', hb'⟩ := ((Keep.write h 93).seq (Keep.tail h)) { s with forceMl := b }
      refine ⟨b', ?_⟩
      simp only [seq_def] at hb'
      simp only [seq_def, enclose, disclose]
      rw [hb]
      exact hb'
    | args _ _ => exact .nop
  | nil c => intro m f h; cases m <;> exact .nop
  | arg e r i1 i2 =>
    intro m f h
    cases m with
    | node => exact .nop
    | args op n =>
      rw [pr]
      refine (Keep.check (f := { f with cmd := false, sep := _ }) h (i1 _ _ h)).seq ?_
      split
      · exact .nop
      · exact (Keep.between h).seq (i2 _ _ h)
  | kwarg k v r i1 i2 i3 =>
    intro m f h
    cases m with
    | node => exact .nop
    | args op n =>
      rw [pr]
      refine Keep.seq (i1 _ _ ?_) (Keep.seq (Keep.check ?_ (i2 _ _ ?_)) ?_)
      · exact h
      · exact h
      · exact h
      split
      · exact .nop
      · exact (Keep.between h).seq (i3 _ _ h)

/-! ### What is printed -/

/-- `p` prints a text that satisfies `Q`, with `n` brackets open and an indentation of `i` before, `n'` and `i'` after. -/
def Em (p : Pr) (n i n' i' : Nat) (Q : Bytes → Prop) : Prop :=
  ∀ s, s.enclosed = n → s.indent = i → ∃ t, Q t ∧ (p s).2.out = s.out ++ t ∧ (p s).2.enclosed = n' ∧ (p s).2.indent = i'

/-- A text in two parts. -/
def Cat (Q R : Bytes → Prop) (t : Bytes) : Prop := ∃ a b, Q a ∧ R b ∧ t = a ++ b

theorem Em.seq {p q : Pr} {n i n1 i1 n2 i2 : Nat} {Q R : Bytes → Prop} (h : Em p n i n1 i1 Q) (h' : Em q n1 i1 n2 i2 R) :
    Em (p ⊹ q) n i n2 i2 (Cat Q R) := by
  intro s hn hi
  obtain ⟨a, ha, h1, h2, h3⟩ := h s hn hi
  obtain ⟨b, hb, h4, h5, h6⟩ := h' (p s).2 h2 h3
  exact ⟨a ++ b, ⟨a, b, ha, hb, rfl⟩, by rw [seq_def, h4, h1, List.append_assoc], h5, h6⟩

theorem Em.mono {p : Pr} {n i n' i' : Nat} {Q R : Bytes → Prop} (h : Em p n i n' i' Q) (hq : ∀ t, Q t → R t) : Em p n i n' i' R := by
  intro s hn hi
  obtain ⟨a, ha, h1⟩ := h s hn hi
  exact ⟨a, hq a ha, h1⟩

theorem Em.mute {p : Pr} {n i n' i' : Nat} {Q : Bytes → Prop} (h : Em p n i n' i' Q) : Em (mute p) n i n' i' Q := h

variable {n i : Nat}

theorem Em.nop : Em nop n i n i (· = []) := fun s hn hi => ⟨[], rfl, by simp [Fmt.nop], hn, hi⟩
theorem Em.force (b : Bool) : Em (force b) n i n i (· = []) := fun s hn hi => ⟨[], rfl, by simp [Fmt.force], hn, hi⟩
theorem Em.begin : Em begin n i n (i + 1) (· = []) := fun s hn hi => ⟨[], rfl, by simp [Fmt.begin], hn, by simp [Fmt.begin, hi]⟩
theorem Em.end : Em «end» n (i + 1) n i (· = []) := fun s hn hi => ⟨[], rfl, by simp [Fmt.end], hn, by simp [Fmt.end, hi]⟩
theorem Em.enclose : Em enclose n i (n + 1) i (· = []) := fun s hn hi => ⟨[], rfl, by simp [Fmt.enclose], by simp [Fmt.enclose, hn], hi⟩
theorem Em.disclose : Em disclose (n + 1) i n i (· = []) := fun s hn hi => ⟨[], rfl, by simp [Fmt.disclose], by simp [Fmt.disclose, hn], hi⟩

theorem Em.write (h : f.write = true) (c : UInt8) : Em (write f c) n i n i (· = [c]) := by
  intro s hn hi
  exact ⟨[c], rfl, by simp [Fmt.write, h], by simp [Fmt.write, h, hn], by simp [Fmt.write, h, hi]⟩

theorem Em.writes (h : f.write = true) (t : Bytes) : Em (writes f t) n i n i (· = t) := by
  induction t with
  | nil => exact .nop
  | cons c t ih =>
    refine ((Em.write h c).seq ih).mono ?_
    rintro _ ⟨a, b, rfl, rfl, rfl⟩
    rfl

theorem Em.writeml (h : f.write = true) (t : Bytes) : Em (writeml f t) n i n i (· = t) := by
  induction t with
  | nil => exact .nop
  | cons c t ih =>
    refine (Em.seq (Q := (· = [c])) ?_ ih).mono ?_
    · split
      · next hc =>
        intro s hn hi
        exact ⟨[c], rfl, by simp [hc], by simp [hn], by simp [hi]⟩
      · exact .write h c
    · rintro _ ⟨a, b, rfl, rfl, rfl⟩
      rfl

/-- The text of the separator. -/
def sepText (f : Fst) : Bytes := f.sep.getD []

theorem Em.tail (h : f.write = true) : Em (tail f) n i n i (· = sepText f) := by
  unfold Fmt.tail sepText
  cases f.sep with
  | none => exact .nop
  | some t => exact .writes h t

/-- Blanks only. -/
def Blanks (t : Bytes) : Prop := ∀ c ∈ t, c = 32 ∨ c = 9

theorem Em.indents (h : f.write = true) (ho : Blanks o.indentBy) (k : Nat) : Em (indents o f k) n i n i Blanks := by
  induction k with
  | zero => exact Em.nop.mono fun t ht => by rw [ht]; intro c hc; cases hc
  | succ k ih =>
    refine ((Em.writes h o.indentBy).seq ih).mono ?_
    rintro _ ⟨a, b, rfl, hb, rfl⟩ c hc
    rcases List.mem_append.1 hc with hc | hc
    · exact ho c hc
    · exact hb c hc

theorem Em.newline1 (h : f.write = true) (hm : f.ml = true) (ho : Blanks o.indentBy) (b : Bool) :
    Em (newline o f b) n i n i (fun t => ∃ u, Blanks u ∧ t = 10 :: u) := by
  intro s hn hi
  unfold newline
  simp only [h, hm, Bool.and_self, if_true]
  cases b with
  | true => exact ⟨[10], ⟨[], (fun c hc => by cases hc), rfl⟩, rfl, hn, hi⟩
  | false =>
    obtain ⟨u, hu, h1, h2, h3⟩ := Em.indents (n := n) (i := i) h ho s.indent { s with out := s.out ++ [10], col := 0 } hn hi
    exact ⟨10 :: u, ⟨u, hu, rfl⟩, by simpa using h1, h2, h3⟩

theorem Em.newline (h : f.write = true) (ho : Blanks o.indentBy) (b : Bool) : Em (newline o f b) n i n i (Ws .inside) := by
  cases hm : f.ml with
  | true => exact (Em.newline1 h hm ho b).mono fun t ⟨u, hu, ht⟩ => Or.inr (Or.inr ⟨rfl, u, hu, ht⟩)
  | false =>
    intro s hn hi
    exact ⟨[], Or.inl rfl, by simp [Fmt.newline, hm], by simp [Fmt.newline, hm, hn], by simp [Fmt.newline, hm, hi]⟩

theorem Em.newlineForce (h : f.write = true) (ho : Blanks o.indentBy) (b : Bool) :
    Em (newlineForce o f b) n i n i (fun t => ∃ u, Blanks u ∧ t = 10 :: u) :=
  Em.newline1 (f := { setup f with ml := true }) h rfl ho b

theorem Em.newlineOrSpace (h : f.write = true) (ho : Blanks o.indentBy) : Em (newlineOrSpace o f) n i n i (Ws1 .inside) := by
  unfold Fmt.newlineOrSpace
  split
  · next hm => exact (Em.newline1 h hm ho false).mono fun t ⟨u, hu, ht⟩ => Or.inr ⟨rfl, u, hu, ht⟩
  · exact (Em.write h 32).mono fun t ht => Or.inl ht

theorem Em.breakingSpace (h : f.write = true) (ho : Blanks o.indentBy) : Em (breakingSpace o f) n i n i (Ws1 .inside) := by
  intro s hn hi
  unfold Fmt.breakingSpace
  split
  · obtain ⟨t, ⟨u, hu, ht⟩, h1, h2, h3⟩ := Em.newlineForce (f := f) h ho false s hn hi
    exact ⟨t, Or.inr ⟨rfl, u, hu, ht⟩, h1, h2, h3⟩
  · obtain ⟨t, ht, h1⟩ := Em.write (n := n) (i := i) h 32 s hn hi
    exact ⟨t, Or.inl ht, h1⟩

theorem Em.check {g : Fst → Pr} {n' i' : Nat} {Q : Bytes → Prop} (h : f.write = true) (hk : Keep (g { f with write := false, ml := false }))
    (hg : ∀ ml, Em (g { f with ml }) n i n' i' Q) : Em (check o f g) n i n' i' Q := by
  intro s hn hi
  obtain ⟨b, hb⟩ := hk { s with forceMl := false }
  unfold Fmt.check
  rw [if_pos h]
  dsimp only
  rw [hb]
  have := hg (b || decide ((g { f with write := false, ml := false } { s with forceMl := false }).1 + s.col > o.maxLineLen)) { s with forceMl := b } hn hi
  exact this

theorem Em.between {e r : E} (h : f.write = true) (ho : Blanks o.indentBy) : Em (between o f e r) n i n i (Ws1 .inside) := by
  unfold Fmt.between
  split
  · exact (Em.write h 32).mono fun t ht => Or.inl ht
  · exact .newlineOrSpace h ho

/-- Lists of arguments stand where they are allowed; `b`: a list of arguments. -/
def Proper : Bool → E → Prop
  | false, .array a | false, .dict a => Proper true a
  | false, .paren e | false, .not e | false, .uminus e => Proper false e
  | false, .and l r | false, .or l r | false, .comparison _ l r | false, .arith _ l r | false, .index l r => Proper false l ∧ Proper false r
  | false, .ternary c a b => Proper false c ∧ Proper false a ∧ Proper false b
  | false, .call l a | false, .method l _ a => Proper false l ∧ Proper true a
  | false, .bool _ | false, .string _ _ | false, .number _ _ | false, .id _ => True
  | true, .nil _ => True
  | true, .arg e r => Proper false e ∧ Proper true r
  | true, .kwarg k v r => Proper false k ∧ Proper false v ∧ Proper true r
  | _, _ => False

theorem Spec.Tree.proper {L : Lv} {r : Nat} {e : E} {ts : List Tok} (h : Tree L r e ts) :
    ((∀ m, L ≠ .args m) → Proper Bool.false e) ∧ (∀ m, L = .args m → Proper Bool.true e) := by
  induction h with
  | orExpr _ ih => exact ⟨fun _ => ih.1 (by simp), by simp⟩
  | ternary _ _ _ i1 i2 i3 => exact ⟨fun _ => ⟨i1.1 (by simp), i2.1 (by simp), i3.1 (by simp)⟩, by simp⟩
  | andOr _ ih => exact ⟨fun _ => ih.1 (by simp), by simp⟩
  | or _ _ i1 i2 => exact ⟨fun _ => ⟨i1.1 (by simp), i2.1 (by simp)⟩, by simp⟩
  | compAnd _ ih => exact ⟨fun _ => ih.1 (by simp), by simp⟩
  | and _ _ i1 i2 => exact ⟨fun _ => ⟨i1.1 (by simp), i2.1 (by simp)⟩, by simp⟩
  | arithComp _ ih => exact ⟨fun _ => ih.1 (by simp), by simp⟩
  | comparison _ _ i1 i2 => exact ⟨fun _ => ⟨i1.1 (by simp), i2.1 (by simp)⟩, by simp⟩
  | strayNot _ ih => exact ⟨fun _ => ih.1 (by simp), by simp⟩
  | arithLift _ _ ih => exact ⟨fun _ => ih.1 (by simp), by simp⟩
  | arith _ _ i1 i2 => exact ⟨fun _ => ⟨i1.1 (by simp), i2.1 (by simp)⟩, by simp⟩
  | postUnary _ ih => exact ⟨fun _ => ih.1 (by simp), by simp⟩
  | not _ ih => exact ⟨fun _ => ih.1 (by simp), by simp⟩
  | uminus _ ih => exact ⟨fun _ => ih.1 (by simp), by simp⟩
  | atomPost _ ih => exact ⟨fun _ => ih.1 (by simp), by simp⟩
  | index _ _ i1 i2 => exact ⟨fun _ => ⟨i1.1 (by simp), i2.1 (by simp)⟩, by simp⟩
  | method _ _ i1 i2 => exact ⟨fun _ => ⟨i1.1 (by simp), i2.2 _ rfl⟩, by simp⟩
  | call _ _ i1 i2 => exact ⟨fun _ => ⟨i1.1 (by simp), i2.2 _ rfl⟩, by simp⟩
  | paren _ ih => exact ⟨fun _ => ih.1 (by simp), by simp⟩
  | array _ ih => exact ⟨fun _ => ih.2 _ rfl, by simp⟩
  | dict _ ih => exact ⟨fun _ => ih.2 _ rfl, by simp⟩
  | noArgs => exact ⟨by simp, fun _ _ => trivial⟩
  | lastArg _ _ ih => exact ⟨by simp, fun _ _ => ⟨ih.1 (by simp), trivial⟩⟩
  | arg _ _ _ _ i1 i2 => exact ⟨by simp, fun _ _ => ⟨i1.1 (by simp), i2.2 _ rfl⟩⟩
  | lastKey _ _ _ i1 i2 => exact ⟨by simp, fun _ _ => ⟨i1.1 (by simp), i2.1 (by simp), trivial⟩⟩
  | key _ _ _ _ _ i1 i2 i3 => exact ⟨by simp, fun _ _ => ⟨i1.1 (by simp), i2.1 (by simp), i3.2 _ rfl⟩⟩
  | _ => exact ⟨fun _ => trivial, by simp⟩

theorem argCount_pos {a : E} (h : Proper true a) (hn : isNil a = false) : 1 ≤ argCount a := by
  cases a with
  | nil c => cases hn
  | arg e r => simp [argCount]
  | kwarg k v r => simp [argCount]
  | _ => cases h

theorem needComma_rest {opening : UInt8} {count : Nat} {kw : Bool} (h : 2 ≤ count) : needComma o f opening count kw false = true := by
  unfold needComma
  have : (count == 1) = false := by simp; omega
  simp [this]

theorem sepText_comma {g : Fst} {b : Bool} (h : g.sep = comma b) : sepText g = if b then [44] else [] := by
  unfold sepText
  rw [h]
  cases b <;> decide +kernel

/-- A list of arguments in brackets. -/
theorem Em.args {op : UInt8} {a : E} {p : Fst → Pr} (h : f.write = true) (ho : Blanks o.indentBy)
    (hp : isNil a = false → ∀ n i, n > 0 → Em (p f) n i n i (Txt .inside a)) (hn : isNil a = true → ∃ c, a = .nil c) :
    Em (argsWith o op a p f) n i n i (Inner a) := by
  unfold argsWith
  split
  · next hnil =>
    obtain ⟨c, rfl⟩ := hn hnil
    exact Em.nop.mono fun t ht => by rw [ht]; exact .nil
  · next hnil =>
    have hw : ∀ n i, Em (if (op == 91 && o.spaceArray) = true then Fmt.mute (Fmt.newlineOrSpace o f) else Fmt.newline o f) n i n i (Ws .inside) := by
      intro n i
      split
      · exact (Em.newlineOrSpace h ho).mute.mono fun t ht => Or.inr ht
      · exact .newline h ho _
    refine (Em.enclose.seq (Em.begin.seq ((hw _ _).seq ((Em.force _).seq ((Em.force _).seq ((hp (by simpa using hnil) _ _ (by omega)).seq
      (Em.disclose.seq (Em.end.seq (hw _ _))))))))).mono ?_
    rintro _ ⟨_, _, rfl, ⟨_, _, rfl, ⟨g, _, hg, ⟨_, _, rfl, ⟨_, _, rfl, ⟨x, _, hx, ⟨_, _, rfl, ⟨_, g', rfl, hg', rfl⟩, rfl⟩, rfl⟩, rfl⟩, rfl⟩, rfl⟩, rfl⟩, rfl⟩
    simpa using Inner.of hx hg hg'

theorem Em.container {op cl : UInt8} {a : E} {p : Fst → Pr} (h : f.write = true) (ho : Blanks o.indentBy)
    (hp : isNil a = false → ∀ n i, n > 0 → Em (p (setup f)) n i n i (Txt .inside a)) (hn : isNil a = true → ∃ c, a = .nil c) :
    Em (containerWith o op cl a p f) n i n i (fun t => ∃ x, Inner a x ∧ t = op :: (x ++ [cl])) := by
  unfold containerWith
  refine ((Em.write (f := setup f) h op).seq ((Em.args (f := setup f) h ho hp hn).seq (Em.write (f := setup f) h cl))).mono ?_
  rintro _ ⟨_, _, rfl, ⟨x, _, hx, rfl, rfl⟩, rfl⟩
  exact ⟨x, hx, rfl⟩

theorem nil_of {a : E} (h : isNil a = true) : ∃ c, a = .nil c := by
  cases a with
  | nil c => exact ⟨c, rfl⟩
  | _ => cases h

theorem Em.parens {e : E} {p : Fst → Pr} (h : f.write = true) (ho : Blanks o.indentBy) (hp : ∀ i, Em (p f) (n + 1) i (n + 1) i (Txt .inside e)) :
    Em (parensWith o p f) n i n i (fun t => ∃ x, Inner e x ∧ t = 40 :: (x ++ [41])) := by
  unfold parensWith
  split
  · refine ((Em.write h 40).seq (Em.enclose.seq ((Em.begin.seq (Em.newline h ho false)).seq ((hp _).seq ((Em.end.seq (Em.newline h ho false)).seq
      (Em.disclose.seq (Em.write h 41))))))).mono ?_
    rintro _ ⟨_, _, rfl, ⟨_, _, rfl, ⟨_, _, ⟨_, g, rfl, hg, rfl⟩, ⟨x, _, hx, ⟨_, _, ⟨_, g', rfl, hg', rfl⟩, ⟨_, _, rfl, rfl, rfl⟩, rfl⟩, rfl⟩, rfl⟩, rfl⟩, rfl⟩
    exact ⟨_, .of hx hg hg', by simp⟩
  · refine ((Em.write h 40).seq (Em.enclose.seq (Em.nop.seq ((hp _).seq (Em.nop.seq (Em.disclose.seq (Em.write h 41))))))).mono ?_
    rintro _ ⟨_, _, rfl, ⟨_, _, rfl, ⟨_, _, rfl, ⟨x, _, hx, ⟨_, _, rfl, ⟨_, _, rfl, rfl, rfl⟩, rfl⟩, rfl⟩, rfl⟩, rfl⟩, rfl⟩
    exact ⟨_, .of hx (Or.inl rfl) (Or.inl rfl), by simp⟩

/-- Where an expression may be printed: inside of brackets, or outside if it has no arithmetic there. -/
def Place (n : Nat) (e : E) (w : Wh) : Prop := n > 0 ∧ w = .inside ∨ n = 0 ∧ NoArith e ∧ w = .any

theorem Em.andOr {w : Wh} {word : Bytes} {l r : E} {pl qr : Fst → Pr} (h : f.write = true) (ho : Blanks o.indentBy)
    (hc : f.andOr = true → n > 0) (hw : n > 0 ∧ w = .inside ∨ n = 0)
    (kl : ∀ f : Fst, f.write = false → Keep (pl f)) (kr : ∀ f : Fst, f.write = false → Keep (qr f))
    (hl : ∀ g : Fst, g.write = true → g.sep = f.sep → g.andOr = f.andOr → Em (pl g) n i n i (Txt w l))
    (hr : ∀ g : Fst, g.write = true → g.sep = f.sep → (g.andOr = true → n > 0) → Em (qr g) n i n i (Txt w r)) :
    Em (andOrWith o f word pl qr) n i n i (fun t => ∃ a g b, Txt w l a ∧ Ws1 w g ∧ Txt w r b ∧ t = a ++ (g ++ (word ++ b))) := by
  unfold andOrWith
  refine (Em.seq (Em.check (n' := n) (i' := i) h (kl _ rfl) (fun ml => hl _ h rfl rfl)) (R := fun t => ∃ g b, Ws1 w g ∧ Txt w r b ∧ t = g ++ (word ++ b)) ?_).mono ?_
  · intro s hn hi
    dsimp only
    split
    · next hs =>
      have hw' : w = .inside := by
        rcases hw with h | h
        · exact h.2
        · exfalso
          rw [hn, h] at hs
          simp at hs
          have := hc hs
          omega
      subst hw'
      refine ((Em.newlineForce h ho false).mute.seq ((Em.writes h word).seq (Em.check (f := { f with andOr := true }) h (kr _ rfl)
        (fun ml => hr _ h rfl (fun _ => ?_))))).mono ?_ s hn hi
      · rcases hw with h | h
        · exact h.1
        · exfalso
          rw [hn, h] at hs
          simp at hs
          have := hc hs
          omega
      · rintro _ ⟨_, _, ⟨u, hu, rfl⟩, ⟨_, b, rfl, hb, rfl⟩, rfl⟩
        exact ⟨_, b, Or.inr ⟨rfl, u, hu, rfl⟩, hb, rfl⟩
    · refine ((Em.writes h [32]).seq ((Em.writes h word).seq (Em.check h (kr _ rfl) (fun ml => hr _ h rfl hc)))).mono ?_ s hn hi
      rintro _ ⟨_, _, rfl, ⟨_, b, rfl, hb, rfl⟩, rfl⟩
      exact ⟨_, b, .sp, hb, rfl⟩
  · rintro _ ⟨a, _, ha, ⟨g, b, hg, hb, rfl⟩, rfl⟩
    exact ⟨a, g, b, ha, hg, hb, rfl⟩

/-- The text of a node is followed by its separator. -/
def Node (w : Wh) (e : E) (f : Fst) (t : Bytes) : Prop := ∃ a, Txt w e a ∧ t = a ++ sepText f

theorem Node.plain {w : Wh} {e : E} {t : Bytes} (hs : f.sep = none) (h : Node w e f t) : Txt w e t := by
  obtain ⟨a, ha, rfl⟩ := h
  simpa [sepText, hs] using ha

set_option maxHeartbeats 1000000 in
/-- What is printed for an expression. -/
theorem print_expr (o : Opts) (ho : Blanks o.indentBy) : ∀ (e : E), Words e →
    (Proper false e → ∀ (f : Fst) (n i : Nat) (w : Wh), f.write = true → (f.andOr = true → n > 0) → Place n e w →
      Em (pr o e .node f) n i n i (Node w e f)) ∧
    (Proper true e → isNil e = false → ∀ (f : Fst) (op : UInt8) (count n i : Nat), f.write = true → n > 0 →
      argCount e ≤ count → Em (pr o e (.args op count) f) n i n i (Txt .inside e)) := by
  intro e
  induction e with
  | bool b =>
    intro hw
    refine ⟨fun hp f n i w h hc hpl => ?_, fun hp => hp.elim⟩
    rw [pr]
    refine ((Em.writes h _).seq (.tail h)).mono ?_
    rintro _ ⟨_, _, rfl, rfl, rfl⟩
    exact ⟨_, .bool b, rfl⟩
  | string raw s =>
    intro hw
    refine ⟨fun hp f n i w h hc hpl => ?_, fun hp => hp.elim⟩
    rw [pr]
    refine ((Em.writeml h _).seq (.tail h)).mono ?_
    rintro _ ⟨_, _, rfl, rfl, rfl⟩
    exact ⟨_, .string hw, rfl⟩
  | number raw m =>
    intro hw
    refine ⟨fun hp f n i w h hc hpl => ?_, fun hp => hp.elim⟩
    rw [pr]
    refine ((Em.writes h _).seq (.tail h)).mono ?_
    rintro _ ⟨_, _, rfl, rfl, rfl⟩
    exact ⟨_, .number hw, rfl⟩
  | id s =>
    intro hw
    refine ⟨fun hp f n i w h hc hpl => ?_, fun hp => hp.elim⟩
    rw [pr]
    refine ((Em.writes h _).seq (.tail h)).mono ?_
    rintro _ ⟨_, _, rfl, rfl, rfl⟩
    exact ⟨_, .id hw, rfl⟩
  | array a ih =>
    intro hw
    refine ⟨fun hp f n i w h hc hpl => ?_, fun hp => hp.elim⟩
    rw [pr]
    refine (Em.seq (Em.check (f := setup f) h (.container rfl (keep_pr o _ _ _ rfl)) (fun ml => .container (f := { setup f with ml }) h ho
      (fun hn n i hn' => (ih hw).2 hp hn _ _ _ _ _ h hn' (Nat.le_refl _)) nil_of)) (.tail h)).mono ?_
    rintro _ ⟨_, _, ⟨x, hx, rfl⟩, rfl, rfl⟩
    exact ⟨_, .array hx, rfl⟩
  | dict a ih =>
    intro hw
    refine ⟨fun hp f n i w h hc hpl => ?_, fun hp => hp.elim⟩
    rw [pr]
    refine (Em.seq (Em.check (f := setup f) h (.container rfl (keep_pr o _ _ _ rfl)) (fun ml => .container (f := { setup f with ml }) h ho
      (fun hn n i hn' => (ih hw).2 hp hn _ _ _ _ _ h hn' (Nat.le_refl _)) nil_of)) (.tail h)).mono ?_
    rintro _ ⟨_, _, ⟨x, hx, rfl⟩, rfl, rfl⟩
    exact ⟨_, .dict hx, rfl⟩
  | paren a ih =>
    intro hw
    refine ⟨fun hp f n i w h hc hpl => ?_, fun hp => hp.elim⟩
    rw [pr]
    refine (Em.seq (Em.check (f := setup f) (g := parensWith o (pr o a .node)) h (.parens rfl (keep_pr o _ _ _ rfl)) (fun ml => .parens (f := { setup f with ml }) h ho
      (e := a) (fun i => ((ih hw).1 hp { setup f with ml } (n + 1) _ _ h (fun _ => Nat.succ_pos n) (Or.inl ⟨Nat.succ_pos n, rfl⟩)).mono fun t ht => ht.plain rfl))) (.tail h)).mono ?_
    rintro _ ⟨_, _, ⟨x, hx, rfl⟩, rfl, rfl⟩
    exact ⟨_, .paren hx, rfl⟩
  | not a ih =>
    intro hw
    refine ⟨fun hp f n i w h hc hpl => ?_, fun hp => hp.elim⟩
    rw [pr]
    refine ((Em.writes h _).seq (((ih hw).1 hp (setup f) n i w h hc hpl).seq (.tail h))).mono ?_
    rintro _ ⟨_, _, rfl, ⟨x, _, hx, rfl, rfl⟩, rfl⟩
    exact ⟨_, .not (hx.plain rfl), by simp⟩
  | uminus a ih =>
    intro hw
    refine ⟨fun hp f n i w h hc hpl => ?_, fun hp => hp.elim⟩
    rw [pr]
    refine ((Em.write h _).seq (((ih hw).1 hp (setup f) n i w h hc hpl).seq (.tail h))).mono ?_
    rintro _ ⟨_, _, rfl, ⟨x, _, hx, rfl, rfl⟩, rfl⟩
    exact ⟨_, .uminus (hx.plain rfl), by simp⟩
  | and l r i1 i2 =>
    intro hw
    refine ⟨fun hp f n i w h hc hpl => ?_, fun hp => hp.elim⟩
    rw [pr]
    have pl : Place n l w := hpl.imp id fun h => ⟨h.1, h.2.1.1, h.2.2⟩
    have pr' : Place n r w := hpl.imp id fun h => ⟨h.1, h.2.1.2, h.2.2⟩
    refine ((Em.andOr (f := setup f) (w := w) (l := l) (r := r) h ho hc (hpl.imp id fun h => h.1) (fun f h => keep_pr o _ _ f h) (fun f h => keep_pr o _ _ f h)
      (fun g hg hs ha => ((i1 hw.1).1 hp.1 g n i w hg (by rw [ha]; exact hc) pl).mono fun t ht => ht.plain hs)
      (fun g hg hs ha => ((i2 hw.2).1 hp.2 g n i w hg ha pr').mono fun t ht => ht.plain hs)).seq (.tail h)).mono ?_
    rintro _ ⟨_, _, ⟨a, g, b, ha, hg, hb, rfl⟩, rfl, rfl⟩
    exact ⟨_, .and ha hb hg, rfl⟩
  | or l r i1 i2 =>
    intro hw
    refine ⟨fun hp f n i w h hc hpl => ?_, fun hp => hp.elim⟩
    rw [pr]
    have pl : Place n l w := hpl.imp id fun h => ⟨h.1, h.2.1.1, h.2.2⟩
    have pr' : Place n r w := hpl.imp id fun h => ⟨h.1, h.2.1.2, h.2.2⟩
    refine ((Em.andOr (f := setup f) (w := w) (l := l) (r := r) h ho hc (hpl.imp id fun h => h.1) (fun f h => keep_pr o _ _ f h) (fun f h => keep_pr o _ _ f h)
      (fun g hg hs ha => ((i1 hw.1).1 hp.1 g n i w hg (by rw [ha]; exact hc) pl).mono fun t ht => ht.plain hs)
      (fun g hg hs ha => ((i2 hw.2).1 hp.2 g n i w hg ha pr').mono fun t ht => ht.plain hs)).seq (.tail h)).mono ?_
    rintro _ ⟨_, _, ⟨a, g, b, ha, hg, hb, rfl⟩, rfl, rfl⟩
    exact ⟨_, .or ha hb hg, rfl⟩
  | comparison op l r i1 i2 =>
    intro hw
    refine ⟨fun hp f n i w h hc hpl => ?_, fun hp => hp.elim⟩
    rw [pr]
    have pl : Place n l w := hpl.imp id fun h => ⟨h.1, h.2.1.1, h.2.2⟩
    have pr' : Place n r w := hpl.imp id fun h => ⟨h.1, h.2.1.2, h.2.2⟩
    refine (((i1 hw.1).1 hp.1 (setup f) n i w h hc pl).seq ((Em.write h _).seq ((Em.writes h _).seq
      (((i2 hw.2).1 hp.2 (setup f) n i w h hc pr').seq (.tail h))))).mono ?_
    rintro _ ⟨a, _, ha, ⟨_, _, rfl, ⟨_, _, rfl, ⟨b, _, hb, rfl, rfl⟩, rfl⟩, rfl⟩, rfl⟩
    exact ⟨_, .comparison (ha.plain rfl) (hb.plain rfl), by simp⟩
  | arith op l r i1 i2 =>
    intro hw
    refine ⟨fun hp f n i w h hc hpl => ?_, fun hp => hp.elim⟩
    rw [pr]
    obtain ⟨hn, rfl⟩ : n > 0 ∧ w = .inside := by
      rcases hpl with h | h
      · exact h
      · exact h.2.1.elim
    refine (((i1 hw.1).1 hp.1 (setup f) n i .inside h hc (Or.inl ⟨hn, rfl⟩)).seq ((Em.write h _).seq ((Em.write h _).seq
      ((Em.breakingSpace (f := setup f) h ho).seq (((i2 hw.2).1 hp.2 (setup f) n i .inside h hc (Or.inl ⟨hn, rfl⟩)).seq (.tail h)))))).mono ?_
    rintro _ ⟨a, _, ha, ⟨_, _, rfl, ⟨_, _, rfl, ⟨g, _, hg, ⟨b, _, hb, rfl, rfl⟩, rfl⟩, rfl⟩, rfl⟩, rfl⟩
    exact ⟨_, .arith (ha.plain rfl) (hb.plain rfl) hg, by simp⟩
  | ternary c a b i1 i2 i3 =>
    intro hw
    refine ⟨fun hp f n i w h hc hpl => ?_, fun hp => hp.elim⟩
    rw [pr]
    have p1 : Place n c w := hpl.imp id fun h => ⟨h.1, h.2.1.1, h.2.2⟩
    have p2 : Place n a w := hpl.imp id fun h => ⟨h.1, h.2.1.2.1, h.2.2⟩
    have p3 : Place n b w := hpl.imp id fun h => ⟨h.1, h.2.1.2.2, h.2.2⟩
    refine (((i1 hw.1).1 hp.1 (setup f) n i w h hc p1).seq ((Em.write h _).seq ((Em.writes h _).seq
      (((i2 hw.2.1).1 hp.2.1 (setup f) n i w h hc p2).seq ((Em.write h _).seq ((Em.writes h _).seq
      (((i3 hw.2.2).1 hp.2.2 (setup f) n i w h hc p3).seq (.tail h)))))))).mono ?_
    rintro _ ⟨c', _, hc', ⟨_, _, rfl, ⟨_, _, rfl, ⟨a', _, ha, ⟨_, _, rfl, ⟨_, _, rfl, ⟨b', _, hb, rfl, rfl⟩, rfl⟩, rfl⟩, rfl⟩, rfl⟩, rfl⟩, rfl⟩
    exact ⟨_, .ternary (hc'.plain rfl) (ha.plain rfl) (hb.plain rfl), by simp⟩
  | call l a i1 i2 =>
    intro hw
    refine ⟨fun hp f n i w h hc hpl => ?_, fun hp => hp.elim⟩
    rw [pr]
    have pl : Place n l w := hpl.imp id fun h => ⟨h.1, h.2.1, h.2.2⟩
    have hk : ∀ f : Fst, f.write = true → Em (containerWith o 40 41 a (pr o a (.args 40 (argCount a))) f) n i n i
        (fun t => ∃ x, Inner a x ∧ t = 40 :: (x ++ [41])) := fun f h =>
      .container h ho (fun hn n i hn' => (i2 hw.2).2 hp.2 hn (setup f) 40 _ n i h hn' (Nat.le_refl _)) nil_of
    have hkk : ∀ f : Fst, f.write = false → Keep (containerWith o 40 41 a (pr o a (.args 40 (argCount a))) f) := fun f h =>
      .container h (keep_pr o _ _ _ h)
    refine (((i1 hw.1).1 hp.1 (setup f) n i w h hc pl).seq (Em.seq (Em.check (f := setup f)
      (g := fun f => containerWith o 40 41 a (pr o a (.args 40 (argCount a))) { f with cmd := false }) h (hkk _ rfl) (fun ml => hk _ h)) (.tail h))).mono ?_
    rintro _ ⟨b, _, hb, ⟨_, _, ⟨x, hx, rfl⟩, rfl, rfl⟩, rfl⟩
    exact ⟨_, .call (hb.plain rfl) hx, by simp⟩
  | method l m a i1 i2 =>
    intro hw
    refine ⟨fun hp f n i w h hc hpl => ?_, fun hp => hp.elim⟩
    rw [pr]
    have pl : Place n l w := hpl.imp id fun h => ⟨h.1, h.2.1, h.2.2⟩
    have hk : ∀ f : Fst, f.write = true → Em (containerWith o 40 41 a (pr o a (.args 40 (argCount a))) f) n i n i
        (fun t => ∃ x, Inner a x ∧ t = 40 :: (x ++ [41])) := fun f h =>
      .container h ho (fun hn n i hn' => (i2 hw.2.2).2 hp.2 hn (setup f) 40 _ n i h hn' (Nat.le_refl _)) nil_of
    have hkk : ∀ f : Fst, f.write = false → Keep (containerWith o 40 41 a (pr o a (.args 40 (argCount a))) f) := fun f h =>
      .container h (keep_pr o _ _ _ h)
    refine (((i1 hw.1).1 hp.1 (setup f) n i w h hc pl).seq ((Em.write h _).seq (Em.seq (Em.check (f := setup f)
      (g := fun f => writes f m ⊹ containerWith o 40 41 a (pr o a (.args 40 (argCount a))) f) h
      ((Keep.writes rfl _).seq (hkk _ rfl)) (fun ml => (Em.writes (f := { setup f with ml }) h m).seq (hk _ h))) (.tail h)))).mono ?_
    rintro _ ⟨b, _, hb, ⟨_, _, rfl, ⟨_, _, ⟨_, _, rfl, ⟨x, hx, rfl⟩, rfl⟩, rfl, rfl⟩, rfl⟩, rfl⟩
    exact ⟨_, .method hw.2.1 (hb.plain rfl) hx, by simp⟩
  | index l j i1 i2 =>
    intro hw
    refine ⟨fun hp f n i w h hc hpl => ?_, fun hp => hp.elim⟩
    rw [pr]
    have pl : Place n l w := hpl.imp id fun h => ⟨h.1, h.2.1, h.2.2⟩
    refine (((i1 hw.1).1 hp.1 (setup f) n i w h hc pl).seq ((Em.write h _).seq (Em.enclose.seq (Em.seq (Em.check (f := setup f) h (keep_pr o _ _ _ rfl)
      (Q := Txt .inside j) (fun ml => ((i2 hw.2).1 hp.2 { setup f with ml } (n + 1) i .inside h (fun _ => Nat.succ_pos n) (Or.inl ⟨Nat.succ_pos n, rfl⟩)).mono
        fun t ht => ht.plain rfl))
      (Em.disclose.seq ((Em.write h _).seq (.tail h))))))).mono ?_
    rintro _ ⟨b, _, hb, ⟨_, _, rfl, ⟨_, _, rfl, ⟨x, _, hx, ⟨_, _, rfl, ⟨_, _, rfl, rfl, rfl⟩, rfl⟩, rfl⟩, rfl⟩, rfl⟩, rfl⟩
    exact ⟨_, .index (hb.plain rfl) (.of hx (Or.inl rfl) (Or.inl rfl)), by simp⟩
  | nil c => intro hw; exact ⟨fun hp => hp.elim, fun _ h => by cases h⟩
  | arg e r i1 i2 =>
    intro hw
    refine ⟨fun hp => hp.elim, fun hp _ f op count n i h hn hcount => ?_⟩
    rw [pr]
    have k1 : ∀ b, Em (check o { f with cmd := false, sep := comma b } (pr o e .node)) n i n i
        (fun t => ∃ a, Txt .inside e a ∧ t = a ++ if b then [44] else []) := by
      intro b
      refine Em.check (f := { f with cmd := false, sep := comma b }) h (keep_pr o _ _ _ rfl) fun ml => ?_
      refine ((i1 hw.1).1 hp.1 { f with cmd := false, sep := comma b, ml } n i .inside h (fun _ => hn) (Or.inl ⟨hn, rfl⟩)).mono ?_
      rintro _ ⟨a, ha, rfl⟩
      exact ⟨a, ha, by rw [sepText_comma (b := b) rfl]⟩
    cases hnil : isNil r with
    | true =>
      obtain ⟨c, rfl⟩ := nil_of hnil
      rw [if_pos rfl]
      refine ((k1 _).seq Em.nop).mono ?_
      rintro _ ⟨_, _, ⟨a, ha, rfl⟩, rfl, rfl⟩
      rw [List.append_nil]
      split
      · exact ha.lastComma
      · rw [List.append_nil]; exact ha.last
    | false =>
      rw [if_neg (by simp)]
      have hc2 : argCount (.arg e r) = argCount r + 1 := rfl
      have hr := argCount_pos hp.2 hnil
      rw [needComma_rest (by omega)]
      refine ((k1 true).seq ((Em.between h ho).seq ((i2 hw.2).2 hp.2 hnil f op count n i h hn (by omega)))).mono ?_
      rintro _ ⟨_, _, ⟨a, ha, rfl⟩, ⟨g, b, hg, hb, rfl⟩, rfl⟩
      exact ha.arg hb hg
  | kwarg k v r i1 i2 i3 =>
    intro hw
    refine ⟨fun hp => hp.elim, fun hp _ f op count n i h hn hcount => ?_⟩
    rw [pr]
    have k0 : Em (pr o k .node { f with cmd := isId (ascii "command") k, sep := kwSep o }) n i n i
        (fun t => ∃ a c, Txt .inside k a ∧ Colon c ∧ t = a ++ c) := by
      refine ((i1 hw.1).1 hp.1 { f with cmd := isId (ascii "command") k, sep := kwSep o } n i .inside h (fun _ => hn) (Or.inl ⟨hn, rfl⟩)).mono ?_
      rintro _ ⟨a, ha, rfl⟩
      refine ⟨a, _, ha, ?_, rfl⟩
      show Colon ((kwSep o).getD [])
      unfold kwSep Colon
      cases o.wideColon
      · exact Or.inr rfl
      · exact Or.inl rfl
    have k1 : ∀ b, Em (check o { f with cmd := isId (ascii "command") k, sep := comma b } (pr o v .node)) n i n i
        (fun t => ∃ a, Txt .inside v a ∧ t = a ++ if b then [44] else []) := by
      intro b
      refine Em.check (f := { f with cmd := isId (ascii "command") k, sep := comma b }) h (keep_pr o _ _ _ rfl) fun ml => ?_
      refine ((i2 hw.2.1).1 hp.2.1 { f with cmd := isId (ascii "command") k, sep := comma b, ml } n i .inside h (fun _ => hn) (Or.inl ⟨hn, rfl⟩)).mono ?_
      rintro _ ⟨a, ha, rfl⟩
      exact ⟨a, ha, by rw [sepText_comma (b := b) rfl]⟩
    cases hnil : isNil r with
    | true =>
      obtain ⟨c, rfl⟩ := nil_of hnil
      rw [if_pos rfl]
      refine (k0.seq ((k1 _).seq Em.nop)).mono ?_
      rintro _ ⟨_, _, ⟨a, c, ha, hc, rfl⟩, ⟨_, _, ⟨b, hb, rfl⟩, rfl, rfl⟩, rfl⟩
      rw [List.append_nil]
      split
      · exact ha.lastKeyComma hb hc
      · rw [List.append_nil]; exact ha.lastKey hb hc
    | false =>
      rw [if_neg (by simp)]
      have hc2 : argCount (.kwarg k v r) = argCount r + 1 := rfl
      have hr := argCount_pos hp.2.2 hnil
      rw [needComma_rest (by omega)]
      refine (k0.seq ((k1 true).seq ((Em.between h ho).seq ((i3 hw.2.2).2 hp.2.2 hnil f op count n i h hn (by omega))))).mono ?_
      rintro _ ⟨_, _, ⟨a, c, ha, hc, rfl⟩, ⟨_, _, ⟨b, hb, rfl⟩, ⟨g, d, hg, hd, rfl⟩, rfl⟩, rfl⟩
      exact ha.kwarg hb hd hc hg

end Muon.Fmt
