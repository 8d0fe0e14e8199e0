import Verif.Fmt.Flat
/-
What is printed for a program.
-/
namespace Muon.Fmt
open Muon Lex Parse Parse.Spec Fmt.Spec

variable {o : Opts} {f : Fst} {n i : Nat}

/-! ### Something is printed -/

def Pos (p : Pr) : Prop := ∀ s, 1 ≤ (p s).1

theorem Pos.left {p q : Pr} (h : Pos p) : Pos (p ⊹ q) := fun s => by have := h s; rw [seq_def]; dsimp only; omega
theorem Pos.right {p q : Pr} (h : Pos q) : Pos (p ⊹ q) := fun s => by have := h (p s).2; rw [seq_def]; dsimp only; omega
theorem Pos.write (c : UInt8) : Pos (write f c) := fun _ => wid_pos c
theorem Pos.writes (c : UInt8) (t : Bytes) : Pos (writes f (c :: t)) := (Pos.write c).left

theorem Pos.check {g : Fst → Pr} (h : ∀ f, Pos (g f)) : Pos (check o f g) := by
  intro s
  unfold Fmt.check
  split
  · exact h _ _
  · exact h _ _

theorem Pos.container {op cl : UInt8} {a : E} {p : Fst → Pr} : Pos (containerWith o op cl a p f) := (Pos.write _).left

theorem Pos.andOr {c : UInt8} {t : Bytes} {p q : Fst → Pr} : Pos (andOrWith o f (c :: t) p q) := by
  refine Pos.right ?_
  intro s
  dsimp only
  split
  · exact (Pos.right (Pos.writes c t).left : Pos (mute (newlineForce o f) ⊹ _)) s
  · exact (Pos.writes 32 []).left s

theorem pr_pos (o : Opts) (e : E) (f : Fst) (hw : Words e) (hp : Proper false e) : Pos (pr o e .node f) := by
  cases e with
  | bool b =>
    rw [pr]
    cases b
    · exact (show Pos (writes f (102 :: (ascii "false").tail)) from .writes _ _).left
    · exact (show Pos (writes f (116 :: (ascii "true").tail)) from .writes _ _).left
  | string raw s =>
    rw [pr]
    refine Pos.left ?_
    have hr : raw.head? = some 39 := hw.1
    cases raw with
    | nil => cases hr
    | cons c t =>
      cases hr
      rw [writeml]
      refine Pos.left ?_
      rw [if_neg (by decide)]
      exact .write _
  | number raw m =>
    rw [pr]
    refine Pos.left ?_
    obtain ⟨c, hr, _⟩ := hw.1
    cases raw with
    | nil => cases hr
    | cons c t => exact .writes _ _
  | id s =>
    rw [pr]
    refine Pos.left ?_
    obtain ⟨⟨c, v, rfl, _⟩, _⟩ := hw
    exact .writes _ _
  | array a => rw [pr]; exact Pos.left (.check fun f => .container)
  | dict a => rw [pr]; exact Pos.left (.check fun f => .container)
  | paren a => rw [pr]; exact Pos.left (.check fun f => Pos.left (.write _))
  | not a => rw [pr]; exact (show Pos (writes f (110 :: (ascii "not ").tail)) from .writes _ _).left
  | uminus a => rw [pr]; exact Pos.left (.write _)
  | and l r => rw [pr]; exact (show Pos (andOrWith o (setup f) (97 :: (ascii "and ").tail) _ _) from .andOr).left
  | or l r => rw [pr]; exact (show Pos (andOrWith o (setup f) (111 :: (ascii "or ").tail) _ _) from .andOr).left
  | comparison op l r => rw [pr]; exact Pos.right (Pos.left (.write _))
  | arith op l r => rw [pr]; exact Pos.right (Pos.left (.write _))
  | ternary c a b => rw [pr]; exact Pos.right (Pos.left (.write _))
  | call l a => rw [pr]; exact Pos.right (Pos.left (.check fun f => .container))
  | method l m a => rw [pr]; exact Pos.right (Pos.left (.write _))
  | index l j => rw [pr]; exact Pos.right (Pos.left (.write _))
  | nil _ => exact hp.elim
  | arg _ _ => exact hp.elim
  | kwarg _ _ _ => exact hp.elim

/-! ### Dry runs -/

theorem Keep.wrapped (e : E) (h : f.write = false) : Keep (wrapped o e f) := by
  intro s
  unfold Fmt.wrapped
  dsimp only
  split
  · obtain ⟨b1, hb1⟩ := ((Keep.write (f := setup f) h 40)) { s with enclosed := s.enclosed + 1 }
    obtain ⟨b2, hb2⟩ := ((Keep.newline (o := o) (f := setup f) h false).seq (keep_pr o e .node (setup f) h))
      { s with enclosed := s.enclosed + 1, indent := s.indent + 1, forceMl := b1 }
    obtain ⟨b3, hb3⟩ := ((Keep.newline (o := o) (f := setup f) h false).seq (Keep.write (f := setup f) h 41)) { s with forceMl := b2 }
    refine ⟨b3, ?_⟩
    simp only [seq_def] at hb2 hb3
    simp only [seq_def, enclose, begin, disclose, «end»]
    rw [hb1]
    simp only []
    rw [hb2]
    simp only [Nat.add_sub_cancel]
    exact hb3
  · exact keep_pr o e .node (setup f) h s

theorem Keep.inner {b : S} {p : Pr} (h : f.write = false) (hp : Keep p) : Keep (inner o f b p) := by
  unfold Fmt.inner
  split
  · exact .newlineForce h _
  · intro s
    obtain ⟨b1, hb1⟩ := ((Keep.newlineForce (o := o) h (startsBare b)).seq hp) { s with indent := s.indent + 1 }
    obtain ⟨b2, hb2⟩ := Keep.newlineForce (o := o) h false { s with forceMl := b1 }
    refine ⟨b2, ?_⟩
    simp only [seq_def] at hb1
    simp only [seq_def, begin, «end»]
    rw [hb1]
    exact hb2

theorem keep_prS (o : Opts) : ∀ (s : S) (b : Bool) (f : Fst), f.write = false → Keep (prS o s b f) := by
  intro s
  induction s with
  | nothing => intro b f h; rw [prS]; exact .tail h
  | block s r i1 i2 =>
    intro b f h
    rw [prS]
    refine Keep.seq (Keep.check (f := setup f) h (i1 true (setup f) h)) (Keep.seq ?_ (.tail h))
    split
    · exact .nop
    · exact (Keep.newlineForce h _).mute.seq (i2 true (setup f) h).mute
  | blank c =>
    intro b f h
    cases c with
    | none => rw [prS]; exact .tail h
    | some c =>
      rw [prS]
      refine Keep.seq (.tail h) (Keep.seq ?_ (.force _))
      rw [if_neg (by simp [h])]
      exact fun s => ⟨s.forceMl, rfl⟩
  | expr e => intro b f h; rw [prS]; exact keep_pr o e .node f h
  | assign s e => intro b f h; rw [prS]; exact (Keep.writes h _).seq ((Keep.write h _).seq ((Keep.writes h _).seq ((Keep.wrapped e h).seq (.tail h))))
  | plusAssign s e => intro b f h; rw [prS]; exact (Keep.writes h _).seq ((Keep.write h _).seq ((Keep.writes h _).seq ((Keep.wrapped e h).seq (.tail h))))
  | «continue» => intro b f h; rw [prS]; exact (Keep.writes h _).seq (.tail h)
  | «break» => intro b f h; rw [prS]; exact (Keep.writes h _).seq (.tail h)
  | ifs s ih => intro b f h; rw [prS]; exact (ih true (setup f) h).mute.seq ((Keep.writes h _).mute.seq (.tail h))
  | branch c b e i1 i2 =>
    intro first f h
    rw [prS]
    refine (Keep.writes h _).seq ((Keep.check (f := setup f) h (Keep.wrapped (f := setup f) c h)).seq ((Keep.inner (f := setup f) h (i1 true (setup f) h)).seq ?_))
    split
    · exact .nop
    · exact i2 false (setup f) h
  | els b ih => intro first f h; rw [prS]; exact (Keep.writes h _).seq (Keep.inner (f := setup f) h (ih true (setup f) h))
  | «foreach» v w e b ih =>
    intro first f h
    rw [prS.eq_def]
    dsimp only
    refine (Keep.writes h _).mute.seq (Keep.seq (Keep.mute ((Keep.writes h _).seq ?_)) ((Keep.writes h _).mute.seq
      ((Keep.check (f := setup f) h (Keep.wrapped (f := setup f) e h)).mute.seq
      ((Keep.inner (f := setup f) h (ih true (setup f) h)).mute.seq ((Keep.writes h _).mute.seq (.tail h))))))
    cases w with
    | none => exact .nop
    | some w => exact (Keep.writes h _).seq (.writes h _)

/-! ### Expressions in statements -/

/-- If it fits on the line, it is printed on it; otherwise, on several lines. -/
theorem Em.fit {g : Fst → Pr} {t : Bytes} {fc : Bool} {Q : Bytes → Prop} (h : f.write = true)
    (hk : Keep (g { f with write := false, ml := false })) (hp : Pos (g { f with write := false, ml := false }))
    (hf : ∀ w, FlatAt o { f with write := w, ml := false } (g { f with write := w, ml := false }) t fc) (hq : Q t)
    (hm : Em (g { f with ml := true }) n i n i Q) : Em (Fmt.check o f g) n i n i Q := by
  intro s hn hi
  unfold Fmt.check
  rw [if_pos h]
  dsimp only
  obtain ⟨b, hb⟩ := hk { s with forceMl := false }
  have hp' := hp { s with forceMl := false }
  cases hml : ((g { f with write := false, ml := false } { s with forceMl := false }).2.forceMl ||
        decide ((g { f with write := false, ml := false } { s with forceMl := false }).1 +
          (g { f with write := false, ml := false } { s with forceMl := false }).2.col > o.maxLineLen)) with
  | true => rw [hb]; exact hm { s with forceMl := b } hn hi
  | false =>
    rw [Bool.or_eq_false_iff, decide_eq_false_iff_not] at hml
    rw [hb] at hml
    obtain ⟨h1, h2⟩ := hml
    dsimp only at h1 h2
    subst h1
    obtain ⟨k1, k2⟩ := (hf false).1 rfl { s with forceMl := false } (by dsimp only; omega)
    have hfc : fc = false := by
      rw [hb] at k1
      simpa using k1.symm
    rw [k2 hfc] at h2
    have k3 := (hf true).2 rfl hfc { s with forceMl := false } (by dsimp only; omega)
    have e : ({ f with write := true, ml := false } : Fst) = { f with ml := false } := by rw [← h]
    rw [e] at k3
    rw [hb, k3]
    exact ⟨t, hq, rfl, hn, hi⟩

/-- The text of an expression of a statement, maybe in parentheses. -/
def Val (e : E) (t : Bytes) : Prop := Txt .any e t ∨ Txt .any (.paren e) t

theorem Em.wrapped {e : E} (h : f.write = true) (ha : f.andOr = false) (hm : f.ml = true) (ho : Blanks o.indentBy) (hw : Words e) (hp : Proper false e)
    (hn : needsParen e = false → NoArith e) : Em (Fmt.wrapped o e f) 0 i 0 i (Val e) := by
  intro s h1 h2
  unfold Fmt.wrapped
  dsimp only
  split
  · refine (Em.enclose.seq ((Em.write (f := setup f) h 40).seq (Em.begin.seq ((Em.newline (f := setup f) h ho false).seq
      (((print_expr o ho e hw).1 hp (setup f) 1 (i + 1) .inside h (fun _ => Nat.one_pos) (Or.inl ⟨Nat.one_pos, rfl⟩)).seq
      (Em.disclose.seq (Em.end.seq ((Em.newline (f := setup f) h ho false).seq (Em.write (f := setup f) h 41))))))))).mono ?_ s h1 h2
    rintro _ ⟨_, _, rfl, ⟨_, _, rfl, ⟨_, _, rfl, ⟨g, _, hg, ⟨x, _, hx, ⟨_, _, rfl, ⟨_, _, rfl, ⟨g', _, hg', rfl, rfl⟩, rfl⟩, rfl⟩, rfl⟩, rfl⟩, rfl⟩, rfl⟩, rfl⟩
    have := Txt.paren (w := .any) (.of (hx.plain rfl) hg hg')
    exact Or.inr (by simpa using this)
  · next hc =>
    have hnp : needsParen e = false := by
      rw [h1] at hc
      have : (setup f).ml = true := hm
      rw [this] at hc
      simpa using hc
    exact ((print_expr o ho e hw).1 hp (setup f) 0 i .any h (by rw [show (setup f).andOr = f.andOr from rfl, ha]; simp)
      (Or.inr ⟨rfl, hn hnp, rfl⟩)).mono (fun t ht => Or.inl (ht.plain rfl)) s h1 h2

theorem wrapped_flat {e : E} (hm : f.ml = false) : wrapped o e f = pr o e .node (setup f) := by
  funext s
  unfold wrapped
  dsimp only
  rw [if_neg (by rw [show (setup f).ml = f.ml from rfl, hm]; simp)]

/-- The condition of an `if`, the array of a loop. -/
theorem Em.value {e : E} (h : f.write = true) (ha : f.andOr = false) (ho : Blanks o.indentBy) (hs : o.spaceArray = false) (hw : Words e) (hp : Proper false e)
    (hn : needsParen e = false → NoArith e) : Em (Fmt.check o f (Fmt.wrapped o e)) 0 i 0 i (Val e) := by
  obtain ⟨t, fc, h1, h2⟩ := (flat_expr o hs e hw).1 hp
  refine Em.fit (t := t) (fc := fc) h (Keep.wrapped e rfl) ?_ (fun w => ?_) (Or.inl h1) (.wrapped h ha rfl ho hw hp hn)
  · rw [wrapped_flat rfl]
    exact pr_pos o e _ hw hp
  · rw [wrapped_flat rfl]
    exact FlatNode.at (f := { f with write := w, ml := false }) h2 rfl ha

/-- An assignment. -/
theorem Em.assign {e : E} {s u : Bytes} (h : f.write = true) (ha : f.andOr = false) (hsep : f.sep = none) (ho : Blanks o.indentBy) (hs : o.spaceArray = false)
    (hw : Words e) (hp : Proper false e) (hn : needsParen e = false → NoArith e) :
    Em (Fmt.check o f (fun f => Fmt.writes f s ⊹ Fmt.write f 32 ⊹ Fmt.writes f u ⊹ Fmt.wrapped o e f ⊹ Fmt.tail f)) 0 i 0 i
      (fun t => ∃ a, Val e a ∧ t = s ++ ([32] ++ (u ++ a))) := by
  obtain ⟨t, fc, h1, h2⟩ := (flat_expr o hs e hw).1 hp
  have htail : ∀ w m, Fmt.tail { f with write := w, ml := m } = Fmt.nop := by
    intro w m
    unfold Fmt.tail
    rw [hsep]
  refine Em.fit (t := s ++ ([32] ++ (u ++ t))) (fc := fc) h ?_ ?_ (fun w => ?_) ⟨t, Or.inl h1, rfl⟩ ?_
  · exact (Keep.writes rfl _).seq ((Keep.write rfl _).seq ((Keep.writes rfl _).seq ((Keep.wrapped e rfl).seq (.tail rfl))))
  · exact Pos.right (Pos.left (.write _))
  · rw [wrapped_flat rfl, htail]
    exact (FlatAt.writes.seq (FlatAt.write.seq (FlatAt.writes.seq ((FlatNode.at (f := { f with write := w, ml := false }) h2 rfl ha).seq .nop)))).congr
      (by simp) (by simp)
  · refine ((Em.writes (f := { f with ml := true }) h s).seq ((Em.write (f := { f with ml := true }) h 32).seq ((Em.writes (f := { f with ml := true }) h u).seq
      ((Em.wrapped (f := { f with ml := true }) h ha rfl ho hw hp hn).seq (Em.tail (f := { f with ml := true }) h))))).mono ?_
    rintro _ ⟨_, _, rfl, ⟨_, _, rfl, ⟨_, _, rfl, ⟨a, _, ha, rfl, rfl⟩, rfl⟩, rfl⟩, rfl⟩
    exact ⟨a, ha, by simp [sepText, hsep]⟩

end Muon.Fmt
