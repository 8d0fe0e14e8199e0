import Verif.Fmt.Print
/-
What is printed for an expression that fits on the line: the dry run of `fmt_check` finds its length, and it is then printed on one line.
-/
namespace Muon.Fmt
open Muon Lex Parse Parse.Spec Fmt.Spec

variable {o : Opts} {f : Fst}

/-- The width of a text on one line. -/
def width (t : Bytes) : Nat := (t.map wid).sum

theorem width_append (a b : Bytes) : width (a ++ b) = width a + width b := by simp [width]
theorem wid_pos (c : UInt8) : 1 ≤ wid c := by unfold wid; split <;> omega
theorem width_cons (c : UInt8) (t : Bytes) : width (c :: t) = wid c + width t := by simp [width]
theorem width_pos {t : Bytes} (h : t ≠ []) : 1 ≤ width t := by
  cases t with
  | nil => exact absurd rfl h
  | cons c t => rw [width_cons]; have := wid_pos c; omega

/-- A dry run: the width of `t`, unless lines are to be broken (`fc`). -/
def Dry (o : Opts) (p : Pr) (t : Bytes) (fc : Bool) : Prop :=
  ∀ s, s.col < o.maxLineLen → (p s).2 = { s with forceMl := s.forceMl || fc } ∧ (fc = false → (p s).1 = width t)

/-- If it fits, `t` is printed. -/
def Wet (o : Opts) (p : Pr) (t : Bytes) (fc : Bool) : Prop :=
  fc = false → ∀ s, s.col + width t ≤ o.maxLineLen → p s = (width t, { s with out := s.out ++ t, col := s.col + width t })

/-- Both. -/
def FlatAt (o : Opts) (f : Fst) (p : Pr) (t : Bytes) (fc : Bool) : Prop :=
  (f.write = false → Dry o p t fc) ∧ (f.write = true → Wet o p t fc)

theorem FlatAt.seq {p q : Pr} {a b : Bytes} {c d : Bool} (h : FlatAt o f p a c) (h' : FlatAt o f q b d) : FlatAt o f (p ⊹ q) (a ++ b) (c || d) := by
  refine ⟨fun hf s hs => ?_, fun hf hc s hs => ?_⟩
  · obtain ⟨h1, h2⟩ := h.1 hf s hs
    obtain ⟨h3, h4⟩ := h'.1 hf (p s).2 (by rw [h1]; exact hs)
    refine ⟨?_, fun hc => ?_⟩
    · rw [Fmt.seq, h3, h1]
      simp [Bool.or_assoc]
    · rw [Bool.or_eq_false_iff] at hc
      rw [Fmt.seq, h2 hc.1, h4 hc.2, width_append]
  · rw [Bool.or_eq_false_iff] at hc
    rw [width_append] at hs
    have h1 := h.2 hf hc.1 s (by omega)
    have h2 := h'.2 hf hc.2 { s with out := s.out ++ a, col := s.col + width a } (by dsimp only; omega)
    rw [Fmt.seq, h1]
    dsimp only
    rw [h2]
    simp [width_append, Nat.add_assoc]

theorem FlatAt.congr {p : Pr} {a b : Bytes} {c d : Bool} (h : FlatAt o f p a c) (e : a = b) (e' : c = d) : FlatAt o f p b d := e ▸ e' ▸ h

theorem FlatAt.nop : FlatAt o f nop [] false :=
  ⟨fun _ s _ => ⟨by simp [Fmt.nop], fun _ => rfl⟩, fun _ _ s _ => by simp [Fmt.nop, width]⟩

theorem FlatAt.write {c : UInt8} : FlatAt o f (write f c) [c] false := by
  refine ⟨fun hf s _ => ⟨by simp [Fmt.write, hf], fun _ => by simp [Fmt.write, width]⟩, fun hf _ s _ => by simp [Fmt.write, hf, width]⟩

theorem FlatAt.writes {t : Bytes} : FlatAt o f (writes f t) t false := by
  induction t with
  | nil => exact .nop
  | cons c t ih => exact (FlatAt.write (c := c)).seq ih

theorem FlatAt.writeml {t : Bytes} : FlatAt o f (writeml f t) t (t.contains 10) := by
  induction t with
  | nil => exact .nop
  | cons c t ih =>
    refine (FlatAt.seq (a := [c]) (c := c == 10) ?_ ih).congr rfl (by rw [List.contains_cons]; congr 1; exact Bool.eq_iff_iff.2 ⟨fun h => beq_iff_eq.2 (eq_of_beq h).symm, fun h => beq_iff_eq.2 (eq_of_beq h).symm⟩)
    by_cases hc : c = 10
    · rw [if_pos hc]
      subst hc
      exact ⟨fun hf s _ => ⟨by simp [hf], fun h => by cases h⟩, fun _ h => by cases h⟩
    · rw [if_neg hc, show (c == 10) = false by simpa using hc]
      exact .write

theorem FlatAt.force {b : Bool} : FlatAt o f (force b) [] b := by
  refine ⟨fun _ s _ => ⟨by simp [Fmt.force], fun _ => rfl⟩, fun _ hb s _ => by subst hb; simp [Fmt.force, width]⟩

theorem FlatAt.tail : FlatAt o f (tail f) (sepText f) false := by
  unfold Fmt.tail sepText
  cases f.sep with
  | none => exact .nop
  | some t => exact .writes

theorem FlatAt.newline (h : f.ml = false) {b : Bool} : FlatAt o f (newline o f b) [] false := by
  refine ⟨fun _ s _ => ⟨by simp [Fmt.newline, h], fun _ => rfl⟩, fun _ _ s _ => by simp [Fmt.newline, h, width]⟩

theorem FlatAt.newlineOrSpace (h : f.ml = false) : FlatAt o f (newlineOrSpace o f) [32] false := by
  unfold Fmt.newlineOrSpace
  rw [if_neg (by simp [h])]
  exact .write

theorem FlatAt.breakingSpace : FlatAt o f (breakingSpace o f) [32] false := by
  have := FlatAt.write (o := o) (f := f) (c := 32)
  refine ⟨fun hf s hs => ?_, fun hf hc s hs => ?_⟩
  · unfold Fmt.breakingSpace
    rw [if_neg (by omega)]
    exact this.1 hf s hs
  · have h1 : width [32] = 1 := rfl
    unfold Fmt.breakingSpace
    rw [if_neg (by omega)]
    exact this.2 hf hc s hs

theorem FlatAt.between {e r : E} (h : f.ml = false) : FlatAt o f (between o f e r) [32] false := by
  unfold Fmt.between
  split
  · exact .write
  · exact .newlineOrSpace h

theorem FlatAt.check {g : Fst → Pr} {t : Bytes} {fc : Bool} (h : f.ml = false) (ht : t ≠ [])
    (hg : ∀ w, FlatAt o { f with write := w } (g { f with write := w }) t fc) : FlatAt o f (check o f g) t fc := by
  have e0 : ∀ w, ({ f with write := w, ml := false } : Fst) = { f with write := w } := by
    intro w; rw [← h]
  have e1 : f.write = true → ({ f with write := true } : Fst) = f := by intro hf; rw [← hf]
  have e2 : f.write = false → ({ f with write := false } : Fst) = f := by intro hf; rw [← hf]
  refine ⟨fun hf s hs => ?_, fun hf hc s hs => ?_⟩
  · unfold Fmt.check
    rw [if_neg (by simp [hf])]
    have := (hg false).1 rfl s hs
    rwa [e2 hf] at this
  · have hp := width_pos ht
    obtain ⟨h1, h2⟩ := (hg false).1 rfl { s with forceMl := false } (by dsimp only; omega)
    have h3 := (hg true).2 rfl hc { s with forceMl := false } (by dsimp only; omega)
    rw [e1 hf] at h3
    unfold Fmt.check
    rw [if_pos hf, e0]
    have h4 : ((g { f with write := false } { s with forceMl := false }).2.forceMl ||
        decide ((g { f with write := false } { s with forceMl := false }).1 + (g { f with write := false } { s with forceMl := false }).2.col > o.maxLineLen)) = false := by
      rw [h1, h2 hc, hc]
      simp
      omega
    dsimp only
    rw [h4]
    have e3 : ({ f with ml := false } : Fst) = f := by rw [← h]
    rw [e3, h1, hc]
    rw [show (false || false) = false from rfl, h3]

theorem FlatAt.args {op : UInt8} {a : E} {p : Fst → Pr} {t : Bytes} {fc : Bool} (hs : o.spaceArray = false) (h : f.ml = false)
    (hp : FlatAt o f (p f) t fc) (hn : isNil a = false) :
    FlatAt o f (argsWith o op a p f) t (trailing a || (decide (kwCount a > 1) && o.kwaMl) || fc) := by
  unfold argsWith
  rw [if_neg (by simp [hn]), if_neg (by simp [hs])]
  have key := (FlatAt.newline (o := o) h (b := false)).seq ((FlatAt.force (b := trailing a)).seq ((FlatAt.force (b := decide (kwCount a > 1) && o.kwaMl)).seq hp))
  have h1 := FlatAt.newline (o := o) (f := f) h (b := false)
  have ea : ∀ q : Pr, (Fmt.newline o f ⊹ Fmt.force (trailing a) ⊹ Fmt.force (decide (kwCount a > 1) && o.kwaMl) ⊹ p f ⊹ q) =
      ((Fmt.newline o f ⊹ Fmt.force (trailing a) ⊹ Fmt.force (decide (kwCount a > 1) && o.kwaMl) ⊹ p f) ⊹ q) := by
    intro q
    simp only [seq_assoc]
  rw [ea]
  refine ⟨fun hf s hs' => ?_, fun hf hc s hs' => ?_⟩
  · obtain ⟨k1, k2⟩ := key.1 hf { s with enclosed := s.enclosed + 1, indent := s.indent + 1 } hs'
    simp only [Fmt.seq, Fmt.enclose, Fmt.begin, Fmt.disclose, Fmt.end] at k1 k2 ⊢
    refine ⟨?_, fun hc => ?_⟩
    · rw [k1]
      simp [Fmt.newline, h, Bool.or_assoc]
    · rw [k2 (by simpa [Bool.or_assoc] using hc)]
      simp [Fmt.newline]
  · have k1 := key.2 hf (by simpa [Bool.or_assoc] using hc) { s with enclosed := s.enclosed + 1, indent := s.indent + 1 } (by simpa using hs')
    rw [Fmt.seq_def]
    simp only [Fmt.enclose]
    rw [Fmt.seq_def]
    simp only [Fmt.begin]
    rw [Fmt.seq_def, k1]
    simp [Fmt.seq, Fmt.disclose, Fmt.end, Fmt.newline, h]

theorem Txt.inner {e : E} {t : Bytes} (h : Txt .any e t) : Inner e t := by
  simpa using Inner.of (Inner.any h (Or.inl rfl)) (Or.inl rfl) (Or.inl rfl)

theorem nop_seq (p : Pr) : nop ⊹ p = p := by
  funext s
  simp [Fmt.seq, nop]

theorem FlatAt.inside {p : Pr} {t : Bytes} {fc : Bool} (h : FlatAt o f p t fc) : FlatAt o f (enclose ⊹ (p ⊹ disclose)) t fc := by
  refine ⟨fun hf s hs => ?_, fun hf hc s hs => ?_⟩
  · obtain ⟨k1, k2⟩ := h.1 hf { s with enclosed := s.enclosed + 1 } hs
    simp only [Fmt.seq, Fmt.enclose, Fmt.disclose] at k1 k2 ⊢
    refine ⟨?_, fun hc => ?_⟩
    · rw [k1]
      simp
    · rw [k2 hc]
      simp
  · have k1 := h.2 hf hc { s with enclosed := s.enclosed + 1 } hs
    rw [Fmt.seq_def]
    simp only [Fmt.enclose]
    rw [Fmt.seq_def, k1]
    simp [Fmt.disclose]

theorem FlatAt.container {op cl : UInt8} {a : E} {p : Fst → Pr} (hs : o.spaceArray = false) :
    (∃ t fc, (isNil a = true → t = []) ∧ (isNil a = false → Txt .any a t) ∧ ∀ f : Fst, f.ml = false → f.andOr = false → isNil a = false → FlatAt o f (p f) t fc) →
    ∃ x fc, Inner a x ∧ ∀ f : Fst, f.ml = false → f.andOr = false → FlatAt o f (containerWith o op cl a p f) (op :: (x ++ [cl])) fc := by
  rintro ⟨t, fc, h1, h2, h3⟩
  cases hn : isNil a with
  | true =>
    obtain ⟨c, rfl⟩ := nil_of hn
    refine ⟨[], false, .nil, fun f hm ha => ?_⟩
    unfold containerWith argsWith
    rw [if_pos hn]
    exact (FlatAt.write (f := setup f)).seq (FlatAt.nop.seq .write)
  | false =>
    refine ⟨t, trailing a || (decide (kwCount a > 1) && o.kwaMl) || fc, (h2 hn).inner, fun f hm ha => ?_⟩
    unfold containerWith
    exact ((FlatAt.write (f := setup f)).seq ((FlatAt.args (f := setup f) hs hm (h3 (setup f) hm ha hn) hn).seq .write)).congr (by simp) (by simp)

/-- What is printed for an expression on one line. -/
def FlatNode (o : Opts) (e : E) : Prop :=
  ∃ t fc, Txt .any e t ∧ ∀ f : Fst, f.ml = false → f.andOr = false → FlatAt o f (pr o e .node f) (t ++ sepText f) fc

/-- What is printed for arguments on one line. -/
def FlatArgs (o : Opts) (e : E) : Prop :=
  ∃ t fc, Txt .any e t ∧ ∀ (f : Fst) (op : UInt8) (count : Nat), f.ml = false → f.andOr = false → argCount e ≤ count →
    FlatAt o f (pr o e (.args op count) f) t fc

theorem Txt.ne_nil {w : Wh} {e : E} {t : Bytes} (h : Txt w e t) : t ≠ [] := by
  obtain ⟨_, _, _, c, _, hc, _⟩ := h
  rintro rfl
  cases hc

theorem FlatNode.at {e : E} {t : Bytes} {fc : Bool} (h : ∀ f : Fst, f.ml = false → f.andOr = false → FlatAt o f (pr o e .node f) (t ++ sepText f) fc)
    (hm : f.ml = false) (ha : f.andOr = false) : FlatAt o f (pr o e .node (setup f)) t fc := by
  have := h (setup f) hm ha
  rw [show sepText (setup f) = [] from rfl, List.append_nil] at this
  exact this

theorem FlatArgs.part {a : E} {op : UInt8} (h : isNil a = false → FlatArgs o a) :
    ∃ t fc, (isNil a = true → t = []) ∧ (isNil a = false → Txt .any a t) ∧
      ∀ f : Fst, f.ml = false → f.andOr = false → isNil a = false → FlatAt o f (pr o a (.args op (argCount a)) f) t fc := by
  cases hn : isNil a with
  | true => exact ⟨[], false, fun _ => rfl, by simp, by simp⟩
  | false =>
    obtain ⟨t, fc, h1, h2⟩ := h hn
    exact ⟨t, fc, by simp, fun _ => h1, fun f hm ha _ => h2 f op _ hm ha (Nat.le_refl _)⟩

theorem needComma_last {op : UInt8} {count : Nat} {kw : Bool} (h : f.ml = false) : needComma o f op count kw true = false := by
  unfold needComma
  split
  · rfl
  · simp [h]

theorem FlatAt.andOr {word : Bytes} {l r : E} (hl : FlatNode o l) (hr : FlatNode o r) :
    ∃ a b fc, Txt .any l a ∧ Txt .any r b ∧ ∀ f : Fst, f.ml = false → f.andOr = false →
      FlatAt o f (andOrWith o (setup f) word (pr o l .node) (pr o r .node)) (a ++ ([32] ++ (word ++ b))) fc := by
  obtain ⟨a, c, h1, h2⟩ := hl
  obtain ⟨b, d, h3, h4⟩ := hr
  refine ⟨a, b, c || d, h1, h3, fun f hm ha => ?_⟩
  have k1 : FlatAt o f (Fmt.check o (setup f) (pr o l .node)) a c :=
    FlatAt.check (f := setup f) hm h1.ne_nil fun w => FlatNode.at (f := { setup f with write := w }) h2 hm ha
  have k2 : FlatAt o f (Fmt.check o (setup f) (pr o r .node)) b d :=
    FlatAt.check (f := setup f) hm h3.ne_nil fun w => FlatNode.at (f := { setup f with write := w }) h4 hm ha
  have e : andOrWith o (setup f) word (pr o l .node) (pr o r .node) =
      Fmt.check o (setup f) (pr o l .node) ⊹ (Fmt.writes (setup f) [32] ⊹ Fmt.writes (setup f) word ⊹ Fmt.check o (setup f) (pr o r .node)) := by
    funext s
    unfold andOrWith
    rw [Fmt.seq_def, Fmt.seq_def]
    have : ∀ n : Nat, ((n != 0 && (setup f).ml) || (setup f).andOr) = false := by
      intro n
      show ((n != 0 && f.ml) || f.andOr) = false
      rw [hm, ha]
      simp
    simp only [this]
    simp [Fmt.seq]
  rw [e]
  exact (FlatAt.seq (f := setup f) k1 (FlatAt.writes.seq (FlatAt.writes.seq k2))).congr rfl (by simp)

set_option maxHeartbeats 1000000 in
/-- What is printed for an expression that fits on the line. -/
theorem flat_expr (o : Opts) (hs : o.spaceArray = false) : ∀ e : E, Words e →
    (Proper false e → FlatNode o e) ∧ (Proper true e → isNil e = false → FlatArgs o e) := by
  intro e
  induction e with
  | bool b =>
    intro hw
    refine ⟨fun hp => ⟨_, false, .bool b, fun f hm ha => ?_⟩, fun hp => hp.elim⟩
    rw [pr]
    exact FlatAt.writes.seq .tail
  | string raw s =>
    intro hw
    refine ⟨fun hp => ⟨_, raw.contains 10, .string hw, fun f hm ha => ?_⟩, fun hp => hp.elim⟩
    rw [pr]
    exact (FlatAt.writeml.seq .tail).congr rfl (by simp)
  | number raw m =>
    intro hw
    refine ⟨fun hp => ⟨_, false, .number hw, fun f hm ha => ?_⟩, fun hp => hp.elim⟩
    rw [pr]
    exact FlatAt.writes.seq .tail
  | id s =>
    intro hw
    refine ⟨fun hp => ⟨_, false, .id hw, fun f hm ha => ?_⟩, fun hp => hp.elim⟩
    rw [pr]
    exact FlatAt.writes.seq .tail
  | array a ih =>
    intro hw
    refine ⟨fun hp => ?_, fun hp => hp.elim⟩
    obtain ⟨x, fc, h1, h2⟩ := FlatAt.container (op := 91) (cl := 93) hs (FlatArgs.part (op := 91) ((ih hw).2 hp))
    refine ⟨_, fc, .array h1, fun f hm ha => ?_⟩
    rw [pr]
    exact (FlatAt.check (f := setup f) hm (by simp) (fun w => h2 { setup f with write := w } hm ha)).seq (FlatAt.tail (f := f)) |>.congr rfl (by simp)
  | dict a ih =>
    intro hw
    refine ⟨fun hp => ?_, fun hp => hp.elim⟩
    obtain ⟨x, fc, h1, h2⟩ := FlatAt.container (op := 123) (cl := 125) hs (FlatArgs.part (op := 123) ((ih hw).2 hp))
    refine ⟨_, fc, .dict h1, fun f hm ha => ?_⟩
    rw [pr]
    exact (FlatAt.check (f := setup f) hm (by simp) (fun w => h2 { setup f with write := w } hm ha)).seq (FlatAt.tail (f := f)) |>.congr rfl (by simp)
  | paren a ih =>
    intro hw
    refine ⟨fun hp => ?_, fun hp => hp.elim⟩
    obtain ⟨x, fc, h1, h2⟩ := (ih hw).1 hp
    refine ⟨_, fc, .paren h1.inner, fun f hm ha => ?_⟩
    rw [pr]
    refine (FlatAt.check (f := setup f) hm (t := 40 :: (x ++ [41])) (fc := fc) (by simp) (fun w => ?_)).seq (FlatAt.tail (f := f)) |>.congr rfl (by simp)
    have key := FlatNode.at (f := { setup f with write := w }) h2 hm ha
    unfold parensWith
    have hm' : ¬ (setup f).ml = true := by
      rw [show (setup f).ml = f.ml from rfl, hm]
      simp
    rw [if_neg hm', if_neg hm']
    rw [nop_seq, nop_seq, show ∀ p q : Pr, enclose ⊹ p ⊹ disclose ⊹ q = (enclose ⊹ (p ⊹ disclose)) ⊹ q from fun p q => by simp only [seq_assoc]]
    exact (FlatAt.seq .write (FlatAt.seq (FlatAt.inside key) .write)).congr rfl (by simp)
  | not a ih =>
    intro hw
    refine ⟨fun hp => ?_, fun hp => hp.elim⟩
    obtain ⟨x, fc, h1, h2⟩ := (ih hw).1 hp
    refine ⟨_, fc, .not h1, fun f hm ha => ?_⟩
    rw [pr]
    exact (FlatAt.writes.seq ((FlatNode.at h2 hm ha).seq .tail)).congr (by simp) (by simp)
  | uminus a ih =>
    intro hw
    refine ⟨fun hp => ?_, fun hp => hp.elim⟩
    obtain ⟨x, fc, h1, h2⟩ := (ih hw).1 hp
    refine ⟨_, fc, .uminus h1, fun f hm ha => ?_⟩
    rw [pr]
    exact (FlatAt.write.seq ((FlatNode.at h2 hm ha).seq .tail)).congr (by simp) (by simp)
  | and l r i1 i2 =>
    intro hw
    refine ⟨fun hp => ?_, fun hp => hp.elim⟩
    obtain ⟨a, b, fc, h1, h2, h3⟩ := FlatAt.andOr (word := ascii "and ") ((i1 hw.1).1 hp.1) ((i2 hw.2).1 hp.2)
    refine ⟨_, fc, .and h1 h2 .sp, fun f hm ha => ?_⟩
    rw [pr]
    exact ((h3 f hm ha).seq .tail).congr rfl (by simp)
  | or l r i1 i2 =>
    intro hw
    refine ⟨fun hp => ?_, fun hp => hp.elim⟩
    obtain ⟨a, b, fc, h1, h2, h3⟩ := FlatAt.andOr (word := ascii "or ") ((i1 hw.1).1 hp.1) ((i2 hw.2).1 hp.2)
    refine ⟨_, fc, .or h1 h2 .sp, fun f hm ha => ?_⟩
    rw [pr]
    exact ((h3 f hm ha).seq .tail).congr rfl (by simp)
  | comparison op l r i1 i2 =>
    intro hw
    refine ⟨fun hp => ?_, fun hp => hp.elim⟩
    obtain ⟨a, c, h1, h2⟩ := (i1 hw.1).1 hp.1
    obtain ⟨b, d, h3, h4⟩ := (i2 hw.2).1 hp.2
    refine ⟨_, c || d, .comparison h1 h3, fun f hm ha => ?_⟩
    rw [pr]
    exact ((FlatNode.at h2 hm ha).seq (FlatAt.write.seq (FlatAt.writes.seq ((FlatNode.at h4 hm ha).seq .tail)))).congr (by simp) (by simp)
  | arith op l r i1 i2 =>
    intro hw
    refine ⟨fun hp => ?_, fun hp => hp.elim⟩
    obtain ⟨a, c, h1, h2⟩ := (i1 hw.1).1 hp.1
    obtain ⟨b, d, h3, h4⟩ := (i2 hw.2).1 hp.2
    refine ⟨_, c || d, .arith h1 h3 .sp, fun f hm ha => ?_⟩
    rw [pr]
    exact ((FlatNode.at h2 hm ha).seq (FlatAt.write.seq (FlatAt.write.seq ((FlatAt.breakingSpace (f := setup f)).seq
      ((FlatNode.at h4 hm ha).seq .tail))))).congr (by simp) (by simp)
  | ternary c a b i1 i2 i3 =>
    intro hw
    refine ⟨fun hp => ?_, fun hp => hp.elim⟩
    obtain ⟨t1, c1, h1, h2⟩ := (i1 hw.1).1 hp.1
    obtain ⟨t2, c2, h3, h4⟩ := (i2 hw.2.1).1 hp.2.1
    obtain ⟨t3, c3, h5, h6⟩ := (i3 hw.2.2).1 hp.2.2
    refine ⟨_, c1 || c2 || c3, .ternary h1 h3 h5, fun f hm ha => ?_⟩
    rw [pr]
    exact ((FlatNode.at h2 hm ha).seq (FlatAt.write.seq (FlatAt.writes.seq ((FlatNode.at h4 hm ha).seq (FlatAt.write.seq (FlatAt.writes.seq
      ((FlatNode.at h6 hm ha).seq .tail))))))).congr (by simp) (by simp [Bool.or_assoc])
  | call l a i1 i2 =>
    intro hw
    refine ⟨fun hp => ?_, fun hp => hp.elim⟩
    obtain ⟨b, c, h1, h2⟩ := (i1 hw.1).1 hp.1
    obtain ⟨x, fc, h3, h4⟩ := FlatAt.container (op := 40) (cl := 41) hs (FlatArgs.part (op := 40) ((i2 hw.2).2 hp.2))
    refine ⟨_, c || fc, .call h1 h3, fun f hm ha => ?_⟩
    rw [pr]
    exact ((FlatNode.at h2 hm ha).seq ((FlatAt.check (f := setup f) hm (by simp) (fun w => h4 { setup f with write := w, cmd := false } hm ha)).seq
      (FlatAt.tail (f := f)))).congr (by simp) (by simp)
  | method l m a i1 i2 =>
    intro hw
    refine ⟨fun hp => ?_, fun hp => hp.elim⟩
    obtain ⟨b, c, h1, h2⟩ := (i1 hw.1).1 hp.1
    obtain ⟨x, fc, h3, h4⟩ := FlatAt.container (op := 40) (cl := 41) hs (FlatArgs.part (op := 40) ((i2 hw.2.2).2 hp.2))
    refine ⟨_, c || fc, .method hw.2.1 h1 h3, fun f hm ha => ?_⟩
    rw [pr]
    exact ((FlatNode.at h2 hm ha).seq (FlatAt.write.seq ((FlatAt.check (f := setup f) hm (by simp)
      (fun w => (FlatAt.writes (f := { setup f with write := w }) (t := m)).seq (h4 { setup f with write := w } hm ha))).seq
      (FlatAt.tail (f := f))))).congr (by simp) (by simp)
  | index l j i1 i2 =>
    intro hw
    refine ⟨fun hp => ?_, fun hp => hp.elim⟩
    obtain ⟨b, c, h1, h2⟩ := (i1 hw.1).1 hp.1
    obtain ⟨x, d, h3, h4⟩ := (i2 hw.2).1 hp.2
    refine ⟨_, c || d, .index h1 h3.inner, fun f hm ha => ?_⟩
    rw [pr, show ∀ p q : Pr, enclose ⊹ p ⊹ disclose ⊹ q = (enclose ⊹ (p ⊹ disclose)) ⊹ q from fun p q => by simp only [seq_assoc]]
    have key : FlatAt o f (check o (setup f) (pr o j .node)) x d := FlatAt.check (f := setup f) hm h3.ne_nil fun w =>
      FlatNode.at (f := { setup f with write := w }) h4 hm ha
    exact ((FlatNode.at h2 hm ha).seq (FlatAt.write.seq ((FlatAt.inside key).seq (FlatAt.write.seq .tail)))).congr (by simp) (by simp)
  | nil c => intro hw; exact ⟨fun hp => hp.elim, fun _ h => by cases h⟩
  | arg e r i1 i2 =>
    intro hw
    refine ⟨fun hp => hp.elim, fun hp _ => ?_⟩
    obtain ⟨a, c, h1, h2⟩ := (i1 hw.1).1 hp.1
    have k1 : ∀ b (f : Fst), f.ml = false → f.andOr = false → FlatAt o f (check o { f with cmd := false, sep := comma b } (pr o e .node))
        (a ++ if b then [44] else []) c := by
      intro b f hm ha
      refine FlatAt.check (f := { f with cmd := false, sep := comma b }) hm (by simp [h1.ne_nil]) fun w => ?_
      have := h2 { f with cmd := false, sep := comma b, write := w } hm ha
      rwa [sepText_comma (b := b) rfl] at this
    cases hnil : isNil r with
    | true =>
      obtain ⟨d, rfl⟩ := nil_of hnil
      refine ⟨_, c, h1.last, fun f op count hm ha hc => ?_⟩
      rw [pr, hnil, if_pos rfl, needComma_last hm]
      exact ((k1 false f hm ha).seq .nop).congr (by simp) (by simp)
    | false =>
      obtain ⟨t, d, h3, h4⟩ := (i2 hw.2).2 hp.2 hnil
      refine ⟨_, c || d, h1.arg h3 .sp, fun f op count hm ha hc => ?_⟩
      have hc2 : argCount (.arg e r) = argCount r + 1 := rfl
      have hr := argCount_pos hp.2 hnil
      rw [pr, hnil, if_neg (by simp), needComma_rest (by omega)]
      exact ((k1 true f hm ha).seq ((FlatAt.between hm).seq (h4 f op count hm ha (by omega)))).congr rfl (by simp)
  | kwarg k v r i1 i2 i3 =>
    intro hw
    refine ⟨fun hp => hp.elim, fun hp _ => ?_⟩
    obtain ⟨u, cu, g1, g2⟩ := (i1 hw.1).1 hp.1
    obtain ⟨a, c, h1, h2⟩ := (i2 hw.2.1).1 hp.2.1
    have hcol : Colon ((kwSep o).getD []) := by
      unfold kwSep Colon
      cases o.wideColon
      · exact Or.inr rfl
      · exact Or.inl rfl
    have k0 : ∀ f : Fst, f.ml = false → f.andOr = false →
        FlatAt o f (pr o k .node { f with cmd := isId (ascii "command") k, sep := kwSep o }) (u ++ (kwSep o).getD []) cu :=
      fun f hm ha => g2 { f with cmd := isId (ascii "command") k, sep := kwSep o } hm ha
    have k1 : ∀ b (f : Fst), f.ml = false → f.andOr = false →
        FlatAt o f (check o { f with cmd := isId (ascii "command") k, sep := comma b } (pr o v .node))
        (a ++ if b then [44] else []) c := by
      intro b f hm ha
      refine FlatAt.check (f := { f with cmd := isId (ascii "command") k, sep := comma b }) hm (by simp [h1.ne_nil]) fun w => ?_
      have := h2 { f with cmd := isId (ascii "command") k, sep := comma b, write := w } hm ha
      rwa [sepText_comma (b := b) rfl] at this
    cases hnil : isNil r with
    | true =>
      obtain ⟨d, rfl⟩ := nil_of hnil
      refine ⟨_, cu || c, g1.lastKey h1 hcol, fun f op count hm ha hc => ?_⟩
      rw [pr, hnil, if_pos rfl, needComma_last hm]
      exact ((k0 f hm ha).seq ((k1 false f hm ha).seq .nop)).congr (by simp) (by simp)
    | false =>
      obtain ⟨t, d, h3, h4⟩ := (i3 hw.2.2).2 hp.2.2 hnil
      refine ⟨_, cu || c || d, g1.kwarg h1 h3 hcol .sp, fun f op count hm ha hc => ?_⟩
      have hc2 : argCount (.kwarg k v r) = argCount r + 1 := rfl
      have hr := argCount_pos hp.2.2 hnil
      rw [pr, hnil, if_neg (by simp), needComma_rest (by omega)]
      exact ((k0 f hm ha).seq ((k1 true f hm ha).seq ((FlatAt.between hm).seq (h4 f op count hm ha (by omega))))).congr rfl (by simp [Bool.or_assoc])

end Muon.Fmt
