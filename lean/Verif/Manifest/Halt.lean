import Verif.Manifest.Lemmas
/-
Reading a file that ends with a line end always comes to an end.
-/
namespace Muon.Manifest
open Muon Esc Spec

/-- Nothing is left, or it ends with a line end. -/
def Ends (r : Bytes) : Prop := r = [] ∨ r.getLast? = some 10

theorem ends_suffix {r r' : Bytes} (h : Ends r) (hs : r' <:+ r) : Ends r' := by
  obtain ⟨t, rfl⟩ := hs
  by_cases hr : r' = []
  · exact Or.inl hr
  · rcases h with h | h
    · exact Or.inl (List.append_eq_nil_iff.1 h).2
    · refine Or.inr ?_
      rw [List.getLast?_append] at h
      cases hl : r'.getLast? with
      | none => exact absurd (List.getLast?_eq_none_iff.1 hl) hr
      | some c => rw [hl] at h; simpa using h

theorem ends_cons {c : UInt8} {r : Bytes} (h : Ends (c :: r)) : Ends r := ends_suffix h (List.suffix_cons c r)

/-- It does not run on, and what it leaves is the rest of the file. -/
def Good {α : Type} (r : Bytes) (x : Res (α × Bytes)) : Prop := x ≠ .bad ∧ ∀ a r', x = .ok (a, r') → r' <:+ r
/-- Also something was read. -/
def Less {α : Type} (r : Bytes) (x : Res (α × Bytes)) : Prop := x ≠ .bad ∧ ∀ a r', x = .ok (a, r') → r' <:+ r ∧ r'.length < r.length
def GoodB (r : Bytes) (x : Res Bytes) : Prop := x ≠ .bad ∧ ∀ r', x = .ok r' → r' <:+ r
def LessB (r : Bytes) (x : Res Bytes) : Prop := x ≠ .bad ∧ ∀ r', x = .ok r' → r' <:+ r ∧ r'.length < r.length

theorem Less.good {α : Type} {r : Bytes} {x : Res (α × Bytes)} (h : Less r x) : Good r x := ⟨h.1, fun a r' e => (h.2 a r' e).1⟩
theorem LessB.good {r : Bytes} {x : Res Bytes} (h : LessB r x) : GoodB r x := ⟨h.1, fun r' e => (h.2 r' e).1⟩

theorem good_error {α : Type} (r : Bytes) : Good (α := α) r .error := ⟨by simp, (fun _ _ h => by cases h)⟩
theorem less_error {α : Type} (r : Bytes) : Less (α := α) r .error := ⟨by simp, (fun _ _ h => by cases h)⟩
theorem good_ok {α : Type} (r : Bytes) (a : α) : Good r (.ok (a, r)) := ⟨by simp, (fun _ _ h => by cases h; exact List.suffix_rfl)⟩

theorem good_bind {α β : Type} {r : Bytes} {x : Res (α × Bytes)} {f : α × Bytes → Res (β × Bytes)} (h : Good r x)
    (hf : ∀ a r', x = .ok (a, r') → Good r' (f (a, r'))) : Good r (x >>= f) := by
  cases x with
  | bad => exact absurd rfl h.1
  | error => exact good_error r
  | ok a =>
    obtain ⟨a, r'⟩ := a
    have h1 := hf a r' rfl
    rw [Res.ok_bind]
    exact ⟨h1.1, fun b r2 e => (h1.2 b r2 e).trans (h.2 a r' rfl)⟩

theorem less_bind {α β : Type} {r : Bytes} {x : Res (α × Bytes)} {f : α × Bytes → Res (β × Bytes)} (h : Less r x)
    (hf : ∀ a r', x = .ok (a, r') → Good r' (f (a, r'))) : Less r (x >>= f) := by
  cases x with
  | bad => exact absurd rfl h.1
  | error => exact less_error r
  | ok a =>
    obtain ⟨a, r'⟩ := a
    have h1 := hf a r' rfl
    obtain ⟨h2, h3⟩ := h.2 a r' rfl
    rw [Res.ok_bind]
    exact ⟨h1.1, fun b r2 e => ⟨(h1.2 b r2 e).trans h2, Nat.lt_of_le_of_lt (h1.2 b r2 e).length_le h3⟩⟩

theorem goodB_bind {β : Type} {r : Bytes} {x : Res Bytes} {f : Bytes → Res (β × Bytes)} (h : GoodB r x)
    (hf : ∀ r', x = .ok r' → Good r' (f r')) : Good r (x >>= f) := by
  cases x with
  | bad => exact absurd rfl h.1
  | error => exact good_error r
  | ok r' =>
    have h1 := hf r' rfl
    rw [Res.ok_bind]
    exact ⟨h1.1, fun b r2 e => (h1.2 b r2 e).trans (h.2 r' rfl)⟩

theorem lessB_bind {β : Type} {r : Bytes} {x : Res Bytes} {f : Bytes → Res (β × Bytes)} (h : LessB r x)
    (hf : ∀ r', x = .ok r' → Good r' (f r')) : Less r (x >>= f) := by
  cases x with
  | bad => exact absurd rfl h.1
  | error => exact less_error r
  | ok r' =>
    have h1 := hf r' rfl
    obtain ⟨h2, h3⟩ := h.2 r' rfl
    rw [Res.ok_bind]
    exact ⟨h1.1, fun b r2 e => ⟨(h1.2 b r2 e).trans h2, Nat.lt_of_le_of_lt (h1.2 b r2 e).length_le h3⟩⟩

theorem newline_good (r : Bytes) : Good r (newline r) ∧ ∀ r', newline r = .ok (true, r') → r'.length < r.length := by
  unfold newline
  split
  · exact ⟨⟨by simp, (fun a r' h => by cases h; exact ⟨[13, 10], rfl⟩)⟩, (fun r' h => by cases h; simp; omega)⟩
  · exact ⟨good_error _, (fun r' h => by cases h)⟩
  · exact ⟨⟨by simp, (fun a r' h => by cases h; exact ⟨[10], rfl⟩)⟩, (fun r' h => by cases h; simp)⟩
  · exact ⟨good_ok _ _, (fun r' h => by cases h)⟩

theorem newline_chr {c : UInt8} {r : Bytes} (hc : c = 13 ∨ c = 10) : Less (c :: r) (newline (c :: r)) := by
  refine ⟨(newline_good _).1.1, fun a r' h => ⟨(newline_good _).1.2 a r' h, ?_⟩⟩
  have := newline_true_length c r hc a r' h
  simp; omega

theorem space_good (r : Bytes) (hr : Ends r) : Good r (space r) ∧ ∀ r', space r = .ok (true, r') → r'.length < r.length := by
  induction r using space.induct with
  | case1 r r2 fst h ih =>
    rw [space, h]
    have := (ih (ends_cons hr)).1.2 _ _ h
    exact ⟨⟨by simp, (fun a r' e => by cases e; exact this.trans (List.suffix_cons _ _))⟩,
      (fun r' e => by cases e; have := this.length_le; simp; omega)⟩
  | case2 r h ih =>
    have hb := ih (ends_cons hr)
    rw [space]
    cases hs : space r with
    | ok x => obtain ⟨a, b⟩ := x; exact absurd hs (h _ _)
    | error => exact ⟨good_error _, (fun r' e => by cases e)⟩
    | bad => exact absurd hs hb.1.1
  | case3 r r2 fst h ih =>
    rw [space, h]
    have := (ih (ends_cons (ends_cons hr))).1.2 _ _ h
    exact ⟨⟨by simp, (fun a r' e => by cases e; exact this.trans ⟨[36, 10], rfl⟩)⟩,
      (fun r' e => by cases e; have := this.length_le; simp; omega)⟩
  | case4 r h ih =>
    have hb := ih (ends_cons (ends_cons hr))
    rw [space]
    cases hs : space r with
    | ok x => obtain ⟨a, b⟩ := x; exact absurd hs (h _ _)
    | error => exact ⟨good_error _, (fun r' e => by cases e)⟩
    | bad => exact absurd hs hb.1.1
  | case5 r r2 fst h ih =>
    rw [space, h]
    have := (ih (ends_cons (ends_cons (ends_cons hr)))).1.2 _ _ h
    exact ⟨⟨by simp, (fun a r' e => by cases e; exact this.trans ⟨[36, 13, 10], rfl⟩)⟩,
      (fun r' e => by cases e; have := this.length_le; simp; omega)⟩
  | case6 r h ih =>
    have hb := ih (ends_cons (ends_cons (ends_cons hr)))
    rw [space]
    cases hs : space r with
    | ok x => obtain ⟨a, b⟩ := x; exact absurd hs (h _ _)
    | error => exact ⟨good_error _, (fun r' e => by cases e)⟩
    | bad => exact absurd hs hb.1.1
  | case7 r h =>
    rw [space]
    · exact ⟨good_error _, (fun r' e => by cases e)⟩
    · exact h
  | case8 => rcases hr with hr | hr <;> cases hr
  | case9 r h1 h2 h3 h4 h5 =>
    have : space r = .ok (false, r) := by rw [space] <;> simp_all
    rw [this]
    exact ⟨good_ok _ _, (fun r' e => by cases e)⟩

theorem skipComment_less : ∀ (r : Bytes), Ends r → r ≠ [] → LessB r (skipComment r) := by
  intro r
  induction r using skipComment.induct with
  | case1 => intro _ h; exact absurd rfl h
  | case2 r => intro _ _; rw [skipComment]; exact ⟨by simp, (fun r' e => by cases e; exact ⟨⟨[10], rfl⟩, by simp⟩)⟩
  | case3 r => intro _ _; rw [skipComment]; exact ⟨by simp, (fun r' e => by cases e; exact ⟨⟨[13, 10], rfl⟩, by simp; omega⟩)⟩
  | case4 r h =>
    intro _ _
    rw [skipComment]
    · exact ⟨by simp, (fun r' e => by cases e)⟩
    · exact h
  | case5 c r h1 h2 h3 ih =>
    intro hr _
    have hne : r ≠ [] := by
      rintro rfl
      rcases hr with hr | hr
      · cases hr
      · simp at hr; exact absurd hr h1
    rw [skipComment]
    · have := ih (ends_cons hr) hne
      refine ⟨this.1, fun r' e => ?_⟩
      obtain ⟨a, b⟩ := this.2 r' e
      exact ⟨a.trans (List.suffix_cons _ _), by simp; omega⟩
    all_goals assumption

theorem comment_good (r : Bytes) (hr : Ends r) : Good r (comment r) ∧ ∀ r', comment r = .ok (true, r') → r'.length < r.length := by
  unfold comment
  split
  · next r =>
    have hne : r ≠ [] := by
      rintro rfl
      rcases hr with hr | hr <;> cases hr
    have h := skipComment_less r (ends_cons hr) hne
    cases hs : skipComment r with
    | bad => exact absurd hs h.1
    | error => exact ⟨good_error _, (fun r' e => by cases e)⟩
    | ok x =>
      rw [Res.ok_bind]
      obtain ⟨h1, h2⟩ := h.2 x hs
      exact ⟨⟨by simp, (fun a r' e => by cases e; exact h1.trans (List.suffix_cons _ _))⟩, (fun r' e => by cases e; simp; omega)⟩
  · exact ⟨good_ok _ _, (fun r' e => by cases e)⟩

theorem name_less (r : Bytes) (hr : Ends r) : Less r (name r) := by
  unfold name
  split
  · exact less_error r
  · next h =>
    have hd : r.dropWhile isVar <:+ r := List.dropWhile_suffix isVar
    have hl : (r.dropWhile isVar).length < r.length := by
      have h1 : (r.takeWhile isVar).length + (r.dropWhile isVar).length = r.length := by
        rw [← List.length_append, List.takeWhile_append_dropWhile]
      have h2 : 0 < (r.takeWhile isVar).length := List.length_pos_iff.2 h
      omega
    have hg : Less r (space (r.dropWhile isVar)) := by
      have := (space_good _ (ends_suffix hr hd)).1
      exact ⟨this.1, fun a r' e => ⟨(this.2 a r' e).trans hd, Nat.lt_of_le_of_lt (this.2 a r' e).length_le hl⟩⟩
    exact less_bind hg (fun a r' _ => good_ok _ _)

theorem scanchar_less (c : UInt8) (r : Bytes) (hr : Ends r) : LessB r (scanchar c r) := by
  unfold scanchar
  split
  · next h =>
    obtain ⟨t, rfl, _⟩ := chr_cons h
    have hg := (space_good t (ends_cons hr)).1
    rw [List.drop_one, List.tail_cons]
    cases hs : space t with
    | bad => exact absurd hs hg.1
    | error => exact ⟨(fun e => by cases e), (fun r' e => by cases e)⟩
    | ok x =>
      obtain ⟨a, b⟩ := x
      have := hg.2 a b hs
      refine ⟨(fun e => by cases e), (fun r' e => ?_)⟩
      rw [Res.ok_bind] at e
      cases e
      exact ⟨this.trans (List.suffix_cons _ _), by have := this.length_le; simp; omega⟩
  · exact ⟨by simp, (fun r' e => by cases e)⟩

theorem scannewline_less (r : Bytes) : LessB r (scannewline r) := by
  unfold scannewline
  obtain ⟨h, h2⟩ := newline_good r
  cases hs : newline r with
  | bad => exact absurd hs h.1
  | error => exact ⟨(fun e => by cases e), (fun r' e => by cases e)⟩
  | ok x =>
    obtain ⟨a, b⟩ := x
    rw [Res.ok_bind]
    cases a with
    | true => exact ⟨by simp, (fun r' e => by cases e; exact ⟨h.2 true b hs, h2 b hs⟩)⟩
    | false => exact ⟨by simp, (fun r' e => by cases e)⟩

theorem scanpipe_good (one two : Bool) (r : Bytes) (hr : Ends r) : Good r (scanpipe one two r) := by
  unfold scanpipe
  split
  · next r =>
    split
    · have hg := (space_good r (ends_cons (ends_cons hr))).1
      refine good_bind ⟨hg.1, fun a r' e => (hg.2 a r' e).trans ⟨[124, 124], rfl⟩⟩ (fun a r' _ => good_ok _ _)
    · exact good_error _
  · next r _ =>
    split
    · have hg := (space_good r (ends_cons hr)).1
      refine good_bind ⟨hg.1, fun a r' e => (hg.2 a r' e).trans (List.suffix_cons _ _)⟩ (fun a r' _ => good_ok _ _)
    · exact good_error _
  · exact good_ok _ _

theorem scanindent_good : ∀ (f : Nat) (r : Bytes), r.length < f → Ends r →
    Good r (scanindent f r) ∧ ∀ r', scanindent f r = .ok (true, r') → r'.length < r.length := by
  intro f
  induction f with
  | zero => intro r h; omega
  | succ f ih =>
    intro r hl hr
    rw [scanindent]
    obtain ⟨s1, s2⟩ := space_good r hr
    cases hs : space r with
    | bad => exact absurd hs s1.1
    | error => exact ⟨good_error _, (fun r' e => by cases e)⟩
    | ok x =>
      obtain ⟨sp, r1⟩ := x
      rw [Res.ok_bind]
      dsimp only
      have e1 := s1.2 sp r1 hs
      have hr1 := ends_suffix hr e1
      obtain ⟨c1, c2⟩ := comment_good r1 hr1
      cases hc : comment r1 with
      | bad => exact absurd hc c1.1
      | error => exact ⟨good_error _, (fun r' e => by cases e)⟩
      | ok y =>
        obtain ⟨cm, r2⟩ := y
        rw [Res.ok_bind]
        dsimp only
        have e2 := c1.2 cm r2 hc
        have hr2 := ends_suffix hr1 e2
        cases cm with
        | true =>
          rw [if_pos rfl]
          have hlt := c2 r2 hc
          have hle := e1.length_le
          obtain ⟨i1, i2⟩ := ih r2 (by omega) hr2
          exact ⟨⟨i1.1, fun a r' e => ((i1.2 a r' e).trans e2).trans e1⟩, fun r' e => by have := i2 r' e; omega⟩
        | false =>
          rw [if_neg (by simp)]
          cases sp with
          | false =>
            rw [if_neg (by simp)]
            exact ⟨⟨by simp, (fun a r' e => by cases e; exact e2.trans e1)⟩, (fun r' e => by cases e)⟩
          | true =>
            rw [if_pos rfl]
            have hlt := s2 r1 hs
            obtain ⟨n1, n2⟩ := newline_good r2
            cases hn : newline r2 with
            | bad => exact absurd hn n1.1
            | error => exact ⟨good_error _, (fun r' e => by cases e)⟩
            | ok z =>
              obtain ⟨nl, r3⟩ := z
              rw [Res.ok_bind]
              have e3 := n1.2 nl r3 hn
              exact ⟨⟨by simp, (fun a r' e => by cases e; exact (e3.trans e2).trans e1)⟩,
                (fun r' e => by
                  have h1 := e3.length_le
                  have h2 := e2.length_le
                  have hrr : r' = r3 := by cases nl <;> simp at e; exact e.symm
                  subst hrr; omega)⟩

theorem escape_good (parts : List Part) (buf r : Bytes) (hr : Ends r) (p : List Part) (b r' : Bytes)
    (h : escape parts buf r = .ok (p, b, r')) : r' <:+ r := by
  unfold escape at h
  split at h
  · cases h
  · next c t =>
    split at h
    · cases h; exact List.suffix_cons _ _
    · split at h
      · split at h
        · next e =>
          cases h
          have : t.dropWhile isVar <:+ t := List.dropWhile_suffix isVar
          rw [e] at this
          exact ((List.suffix_cons _ _).trans this).trans (List.suffix_cons _ _)
        · cases h
      · split at h
        · next hc =>
          split at h
          · next hn =>
            split at h
            · next hs =>
              cases h
              have h1 := (newline_good _).1.2 _ _ hn
              exact ((space_good _ (ends_suffix hr h1)).1.2 _ _ hs).trans h1
            · cases h
          · cases h
        · split at h
          · cases h
          · cases h
            exact List.dropWhile_suffix isSimpleVar

theorem scanLoop_good (path : Bool) : ∀ (f : Nat) (parts : List Part) (buf r : Bytes) (p : List Part) (b r' : Bytes), Ends r →
    scanLoop path f parts buf r = .ok (p, b, r') → r' <:+ r ∧ (r'.length < r.length ∨ p = parts ∧ b = buf) := by
  intro f
  induction f with
  | zero => intro parts buf r p b r' _ h; rw [scanLoop] at h; cases h
  | succ f ih =>
    intro parts buf r p b r' hr h
    rw [scanLoop] at h
    cases hc : chr r with
    | none => rw [hc] at h; cases h; exact ⟨List.suffix_rfl, Or.inr ⟨rfl, rfl⟩⟩
    | some c =>
      rw [hc] at h
      dsimp only at h
      obtain ⟨t, rfl, _⟩ := chr_cons hc
      rw [List.drop_one, List.tail_cons] at h
      split at h
      · cases he : escape parts buf t with
        | error => rw [he] at h; cases h
        | bad => rw [he] at h; cases h
        | ok x =>
          obtain ⟨p1, b1, r1⟩ := x
          rw [he] at h
          dsimp only at h
          have h1 := escape_good parts buf t (ends_cons hr) p1 b1 r1 he
          obtain ⟨h2, _⟩ := ih p1 b1 r1 p b r' (ends_suffix (ends_cons hr) h1) h
          exact ⟨(h2.trans h1).trans (List.suffix_cons _ _), Or.inl (by have a1 := h2.length_le; have a2 := h1.length_le; simp; omega)⟩
      · split at h
        · cases h; exact ⟨List.suffix_rfl, Or.inr ⟨rfl, rfl⟩⟩
        · split at h
          · cases h; exact ⟨List.suffix_rfl, Or.inr ⟨rfl, rfl⟩⟩
          · obtain ⟨h2, _⟩ := ih parts (buf ++ [c]) t p b r' (ends_cons hr) h
            exact ⟨h2.trans (List.suffix_cons _ _), Or.inl (by have a1 := h2.length_le; simp; omega)⟩

theorem scanString_good (path : Bool) (r : Bytes) (hr : Ends r) :
    Good r (scanString path r) ∧ ∀ ps r', scanString path r = .ok (ps, r') → ps ≠ [] → r'.length < r.length := by
  unfold scanString
  have hne := scanLoop_enough path (r.length + 1) [] [] r (by omega)
  cases hl : scanLoop path (r.length + 1) [] [] r with
  | bad => exact absurd hl hne
  | error => exact ⟨good_error _, (fun _ _ e => by cases e)⟩
  | ok x =>
    obtain ⟨p, b, r1⟩ := x
    dsimp only
    obtain ⟨h1, h2⟩ := scanLoop_good path _ _ _ r p b r1 hr hl
    have hflush : flush p b ≠ [] → r1.length < r.length := by
      intro hf
      rcases h2 with h2 | ⟨rfl, rfl⟩
      · exact h2
      · exact absurd rfl hf
    split
    · obtain ⟨s1, _⟩ := space_good r1 (ends_suffix hr h1)
      cases hs : space r1 with
      | bad => exact absurd hs s1.1
      | error => exact ⟨good_error _, (fun _ _ e => by cases e)⟩
      | ok y =>
        obtain ⟨a, r2⟩ := y
        dsimp only
        have e2 := s1.2 a r2 hs
        exact ⟨⟨by simp, (fun _ r' e => by cases e; exact e2.trans h1)⟩,
          (fun ps r' e hp => by cases e; have := hflush hp; have := e2.length_le; omega)⟩
    · exact ⟨⟨by simp, (fun _ r' e => by cases e; exact h1)⟩, (fun ps r' e hp => by cases e; exact hflush hp)⟩

theorem scanPathsLoop_good : ∀ (f : Nat) (r : Bytes), r.length < f → Ends r → Good r (scanPathsLoop f r) := by
  intro f
  induction f with
  | zero => intro r h; omega
  | succ f ih =>
    intro r hl hr
    rw [scanPathsLoop]
    obtain ⟨s1, s2⟩ := scanString_good true r hr
    cases hs : scanString true r with
    | bad => exact absurd hs s1.1
    | error => exact good_error _
    | ok x =>
      obtain ⟨p, r1⟩ := x
      have e1 := s1.2 p r1 hs
      cases p with
      | nil => dsimp only; exact ⟨by simp, (fun _ r' e => by cases e; exact e1)⟩
      | cons q qs =>
        dsimp only
        have hlt := s2 _ _ hs (by simp)
        have hg := ih r1 (by omega) (ends_suffix hr e1)
        cases hp : scanPathsLoop f r1 with
        | bad => exact absurd hp hg.1
        | error => exact good_error _
        | ok y =>
          obtain ⟨ps, r2⟩ := y
          dsimp only
          exact ⟨by simp, (fun _ r' e => by cases e; exact (hg.2 _ _ hp).trans e1)⟩

theorem scanPaths_good (r : Bytes) (hr : Ends r) : Good r (scanPaths r) := scanPathsLoop_good _ r (by omega) hr

theorem scanlet_less (r : Bytes) (hr : Ends r) : Less r (scanlet r) := by
  unfold scanlet
  have hn := name_less r hr
  refine less_bind hn (fun n r1 h1 => ?_)
  have hr1 := ends_suffix hr (hn.2 n r1 h1).1
  have hc := scanchar_less 61 r1 hr1
  refine goodB_bind hc.good (fun r2 h2 => ?_)
  have hr2 := ends_suffix hr1 (hc.2 r2 h2).1
  have hv := (scanString_good false r2 hr2).1
  refine good_bind hv (fun v r3 _ => ?_)
  exact goodB_bind (scannewline_less r3).good (fun r4 _ => good_ok _ _)

theorem scanlets_good : ∀ (f : Nat) (r : Bytes), r.length < f → Ends r → Good r (scanlets f r) := by
  intro f
  induction f with
  | zero => intro r h; omega
  | succ f ih =>
    intro r hl hr
    rw [scanlets]
    obtain ⟨i1, i2⟩ := scanindent_good (r.length + 1) r (by omega) hr
    refine good_bind i1 (fun a r1 h1 => ?_)
    dsimp only
    have hr1 := ends_suffix hr (i1.2 a r1 h1)
    cases a with
    | false => rw [if_neg (by simp)]; exact good_ok _ _
    | true =>
      rw [if_pos rfl]
      have hlt := i2 r1 h1
      have hs := scanlet_less r1 hr1
      refine good_bind hs.good (fun l r2 h2 => ?_)
      obtain ⟨e2, _⟩ := hs.2 l r2 h2
      have hle := e2.length_le
      exact good_bind (ih r2 (by omega) (ends_suffix hr1 e2)) (fun ls r3 _ => good_ok _ _)

theorem scankeyword_good : ∀ (f : Nat) (r : Bytes), r.length < f → Ends r →
    Good r (scankeyword f r) ∧ ∀ k r', scankeyword f r = .ok (k, r') → k ≠ .eof → r'.length < r.length := by
  intro f
  induction f with
  | zero => intro r h; omega
  | succ f ih =>
    intro r hl hr
    rw [scankeyword]
    cases hc : chr r with
    | none => dsimp only; exact ⟨good_ok _ _, (fun k r' e hk => by cases e; exact absurd rfl hk)⟩
    | some c =>
      dsimp only
      obtain ⟨t, rfl, _⟩ := chr_cons hc
      -- going on after something was skipped
      have cont : ∀ r2, r2 <:+ c :: t → r2.length < (c :: t).length → Good (c :: t) (scankeyword f r2) ∧
          ∀ k r', scankeyword f r2 = .ok (k, r') → k ≠ .eof → r'.length < (c :: t).length := by
        intro r2 h1 h2
        obtain ⟨i1, i2⟩ := ih r2 (by omega) (ends_suffix hr h1)
        exact ⟨⟨i1.1, fun k r' e => (i1.2 k r' e).trans h1⟩, fun k r' e hk => by have := i2 k r' e hk; omega⟩
      split
      · next hsp =>
        subst hsp
        obtain ⟨s1, s2⟩ := space_good (32 :: t) hr
        cases hs : space (32 :: t) with
        | bad => exact absurd hs s1.1
        | error => exact ⟨good_error _, (fun _ _ e => by cases e)⟩
        | ok x =>
          obtain ⟨a, r1⟩ := x
          have ha : a = true := by
            rw [space] at hs
            split at hs
            · cases hs; rfl
            · next he => exact absurd hs (he _ _)
          subst ha
          rw [Res.ok_bind]
          dsimp only
          have e1 := s1.2 _ r1 hs
          have l1 := s2 r1 hs
          have hr1 := ends_suffix hr e1
          obtain ⟨c1, c2⟩ := comment_good r1 hr1
          cases hcm : comment r1 with
          | bad => exact absurd hcm c1.1
          | error => exact ⟨good_error _, (fun _ _ e => by cases e)⟩
          | ok y =>
            obtain ⟨b, r2⟩ := y
            rw [Res.ok_bind]
            dsimp only
            have e2 := c1.2 b r2 hcm
            have l2 := e2.length_le
            cases b with
            | true => rw [if_pos rfl]; exact cont r2 (e2.trans e1) (by omega)
            | false =>
              rw [if_neg (by simp)]
              obtain ⟨n1, n2⟩ := newline_good r2
              cases hn : newline r2 with
              | bad => exact absurd hn n1.1
              | error => exact ⟨good_error _, (fun _ _ e => by cases e)⟩
              | ok z =>
                obtain ⟨b, r3⟩ := z
                rw [Res.ok_bind]
                dsimp only
                have e3 := n1.2 b r3 hn
                have l3 := e3.length_le
                split
                · exact cont r3 ((e3.trans e2).trans e1) (by omega)
                · exact ⟨good_error _, (fun _ _ e => by cases e)⟩
      · split
        · next hsh =>
          subst hsh
          obtain ⟨c1, c2⟩ := comment_good (35 :: t) hr
          cases hcm : comment (35 :: t) with
          | bad => exact absurd hcm c1.1
          | error => exact ⟨good_error _, (fun _ _ e => by cases e)⟩
          | ok y =>
            obtain ⟨b, r2⟩ := y
            have hb : b = true := by
              rw [comment] at hcm
              cases hk : skipComment t <;> rw [hk] at hcm <;> cases hcm
              rfl
            subst hb
            rw [Res.ok_bind]
            exact cont r2 (c1.2 _ _ hcm) (c2 _ hcm)
        · split
          · next hnl =>
            have hn := newline_chr (r := t) hnl
            cases hx : newline (c :: t) with
            | bad => exact absurd hx hn.1
            | error => exact ⟨good_error _, (fun _ _ e => by cases e)⟩
            | ok y =>
              obtain ⟨b, r2⟩ := y
              rw [Res.ok_bind]
              obtain ⟨h1, h2⟩ := hn.2 b r2 hx
              exact cont r2 h1 h2
          · have hn := name_less (c :: t) hr
            have hL := less_bind (f := fun n => .ok (keyOf n.1, n.2)) hn (fun a r' _ => good_ok _ _)
            exact ⟨hL.good, fun k r' e _ => (hL.2 k r' e).2⟩

theorem scanedge_good (r : Bytes) (hr : Ends r) : Good r (scanedge r) := by
  unfold scanedge
  have h1 := scanPaths_good r hr
  refine good_bind h1 (fun o r1 e1 => ?_)
  have k1 := ends_suffix hr (h1.2 o r1 e1)
  have h2 := scanpipe_good true false r1 k1
  refine good_bind h2 (fun p r2 e2 => ?_)
  have k2 := ends_suffix k1 (h2.2 p r2 e2)
  dsimp only
  have h3 : Good r2 (if p = 1 then scanPaths r2 else .ok ([], r2)) := by
    split
    · exact scanPaths_good r2 k2
    · exact good_ok _ _
  refine good_bind h3 (fun oi r3 e3 => ?_)
  have k3 := ends_suffix k2 (h3.2 oi r3 e3)
  dsimp only
  split
  · exact good_error _
  · have h4 := (scanchar_less 58 r3 k3).good
    refine goodB_bind h4 (fun r4 e4 => ?_)
    have k4 := ends_suffix k3 (h4.2 r4 e4)
    have h5 := (name_less r4 k4).good
    refine good_bind h5 (fun n r5 e5 => ?_)
    have k5 := ends_suffix k4 (h5.2 n r5 e5)
    have h6 := scanPaths_good r5 k5
    refine good_bind h6 (fun i r6 e6 => ?_)
    have k6 := ends_suffix k5 (h6.2 i r6 e6)
    have h7 := scanpipe_good true true r6 k6
    refine good_bind h7 (fun q r7 e7 => ?_)
    have k7 := ends_suffix k6 (h7.2 q r7 e7)
    dsimp only
    -- the implicit inputs: what is left is the second component of the pair
    have hii : ∀ X : Res (List (List Part) × Nat × Bytes),
        X = (if q = 1 then scanPaths r7 >>= fun x => scanpipe false true x.2 >>= fun q => .ok (x.1, q) else .ok ([], (q, r7))) →
        X ≠ .bad ∧ ∀ a b r', X = .ok (a, b, r') → r' <:+ r7 := by
      intro X hX
      split at hX
      · have g1 := scanPaths_good r7 k7
        cases hp : scanPaths r7 with
        | bad => exact absurd hp g1.1
        | error => rw [hp] at hX; subst hX; exact ⟨(fun e => by cases e), (fun _ _ _ e => by cases e)⟩
        | ok x =>
          obtain ⟨a, r8⟩ := x
          rw [hp, Res.ok_bind] at hX
          dsimp only at hX
          have e8 := g1.2 a r8 hp
          have g2 := scanpipe_good false true r8 (ends_suffix k7 e8)
          cases hq : scanpipe false true r8 with
          | bad => exact absurd hq g2.1
          | error => rw [hq] at hX; subst hX; exact ⟨(fun e => by cases e), (fun _ _ _ e => by cases e)⟩
          | ok y =>
            obtain ⟨b, r9⟩ := y
            rw [hq, Res.ok_bind] at hX
            subst hX
            exact ⟨(fun e => by cases e), (fun _ _ _ e => by cases e; exact (g2.2 b r9 hq).trans e8)⟩
      · subst hX
        exact ⟨(fun e => by cases e), (fun _ _ _ e => by cases e; exact List.suffix_rfl)⟩
    obtain ⟨g1, g2⟩ := hii _ rfl
    generalize hX : (if q = 1 then scanPaths r7 >>= fun x => scanpipe false true x.2 >>= fun q => .ok (x.1, q) else .ok ([], (q, r7))) = X at g1 g2 ⊢
    cases X with
    | bad => exact absurd rfl g1
    | error => exact good_error _
    | ok x =>
      obtain ⟨a, b, r8⟩ := x
      have e8 := g2 a b r8 rfl
      have k8 := ends_suffix k7 e8
      rw [Res.ok_bind]
      dsimp only
      have h9 : Good r8 (if b = 2 then scanPaths r8 else .ok ([], r8)) := by
        split
        · exact scanPaths_good r8 k8
        · exact good_ok _ _
      have fin : Good r8 ((if b = 2 then scanPaths r8 else .ok ([], r8)) >>= fun io =>
          scannewline io.2 >>= fun r => scanlets (r.length + 1) r >>= fun ls => .ok (Stmt.build o oi n i a io.1 ls.1, ls.2)) := by
        refine good_bind h9 (fun io r9 e9 => ?_)
        have k9 := ends_suffix k8 (h9.2 io r9 e9)
        have h10 := (scannewline_less r9).good
        refine goodB_bind h10 (fun r10 e10 => ?_)
        have k10 := ends_suffix k9 (h10.2 r10 e10)
        exact good_bind (scanlets_good _ r10 (by omega) k10) (fun ls r11 _ => good_ok _ _)
      exact ⟨fin.1, fun c r' e => (fin.2 c r' e).trans e8⟩

theorem scanstmt_good (k : Key) (r : Bytes) (hr : Ends r) : Good r (scanstmt k r) := by
  have hname := name_less r hr
  have hstr := (scanString_good true r hr).1
  cases k with
  | eof => exact good_ok _ _
  | rule =>
    rw [scanstmt]
    refine good_bind hname.good (fun n r1 h1 => ?_)
    have k1 := ends_suffix hr (hname.2 n r1 h1).1
    have h2 := (scannewline_less r1).good
    refine goodB_bind h2 (fun r2 e2 => ?_)
    exact good_bind (scanlets_good _ r2 (by omega) (ends_suffix k1 (h2.2 r2 e2))) (fun ls r3 _ => good_ok _ _)
  | pool =>
    rw [scanstmt]
    refine good_bind hname.good (fun n r1 h1 => ?_)
    have k1 := ends_suffix hr (hname.2 n r1 h1).1
    have h2 := (scannewline_less r1).good
    refine goodB_bind h2 (fun r2 e2 => ?_)
    exact good_bind (scanlets_good _ r2 (by omega) (ends_suffix k1 (h2.2 r2 e2))) (fun ls r3 _ => good_ok _ _)
  | build => rw [scanstmt]; exact good_bind (scanedge_good r hr) (fun a r' _ => good_ok _ _)
  | incl =>
    rw [scanstmt]
    refine good_bind hstr (fun p r1 _ => ?_)
    dsimp only
    split
    · exact good_error _
    · exact goodB_bind (scannewline_less r1).good (fun r2 _ => good_ok _ _)
  | subninja =>
    rw [scanstmt]
    refine good_bind hstr (fun p r1 _ => ?_)
    dsimp only
    split
    · exact good_error _
    · exact goodB_bind (scannewline_less r1).good (fun r2 _ => good_ok _ _)
  | default =>
    rw [scanstmt]
    refine good_bind (scanPaths_good r hr) (fun p r1 _ => ?_)
    exact goodB_bind (scannewline_less r1).good (fun r2 _ => good_ok _ _)
  | name n =>
    rw [scanstmt]
    have hc := (scanchar_less 61 r hr).good
    refine goodB_bind hc (fun r1 e1 => ?_)
    have hv := (scanString_good false r1 (ends_suffix hr (hc.2 r1 e1))).1
    refine good_bind hv (fun v r2 _ => ?_)
    exact goodB_bind (scannewline_less r2).good (fun r3 _ => good_ok _ _)

theorem stmts_ne_bad : ∀ (f : Nat) (r : Bytes), r.length < f → Ends r → stmts f r ≠ .bad := by
  intro f
  induction f with
  | zero => intro r h; omega
  | succ f ih =>
    intro r hl hr
    rw [stmts, stmt]
    obtain ⟨k1, k2⟩ := scankeyword_good (r.length + 1) r (by omega) hr
    cases hk : scankeyword (r.length + 1) r with
    | bad => exact absurd hk k1.1
    | error => simp [bind, Res.bind]
    | ok x =>
      obtain ⟨k, r1⟩ := x
      rw [Res.ok_bind]
      dsimp only
      have hr1 := ends_suffix hr (k1.2 k r1 hk)
      have hs := scanstmt_good k r1 hr1
      cases hx : scanstmt k r1 with
      | bad => exact absurd hx hs.1
      | error => simp [bind, Res.bind]
      | ok y =>
        obtain ⟨st, r2⟩ := y
        rw [Res.ok_bind]
        dsimp only
        cases st with
        | none => simp
        | some s =>
          dsimp only
          have hke : k ≠ .eof := by
            rintro rfl
            rw [scanstmt] at hx
            cases hx
          have hlt := k2 k r1 hk hke
          have e2 := hs.2 _ r2 hx
          have hle := e2.length_le
          have := ih r2 (by omega) (ends_suffix hr1 e2)
          cases hr2 : stmts f r2 with
          | bad => exact absurd hr2 this
          | error => simp [bind, Res.bind]
          | ok z => simp [bind, Res.bind]

theorem file_ne_bad (r : Bytes) (h : r.getLast? = some 10) : file r ≠ .bad := by
  unfold file
  split
  · simp
  · exact stmts_ne_bad _ r (by omega) (Or.inr h)

end Muon.Manifest
