import Verif.Select.Spec
namespace Muon.Select
open Muon

theorem takeWhile_colon (p q : Bytes) (h : 58 ∉ p) : (p ++ 58 :: q).takeWhile (· != (58 : UInt8)) = p ∧
    (p ++ 58 :: q).dropWhile (· != (58 : UInt8)) = 58 :: q := by
  induction p with
  | nil => simp
  | cons c p ih =>
    simp only [List.mem_cons, not_or] at h
    have hc : (c != 58) = true := by simp; exact fun e => h.1 e.symm
    simp [hc, ih h.2]

theorem splitColon_at (p q : Bytes) (h : 58 ∉ p) : splitColon (p ++ 58 :: q) = (p, q) := by
  obtain ⟨h1, h2⟩ := takeWhile_colon p q h
  simp only [splitColon]
  rw [if_pos (by simp), h1, h2]; rfl

theorem splitColon_plain (s : Bytes) (h : 58 ∉ s) : splitColon s = ([], s) := by
  simp only [splitColon, if_neg h]

theorem colon_cases (s : Bytes) : 58 ∉ s ∨ ∃ p q, s = p ++ 58 :: q ∧ 58 ∉ p := by
  induction s with
  | nil => left; simp
  | cons c s ih =>
    by_cases hc : c = 58
    · exact .inr ⟨[], s, by simp [hc], by simp⟩
    · rcases ih with h | ⟨p, q, e, h⟩
      · left; simp [h]; exact fun e => hc e.symm
      · right; refine ⟨c :: p, q, by simp [e], ?_⟩
        simp [h]; exact fun e => hc e.symm

theorem colon_inj {p q a b : Bytes} (e : p ++ 58 :: q = a ++ 58 :: b) (hp : 58 ∉ p) (ha : 58 ∉ a) : p = a ∧ q = b := by
  have h1 := splitColon_at p q hp
  rw [e, splitColon_at a b ha] at h1
  cases h1; exact ⟨rfl, rfl⟩

theorem nameMatches_iff (main : Bool) (proj name s : Bytes) :
    nameMatches s main proj name = true ↔ Spec.Designates main proj name s := by
  rcases colon_cases s with h | ⟨p, q, rfl, hp⟩
  · simp only [nameMatches, splitColon_plain s h, ne_eq, not_true_eq_false, if_false, Bool.and_eq_true, beq_iff_eq]
    constructor
    · rintro ⟨h1, rfl⟩; exact .plain h1 h
    · intro hd
      cases hd with
      | qualified _ _ => simp at h
      | plain h1 _ => exact ⟨h1, rfl⟩
      | colon h1 => simp at h
  · simp only [nameMatches, splitColon_at p q hp]
    by_cases hn : p = []
    · subst hn
      simp only [ne_eq, not_true_eq_false, if_false, Bool.and_eq_true, beq_iff_eq, List.nil_append]
      constructor
      · rintro ⟨h1, rfl⟩; exact .colon h1
      · intro hd
        generalize hs : (58 :: q : Bytes) = s at hd
        cases hd with
        | qualified h1 h2 =>
          have := (colon_inj (p := []) (q := q) hs (by simp) h2).1
          exact absurd this.symm h1
        | plain h1 h2 => rw [← hs] at h2; simp at h2
        | colon h1 => simp only [List.cons.injEq, true_and] at hs; exact ⟨h1, hs⟩
    · simp only [ne_eq, hn, not_false_eq_true, if_true, Bool.and_eq_true, beq_iff_eq]
      constructor
      · rintro ⟨rfl, rfl⟩; exact .qualified hn hp
      · intro hd
        generalize hs : p ++ 58 :: q = s at hd
        cases hd with
        | qualified h1 h2 => exact colon_inj hs hp h2
        | plain h1 h2 => rw [← hs] at h2; simp at h2
        | colon h1 =>
          have := (colon_inj (a := []) hs hp (by simp)).1
          exact absurd this hn

theorem nameMatches_false (main : Bool) (proj name s : Bytes) :
    nameMatches s main proj name = false ↔ ¬ Spec.Designates main proj name s := by
  rw [← nameMatches_iff]; simp

/-- The patterns given on the command line, where wildcards work. -/
def Wild (o : Opts) (ts : List Test) : Prop :=
  ∀ n ∈ o.tests, ∀ t ∈ ts, Str.eqlGlob (splitColon n).2 t.name = true ↔ Str.Spec.Matches (splitColon n).2 t.name

theorem names_iff (proj name s : Bytes)
    (hw : Str.eqlGlob (splitColon s).2 name = true ↔ Str.Spec.Matches (splitColon s).2 name) :
    ((((splitColon s).1.isEmpty || (splitColon s).1 == proj) && ((splitColon s).2.isEmpty || Str.eqlGlob (splitColon s).2 name)) = true) ↔
      Spec.Names proj name s := by
  simp only [Bool.and_eq_true, Bool.or_eq_true, List.isEmpty_iff, beq_iff_eq, hw]
  rcases colon_cases s with h | ⟨p, q, rfl, hp⟩
  · simp only [splitColon_plain s h, true_or, true_and]
    constructor
    · intro h1; exact .plain _ h h1
    · intro hn
      cases hn with
      | plain _ _ h2 => exact h2
      | qualified p n _ _ _ => simp at h
  · simp only [splitColon_at p q hp]
    constructor
    · rintro ⟨h1, h2⟩; exact .qualified p q hp h1 h2
    · intro hn
      generalize hs : p ++ 58 :: q = s at hn
      cases hn with
      | plain _ h1 _ => rw [← hs] at h1; simp at h1
      | qualified a b h1 h2 h3 =>
        obtain ⟨rfl, rfl⟩ := colon_inj hs hp h1
        exact ⟨h2, h3⟩

/-- The tests kept by `gather`. -/
def sel (o : Opts) (c : Ctx) (t : Test) : Bool :=
  t.benchmark == o.benchmark && (match inSuite o c t with | .ok b => b | _ => false) && inNames o c t

theorem gather_ok (o : Opts) (c : Ctx) (ts : List Test)
    (h : ∀ t ∈ ts, t.benchmark = o.benchmark → inSuite o c t ≠ .bad) : gather o c ts = .ok (ts.filter (sel o c)) := by
  induction ts with
  | nil => rfl
  | cons t ts ih =>
    have ih := ih (fun x hx => h x (List.mem_cons_of_mem _ hx))
    have ht := h t (List.mem_cons_self ..)
    simp only [gather]
    by_cases hb : t.benchmark = o.benchmark
    · rw [if_neg (fun g => g hb), ih]
      have hb' : (t.benchmark == o.benchmark) = true := by simp [hb]
      cases hi : inSuite o c t with
      | bad => exact absurd hi (ht hb)
      | error =>
        exfalso; revert hi; unfold inSuite; split
        · split
          · simp
          · split <;> simp
        · split <;> simp
      | ok b => simp only [Res.bind, List.filter_cons, sel, hb', hi, Bool.true_and]
    · rw [if_pos hb, ih]
      have : sel o c t = false := by simp [sel, hb]
      simp [this]

/-- The outcome of `inSuite`, in terms of the specification. -/
theorem inSuite_spec (o : Opts) (c : Ctx) (t : Test) (hs : o.suites ≠ [] ∨ c.exclude = none ∨ t.suites.isSome) :
    ∃ b, inSuite o c t = .ok b ∧ (b = true ↔
      (o.suites ≠ [] → ∃ s ∈ t.suites.getD [], ∃ e ∈ o.suites, Spec.Designates (c.projI == 0) c.projName s e) ∧
      (o.suites = [] → ∀ s ∈ t.suites.getD [], ∀ e ∈ c.exclude.getD [], ¬ Spec.Designates (c.projI == 0) c.projName s e)) := by
  unfold inSuite
  by_cases h0 : o.suites = []
  · rw [if_pos h0]
    cases hx : c.exclude with
    | none => exact ⟨true, rfl, by simp [h0]⟩
    | some ex =>
      cases ht : t.suites with
      | none => rcases hs with h | h | h
                · exact absurd h0 h
                · rw [hx] at h; cases h
                · rw [ht] at h; cases h
      | some ss =>
        refine ⟨_, rfl, ?_⟩
        simp only [Bool.not_eq_true', List.any_eq_false, Bool.not_eq_true, nameMatches_false, h0,
          Option.getD_some, ne_eq, not_true_eq_false, false_implies, true_and, true_implies]
  · rw [if_neg h0]
    cases ht : t.suites with
    | none => exact ⟨false, rfl, by simp [h0]⟩
    | some ss =>
      refine ⟨_, rfl, ?_⟩
      simp only [List.any_eq_true, nameMatches_iff, h0, Option.getD_some, ne_eq, not_false_eq_true, false_implies, and_true,
        true_implies]

theorem inNames_spec (o : Opts) (c : Ctx) (t : Test)
    (hw : ∀ n ∈ o.tests, Str.eqlGlob (splitColon n).2 t.name = true ↔ Str.Spec.Matches (splitColon n).2 t.name) :
    inNames o c t = true ↔ (o.tests ≠ [] → ∃ n ∈ o.tests, Spec.Names c.projName t.name n) := by
  simp only [inNames, Bool.or_eq_true, List.isEmpty_iff, List.any_eq_true]
  constructor
  · rintro (h | ⟨n, hn, h⟩) h0
    · exact absurd h h0
    · exact ⟨n, hn, (names_iff _ _ _ (hw n hn)).1 h⟩
  · intro h
    by_cases h0 : o.tests = []
    · exact .inl h0
    · obtain ⟨n, hn, h1⟩ := h h0
      exact .inr ⟨n, hn, (names_iff _ _ _ (hw n hn)).2 h1⟩

theorem sel_iff (o : Opts) (c : Ctx) (t : Test) (hs : o.suites ≠ [] ∨ c.exclude = none ∨ t.suites.isSome)
    (hw : ∀ n ∈ o.tests, Str.eqlGlob (splitColon n).2 t.name = true ↔ Str.Spec.Matches (splitColon n).2 t.name) :
    sel o c t = true ↔ Spec.Selected o c.exclude (c.projI == 0) c.projName t := by
  obtain ⟨b, h1, h2⟩ := inSuite_spec o c t hs
  simp only [sel, h1, Bool.and_eq_true, beq_iff_eq, inNames_spec o c t hw, h2, Spec.Selected, and_assoc]

theorem kept_filter {α : Type} (P : α → Prop) (f : α → Bool) (l : List α) (h : ∀ x ∈ l, f x = true ↔ P x) :
    Spec.Kept P l (l.filter f) := by
  induction l with
  | nil => exact .nil
  | cons x l ih =>
    have hx := h x (List.mem_cons_self ..)
    have ih := ih (fun y hy => h y (List.mem_cons_of_mem _ hy))
    cases hf : f x with
    | true => rw [List.filter_cons_of_pos hf]; exact .take _ _ _ (hx.1 hf) ih
    | false =>
      rw [List.filter_cons_of_neg (by simp [hf])]
      exact .skip _ _ _ (fun hp => by rw [hx.2 hp] at hf; cases hf) ih

theorem Spec.Kept.unique {α : Type} {P : α → Prop} {l r r' : List α} (h : Spec.Kept P l r) (h' : Spec.Kept P l r') : r = r' := by
  induction h generalizing r' with
  | nil => cases h'; rfl
  | take x l r hp _ ih => cases h' with
    | take _ _ _ _ h2 => rw [ih h2]
    | skip _ _ _ hn _ => exact absurd hp hn
  | skip x l r hn _ ih => cases h' with
    | take _ _ _ hp _ => exact absurd hp hn
    | skip _ _ _ _ h2 => exact ih h2

theorem findSetup_some (o : Opts) (c : Ctx) (l : List Setup) (s : Setup) (h : findSetup o c l = some s) :
    Spec.Excludes (Spec.Wanted o (c.projI == 0) c.projName) l s.exclude := by
  induction l with
  | nil => cases h
  | cons x l ih =>
    have key : wanted o c x = true ↔
        Spec.Wanted o (c.projI == 0) c.projName x := by
      unfold Spec.Wanted wanted; cases o.setup <;> simp [nameMatches_iff]
    simp only [findSetup] at h
    split at h
    · next hx => cases h; exact .here _ _ (key.1 hx)
    · next hx => exact .later _ _ _ (fun hw => hx (key.2 hw)) (ih h)

theorem findSetup_none (o : Opts) (c : Ctx) (l : List Setup) (h : findSetup o c l = none) :
    ∀ s ∈ l, ¬ Spec.Wanted o (c.projI == 0) c.projName s := by
  induction l with
  | nil => simp
  | cons x l ih =>
    have key : wanted o c x = true ↔
        Spec.Wanted o (c.projI == 0) c.projName x := by
      unfold Spec.Wanted wanted; cases o.setup <;> simp [nameMatches_iff]
    simp only [findSetup] at h
    split at h
    · cases h
    · next hx =>
      intro s hs
      rcases List.mem_cons.1 hs with rfl | hs
      · exact fun hw => hx (key.2 hw)
      · exact ih h s hs

theorem Spec.Excludes.exists {W : Setup → Prop} {l : List Setup} {ex : Option (List Bytes)} (h : Spec.Excludes W l ex) :
    ∃ s ∈ l, W s ∧ ex = s.exclude := by
  induction h with
  | here s l hw => exact ⟨s, List.mem_cons_self .., hw, rfl⟩
  | later s l ex _ _ ih => obtain ⟨x, h1, h2⟩ := ih; exact ⟨x, List.mem_cons_of_mem _ h1, h2⟩

theorem Spec.Excludes.unique {W : Setup → Prop} {l : List Setup} {ex ex' : Option (List Bytes)} (h : Spec.Excludes W l ex)
    (h' : Spec.Excludes W l ex') : ex = ex' := by
  induction h with
  | here s l hw => cases h' with
    | here _ _ _ => rfl
    | later _ _ _ hn _ => exact absurd hw hn
  | later s l ex hn _ ih => cases h' with
    | here _ _ hw => exact absurd hw hn
    | later _ _ _ _ h2 => exact ih h2

end Muon.Select
