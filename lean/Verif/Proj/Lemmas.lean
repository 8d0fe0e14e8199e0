import Verif.Proj.Spec
/-
Lemmas about the calls of a build.
-/
namespace Muon.Proj
open Muon Muon.Proj.Spec

/-! ### Languages -/

theorem langOf_name (l : Lang) : langOf (name l) = some l := by cases l <;> decide +kernel

theorem langOf_iff (n : Bytes) (l : Lang) : langOf n = some l ↔ n = name l := by
  constructor
  · intro h
    unfold langOf at h
    obtain ⟨p, hp, rfl⟩ := Option.map_eq_some_iff.1 h
    have hm := List.mem_of_find?_eq_some hp
    have hn := List.find?_some hp
    simp only [beq_iff_eq] at hn
    subst hn
    simp only [langNames, List.mem_cons, List.not_mem_nil, or_false] at hm
    rcases hm with rfl | rfl | rfl | rfl | rfl | rfl | rfl | rfl | rfl | rfl <;> rfl
  · rintro rfl
    exact langOf_name l

theorem name_inj {l m : Lang} (h : name l = name m) : l = m := by
  have := langOf_name l
  rw [h, langOf_name m] at this
  exact (Option.some.inj this).symm

theorem known_name (l : Lang) : known (name l) = true := by cases l <;> decide +kernel

theorem known_none (n : Bytes) (h : langOf n = none) : known n = false := by
  cases hk : known n with
  | false => rfl
  | true =>
    unfold known at hk
    obtain ⟨l, _, hl⟩ := List.any_eq_true.1 hk
    rw [beq_iff_eq] at hl
    rw [hl, langOf_name] at h
    cases h

/-! ### Arguments -/

theorem times_nil (l : Lang) (as : List Bytes) : times l [] as = [] := rfl

theorem times_cons (l m : Lang) (ns as : List Bytes) : times l (name m :: ns) as = (if l = m then as else []) ++ times l ns as := by
  unfold times
  by_cases h : l = m
  · subst h
    rw [List.filter_cons_of_pos (by simp)]
    simp
  · rw [List.filter_cons_of_neg (by
      simp only [beq_iff_eq]
      intro e
      exact h (name_inj e).symm)]
    simp [h]

theorem putArgs_tbl (k : Kind) (as : List Bytes) : ∀ (ns : List Bytes) (t : Tbl) (k' : Kind) (l : Lang),
    (putArgs k as ns t).2 k' l = t k' l ++ (if k' = k then times l (ns.takeWhile known) as else [])
  | [], t, k', l => by simp [putArgs, times_nil]
  | n :: ns, t, k', l => by
    rw [putArgs]
    cases hl : langOf n with
    | none => rw [List.takeWhile_cons_of_neg (by simp [known_none n hl]), times_nil]; simp
    | some m =>
      have hn := (langOf_iff n m).1 hl
      subst hn
      rw [List.takeWhile_cons_of_pos (known_name m), times_cons]
      dsimp only
      rw [putArgs_tbl k as ns]
      unfold extend
      by_cases h1 : k' = k <;> by_cases h2 : l = m <;> simp [h1, h2]

theorem putArgs_ok (k : Kind) (as : List Bytes) : ∀ (ns : List Bytes) (t : Tbl), (putArgs k as ns t).1 = ns.all known
  | [], t => rfl
  | n :: ns, t => by
    rw [putArgs]
    cases hl : langOf n with
    | none => simp [known_none n hl]
    | some m =>
      have hn := (langOf_iff n m).1 hl
      subst hn
      dsimp only
      rw [putArgs_ok k as ns]
      simp [known_name]

theorem putDeps_tbl (p : Proj) (ca la inc decl : List Bytes) : ∀ (ns : List Bytes) (t : Tbl) (k : Kind) (l : Lang),
    (∀ n ∈ ns, decl.contains n = declared p n) →
    putDeps p ca la inc ns t k l = t k l ++ times l (ns.takeWhile (decl.contains ·)) (sel ca la inc k)
  | [], t, k, l, _ => by simp [putDeps, times_nil]
  | n :: ns, t, k, l, h => by
    rw [putDeps]
    have hn := h n (by simp)
    cases hl : langOf n with
    | none =>
      rw [List.takeWhile_cons_of_neg (by rw [hn]; simp [declared, hl]), times_nil]; simp
    | some m =>
      dsimp only
      cases hc : p.comps m with
      | none => rw [List.takeWhile_cons_of_neg (by rw [hn]; simp [declared, hl, hc]), times_nil]; simp
      | some c =>
        rw [List.takeWhile_cons_of_pos (by rw [hn]; simp [declared, hl, hc])]
        have e := (langOf_iff n m).1 hl
        subst e
        rw [times_cons, if_neg (by simp), putDeps_tbl p ca la inc decl ns _ k l (fun x hx => h x (List.mem_cons_of_mem _ hx))]
        unfold extend
        by_cases h2 : l = m
        · cases k <;> simp [h2, sel]
        · cases k <;> simp [h2, sel]

theorem decl_filter (p : Proj) (ns : List Bytes) : ∀ n ∈ ns, (ns.filter (declared p)).contains n = declared p n := by
  intro n hn
  cases h : declared p n with
  | true => simp [hn, h]
  | false => simp [h]

/-! ### Compilers -/

theorem setComp_some (p : Proj) (l m : Lang) (c : Comp) : ((p.setComp l c).comps m).isSome = (decide (m = l) || (p.comps m).isSome) := by
  unfold Proj.setComp
  by_cases h : m = l <;> simp [h]

/-- The parts of a project which adding languages does not change. -/
def SameRest (p q : Proj) : Prop :=
  q.src = p.src ∧ q.bld = p.bld ∧ q.cwd = p.cwd ∧ q.build = p.build ∧ q.tbl = p.tbl

/-- Compilers stay, those of languages that are not given by others too. -/
def Grows (p q : Proj) : Prop :=
  ∀ l c, p.comps l = some c → ∃ d, q.comps l = some d ∧ (l ≠ .assembly → l ≠ .llvmIr → d = c)

/-- With a compiler of C or C++ there is one for assembly. -/
def Asm (p : Proj) : Prop := (p.comps .c).isSome = true ∨ (p.comps .cpp).isSome = true → (p.comps .assembly).isSome = true

theorem same_refl (p : Proj) : SameRest p p := ⟨rfl, rfl, rfl, rfl, rfl⟩

theorem same_trans {p q r : Proj} (h : SameRest p q) (h' : SameRest q r) : SameRest p r :=
  ⟨h'.1.trans h.1, h'.2.1.trans h.2.1, h'.2.2.1.trans h.2.2.1, h'.2.2.2.1.trans h.2.2.2.1, h'.2.2.2.2.trans h.2.2.2.2⟩

theorem grows_refl (p : Proj) : Grows p p := fun _ c h => ⟨c, h, fun _ _ => rfl⟩

theorem grows_trans {p q r : Proj} (h : Grows p q) (h' : Grows q r) : Grows p r := by
  intro l c hc
  obtain ⟨d, hd, e⟩ := h l c hc
  obtain ⟨f, hf, e'⟩ := h' l d hd
  exact ⟨f, hf, fun a b => (e' a b).trans (e a b)⟩

theorem addComp_same (p : Proj) (l : Lang) (c : Comp) : SameRest p (p.addComp l c) := by
  unfold Proj.addComp
  by_cases h1 : l = .c ∨ l = .cpp
  · simp only [h1, if_true]
    by_cases h2 : c.clang = true
    · simp only [h2, if_true]; exact ⟨rfl, rfl, rfl, rfl, rfl⟩
    · simp only [h2]; exact ⟨rfl, rfl, rfl, rfl, rfl⟩
  · simp only [h1, if_false]; exact ⟨rfl, rfl, rfl, rfl, rfl⟩

theorem addComp_comps (p : Proj) (l m : Lang) (c : Comp) : (p.addComp l c).comps m =
    if (l = .c ∨ l = .cpp) ∧ c.clang = true ∧ m = .llvmIr then some { c with ir := true }
    else if (l = .c ∨ l = .cpp) ∧ m = .assembly then some c
    else if m = l then some c else p.comps m := by
  unfold Proj.addComp
  by_cases h1 : l = .c ∨ l = .cpp
  · by_cases h2 : c.clang = true
    · simp only [h1, h2, if_true, Proj.setComp, true_and]
    · simp only [h1, h2, if_true, Proj.setComp, true_and, false_and, if_false, Bool.false_eq_true]
  · simp only [h1, if_false, Proj.setComp, false_and]

theorem addComp_has (p : Proj) (l : Lang) (c : Comp) : ((p.addComp l c).comps l).isSome = true := by
  rw [addComp_comps]; split
  · rfl
  · split
    · rfl
    · simp

theorem addComp_grows (p : Proj) (l : Lang) (c : Comp) (h : p.comps l = none) : Grows p (p.addComp l c) := by
  intro m d hd
  rw [addComp_comps]
  split
  · rename_i h1; exact ⟨_, rfl, fun _ e => absurd h1.2.2 e⟩
  · split
    · rename_i h1; exact ⟨_, rfl, fun e _ => absurd h1.2 e⟩
    · split
      · rename_i h1; rw [h1, h] at hd; cases hd
      · exact ⟨d, hd, fun _ _ => rfl⟩

theorem addComp_asm (p : Proj) (l : Lang) (c : Comp) (h : Asm p) : Asm (p.addComp l c) := by
  intro hc
  rw [addComp_comps]
  split
  · rfl
  · split
    · rfl
    · split
      · rfl
      · rename_i h2 h3 h4
        refine h ?_
        rw [addComp_comps, addComp_comps] at hc
        have hl : ¬(l = .c ∨ l = .cpp) := fun e => h3 ⟨e, rfl⟩
        have n1 : ¬ Lang.c = l := fun e => hl (.inl e.symm)
        have n2 : ¬ Lang.cpp = l := fun e => hl (.inr e.symm)
        simpa [hl, n1, n2] using hc

/-- What adding a language does to a project. -/
structure AddOk (p q : Proj) : Prop where
  same : SameRest p q
  grows : Grows p q
  asm : Asm p → Asm q

theorem addOk_refl (p : Proj) : AddOk p p := ⟨same_refl p, grows_refl p, id⟩

theorem addOk_trans {p q r : Proj} (h : AddOk p q) (h' : AddOk q r) : AddOk p r :=
  ⟨same_trans h.same h'.same, grows_trans h.grows h'.grows, fun e => h'.asm (h.asm e)⟩

theorem addKnown_ok (detect : Lang → Option Comp) (req : Req) (l : Lang) (p : Proj) :
    AddOk p (addKnown detect req l p).2.2 ∧
    ((addKnown detect req l p).2.1 = true ↔ ((addKnown detect req l p).2.2.comps l).isSome = true) ∧
    ((addKnown detect req l p).2.1 = true → (addKnown detect req l p).1 = true) ∧
    ((addKnown detect req l p).1 = true → req = .required → (addKnown detect req l p).2.1 = true) ∧
    ((addKnown detect req l p).1 = false → req = .required) := by
  unfold addKnown
  cases hp : p.comps l with
  | some c => simp [hp, addOk_refl]
  | none =>
    simp only [Option.isSome_none, Bool.false_eq_true, if_false]
    cases detect l with
    | none => simp [hp, addOk_refl]
    | some c =>
      refine ⟨⟨addComp_same p l c, addComp_grows p l c hp, addComp_asm p l c⟩, ?_, ?_, ?_, ?_⟩
      · simp [addComp_has]
      · simp
      · simp
      · simp

theorem afterNasm_ok (detect : Lang → Option Comp) (req : Req) (l : Lang) (o p : Proj) (h : (p.comps l).isSome = true) :
    AddOk p (afterNasm detect req l o p).2.2 ∧ (afterNasm detect req l o p).2.1 = (afterNasm detect req l o p).1 ∧
    ((afterNasm detect req l o p).2.2.comps l).isSome = true ∧ ((afterNasm detect req l o p).1 = false → req = .required) := by
  unfold afterNasm
  split
  · obtain ⟨h1, h2, h3, h4, h5⟩ := addKnown_ok detect req .c p
    refine ⟨h1, rfl, ?_, h5⟩
    obtain ⟨c, hc⟩ := Option.isSome_iff_exists.1 h
    obtain ⟨d, hd, _⟩ := h1.grows l c hc
    show ((addKnown detect req .c p).2.2.comps l).isSome = true
    rw [hd]; rfl
  · exact ⟨addOk_refl p, h, h, fun e => by cases e⟩

theorem addLang_ok (detect : Lang → Option Comp) (req : Req) (n : Bytes) (p : Proj) (hr : req ≠ .skip) :
    AddOk p (addLang detect req n p).2.2 ∧
    ((addLang detect req n p).1 = true → ((addLang detect req n p).2.1 = true ↔ ∃ l, n = name l ∧ ((addLang detect req n p).2.2.comps l).isSome = true)) ∧
    ((addLang detect req n p).1 = true → req = .required → (addLang detect req n p).2.1 = true) ∧
    ((addLang detect req n p).1 = false → req = .required) := by
  unfold addLang
  rw [if_neg hr]
  cases hl : langOf n with
  | none =>
    refine ⟨addOk_refl p, fun _ => ⟨(nomatch ·), ?_⟩, ?_, ?_⟩
    · rintro ⟨l, e, _⟩
      rw [e, langOf_name] at hl
      cases hl
    · intro e1 e2; simp [e2] at e1
    · intro e; simpa using e
  | some l =>
    have hn := (langOf_iff n l).1 hl
    have hex : ∀ q : Proj, (∃ m, n = name m ∧ (q.comps m).isSome = true) ↔ (q.comps l).isSome = true := by
      intro q
      constructor
      · rintro ⟨m, e, h⟩
        rw [hn] at e
        rw [name_inj e]; exact h
      · intro h; exact ⟨l, hn, h⟩
    obtain ⟨h1, h2, h3, h4, h5⟩ := addKnown_ok detect req l p
    dsimp only
    by_cases hb : ((addKnown detect req l p).1 && (addKnown detect req l p).2.1) = true
    · rw [if_pos hb]
      rw [Bool.and_eq_true] at hb
      obtain ⟨g1, g2, g3, g4⟩ := afterNasm_ok detect req l p (addKnown detect req l p).2.2 (h2.1 hb.2)
      refine ⟨addOk_trans h1 g1, ?_, ?_, g4⟩
      · intro e
        rw [hex, g2, e]
        simp [g3]
      · intro e _; rw [g2, e]
    · rw [if_neg hb]
      refine ⟨h1, ?_, h4, h5⟩
      intro e
      rw [hex]; exact h2

theorem addLang_skip (detect : Lang → Option Comp) (n : Bytes) (p : Proj) : addLang detect .skip n p = (true, false, p) := rfl

theorem addLang_ok' (detect : Lang → Option Comp) (req : Req) (n : Bytes) (p : Proj) : AddOk p (addLang detect req n p).2.2 := by
  by_cases h : req = .skip
  · subst h; exact addOk_refl p
  · exact (addLang_ok detect req n p h).1

theorem addAll_addOk (detect : Lang → Option Comp) (req : Req) : ∀ (ns : List Bytes) (p : Proj), AddOk p (addAll detect req ns p).2.2
  | [], p => addOk_refl p
  | n :: ns, p => by
    rw [addAll]
    dsimp only
    split
    · exact addOk_trans (addLang_ok' detect req n p) (addAll_addOk detect req ns _)
    · exact addLang_ok' detect req n p

end Muon.Proj
