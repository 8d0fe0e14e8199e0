import Verif.Cmdline.Spec
import Verif.Path.Props
import Verif.Opt.Text
/-
Lemmas for C103: what the readers of options give.
-/
namespace Muon.Cmdline
open Muon Spec

theorem get_iff (d : Dict) (n : Bytes) (o : O) : d.get n = some o ↔ Has d n o := by
  unfold Dict.get
  constructor
  · intro h
    obtain ⟨p, hp, rfl⟩ := Option.map_eq_some_iff.1 h
    obtain ⟨h1, l, r, h2, h3⟩ := List.find?_eq_some_iff_append.1 hp
    have h1 : p.1 = n := by simpa using h1
    refine ⟨l, r, by rw [h2, ← h1], fun q hq => ?_⟩
    have := h3 q hq
    simpa using this
  · rintro ⟨l, r, rfl, h⟩
    rw [List.find?_append, List.find?_eq_none.2 (by intro x hx; simpa using h x hx)]
    simp

theorem get_none (d : Dict) (n : Bytes) : d.get n = none ↔ Lacks d n := by
  unfold Dict.get Lacks
  simp

theorem lookup_iff (w : Where) (n : Bytes) (o : O) : lookup w n = some o ↔ Applies w n o := by
  unfold lookup Applies
  cases hov : w.overrides with
  | none =>
    simp only [Option.bind_none]
    cases hp : w.proj.get n with
    | none =>
      have hl := (get_none _ _).1 hp
      have : ¬ Has w.proj n o := fun h => by rw [(get_iff _ _ _).2 h] at hp; cases hp
      simp only [get_iff]
      constructor
      · intro h; exact .inr ⟨by simp, .inr ⟨hl, h⟩⟩
      · rintro (⟨d, h, _⟩ | ⟨_, h | h⟩)
        · cases h
        · exact absurd h this
        · exact h.2
    | some o' =>
      simp only
      constructor
      · intro h; cases h; exact .inr ⟨by simp, .inl ((get_iff _ _ _).1 hp)⟩
      · rintro (⟨d, h, _⟩ | ⟨_, h | h⟩)
        · cases h
        · rw [(get_iff _ _ _).2 h] at hp; exact hp.symm
        · rw [(get_none _ _).2 h.1] at hp; cases hp
  | some d =>
    simp only [Option.bind_some]
    cases hd : d.get n with
    | some o' =>
      simp only
      constructor
      · intro h; cases h; exact .inl ⟨d, rfl, (get_iff _ _ _).1 hd⟩
      · rintro (⟨d', h, h2⟩ | ⟨h, _⟩)
        · cases h; rw [(get_iff _ _ _).2 h2] at hd; exact hd.symm
        · rw [(get_none _ _).2 (h d rfl)] at hd; cases hd
    | none =>
      have hdl := (get_none _ _).1 hd
      have hno : ¬ ∃ d', some d = some d' ∧ Has d' n o := by
        rintro ⟨d', h, h2⟩; cases h; rw [(get_iff _ _ _).2 h2] at hd; cases hd
      cases hp : w.proj.get n with
      | none =>
        have hl := (get_none _ _).1 hp
        have : ¬ Has w.proj n o := fun h => by rw [(get_iff _ _ _).2 h] at hp; cases hp
        simp only [get_iff]
        constructor
        · intro h; exact .inr ⟨by intro d' e; cases e; exact hdl, .inr ⟨hl, h⟩⟩
        · rintro (h | ⟨_, h | h⟩)
          · exact absurd h hno
          · exact absurd h this
          · exact h.2
      | some o' =>
        simp only
        constructor
        · intro h; cases h; exact .inr ⟨by intro d' e; cases e; exact hdl, .inl ((get_iff _ _ _).1 hp)⟩
        · rintro (h | ⟨_, h | h⟩)
          · exact absurd h hno
          · rw [(get_iff _ _ _).2 h] at hp; exact hp.symm
          · rw [(get_none _ _).2 h.1] at hp; cases hp

/-- At most one option applies. -/
theorem applies_unique {w : Where} {n : Bytes} {o o' : O} (h : Applies w n o) (h' : Applies w n o') : o = o' := by
  have := (lookup_iff _ _ _).2 h
  rw [(lookup_iff _ _ _).2 h'] at this
  exact (Option.some.inj this).symm

theorem value_iff (w : Where) (n : Bytes) (v : Opt.OV) : value w n = .ok v ↔ ∃ src, Applies w n ⟨v, src⟩ := by
  unfold value
  cases h : lookup w n with
  | none =>
    simp only [reduceCtorEq, false_iff]
    rintro ⟨src, h'⟩
    rw [(lookup_iff _ _ _).2 h'] at h; cases h
  | some o =>
    have ho := (lookup_iff _ _ _).1 h
    constructor
    · intro e; cases e; exact ⟨o.src, ho⟩
    · rintro ⟨src, h'⟩; rw [applies_unique ho h']

theorem strOf_iff (w : Where) (n : String) (s : Bytes) : strOf w (ascii n) = .ok s ↔ Str w n s := by
  unfold strOf Str
  rw [Res.bind_eq_ok]
  constructor
  · rintro ⟨v, h1, h2⟩
    cases v <;> simp [asStr] at h2
    subst h2; exact (value_iff _ _ _).1 h1
  · intro h; exact ⟨_, (value_iff _ _ _).2 h, rfl⟩

theorem boolOf_iff (w : Where) (n : String) (s : Bool) : boolOf w (ascii n) = .ok s ↔ Bln w n s := by
  unfold boolOf Bln
  rw [Res.bind_eq_ok]
  constructor
  · rintro ⟨v, h1, h2⟩
    cases v <;> simp [asBool] at h2
    subst h2; exact (value_iff _ _ _).1 h1
  · intro h; exact ⟨_, (value_iff _ _ _).2 h, rfl⟩

theorem elems_iff (l : List Opt.El) (x : List Bytes) : elems l = .ok x ↔ l = x.map .s := by
  induction l generalizing x with
  | nil => cases x <;> simp [elems]
  | cons e l ih =>
    cases e with
    | o n => cases x <;> simp [elems]
    | s b =>
      unfold elems
      rw [Res.bind_eq_ok]
      constructor
      · rintro ⟨y, h1, h2⟩; cases h2; rw [(ih y).1 h1]; rfl
      · intro h
        cases x with
        | nil => cases h
        | cons a x =>
          simp only [List.map_cons, List.cons.injEq, Opt.El.s.injEq] at h
          exact ⟨x, (ih x).2 h.2, by rw [h.1]⟩

theorem arrOf_iff (w : Where) (n : String) (s : List Bytes) : arrOf w (ascii n) = .ok s ↔ Arr w n s := by
  unfold arrOf Arr
  rw [Res.bind_eq_ok]
  constructor
  · rintro ⟨v, h1, h2⟩
    cases v <;> simp [asArr] at h2
    rw [(elems_iff _ _).1 h2] at h1; exact (value_iff _ _ _).1 h1
  · intro h; exact ⟨_, (value_iff _ _ _).2 h, (elems_iff _ _).2 rfl⟩

theorem lvlOf_iff (s : Bytes) (l : Lvl) : lvlOf s = .ok l ↔ LvlText s l := by
  constructor
  · unfold lvlOf
    intro h
    repeat' split at h
    all_goals (first | cases h | skip)
    all_goals (next hs => subst hs; constructor)
  · intro h; cases h <;> decide +kernel

theorem warnOf_iff (s : Bytes) (n : Nat) : warnOf s = .ok n ↔ WarnText s (some n) := by
  constructor
  · unfold warnOf
    intro h
    repeat' split at h
    all_goals (first | cases h | skip)
    all_goals (next hs => subst hs; constructor)
  · intro h; cases h <;> decide +kernel

theorem find_kind (bt : Bytes) (e : Bytes × Lvl × Bool) (h : buildtypes.find? (fun e => e.1 = bt) = some e) : Kind bt e.2.1 e.2.2 := by
  have h1 := List.find?_some h
  have h2 := List.mem_of_find?_eq_some h
  have h1 : e.1 = bt := by simpa using h1
  subst h1
  simp only [buildtypes, List.mem_cons, List.not_mem_nil, or_false] at h2
  rcases h2 with rfl | rfl | rfl | rfl | rfl <;> constructor

theorem kind_find {bt : Bytes} {l : Lvl} {d : Bool} (h : Kind bt l d) : buildtypes.find? (fun e => e.1 = bt) = some (bt, l, d) := by
  cases h <;> decide +kernel

theorem custom_iff (o : O) (bt : Bytes) : custom o bt = true ↔ bt = ascii "custom" ∨ o.src ≤ 1 := by
  unfold custom
  rw [Bool.or_eq_true, decide_eq_true_iff, decide_eq_true_iff]
  exact Iff.rfl

theorem buildtype_iff (w : Where) (l : Lvl) (d : Bool) : buildtype w = .ok (l, d) ↔ Level w l d := by
  unfold buildtype Level
  cases h : lookup w (ascii "buildtype") with
  | none =>
    simp only [reduceCtorEq, false_iff]
    rintro ⟨bt, src, h1, _⟩
    rw [(lookup_iff _ _ _).2 h1] at h; cases h
  | some o =>
    have ho := (lookup_iff _ _ _).1 h
    simp only
    rw [Res.bind_eq_ok]
    constructor
    · rintro ⟨bt, h1, h2⟩
      obtain ⟨v, src⟩ := o
      cases v <;> simp [asStr] at h1
      subst h1
      refine ⟨_, src, ho, ?_⟩
      split at h2
      · next hc =>
        left
        obtain ⟨s, hs, h2⟩ := Res.bind_eq_ok.1 h2
        obtain ⟨dv, hd, h2⟩ := Res.bind_eq_ok.1 h2
        obtain ⟨l', hl, h2⟩ := Res.bind_eq_ok.1 h2
        obtain ⟨b, hb, h2⟩ := Res.bind_eq_ok.1 h2
        cases h2
        refine ⟨?_, ⟨s, (strOf_iff _ _ _).1 hs, (lvlOf_iff _ _).1 hl⟩, ?_⟩
        · exact (custom_iff _ _).1 hc
        · apply (boolOf_iff _ _ _).1; unfold boolOf; rw [hd]; exact hb
      · next hc =>
        right
        have hc' : ¬ (_ = ascii "custom" ∨ src ≤ 1) := fun h => hc ((custom_iff _ _).2 h)
        split at h2
        · next e he =>
          cases e with
          | mk a b =>
            cases h2
            exact ⟨fun h => hc' (.inl h), by omega, find_kind _ _ he⟩
        · cases h2
    · rintro ⟨bt, src, h1, h2⟩
      have := applies_unique ho h1
      subst this
      refine ⟨bt, rfl, ?_⟩
      rcases h2 with ⟨h2, ⟨s, h3, h4⟩, h5⟩ | ⟨h2, h3, h4⟩
      · have hc : custom ⟨.str bt, src⟩ bt = true := (custom_iff _ _).2 h2
        rw [if_pos hc, (strOf_iff _ _ _).2 h3]
        obtain ⟨sr, h5⟩ := h5
        rw [Res.ok_bind, (value_iff _ _ _).2 ⟨sr, h5⟩, Res.ok_bind, (lvlOf_iff _ _).2 h4]
        rfl
      · have hc : ¬ custom ⟨.str bt, src⟩ bt = true := by
          rw [custom_iff]
          rintro (h | h)
          · exact h2 h
          · exact absurd h (Nat.not_le.2 h3)
        rw [if_neg hc, kind_find h4]

/-- The warnings in the model, by what the options say. -/
def warnSet (t : Cc) (x : Option Nat) (s : Statics) : List Bytes × Statics :=
  match x with
  | none => (everything t, s)
  | some n => warning t n s

theorem warningArgs_iff (t : Cc) (w : Where) (s : Statics) (r : List Bytes × Statics) :
    warningArgs t w s = .ok r ↔ ∃ x txt, Str w "warning_level" txt ∧ WarnText txt x ∧ r = warnSet t x s := by
  unfold warningArgs
  rw [Res.bind_eq_ok]
  constructor
  · rintro ⟨l, h1, h2⟩
    split at h2
    · next hl => cases h2; exact ⟨none, l, (strOf_iff _ _ _).1 h1, hl ▸ .everything, rfl⟩
    · obtain ⟨n, h3, h4⟩ := Res.bind_eq_ok.1 h2
      cases h4
      exact ⟨some n, l, (strOf_iff _ _ _).1 h1, (warnOf_iff _ _).1 h3, rfl⟩
  · rintro ⟨x, txt, h1, h2, rfl⟩
    refine ⟨txt, (strOf_iff _ _ _).2 h1, ?_⟩
    cases x with
    | none => cases h2; rfl
    | some n =>
      have hn : txt ≠ ascii "everything" := by cases h2 <;> decide +kernel
      rw [if_neg hn, (warnOf_iff _ _).2 h2]; rfl

theorem pgo_iff (w : Where) (p : Option Bool) : pgo w = .ok p ↔ ∃ s, Str w "b_pgo" s ∧ PgoText s p := by
  unfold pgo
  rw [Res.bind_eq_ok]
  constructor
  · rintro ⟨s, h1, h2⟩
    refine ⟨s, (strOf_iff _ _ _).1 h1, ?_⟩
    split at h2
    · next h => cases h2; rw [h]; constructor
    · split at h2
      · next h => cases h2; rw [h]; constructor
      · split at h2
        · next h => cases h2; rw [h]; constructor
        · cases h2
  · rintro ⟨s, h1, h2⟩
    refine ⟨s, (strOf_iff _ _ _).2 h1, ?_⟩
    cases h2 <;> decide +kernel

theorem ndebug_iff (w : Where) (b : Bool) : ndebug w = .ok b ↔ ∃ s bt, Str w "b_ndebug" s ∧ Str w "buildtype" bt ∧
    (b = true ↔ s = ascii "true" ∨ (s = ascii "if-release" ∧ bt = ascii "release")) := by
  unfold ndebug
  rw [Res.bind_eq_ok]
  constructor
  · rintro ⟨bt, h1, h2⟩
    obtain ⟨s, h3, h4⟩ := Res.bind_eq_ok.1 h2
    cases h4
    refine ⟨s, bt, (strOf_iff _ _ _).1 h3, (strOf_iff _ _ _).1 h1, ?_⟩
    simp
  · rintro ⟨s, bt, h1, h2, h3⟩
    refine ⟨bt, (strOf_iff _ _ _).2 h2, ?_⟩
    rw [(strOf_iff _ _ _).2 h1, Res.ok_bind]
    congr 1
    rw [Bool.eq_iff_iff, h3]
    simp

end Muon.Cmdline
