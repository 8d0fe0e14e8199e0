import Verif.Cmdline.Lemmas
/-
The arguments that come from options: the model and what the options say.
-/
namespace Muon.Cmdline
open Muon Spec

theorem std_iff (t : Cc) (l : Lang) (w : Where) (r : List Bytes) :
    std t l w = .ok r ↔ ∃ x : Option Bytes,
      ((∀ n, Option? l "std" = some n → ∃ s, Str w n s ∧ Unless "none" s x) ∧ (Option? l "std" = none → x = none)) ∧
      r = (match x with | some s => stdArgs t s | none => []) := by
  have key : ∀ n : String, ((strOf w (ascii n) >>= fun s => Res.ok (opt (s ≠ ascii "none") (stdArgs t s))) = .ok r) ↔
      ∃ x : Option Bytes, (∃ s, Str w n s ∧ Unless "none" s x) ∧ r = (match x with | some s => stdArgs t s | none => []) := by
    intro n
    rw [Res.bind_eq_ok]
    constructor
    · rintro ⟨s, h1, h2⟩
      cases h2
      by_cases hs : s = ascii "none"
      · exact ⟨none, ⟨s, (strOf_iff _ _ _).1 h1, .inl ⟨hs, rfl⟩⟩, by simp [opt, hs]⟩
      · exact ⟨some s, ⟨s, (strOf_iff _ _ _).1 h1, .inr ⟨hs, rfl⟩⟩, by simp [opt, hs]⟩
    · rintro ⟨x, ⟨s, h1, h2⟩, rfl⟩
      refine ⟨s, (strOf_iff _ _ _).2 h1, ?_⟩
      rcases h2 with ⟨h, rfl⟩ | ⟨h, rfl⟩ <;> simp [opt, h]
  unfold std
  cases l with
  | c =>
    refine (key "c_std").trans ?_
    have e : Option? .c "std" = some "c_std" := by decide +kernel
    simp [e]
  | cpp =>
    refine (key "cpp_std").trans ?_
    have e : Option? .cpp "std" = some "cpp_std" := by decide +kernel
    simp [e]
  | other n =>
    have e : Option? (.other n) "std" = none := rfl
    have e2 : optName (.other n) "c_std" "cpp_std" = none := rfl
    simp only [e2, e]
    constructor
    · intro h; cases h; exact ⟨none, ⟨by simp, by simp⟩, rfl⟩
    · rintro ⟨x, ⟨_, h⟩, rfl⟩; rw [h trivial]

theorem optionArgs_iff (l : Lang) (w : Where) (r : List Bytes) :
    optionArgs l w = .ok r ↔ (∀ n, Option? l "args" = some n → Arr w n r) ∧ (Option? l "args" = none → r = []) := by
  unfold optionArgs
  cases l with
  | c =>
    refine (arrOf_iff w "c_args" r).trans ?_
    have e : Option? .c "args" = some "c_args" := by decide +kernel
    simp [e]
  | cpp =>
    refine (arrOf_iff w "cpp_args" r).trans ?_
    have e : Option? .cpp "args" = some "cpp_args" := by decide +kernel
    simp [e]
  | other n =>
    have e : Option? (.other n) "args" = none := rfl
    have e2 : optName (.other n) "c_args" "cpp_args" = none := rfl
    simp only [e2, e]
    constructor
    · intro h; cases h; simp
    · intro h; rw [h.2 trivial]

theorem optionLinkArgs_iff (l : Lang) (w : Where) (r : List Bytes) :
    optionLinkArgs l w = .ok r ↔ (∀ n, Option? l "link_args" = some n → Arr w n r) ∧ (Option? l "link_args" = none → r = []) := by
  unfold optionLinkArgs
  cases l with
  | c =>
    refine (arrOf_iff w "c_link_args" r).trans ?_
    have e : Option? .c "link_args" = some "c_link_args" := by decide +kernel
    simp [e]
  | cpp =>
    refine (arrOf_iff w "cpp_link_args" r).trans ?_
    have e : Option? .cpp "link_args" = some "cpp_link_args" := by decide +kernel
    simp [e]
  | other n =>
    have e : Option? (.other n) "link_args" = none := rfl
    have e2 : optName (.other n) "c_link_args" "cpp_link_args" = none := rfl
    simp only [e2, e]
    constructor
    · intro h; cases h; simp
    · intro h; rw [h.2 trivial]

/-- An argument with a text that may be missing. -/
def some? (f : Bytes → List Bytes) : Option Bytes → List Bytes
  | some s => f s
  | none => []

theorem unless_iff (w : Where) (n off : String) (f : Bytes → List Bytes) (s : Bytes) (h : Str w n s) :
    ∃ x : Option Bytes, (∃ s, Str w n s ∧ Unless off s x) ∧ opt (s ≠ ascii off) (f s) = some? f x := by
  by_cases hs : s = ascii off
  · exact ⟨none, ⟨s, h, .inl ⟨hs, rfl⟩⟩, by simp [opt, hs, some?]⟩
  · exact ⟨some s, ⟨s, h, .inr ⟨hs, rfl⟩⟩, by simp [opt, hs, some?]⟩

theorem unless_opt {off : String} {s : Bytes} {x : Option Bytes} (f : Bytes → List Bytes) (h : Unless off s x) :
    opt (s ≠ ascii off) (f s) = some? f x := by
  rcases h with ⟨h, rfl⟩ | ⟨h, rfl⟩ <;> simp [opt, h, some?]

def bSet (t : Cc) (p : Option Bool) (sa : Option Bytes) (nd : Bool) (co : Option Bytes) (lto : Bool) : List Bytes :=
  pgoPart t p ++ some? (sanitizeArgs t) sa ++ opt nd (defineArgs t (ascii "NDEBUG")) ++ some? (colorArgs t) co ++ opt lto (ltoArgs t)

theorem bArgs_iff (t : Cc) (w : Where) (r : List Bytes) :
    bArgs t w = .ok r ↔ ∃ p sa nd co lto, (∃ s, Str w "b_pgo" s ∧ PgoText s p) ∧ (∃ s, Str w "b_sanitize" s ∧ Unless "none" s sa) ∧
      (∃ s bt, Str w "b_ndebug" s ∧ Str w "buildtype" bt ∧
        (nd = true ↔ s = ascii "true" ∨ (s = ascii "if-release" ∧ bt = ascii "release"))) ∧
      (∃ s, Str w "b_colorout" s ∧ Unless "never" s co) ∧ Bln w "b_lto" lto ∧ r = bSet t p sa nd co lto := by
  unfold bArgs
  constructor
  · intro h
    obtain ⟨p, h1, h⟩ := Res.bind_eq_ok.1 h
    obtain ⟨sa, h2, h⟩ := Res.bind_eq_ok.1 h
    obtain ⟨nd, h3, h⟩ := Res.bind_eq_ok.1 h
    obtain ⟨co, h4, h⟩ := Res.bind_eq_ok.1 h
    obtain ⟨lto, h5, h⟩ := Res.bind_eq_ok.1 h
    obtain ⟨sx, hs1, hs2⟩ := unless_iff w "b_sanitize" "none" (sanitizeArgs t) sa ((strOf_iff _ _ _).1 h2)
    obtain ⟨cx, hc1, hc2⟩ := unless_iff w "b_colorout" "never" (colorArgs t) co ((strOf_iff _ _ _).1 h4)
    rw [hs2, hc2] at h
    cases h
    exact ⟨p, sx, nd, cx, lto, (pgo_iff _ _).1 h1, hs1, (ndebug_iff _ _).1 h3, hc1, (boolOf_iff _ _ _).1 h5, rfl⟩
  · rintro ⟨p, sa, nd, co, lto, h1, ⟨s, h2, h2'⟩, h3, ⟨c, h4, h4'⟩, h5, rfl⟩
    rw [(pgo_iff _ _).2 h1, Res.ok_bind, (strOf_iff _ _ _).2 h2, Res.ok_bind, (ndebug_iff _ _).2 h3, Res.ok_bind,
      (strOf_iff _ _ _).2 h4, Res.ok_bind, (boolOf_iff _ _ _).2 h5, Res.ok_bind, unless_opt _ h2', unless_opt _ h4']
    rfl

/-- The arguments in the model, by what the options say. -/
def setText (t : Cc) (x : Set) (s : Statics) : List Bytes × Statics :=
  (alwaysArgs t ++ some? (stdArgs t) x.std ++ (buildtypeArgs t (x.lvl, x.debug) s).1 ++
    (warnSet t x.warn (buildtypeArgs t (x.lvl, x.debug) s).2).1 ++ opt x.werror (werrorArgs t) ++
    bSet t x.pgo x.sanitize x.ndebug x.color x.lto,
   (warnSet t x.warn (buildtypeArgs t (x.lvl, x.debug) s).2).2)

/-- The options are read, and nothing else matters. -/
theorem baseArgs_iff (t : Cc) (l : Lang) (w : Where) (glob proj : List Bytes) (s : Statics) (r : List Bytes × Statics) :
    baseArgs t l w glob proj s = .ok r ↔
    ∃ x, Reads w l x ∧ r = ((setText t x s).1 ++ x.args ++ glob ++ proj, (setText t x s).2) := by
  unfold baseArgs
  constructor
  · intro h
    obtain ⟨a1, h1, h⟩ := Res.bind_eq_ok.1 h
    obtain ⟨⟨lv, db⟩, h2, h⟩ := Res.bind_eq_ok.1 h
    obtain ⟨a3, h3, h⟩ := Res.bind_eq_ok.1 h
    obtain ⟨a4, h4, h⟩ := Res.bind_eq_ok.1 h
    obtain ⟨a5, h5, h⟩ := Res.bind_eq_ok.1 h
    obtain ⟨a6, h6, h⟩ := Res.bind_eq_ok.1 h
    obtain ⟨we, h4a, h4b⟩ := Res.bind_eq_ok.1 (show (boolOf w (ascii "werror") >>= fun b => Res.ok (opt b (werrorArgs t))) = .ok a4 from h4)
    cases h4b
    obtain ⟨sx, hs, e1⟩ := (std_iff _ _ _ _).1 h1
    obtain ⟨wx, wt, hw1, hw2, e3⟩ := (warningArgs_iff _ _ _ _).1 h3
    obtain ⟨p, sa, nd, co, lto, b1, b2, b3, b4, b5, e5⟩ := (bArgs_iff _ _ _).1 h5
    cases h
    refine ⟨⟨lv, db, wx, we, sx, p, sa, nd, co, lto, a6⟩, ⟨(buildtype_iff _ _ _).1 h2, ⟨wt, hw1, hw2⟩, (boolOf_iff _ _ _).1 h4a, hs,
      b1, b2, b3, b4, b5, (optionArgs_iff _ _ _).1 h6⟩, ?_⟩
    subst e1 e3 e5
    cases sx <;> simp [setText, some?, List.append_assoc]
  · rintro ⟨x, hx, rfl⟩
    have h1 : std t l w = .ok (some? (stdArgs t) x.std) := (std_iff _ _ _ _).2 ⟨x.std, hx.std, by cases x.std <;> rfl⟩
    have h2 : buildtype w = .ok (x.lvl, x.debug) := (buildtype_iff _ _ _).2 hx.level
    obtain ⟨wt, hw1, hw2⟩ := hx.warn
    have h3 : warningArgs t w (buildtypeArgs t (x.lvl, x.debug) s).2 = .ok (warnSet t x.warn (buildtypeArgs t (x.lvl, x.debug) s).2) :=
      (warningArgs_iff _ _ _ _).2 ⟨x.warn, wt, hw1, hw2, rfl⟩
    have h4 : werror t w = .ok (opt x.werror (werrorArgs t)) := by
      unfold werror; rw [(boolOf_iff _ _ _).2 hx.werror]; rfl
    have h5 : bArgs t w = .ok (bSet t x.pgo x.sanitize x.ndebug x.color x.lto) :=
      (bArgs_iff _ _ _).2 ⟨_, _, _, _, _, hx.pgo, hx.sanitize, hx.ndebug, hx.color, hx.lto, rfl⟩
    have h6 : optionArgs l w = .ok x.args := (optionArgs_iff _ _ _).2 hx.args
    rw [h1, Res.ok_bind, h2, Res.ok_bind, h3, Res.ok_bind, h4, Res.ok_bind, h5, Res.ok_bind, h6, Res.ok_bind]
    simp [setText, List.append_assoc]

/-- What the options say is one thing only. -/
theorem reads_unique {w : Where} {l : Lang} {x y : Set} (hx : Reads w l x) (hy : Reads w l y) : x = y := by
  have hs : ∀ {n : String} {a b : Bytes}, Str w n a → Str w n b → a = b := by
    intro n a b h1 h2
    have := (strOf_iff _ _ _).2 h1
    rw [(strOf_iff _ _ _).2 h2] at this
    exact (Res.ok.inj this).symm
  have hb : ∀ {n : String} {a b : Bool}, Bln w n a → Bln w n b → a = b := by
    intro n a b h1 h2
    have := (boolOf_iff _ _ _).2 h1
    rw [(boolOf_iff _ _ _).2 h2] at this
    exact (Res.ok.inj this).symm
  have hun : ∀ {off : String} {s : Bytes} {a b : Option Bytes}, Unless off s a → Unless off s b → a = b := by
    intro off s a b h1 h2
    rcases h1 with ⟨h1, rfl⟩ | ⟨h1, rfl⟩ <;> rcases h2 with ⟨h2, rfl⟩ | ⟨h2, rfl⟩
    · rfl
    · exact absurd h1 h2
    · exact absurd h2 h1
    · rfl
  have hev : warnOf (ascii "everything") = .bad := by decide +kernel
  have e1 : (x.lvl, x.debug) = (y.lvl, y.debug) := by
    have := (buildtype_iff _ _ _).2 hx.level
    rw [(buildtype_iff _ _ _).2 hy.level] at this
    exact (Res.ok.inj this).symm
  have e2 : x.warn = y.warn := by
    obtain ⟨a, h1, h2⟩ := hx.warn
    obtain ⟨b, h3, h4⟩ := hy.warn
    cases hs h1 h3
    generalize x.warn = p at *; generalize y.warn = q at *
    cases p with
    | none => cases q with
      | none => rfl
      | some n => cases h2; have := (warnOf_iff _ _).2 h4; rw [hev] at this; cases this
    | some n => cases q with
      | none => cases h4; have := (warnOf_iff _ _).2 h2; rw [hev] at this; cases this
      | some m =>
        have := (warnOf_iff _ _).2 h2
        rw [(warnOf_iff _ _).2 h4] at this
        rw [Res.ok.inj this]
  have e3 := hb hx.werror hy.werror
  have e4 : x.std = y.std := by
    cases ho : Option? l "std" with
    | none => rw [hx.std.2 ho, hy.std.2 ho]
    | some n =>
      obtain ⟨a, h1, h2⟩ := hx.std.1 n ho
      obtain ⟨b, h3, h4⟩ := hy.std.1 n ho
      cases hs h1 h3
      exact hun h2 h4
  have e5 : x.pgo = y.pgo := by
    have := (pgo_iff _ _).2 hx.pgo
    rw [(pgo_iff _ _).2 hy.pgo] at this
    exact (Res.ok.inj this).symm
  have e6 : x.sanitize = y.sanitize := by
    obtain ⟨a, h1, h2⟩ := hx.sanitize
    obtain ⟨b, h3, h4⟩ := hy.sanitize
    cases hs h1 h3
    exact hun h2 h4
  have e7 : x.ndebug = y.ndebug := by
    have := (ndebug_iff _ _).2 hx.ndebug
    rw [(ndebug_iff _ _).2 hy.ndebug] at this
    exact (Res.ok.inj this).symm
  have e8 : x.color = y.color := by
    obtain ⟨a, h1, h2⟩ := hx.color
    obtain ⟨b, h3, h4⟩ := hy.color
    cases hs h1 h3
    exact hun h2 h4
  have e9 := hb hx.lto hy.lto
  have e10 : x.args = y.args := by
    have := (optionArgs_iff _ _ _).2 hx.args
    rw [(optionArgs_iff _ _ _).2 hy.args] at this
    exact (Res.ok.inj this).symm
  cases x; cases y
  simp only [Prod.mk.injEq] at e1
  simp only at e2 e3 e4 e5 e6 e7 e8 e9 e10
  simp [e1, e2, e3, e4, e5, e6, e7, e8, e9, e10]

end Muon.Cmdline
