import Verif.Odecl.Lemmas
import Verif.Install.RunSub
/-
C107: Declared options.
-/
namespace Muon.Odecl
open Muon Muon.Opt Muon.Opt.Spec Muon.Odecl.Spec

/-! ### Declarations -/

/-- A declaration either makes an option as described or changes nothing. -/
theorem declare_cases (ev : Bytes → Option OV) (proj : Option Bytes) (f : Nat) (inProject : Bool) (w : W) (name : Bytes) (d : Decl) (hd : d.value ≠ some .disabler) :
    (∃ o, Declares inProject w.opts name d o ∧ funcOption ev proj (f + 1) inProject w name d = .ok (true, { w with opts := w.opts ++ [o] })) ∨
    (funcOption ev proj (f + 1) inProject w name d = .ok (false, w) ∧ ¬ ∃ o, Declares inProject w.opts name d o) := by
  unfold funcOption
  cases ht : d.type with
  | none => exact .inr ⟨rfl, fun ⟨o, t, _, _, _, h, _⟩ => by rw [ht] at h; cases h⟩
  | some t =>
    dsimp only
    cases hty : typeOf t with
    | none =>
      refine .inr ⟨rfl, fun ⟨o, t', ty, _, _, h, h', _⟩ => ?_⟩
      rw [ht] at h
      cases h
      rw [(typeOf_iff _ _).2 h'] at hty
      cases hty
    | some ty =>
      dsimp only
      have hun : ∀ t' ty', d.type = some t' → (t', ty') ∈ types → ty' = ty := by
        intro t' ty' h h'
        rw [ht] at h
        cases h
        have := (typeOf_iff _ _).2 h'
        rw [hty] at this
        cases this
        rfl
      by_cases hk : kwLoop d ty [.type, .value, .choices, .max, .min, .yld, .dep] = true
      · rw [if_neg (by simp [hk])]
        have hall := (kwLoop_iff d ty (by simp [ht])).1 hk
        -- the value
        have hmain : ∀ v, v ≠ .disabler → (∀ v1, (d.value = some v1 ∨ d.value = none ∧ Default ty d.choices v1) → v1 = v) →
            ((d.value = some v ∨ d.value = none ∧ Default ty d.choices v) ∨ ∀ v', Reads ty v v' → ¬ Valid (newOption name d ty) v') →
            (∃ o, Declares inProject w.opts name d o ∧ (if (inProject && !nameOk name) = true then Res.ok (false, w) else createOption ev proj (f + 1) w (newOption name d ty) v) = .ok (true, { w with opts := w.opts ++ [o] })) ∨
            ((if (inProject && !nameOk name) = true then Res.ok (false, w) else createOption ev proj (f + 1) w (newOption name d ty) v) = .ok (false, w) ∧ ¬ ∃ o, Declares inProject w.opts name d o) := by
          intro v hvd huniq hgood
          by_cases hn : (inProject && !nameOk name) = true
          · rw [if_pos hn]
            refine .inr ⟨rfl, ?_⟩
            rintro ⟨o, _, _, _, _, _, _, _, _, _, _, _, h, _⟩
            simp only [Bool.and_eq_true, Bool.not_eq_true'] at hn
            rw [(nameOk_iff _).2 (h hn.1)] at hn
            cases hn.2
          · rw [if_neg hn]
            have hn' : inProject = true → ∀ c ∈ name, c ∈ nameChars := by
              intro hi
              rw [← nameOk_iff]
              simpa [hi] using hn
            rcases create_cases ev proj f w (newOption name d ty) v rfl (fun h => hall.2.2.2 h) hvd with ⟨v', h1, h2, h3, h4, h5, h6⟩ | ⟨h1, h2⟩
            · rcases hgood with hgood | hgood
              · exact .inl ⟨_, ⟨t, ty, v, v', ht, (typeOf_iff _ _).1 hty, hall, hgood, h1, rfl, Valid.same (o := newOption name d ty) ⟨rfl, rfl, rfl, rfl, rfl, rfl⟩ h2, hn', h3, h4, h5⟩, h6⟩
              · exact absurd h2 (hgood v' h1)
            · refine .inr ⟨h1, ?_⟩
              rintro ⟨o, t', ty', v1, v1', g1, g2, g3, g4, g5, g6, g7, g8, g9, g10, g11⟩
              have := hun t' ty' g1 g2
              subst this
              have := huniq v1 g4
              subst this
              exact h2 ⟨v1', g5, by rw [g6] at g7; exact Valid.same (o' := newOption name d ty') ⟨rfl, rfl, rfl, rfl, rfl, rfl⟩ g7, g9, g10, g11⟩
        have hval : ∀ v, firstValue d ty = .ok (some v) → (∀ v1, (d.value = some v1 ∨ d.value = none ∧ Default ty d.choices v1) → v1 = v) →
            v ≠ .disabler → ((d.value = some v ∨ d.value = none ∧ Default ty d.choices v) ∨ ∀ v', Reads ty v v' → ¬ Valid (newOption name d ty) v') →
            (∃ o, Declares inProject w.opts name d o ∧ (firstValue d ty >>= withValue ev proj (f + 1) inProject w name d ty) = .ok (true, { w with opts := w.opts ++ [o] })) ∨
            ((firstValue d ty >>= withValue ev proj (f + 1) inProject w name d ty) = .ok (false, w) ∧ ¬ ∃ o, Declares inProject w.opts name d o) := fun v hf hu hv hg => by
          have := hmain v hv hu hg
          rw [hf]
          exact this
        unfold firstValue at hval
        unfold firstValue
        cases hv : d.value with
        | some v =>
          rw [hv] at hval
          exact hval v rfl (by rintro v1 (h | ⟨h, _⟩) <;> cases h; rfl) (fun h => hd (by rw [hv, h])) (.inl (.inl rfl))
        | none =>
          rw [hv] at hval
          dsimp only at hval ⊢
          have hdef : ∀ {v}, Default ty d.choices v → d.value = none := fun _ => hv
          cases hT : ty with
          | string =>
            subst hT
            exact hval (.str []) rfl (by rintro v1 (h | ⟨_, h⟩) <;> cases h; rfl) (by simp) (.inl (.inr ⟨rfl, rfl⟩))
          | boolean =>
            subst hT
            exact hval (.bool true) rfl (by rintro v1 (h | ⟨_, h⟩) <;> cases h; rfl) (by simp) (.inl (.inr ⟨rfl, rfl⟩))
          | feature =>
            subst hT
            exact hval (.feature 0) rfl (by rintro v1 (h | ⟨_, h⟩) <;> cases h; rfl) (by simp) (.inl (.inr ⟨rfl, rfl⟩))
          | integer => subst hT; exact absurd hv (hall.2.1 rfl)
          | array =>
            subst hT
            cases hc : d.choices with
            | none =>
              rw [hc] at hval
              refine hval (.arr []) rfl ?_ (by simp) (.inl (.inr ⟨rfl, .inr ⟨rfl, rfl⟩⟩))
              rintro v1 (h | ⟨_, ⟨l, h, _⟩ | ⟨_, h⟩⟩)
              · cases h
              · cases h
              · exact h
            | some l =>
              rw [hc] at hval
              refine hval (.arr l) rfl ?_ (by simp) (.inl (.inr ⟨rfl, .inl ⟨l, rfl, rfl⟩⟩))
              rintro v1 (h | ⟨_, ⟨l, h, h'⟩ | ⟨h, _⟩⟩)
              · cases h
              · cases h; exact h'
              · cases h
          | combo =>
            subst hT
            cases hc : d.choices with
            | none => exact absurd hc (hall.2.2.2 rfl)
            | some l =>
              rw [hc] at hval
              cases l with
              | nil =>
                refine .inr ⟨rfl, ?_⟩
                rintro ⟨o, t', ty', v1, v1', g1, g2, g3, g4, _⟩
                have := hun t' ty' g1 g2
                subst this
                rcases g4 with g4 | ⟨_, s, l, h, _⟩
                · rw [hv] at g4; cases g4
                · rw [hc] at h; cases h
              | cons e l =>
                cases e with
                | s b =>
                  refine hval (.str b) rfl ?_ (by simp) (.inl (.inr ⟨rfl, b, l, rfl, rfl⟩))
                  rintro v1 (h | ⟨_, s, l', h, h'⟩)
                  · cases h
                  · cases h; exact h'
                | o n =>
                  refine hval .other rfl ?_ (by simp) (.inr ?_)
                  · rintro v1 (h | ⟨_, s, l', h, h'⟩)
                    · cases h
                    · cases h
                  · rintro v' (rfl | ⟨h, _⟩) hx
                    · exact hx
                    · cases h
      · rw [if_pos (by simpa using hk)]
        refine .inr ⟨rfl, ?_⟩
        rintro ⟨o, t', ty', v1, v1', g1, g2, g3, _⟩
        have := hun t' ty' g1 g2
        subst this
        exact hk ((kwLoop_iff d _ (by simp [ht])).2 g3)

/-- An option is made exactly if its declaration is correct, and it is the one described. -/
theorem option_iff (ev : Bytes → Option OV) (proj : Option Bytes) (f : Nat) (inProject : Bool) (w w' : W) (name : Bytes) (d : Decl) (hd : d.value ≠ some .disabler) :
    funcOption ev proj (f + 1) inProject w name d = .ok (true, w') ↔ ∃ o, Declares inProject w.opts name d o ∧ w' = { w with opts := w.opts ++ [o] } := by
  have huniq : ∀ o o', Declares inProject w.opts name d o → Declares inProject w.opts name d o' → o' = o := by
    rintro o o' ⟨t, ty, v, v1, a1, a2, a3, a4, a5, a6, a7, _⟩ ⟨t', ty', v', v1', b1, b2, b3, b4, b5, b6, b7, _⟩
    rw [a1] at b1
    cases b1
    have e1 := (typeOf_iff _ _).2 a2
    have e2 := (typeOf_iff _ _).2 b2
    rw [e1] at e2
    cases e2
    have hv : v' = v := by
      rcases a4 with a4 | ⟨a4, a5⟩
      · rcases b4 with b4 | ⟨b4, _⟩
        · rw [a4] at b4; cases b4; rfl
        · rw [a4] at b4; cases b4
      · rcases b4 with b4 | ⟨_, b5⟩
        · rw [a4] at b4; cases b4
        · cases ty with
          | string => exact (b5 : v' = _).trans (a5 : v = _).symm
          | boolean => exact (b5 : v' = _).trans (a5 : v = _).symm
          | feature => exact (b5 : v' = _).trans (a5 : v = _).symm
          | integer => cases a5
          | combo =>
            obtain ⟨s, l, h, rfl⟩ := a5
            obtain ⟨s', l', h', rfl⟩ := b5
            rw [h] at h'
            cases h'
            rfl
          | array =>
            rcases a5 with ⟨l, h, rfl⟩ | ⟨h, rfl⟩ <;> rcases b5 with ⟨l', h', rfl⟩ | ⟨h', rfl⟩ <;> rw [h] at h' <;> cases h' <;> rfl
    subst hv
    subst a6 b6
    have := check_unique (o := ⟨name, ty, v1, d.choices, d.min, d.max, srcDefault, d.dep⟩) a5 b5 a7
      (Valid.same (o := ⟨name, ty, v1', d.choices, d.min, d.max, srcDefault, d.dep⟩) ⟨rfl, rfl, rfl, rfl, rfl, rfl⟩ b7)
    rw [this]
  rcases declare_cases ev proj f inProject w name d hd with ⟨o, h1, h2⟩ | ⟨h1, h2⟩
  · rw [h2]
    constructor
    · intro h; cases h; exact ⟨o, h1, rfl⟩
    · rintro ⟨o', h3, rfl⟩
      rw [huniq o o' h1 h3]
  · rw [h1]
    constructor
    · intro h; cases h
    · rintro ⟨o', h3, _⟩; exact absurd ⟨o', h3⟩ h2

/-- Declarations never crash, and one that is refused changes nothing. -/
theorem option_total (ev : Bytes → Option OV) (proj : Option Bytes) (f : Nat) (inProject : Bool) (w : W) (name : Bytes) (d : Decl) (hd : d.value ≠ some .disabler) :
    ∃ b w', funcOption ev proj (f + 1) inProject w name d = .ok (b, w') ∧ (b = false → w' = w) := by
  rcases declare_cases ev proj f inProject w name d hd with ⟨o, _, h⟩ | ⟨h, _⟩
  · exact ⟨_, _, h, fun h => by cases h⟩
  · exact ⟨_, _, h, fun _ => rfl⟩

example : Declares true [] (ascii "level") { type := some (ascii "integer"), value := some (.int 3), max := some 5 }
    ⟨ascii "level", .integer, .int 3, none, none, some 5, srcDefault, none⟩ :=
  ⟨ascii "integer", .integer, .int 3, .int 3, rfl, by decide +kernel, ⟨fun h => absurd rfl h, fun _ => by decide +kernel, fun _ _ => rfl, fun h => by cases h⟩, .inl rfl, .inl rfl, rfl,
    ⟨by decide +kernel, by decide +kernel⟩, fun _ => by decide +kernel, by decide +kernel, by decide +kernel, fun _ h => by cases h⟩

/-- The empty name is accepted. -/
theorem empty_name_counterexample : ∃ w', funcOption (fun _ => none) none 1 true ⟨[], []⟩ [] { type := some (ascii "string") } = .ok (true, w') := by
  exact ⟨_, rfl⟩

/-! ### Which option a name stands for -/

/-- A name stands for an option of the target, or else of the project, or else of every build. -/
theorem option_found (ov pr : Option (List Opt)) (gl : List Opt) (name : Bytes) (o : Opt) (h1 : ∀ l, ov = some l → Distinct l) (h2 : ∀ l, pr = some l → Distinct l) (h3 : Distinct gl) :
    getOption ov pr gl name = some o ↔ StandsFor ov pr gl name o := by
  have hb : ∀ (x : Option (List Opt)), (∀ l, x = some l → Distinct l) → ∀ o, (x.bind fun l => l.find? fun o => o.name == name) = some o ↔ (∃ l, x = some l ∧ o ∈ l) ∧ o.name = name := by
    intro x hx o
    cases x with
    | none => simp
    | some l =>
      rw [Option.bind_some, find_stands l (hx l rfl)]
      simp
  have hn : ∀ (x : Option (List Opt)), (x.bind fun l => l.find? fun o => o.name == name) = none ↔ ∀ l, x = some l → ∀ y ∈ l, y.name ≠ name := by
    intro x
    cases x with
    | none => simp
    | some l =>
      rw [Option.bind_some, find_absent]
      simp
  unfold getOption StandsFor
  cases e1 : ov.bind fun l => l.find? fun o => o.name == name with
  | some a =>
    have ha := (hb ov h1 a).1 e1
    dsimp only
    constructor
    · intro h; cases h; exact ⟨ha.2, .inl ha.1⟩
    · rintro ⟨hx, hy | ⟨hy, _⟩⟩
      · have := (hb ov h1 o).2 ⟨hy, hx⟩
        rw [← e1, this]
      · obtain ⟨⟨l, hl, hm⟩, he⟩ := ha
        exact absurd he (hy l hl a hm)
  | none =>
    have hno := (hn ov).1 e1
    dsimp only
    have hleft : (∃ l, ov = some l ∧ o ∈ l) → o.name ≠ name := fun ⟨l, hl, hm⟩ => hno l hl o hm
    cases e2 : pr.bind fun l => l.find? fun o => o.name == name with
    | some a =>
      have ha := (hb pr h2 a).1 e2
      dsimp only
      constructor
      · intro h; cases h; exact ⟨ha.2, .inr ⟨hno, .inl ha.1⟩⟩
      · rintro ⟨hx, hy | ⟨_, hy | ⟨hy, _⟩⟩⟩
        · exact absurd hx (hleft hy)
        · have := (hb pr h2 o).2 ⟨hy, hx⟩
          rw [← e2, this]
        · obtain ⟨⟨l, hl, hm⟩, he⟩ := ha
          exact absurd he (hy l hl a hm)
    | none =>
      have hno2 := (hn pr).1 e2
      dsimp only
      rw [find_stands gl h3]
      constructor
      · rintro ⟨hm, hx⟩; exact ⟨hx, .inr ⟨hno, .inr ⟨hno2, hm⟩⟩⟩
      · rintro ⟨hx, hy | ⟨_, ⟨l, hl, hm⟩ | ⟨_, hy⟩⟩⟩
        · exact absurd hx (hleft hy)
        · exact absurd hx (hno2 l hl o hm)
        · exact ⟨hy, hx⟩

/-- `get_option` gives the value of the option. -/
theorem get_option_value (proj glob : List Opt) (name : Bytes) (v : OV) (h2 : Distinct proj) (h3 : Distinct glob) :
    funcGetOption proj glob name = some v ↔ ∃ o, StandsFor none (some proj) glob name o ∧ o.val = v := by
  unfold funcGetOption
  have h := fun o => option_found none (some proj) glob name o (fun l h => by cases h) (fun l h => by cases h; exact h2) h3
  cases e : getOption none (some proj) glob name with
  | none =>
    constructor
    · intro h; cases h
    · rintro ⟨o, ho, _⟩
      rw [(h o).2 ho] at e
      cases e
  | some a =>
    dsimp only
    constructor
    · intro hh; cases hh; exact ⟨a, (h a).1 e, rfl⟩
    · rintro ⟨o, ho, rfl⟩
      rw [(h o).2 ho] at e
      cases e
      rfl

/-- A declared option has the value it was declared with, and the other options those they had. -/
theorem declared_value (proj glob : List Opt) (name : Bytes) (d : Decl) (o : Opt) (h : Declares true (proj ++ glob) name d o) (x : Bytes) :
    funcGetOption (proj ++ [o]) glob x = if x = name then some o.val else funcGetOption proj glob x := by
  obtain ⟨_, _, _, _, _, _, _, _, _, rfl, _, _, _, _, hn⟩ := h
  unfold funcGetOption getOption
  simp only [Option.bind_none, Option.bind_some, List.find?_append]
  by_cases hx : x = name
  · subst hx
    rw [if_pos rfl, (find_absent proj x).2 (fun y hy => hn y (by simp [hy]))]
    simp
  · rw [if_neg hx]
    cases hf : proj.find? fun o => o.name == x with
    | some a => simp
    | none => simp [Ne.symm hx]

example : funcGetOption [⟨ascii "a", .string, .str (ascii "x"), none, none, none, 1, none⟩] [⟨ascii "a", .string, .str (ascii "y"), none, none, none, 1, none⟩] (ascii "a") = some (.str (ascii "x")) := by
  decide +kernel

/-! ### Options that yield -/

theorem getElem?_name {w w' : W} {i : Nat} {o o' : Opt} (h1 : w.opts[i]? = some o) (h2 : w'.opts[i]? = some o') (h : w'.opts = w.opts) : o' = o := by
  rw [h, h1] at h2
  cases h2
  rfl

/-- Setting a value which is given as it is. -/
theorem set_value (ev : Bytes → Option OV) (proj : Option Bytes) (f : Nat) (w : W) (i : Nat) (o : Opt) (v : OV) (src : Nat) (ho : w.opts[i]? = some o) (hs : o.source ≤ src)
    (hc : o.ty = .combo → o.choices ≠ none) (hd : v ≠ .disabler) (hf : o.ty = .feature → ∀ s, v ≠ .str s) :
    (Valid o v ∧ setOption ev proj (f + 1) w i v src false = .ok (true, w.upd i fun o => { o with source := src, val := v })) ∨
    (¬ Valid o v ∧ setOption ev proj (f + 1) w i v src false = .ok (false, w.upd i fun o => { o with source := src })) := by
  have hset : setOption ev proj (f + 1) w i v src false = store (w.upd i fun o => { o with source := src }) i o v := by
    unfold setOption
    rw [ho]
    dsimp only
    rw [if_neg (by omega), if_neg (by simp)]
  have hr : ∀ v', Reads o.ty v v' → v' = v := by
    rintro v' (h | ⟨ht, h⟩)
    · exact h
    · rcases h with ⟨h, _⟩ | ⟨h, _⟩ | ⟨h, _⟩ <;> exact absurd h (hf ht _)
  rw [hset]
  unfold store
  rcases check_cases o v hc hd with ⟨v', h1, h2, h3, h4⟩ | ⟨h1, h2⟩
  · have := hr v' h1
    subst this
    refine .inl ⟨h2, ?_⟩
    rw [h3]
    dsimp only
    rw [h4, Res.ok_bind, if_pos rfl]
    unfold W.upd
    dsimp only
    rw [List.modify_modify_eq]
    rfl
  · refine .inr ⟨h1 v (.inl rfl), ?_⟩
    rcases h2 with h2 | ⟨v', h2, h3⟩
    · rw [h2]
    · rw [h2]
      dsimp only
      rw [h3]
      rfl

theorem Valid.not_disabler {o : Opt} (h : Valid o o.val) : o.val ≠ .disabler ∧ (o.ty = .feature → ∀ s, o.val ≠ .str s) ∧ (o.ty = .combo → o.choices ≠ none) := by
  unfold Valid at h
  refine ⟨?_, ?_, ?_⟩
  · intro hd
    rw [hd] at h
    cases ht : o.ty <;> rw [ht] at h <;> exact h
  · intro ht s hd
    rw [hd, ht] at h
    exact h
  · intro ht hn
    rw [ht] at h
    cases hv : o.val <;> rw [hv] at h <;> first | exact h | skip
    obtain ⟨cs, hc, _⟩ := h
    rw [hn] at hc
    cases hc

/-- The options of a subproject which yield get the values of the options of the same names and types of the main project, or of
every build; the others keep theirs. It fails exactly if such a value is not one for the option. -/
theorem yield_value (ev : Bytes → Option OV) (proj : Option Bytes) (f : Nat) (yields : List Bytes) (mproj glob : List Opt) (hd1 : Distinct mproj) (hd2 : Distinct glob)
    (hv1 : ∀ o ∈ mproj, Valid o o.val) (hv2 : ∀ o ∈ glob, Valid o o.val) (is : List Nat) (hn : is.Nodup) : ∀ (w : W), (∀ i ∈ is, ∃ o, w.opts[i]? = some o ∧ o.source ≤ srcYield ∧ Valid o o.val) →
    ∃ b w', yieldAll ev proj (f + 1) yields mproj glob is w = .ok (b, w') ∧
      (b = true ↔ ∀ i ∈ is, ∀ o po, w.opts[i]? = some o → YieldsTo yields mproj glob o po → Valid o po.val) ∧
      (b = true → ∀ i o, w.opts[i]? = some o →
        (∀ po, i ∈ is → YieldsTo yields mproj glob o po → w'.opts[i]? = some { o with source := srcYield, val := po.val }) ∧
        (¬ (i ∈ is ∧ ∃ po, YieldsTo yields mproj glob o po) → w'.opts[i]? = some o)) := by
  induction is with
  | nil =>
    intro w _
    exact ⟨true, w, rfl, by simp, fun _ i o ho => ⟨fun po h => by simp at h, fun _ => ho⟩⟩
  | cons i is ih =>
    intro w hw
    rw [List.nodup_cons] at hn
    obtain ⟨o, ho, hs, hv⟩ := hw i (by simp)
    have hfound := fun po => option_found none (some mproj) glob o.name po (fun l h => by cases h) (fun l h => by cases h; exact hd1) hd2
    -- going on after an option which is left alone
    have hskip : (¬ ∃ po, YieldsTo yields mproj glob o po) → yieldOne ev proj (f + 1) yields mproj glob w i = .ok (true, w) →
        ∃ b w', yieldAll ev proj (f + 1) yields mproj glob (i :: is) w = .ok (b, w') ∧
          (b = true ↔ ∀ k ∈ i :: is, ∀ o po, w.opts[k]? = some o → YieldsTo yields mproj glob o po → Valid o po.val) ∧
          (b = true → ∀ k o, w.opts[k]? = some o →
            (∀ po, k ∈ i :: is → YieldsTo yields mproj glob o po → w'.opts[k]? = some { o with source := srcYield, val := po.val }) ∧
            (¬ (k ∈ i :: is ∧ ∃ po, YieldsTo yields mproj glob o po) → w'.opts[k]? = some o)) := by
      intro hno hone
      obtain ⟨b, w', h1, h2, h3⟩ := ih hn.2 w (fun k hk => hw k (by simp [hk]))
      refine ⟨b, w', ?_, ?_, ?_⟩
      · rw [yieldAll, hone, Res.ok_bind]; exact h1
      · rw [h2]
        constructor
        · intro h k hk o' po hk' hy
          rcases List.mem_cons.1 hk with rfl | hk
          · rw [ho] at hk'; cases hk'; exact absurd ⟨po, hy⟩ hno
          · exact h k hk o' po hk' hy
        · exact fun h k hk => h k (by simp [hk])
      · intro hb k o' hk
        refine ⟨fun po hm hy => ?_, fun hnot => ?_⟩
        · rcases List.mem_cons.1 hm with rfl | hm
          · rw [ho] at hk; cases hk; exact absurd ⟨po, hy⟩ hno
          · exact (h3 hb k o' hk).1 po hm hy
        · exact (h3 hb k o' hk).2 (fun ⟨hm, hy⟩ => hnot ⟨by simp [hm], hy⟩)
    by_cases hy : o.name ∈ yields
    · cases hg : getOption none (some mproj) glob o.name with
      | none =>
        apply hskip
        · rintro ⟨po, _, hp, _⟩
          rw [(hfound po).2 hp] at hg
          cases hg
        · unfold yieldOne
          rw [ho]
          dsimp only
          rw [if_neg (by simp [hy]), hg]
      | some po =>
        have hst := (hfound po).1 hg
        have hpo : Valid po po.val := by
          obtain ⟨_, ⟨l, hl, _⟩ | ⟨_, ⟨l, hl, hm⟩ | ⟨_, hm⟩⟩⟩ := hst
          · cases hl
          · cases hl; exact hv1 po hm
          · exact hv2 po hm
        by_cases hty : po.ty = o.ty
        · have hyt : YieldsTo yields mproj glob o po := ⟨hy, hst, hty⟩
          have hone : yieldOne ev proj (f + 1) yields mproj glob w i = setOption ev proj (f + 1) w i po.val srcYield false := by
            unfold yieldOne
            rw [ho]
            dsimp only
            rw [if_neg (by simp [hy]), hg]
            dsimp only
            rw [if_neg (by simp [hty])]
          have hnd := Valid.not_disabler hpo
          rcases set_value ev proj f w i o po.val srcYield ho hs (Valid.not_disabler hv).2.2 hnd.1 (fun h => hnd.2.1 (hty.trans h)) with ⟨hval, hset⟩ | ⟨hval, hset⟩
          · obtain ⟨b, w', h1, h2, h3⟩ := ih hn.2 (w.upd i fun o => { o with source := srcYield, val := po.val }) (by
              intro k hk
              have hki : i ≠ k := fun e => hn.1 (e ▸ hk)
              rw [upd_get, if_neg hki]
              exact hw k (by simp [hk]))
            refine ⟨b, w', ?_, ?_, ?_⟩
            · rw [yieldAll, hone, hset, Res.ok_bind]; exact h1
            · rw [h2]
              constructor
              · intro h k hk o' po' hk' hy'
                rcases List.mem_cons.1 hk with rfl | hk
                · rw [ho] at hk'
                  cases hk'
                  have := (hfound po').2 hy'.2.1
                  rw [hg] at this
                  cases this
                  exact hval
                · have hki : i ≠ k := fun e => hn.1 (e ▸ hk)
                  exact h k hk o' po' (by rw [upd_get, if_neg hki]; exact hk') hy'
              · intro h k hk o' po' hk' hy'
                have hki : i ≠ k := fun e => hn.1 (e ▸ hk)
                rw [upd_get, if_neg hki] at hk'
                exact h k (by simp [hk]) o' po' hk' hy'
            · intro hb k o' hk
              by_cases hki : i = k
              · subst hki
                rw [ho] at hk
                cases hk
                have hnew : (w.upd i fun o => { o with source := srcYield, val := po.val }).opts[i]? = some { o with source := srcYield, val := po.val } := by
                  rw [upd_get, if_pos rfl, ho]; rfl
                refine ⟨fun po' _ hy' => ?_, fun hnot => absurd ⟨by simp, po, hyt⟩ hnot⟩
                have := (hfound po').2 hy'.2.1
                rw [hg] at this
                cases this
                exact (h3 hb i _ hnew).2 (fun ⟨hm, _⟩ => hn.1 hm)
              · have hk' : (w.upd i fun o => { o with source := srcYield, val := po.val }).opts[k]? = some o' := by rw [upd_get, if_neg hki]; exact hk
                refine ⟨fun po' hm hy' => ?_, fun hnot => ?_⟩
                · rcases List.mem_cons.1 hm with rfl | hm
                  · exact absurd rfl hki
                  · exact (h3 hb k o' hk').1 po' hm hy'
                · exact (h3 hb k o' hk').2 (fun ⟨hm, hy'⟩ => hnot ⟨by simp [hm], hy'⟩)
          · refine ⟨false, _, by rw [yieldAll, hone, hset, Res.ok_bind]; rfl, ?_, fun h => by cases h⟩
            constructor
            · intro h; cases h
            · intro h; exact absurd (h i (by simp) o po ho hyt) hval
        · apply hskip
          · rintro ⟨po', _, hp, ht⟩
            rw [(hfound po').2 hp] at hg
            cases hg
            exact hty ht
          · unfold yieldOne
            rw [ho]
            dsimp only
            rw [if_neg (by simp [hy]), hg]
            dsimp only
            rw [if_pos hty]
    · apply hskip
      · rintro ⟨po, h, _⟩; exact hy h
      · unfold yieldOne
        rw [ho]
        dsimp only
        rw [if_pos (by simp [hy])]

example : yieldAll (fun _ => none) (some (ascii "sub")) 1 [ascii "x"] [⟨ascii "x", .boolean, .bool false, none, none, none, 8, none⟩] [] [0]
    ⟨[⟨ascii "x", .boolean, .bool true, none, none, none, 1, none⟩], []⟩ = .ok (true, ⟨[⟨ascii "x", .boolean, .bool false, none, none, none, 3, none⟩], []⟩) := by decide +kernel

end Muon.Odecl
