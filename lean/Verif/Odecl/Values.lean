import Verif.Odecl.Props
/-
C107: options given in build files.
-/
namespace Muon.Odecl
open Muon Muon.Opt Muon.Opt.Spec Muon.Odecl.Spec

/-- What holds of the options at all times. -/
def Sound (w : W) : Prop := Distinct w.opts ∧ ∀ o ∈ w.opts, Plain o ∧ Valid o o.val

/-- Giving text to an option. -/
theorem set_text (ev : Bytes → Option OV) (hev : ∀ s, ev s ≠ some .disabler) (proj : Option Bytes) (f : Nat) (w : W) (i : Nat) (o : Opt) (s : Bytes) (src : Nat)
    (ho : w.opts[i]? = some o) (hp : Plain o) (hv : Valid o o.val) :
    (∃ o', Fits ev s src o ∧ Becomes ev s src o o' ∧ setOption ev proj (f + 1) w i (.str s) src true = .ok (true, w.upd i fun _ => o')) ∨
    (¬ Fits ev s src o ∧ ∃ w', setOption ev proj (f + 1) w i (.str s) src true = .ok (false, w')) := by
  by_cases hs : o.source > src
  · left
    refine ⟨o, .inl hs, .inl ⟨hs, rfl⟩, ?_⟩
    unfold setOption
    rw [ho]
    dsimp only
    rw [if_pos hs]
    have : w.upd i (fun _ => o) = w := by
      unfold W.upd
      have : w.opts.modify i (fun _ => o) = w.opts := by
        apply List.ext_getElem?
        intro j
        rw [List.getElem?_modify]
        by_cases hj : i = j
        · subst hj; rw [ho]; simp
        · simp [hj]
      rw [this]
    rw [this]
  · have hdep : ∀ n, o.dep ≠ some (.rename n) := by
      intro n h
      rcases hp with hp | hp <;> rw [hp] at h <;> cases h
    have hcw : ∀ early, coerceWith o early s = .ok (coerceTy o.ty early s) := by
      intro early
      unfold coerceWith
      rcases hp with hp | hp <;> rw [hp]
    have hset : setOption ev proj (f + 1) w i (.str s) src true = match coerceTy o.ty (if o.ty = .array then coerceArray ev s else none) s with
        | some v => store (w.upd i fun o => { o with source := src }) i o v
        | none => .ok (false, w.upd i fun o => { o with source := src }) := by
      rw [setOption, ho]
      dsimp only
      rw [if_neg hs, if_pos rfl]
      by_cases he : o.ty = .array ∧ (if o.ty = .array then coerceArray ev s else none) = none
      · rw [if_pos he]
        have : coerceTy o.ty (if o.ty = .array then coerceArray ev s else none) s = none := by
          rw [he.2, he.1]; rfl
        rw [this]
      · rw [if_neg he, renameTo_none _ _ _ _ _ hdep, Res.ok_bind, hcw, Res.ok_bind]
        cases coerceTy o.ty (if o.ty = .array then coerceArray ev s else none) s <;> rfl
    have hnf : ¬ (∃ v, Text ev o.ty s v ∧ Valid o v) → ¬ Fits ev s src o := by
      rintro h (h' | h')
      · exact hs h'
      · exact h h'
    rw [hset]
    cases hc : coerceTy o.ty (if o.ty = .array then coerceArray ev s else none) s with
    | none =>
      right
      refine ⟨hnf ?_, _, rfl⟩
      rintro ⟨v, h, _⟩
      rw [(coerce_text ev o s v).2 h] at hc
      cases hc
    | some v =>
      have ht := (coerce_text ev o s v).1 hc
      have hun : ∀ v', Text ev o.ty s v' → v' = v := by
        intro v' h
        rw [← coerce_text, hc] at h
        cases h
        rfl
      have hnd : v ≠ .disabler := by
        intro hd
        rw [hd] at ht
        cases hty : o.ty <;> rw [hty] at ht <;> simp only [Text, reduceCtorEq, and_false, or_false, exists_false, false_or] at ht
        exact hev s ht.2
      have hr : ∀ v', Reads o.ty v v' → v' = v := by
        rintro v' (h | ⟨hty, h⟩)
        · exact h
        · rw [hty] at ht
          rcases ht with ⟨_, rfl⟩ | ⟨_, rfl⟩ | ⟨_, rfl⟩ <;> simp at h
      dsimp only
      unfold store
      rcases check_cases o v (Valid.not_disabler hv).2.2 hnd with ⟨v', h1, h2, h3, h4⟩ | ⟨h1, h2⟩
      · have := hr v' h1
        subst this
        left
        refine ⟨{ o with val := v', source := src }, .inr ⟨v', ht, h2⟩, .inr ⟨by omega, v', ht, h2, rfl⟩, ?_⟩
        rw [h3]
        dsimp only
        rw [h4, Res.ok_bind, if_pos rfl]
        unfold W.upd
        dsimp only
        have : (w.opts.modify i fun o => { o with source := src }).modify i (fun o => { o with val := v' }) = w.opts.modify i fun _ => { o with val := v', source := src } := by
          apply List.ext_getElem?
          intro j
          rw [List.modify_modify_eq, List.getElem?_modify, List.getElem?_modify]
          by_cases hj : i = j
          · subst hj; rw [ho]; simp
          · simp [hj]
        rw [this]
      · right
        refine ⟨hnf ?_, ?_⟩
        · rintro ⟨v', h, h'⟩
          rw [hun v' h] at h'
          exact h1 v (.inl rfl) h'
        · rcases h2 with h2 | ⟨v', h2, h3⟩
          · rw [h2]; exact ⟨_, rfl⟩
          · rw [h2]
            dsimp only
            rw [h3]
            exact ⟨_, rfl⟩

theorem find_pos (l : List Opt) (hl : Distinct l) (name : Bytes) (i : Nat) : find l name = some i ↔ ∃ o, l[i]? = some o ∧ o.name = name := by
  induction l generalizing i with
  | nil => simp [find]
  | cons a l ih =>
    unfold Distinct at hl
    rw [List.map_cons, List.nodup_cons] at hl
    unfold find at ih ⊢
    rw [List.findIdx?_cons]
    by_cases h : a.name = name
    · rw [if_pos (by simp [h])]
      constructor
      · intro e; cases e; exact ⟨a, rfl, h⟩
      · rintro ⟨o, ho, hn⟩
        cases i with
        | zero => rfl
        | succ i =>
          rw [List.getElem?_cons_succ] at ho
          exact absurd (List.mem_map.2 ⟨o, List.mem_of_getElem? ho, by rw [hn, h]⟩) hl.1
    · rw [if_neg (by simp [h])]
      cases i with
      | zero => simp [h]
      | succ i =>
        rw [List.getElem?_cons_succ, ← ih hl.2 i]
        simp

theorem Becomes.same {ev : Bytes → Option OV} {s : Bytes} {src : Nat} {o o' : Opt} (h : Becomes ev s src o o') (hv : Valid o o.val) : Same o o' ∧ Valid o' o'.val ∧ (o.source ≤ src → o'.source = src) ∧ (o.source > src → o' = o) := by
  rcases h with ⟨h, rfl⟩ | ⟨h, v, h1, h2, rfl⟩
  · exact ⟨Same.refl _, hv, fun h' => by omega, fun _ => rfl⟩
  · exact ⟨⟨rfl, rfl, rfl, rfl, rfl, rfl⟩, Valid.same (o := o) ⟨rfl, rfl, rfl, rfl, rfl, rfl⟩ h2, fun _ => rfl, fun h' => by omega⟩

theorem sound_upd {w : W} (hw : Sound w) (i : Nat) (o o' : Opt) (ho : w.opts[i]? = some o) (hs : Same o o') (hv : Valid o' o'.val) : Sound (w.upd i fun _ => o') := by
  refine ⟨?_, ?_⟩
  · have : (w.upd i fun _ => o').opts.map (·.name) = w.opts.map (·.name) := by
      apply List.ext_getElem?
      intro j
      rw [List.getElem?_map, List.getElem?_map, upd_get]
      by_cases hj : i = j
      · subst hj; rw [ho]; simp [hs.1]
      · simp [hj]
    unfold Distinct
    rw [this]
    exact hw.1
  · intro x hx
    obtain ⟨j, hj⟩ := List.getElem?_of_mem hx
    rw [upd_get] at hj
    by_cases hij : i = j
    · subst hij
      rw [if_pos rfl, ho] at hj
      cases hj
      have := (hw.2 o (List.mem_of_getElem? ho)).1
      refine ⟨?_, hv⟩
      unfold Plain at this ⊢
      rw [hs.2.2.2.2.2]
      exact this
    · rw [if_neg hij] at hj
      exact hw.2 x (List.mem_of_getElem? hj)

/-- The text of an entry is read as it was meant. -/
theorem parse_text {e : Entry} (h : GoodEntry e) : parseConfig (text e) = some e := config_roundtrip e.1 e.2.1 e.2.2 h.1 h.2.1 h.2.2

/-- `default_options` of `project()`: it succeeds exactly if every name without a subproject is known and can be given the value. The
last value given to an option is what it gets, unless something of higher precedence was given to it; other options do not
change; what is for a subproject is kept for later. -/
theorem default_options (ev : Bytes → Option OV) (hev : ∀ s, ev s ≠ some .disabler) (proj pname : Option Bytes) (f : Nat) (l : List Entry) :
    ∀ (w : W), Sound w → (∀ e ∈ l, GoodEntry e) →
    ∃ b w', defaultAll ev proj (f + 1) pname false (l.map text) w = .ok (b, w') ∧
      (b = true ↔ ∀ e ∈ l, e.1 = none → ∃ o ∈ w.opts, o.name = e.2.1 ∧ Fits ev e.2.2 srcDefaultOptions o) ∧
      (b = true → Sound w' ∧ w'.opts.length = w.opts.length ∧
        w'.overrides = w.overrides ++ ((l.filter fun e => e.1.isSome).map fun e => ⟨e.1, e.2.1, e.2.2, srcSubprojectDefaultOptions⟩) ∧
        ∀ (i : Nat) (o : Opt), w.opts[i]? = some o →
          ((∀ e ∈ l, e.1 = none → e.2.1 ≠ o.name) → w'.opts[i]? = some o) ∧
          (∀ pre v post, l = pre ++ (none, o.name, v) :: post → (∀ e ∈ post, e.1 = none → e.2.1 ≠ o.name) →
            ∃ o', w'.opts[i]? = some o' ∧ Becomes ev v srcDefaultOptions o o')) := by
  induction l with
  | nil =>
    intro w hw _
    exact ⟨true, w, rfl, by simp, fun _ => ⟨hw, rfl, by simp, fun i o ho => ⟨fun _ => ho, fun pre v post h => by cases pre <;> cases h⟩⟩⟩
  | cons e l ih =>
    intro w hw hl
    obtain ⟨sub, k, v⟩ := e
    have hg := hl _ (List.mem_cons_self ..)
    have hl' : ∀ e ∈ l, GoodEntry e := fun e he => hl e (by simp [he])
    cases sub with
    | some p =>
      obtain ⟨b, w', h1, h2, h3⟩ := ih { w with overrides := w.overrides ++ [⟨some p, k, v, srcSubprojectDefaultOptions⟩] } hw hl'
      refine ⟨b, w', ?_, ?_, ?_⟩
      · rw [List.map_cons, defaultAll, defaultOne, parse_text hg]
        exact h1
      · rw [h2]
        simp
      · intro hb
        obtain ⟨g1, g2, g3, g4⟩ := h3 hb
        refine ⟨g1, g2, by rw [g3]; simp, fun i o ho => ⟨fun hno => ?_, fun pre v' post he hpost => ?_⟩⟩
        · exact (g4 i o ho).1 (fun e he => hno e (by simp [he]))
        · cases pre with
          | nil => cases he
          | cons a pre =>
            rw [List.cons_append, List.cons.injEq] at he
            exact (g4 i o ho).2 pre v' post he.2 hpost
    | none =>
      have hone : defaultOne ev proj (f + 1) pname false w (text (none, k, v)) = match find w.opts k with
          | some i => setOption ev proj (f + 1) w i (.str v) srcDefaultOptions true
          | none => .ok (false, w) := by
        rw [defaultOne, parse_text hg]
        rfl
      cases hf : find w.opts k with
      | none =>
        refine ⟨false, w, by rw [List.map_cons, defaultAll, hone, hf]; rfl, ?_, fun h => by cases h⟩
        constructor
        · intro h; cases h
        · intro h
          obtain ⟨o, ho, hn, _⟩ := h (none, k, v) (by simp) rfl
          exact absurd hn ((find_none w.opts k).1 (by rw [hf]; rfl) o ho)
      | some i =>
        rw [hf] at hone
        dsimp only at hone
        obtain ⟨o, ho, hn⟩ := (find_pos w.opts hw.1 k i).1 hf
        have hmem := List.mem_of_getElem? ho
        have hpos : ∀ j x, w.opts[j]? = some x → x.name = k → j = i := by
          intro j x hj hx
          have := (find_pos w.opts hw.1 k j).2 ⟨x, hj, hx⟩
          rw [hf] at this
          cases this
          rfl
        rcases set_text ev hev proj f w i o v srcDefaultOptions ho (hw.2 o hmem).1 (hw.2 o hmem).2 with ⟨o', hfit, hbec, hset⟩ | ⟨hnf, w', hset⟩
        · have hsame := Becomes.same hbec (hw.2 o hmem).2
          have hw2 := sound_upd hw i o o' ho hsame.1 hsame.2.1
          obtain ⟨b, w', h1, h2, h3⟩ := ih (w.upd i fun _ => o') hw2 hl'
          have hi' : (w.upd i fun _ => o').opts[i]? = some o' := by rw [upd_get, if_pos rfl, ho]; rfl
          have hj' : ∀ j, j ≠ i → (w.upd i fun _ => o').opts[j]? = w.opts[j]? := fun j hj => by rw [upd_get, if_neg (Ne.symm hj)]
          have hso : o'.source > srcDefaultOptions ↔ o.source > srcDefaultOptions := by
            by_cases h : o.source > srcDefaultOptions
            · rw [hsame.2.2.2 h]
            · have := hsame.2.2.1 (by omega)
              omega
          have hfits : ∀ s, Fits ev s srcDefaultOptions o' ↔ Fits ev s srcDefaultOptions o := by
            intro s
            unfold Fits
            rw [hso, hsame.1.2.1]
            constructor
            · rintro (h | ⟨v, a, b⟩)
              · exact .inl h
              · exact .inr ⟨v, a, Valid.same (o := o') ⟨hsame.1.1.symm, hsame.1.2.1.symm, hsame.1.2.2.1.symm, hsame.1.2.2.2.1.symm, hsame.1.2.2.2.2.1.symm, hsame.1.2.2.2.2.2.symm⟩ b⟩
            · rintro (h | ⟨v, a, b⟩)
              · exact .inl h
              · exact .inr ⟨v, a, Valid.same hsame.1 b⟩
          refine ⟨b, w', by rw [List.map_cons, defaultAll, hone, hset]; exact h1, ?_, ?_⟩
          · rw [h2]
            have hex : ∀ n s, (∃ x ∈ (w.upd i fun _ => o').opts, x.name = n ∧ Fits ev s srcDefaultOptions x) ↔ ∃ x ∈ w.opts, x.name = n ∧ Fits ev s srcDefaultOptions x := by
              intro n s
              constructor
              · rintro ⟨x, hx, a, b⟩
                obtain ⟨j, hj⟩ := List.getElem?_of_mem hx
                by_cases hji : j = i
                · subst hji
                  rw [hi'] at hj
                  cases hj
                  exact ⟨o, hmem, by rw [← a, hsame.1.1], (hfits s).1 b⟩
                · rw [hj' j hji] at hj
                  exact ⟨x, List.mem_of_getElem? hj, a, b⟩
              · rintro ⟨x, hx, a, b⟩
                obtain ⟨j, hj⟩ := List.getElem?_of_mem hx
                by_cases hji : j = i
                · subst hji
                  rw [ho] at hj
                  cases hj
                  exact ⟨o', List.mem_of_getElem? hi', by rw [← a, hsame.1.1], (hfits s).2 b⟩
                · rw [← hj' j hji] at hj
                  exact ⟨x, List.mem_of_getElem? hj, a, b⟩
            constructor
            · intro h e he hs
              rcases List.mem_cons.1 he with rfl | he
              · exact ⟨o, hmem, hn, hfit⟩
              · exact (hex _ _).1 (h e he hs)
            · intro h e he hs
              exact (hex _ _).2 (h e (by simp [he]) hs)
          · intro hb
            obtain ⟨g1, g2, g3, g4⟩ := h3 hb
            refine ⟨g1, by rw [g2]; simp [W.upd], by rw [g3]; simp [W.upd], fun j x hx => ⟨fun hno => ?_, fun pre v' post he hpost => ?_⟩⟩
            · have hji : j ≠ i := by
                rintro rfl
                rw [ho] at hx
                cases hx
                exact hno (none, k, v) (by simp) rfl hn.symm
              exact (g4 j x (by rw [hj' j hji]; exact hx)).1 (fun e he => hno e (by simp [he]))
            · cases pre with
              | nil =>
                rw [List.nil_append, List.cons.injEq] at he
                obtain ⟨he1, rfl⟩ := he
                simp only [Prod.mk.injEq, true_and] at he1
                obtain ⟨rfl, rfl⟩ := he1
                have := hpos j x hx rfl
                subst this
                rw [ho] at hx
                cases hx
                exact ⟨o', (g4 j o' hi').1 (fun e he hs => by rw [hsame.1.1]; exact hpost e he hs), hbec⟩
              | cons a pre =>
                rw [List.cons_append, List.cons.injEq] at he
                by_cases hji : j = i
                · subst hji
                  rw [ho] at hx
                  cases hx
                  obtain ⟨o2, q1, q2⟩ := (g4 j o' hi').2 pre v' post (by rw [hsame.1.1]; exact he.2) (by rw [hsame.1.1]; exact hpost)
                  refine ⟨o2, q1, ?_⟩
                  rcases q2 with ⟨q2, rfl⟩ | ⟨q2, y, q3, q4, rfl⟩
                  · have := hso.1 q2
                    exact .inl ⟨this, hsame.2.2.2 this⟩
                  · refine .inr ⟨?_, y, by rw [← hsame.1.2.1]; exact q3, Valid.same (o := o') ⟨hsame.1.1.symm, hsame.1.2.1.symm, hsame.1.2.2.1.symm, hsame.1.2.2.2.1.symm, hsame.1.2.2.2.2.1.symm, hsame.1.2.2.2.2.2.symm⟩ q4, ?_⟩
                    · have := mt hso.2
                      omega
                    · obtain ⟨s1, s2, s3, s4, s5, s6⟩ := hsame.1
                      cases o
                      cases o'
                      simp only at s1 s2 s3 s4 s5 s6
                      simp [s1, s2, s3, s4, s5, s6]
                · exact (g4 j x (by rw [hj' j hji]; exact hx)).2 pre v' post he.2 hpost
        · refine ⟨false, w', by rw [List.map_cons, defaultAll, hone, hset]; rfl, ?_, fun h => by cases h⟩
          constructor
          · intro h; cases h
          · intro h
            obtain ⟨x, hx, hxn, hfit⟩ := h (none, k, v) (by simp) rfl
            obtain ⟨j, hj⟩ := List.getElem?_of_mem hx
            have := hpos j x hj hxn
            subst this
            rw [ho] at hj
            cases hj
            exact absurd hfit hnf

/-- `default_options` of `subproject()` and `dependency()`: all are kept for the subproject, and no option changes yet. -/
theorem default_options_later (ev : Bytes → Option OV) (proj pname : Option Bytes) (f : Nat) (l : List Entry) : ∀ (w : W), (∀ e ∈ l, GoodEntry e) →
    defaultAll ev proj f pname true (l.map text) w = .ok (true, { w with overrides := w.overrides ++ l.map fun e => ⟨if e.1.isSome then e.1 else pname, e.2.1, e.2.2, srcSubprojectDefaultOptions⟩ }) := by
  induction l with
  | nil => intro w _; simp [defaultAll]
  | cons e l ih =>
    intro w hl
    rw [List.map_cons, defaultAll, defaultOne, parse_text (hl e (by simp))]
    dsimp only
    rw [if_pos (by simp), Res.ok_bind]
    dsimp only
    rw [if_pos rfl, ih _ (fun e he => hl e (by simp [he]))]
    simp

/-- Anything else than `name=value` and `subproject:name=value` is an error. -/
theorem default_options_text (ev : Bytes → Option OV) (proj pname : Option Bytes) (f : Nat) (forSub : Bool) (l : List Bytes) : ∀ (w w' : W),
    defaultAll ev proj f pname forSub l w = .ok (true, w') → ∀ s ∈ l, ∃ sub key val, parseConfig s = some (sub, key, val) ∧ s = written sub key val := by
  induction l with
  | nil => intro w w' _ s hs; cases hs
  | cons s l ih =>
    intro w w' h
    rw [defaultAll, Res.bind_eq_ok] at h
    obtain ⟨⟨b, w1⟩, h1, h2⟩ := h
    dsimp only at h2
    cases b with
    | false => cases h2
    | true =>
      rw [if_pos rfl] at h2
      intro x hx
      rcases List.mem_cons.1 hx with rfl | hx
      · unfold defaultOne at h1
        cases hp : parseConfig x with
        | none => rw [hp] at h1; cases h1
        | some r =>
          obtain ⟨sub, key, val⟩ := r
          exact ⟨sub, key, val, rfl, (config_only x sub key val hp).1⟩
      · exact ih w1 w' h2 x hx

/-- A subproject can change options of the whole build with its own `default_options`. -/
theorem subproject_global_counterexample :
    defaultAll (fun _ => none) (some (ascii "sub")) 1 (some (ascii "sub")) false [ascii "buildtype=release"]
      ⟨[⟨ascii "buildtype", .string, .str (ascii "debug"), none, none, none, 1, none⟩], []⟩ =
    .ok (true, ⟨[⟨ascii "buildtype", .string, .str (ascii "release"), none, none, none, 4, none⟩], []⟩) := by decide +kernel

end Muon.Odecl
