import Verif.Odecl.Spec
import Verif.Opt.Text
namespace Muon.Odecl
open Muon Muon.Opt Muon.Opt.Spec Muon.Odecl.Spec

theorem typeOf_iff (t : Bytes) (ty : Ty) : typeOf t = some ty ↔ (t, ty) ∈ types := by
  have hne : ascii "boolean" ≠ ascii "string" ∧ ascii "combo" ≠ ascii "string" ∧ ascii "combo" ≠ ascii "boolean" := by decide +kernel
  unfold typeOf types
  simp only [List.mem_cons, List.not_mem_nil, or_false, Prod.mk.injEq]
  by_cases h1 : t = ascii "string"
  · subst h1
    have e : ascii "string" ≠ ascii "boolean" ∧ ascii "string" ≠ ascii "combo" ∧ ascii "string" ≠ ascii "integer" ∧ ascii "string" ≠ ascii "array" ∧ ascii "string" ≠ ascii "feature" := by decide +kernel
    simp [e, eq_comm]
  rw [if_neg h1]
  by_cases h2 : t = ascii "boolean"
  · subst h2
    have e : ascii "boolean" ≠ ascii "string" ∧ ascii "boolean" ≠ ascii "combo" ∧ ascii "boolean" ≠ ascii "integer" ∧ ascii "boolean" ≠ ascii "array" ∧ ascii "boolean" ≠ ascii "feature" := by decide +kernel
    simp [e, eq_comm]
  rw [if_neg h2]
  by_cases h3 : t = ascii "combo"
  · subst h3
    have e : ascii "combo" ≠ ascii "string" ∧ ascii "combo" ≠ ascii "boolean" ∧ ascii "combo" ≠ ascii "integer" ∧ ascii "combo" ≠ ascii "array" ∧ ascii "combo" ≠ ascii "feature" := by decide +kernel
    simp [e, eq_comm]
  rw [if_neg h3]
  by_cases h4 : t = ascii "integer"
  · subst h4
    have e : ascii "integer" ≠ ascii "string" ∧ ascii "integer" ≠ ascii "boolean" ∧ ascii "integer" ≠ ascii "combo" ∧ ascii "integer" ≠ ascii "array" ∧ ascii "integer" ≠ ascii "feature" := by decide +kernel
    simp [e, eq_comm]
  rw [if_neg h4]
  by_cases h5 : t = ascii "array"
  · subst h5
    have e : ascii "array" ≠ ascii "string" ∧ ascii "array" ≠ ascii "boolean" ∧ ascii "array" ≠ ascii "combo" ∧ ascii "array" ≠ ascii "integer" ∧ ascii "array" ≠ ascii "feature" := by decide +kernel
    simp [e, eq_comm]
  rw [if_neg h5]
  by_cases h6 : t = ascii "feature"
  · subst h6
    have e : ascii "feature" ≠ ascii "string" ∧ ascii "feature" ≠ ascii "boolean" ∧ ascii "feature" ≠ ascii "combo" ∧ ascii "feature" ≠ ascii "integer" ∧ ascii "feature" ≠ ascii "array" := by decide +kernel
    simp [e, eq_comm]
  rw [if_neg h6]
  simp [h1, h2, h3, h4, h5, h6]

theorem nameOk_iff (s : Bytes) : nameOk s = true ↔ ∀ c ∈ s, c ∈ nameChars := by
  have h : ∀ c : UInt8, ((97 ≤ c && c ≤ 122) || (65 ≤ c && c ≤ 90) || (48 ≤ c && c ≤ 57) || c == 45 || c == 95) = nameChars.contains c := by
    intro c
    have : ∀ n : Fin 256, (((97 : UInt8) ≤ UInt8.ofNat n.1 && UInt8.ofNat n.1 ≤ (122 : UInt8)) || ((65 : UInt8) ≤ UInt8.ofNat n.1 && UInt8.ofNat n.1 ≤ (90 : UInt8)) || ((48 : UInt8) ≤ UInt8.ofNat n.1 && UInt8.ofNat n.1 ≤ (57 : UInt8)) || UInt8.ofNat n.1 == 45 || UInt8.ofNat n.1 == 95) = nameChars.contains (UInt8.ofNat n.1) := by decide +kernel
    have := this ⟨c.toNat, c.toNat_lt⟩
    simpa using this
  unfold nameOk
  rw [List.all_eq_true]
  constructor
  · intro hh c hc
    have := hh c hc
    rw [h c] at this
    simpa using this
  · intro hh c hc
    rw [h c]
    simpa using hh c hc

theorem kwLoop_iff (d : Decl) (ty : Ty) (hs : d.type.isSome = true) : kwLoop d ty [.type, .value, .choices, .max, .min, .yld, .dep] = true ↔ Allowed ty d := by
  obtain ⟨type, value, choices, max, min, yld, dep⟩ := d
  simp only at hs
  unfold Allowed
  cases ty <;> cases value <;> cases choices <;> cases max <;> cases min <;> simp [kwLoop, need, isSet, hs]

theorem find_none (l : List Opt) (name : Bytes) : (find l name).isSome = false ↔ ∀ x ∈ l, x.name ≠ name := by
  unfold find
  rw [List.findIdx?_isSome]
  simp

/-- Checking a value which is given as it is. -/
theorem check_cases (o : Opt) (v : OV) (hc : o.ty = .combo → o.choices ≠ none) (hd : v ≠ .disabler) :
    (∃ v', Reads o.ty v v' ∧ Valid o v' ∧ typecheckOpt o.ty v = some v' ∧ validate o v' = .ok true) ∨
    ((∀ v', Reads o.ty v v' → ¬ Valid o v') ∧ (typecheckOpt o.ty v = none ∨ ∃ v', typecheckOpt o.ty v = some v' ∧ validate o v' = .ok false)) := by
  obtain ⟨name, ty, val, choices, min, max, source, dep⟩ := o
  simp only at hc ⊢
  have hfs : ∀ s : Bytes, ∀ x, coerceFeature s = some x ↔ (s = ascii "auto" ∧ x = .feature 0) ∨ (s = ascii "enabled" ∧ x = .feature 1) ∨ (s = ascii "disabled" ∧ x = .feature 2) := by
    intro s x
    have e1 : ascii "auto" ≠ ascii "enabled" ∧ ascii "auto" ≠ ascii "disabled" ∧ ascii "enabled" ≠ ascii "disabled" := by decide +kernel
    unfold coerceFeature
    by_cases h1 : s = ascii "auto"
    · subst h1; simp [e1, eq_comm]
    · by_cases h2 : s = ascii "enabled"
      · subst h2; simp [e1, Ne.symm e1.1, eq_comm]
      · by_cases h3 : s = ascii "disabled"
        · subst h3; simp [Ne.symm e1.2.1, Ne.symm e1.2.2, eq_comm]
        · simp [h1, h2, h3]
  cases ty with
  | string =>
    cases v with
    | str s => exact .inl ⟨_, .inl rfl, trivial, rfl, rfl⟩
    | disabler => exact absurd rfl hd
    | _ =>
      refine .inr ⟨?_, .inl rfl⟩
      rintro v' (rfl | ⟨h, _⟩) hv
      · exact hv
      · cases h
  | boolean =>
    cases v with
    | bool s => exact .inl ⟨_, .inl rfl, trivial, rfl, rfl⟩
    | disabler => exact absurd rfl hd
    | _ =>
      refine .inr ⟨?_, .inl rfl⟩
      rintro v' (rfl | ⟨h, _⟩) hv
      · exact hv
      · cases h
  | combo =>
    cases v with
    | str s =>
      cases choices with
      | none => exact absurd rfl (hc rfl)
      | some cs =>
        by_cases hm : El.s s ∈ cs
        · exact .inl ⟨_, .inl rfl, ⟨cs, rfl, hm⟩, rfl, by simp [validate, hm]⟩
        · refine .inr ⟨?_, .inr ⟨.str s, rfl, by simp [validate, hm]⟩⟩
          rintro v' (rfl | ⟨h, _⟩) hv
          · obtain ⟨cs', h1, h2⟩ := hv
            cases h1
            exact hm h2
          · cases h
    | disabler => exact absurd rfl hd
    | _ =>
      refine .inr ⟨?_, .inl rfl⟩
      rintro v' (rfl | ⟨h, _⟩) hv
      · exact hv
      · cases h
  | integer =>
    cases v with
    | int n =>
      have hval : validate ⟨name, .integer, val, choices, min, max, source, dep⟩ (.int n) = .ok (!((match max with | some m => decide (n > m) | none => false) || (match min with | some m => decide (n < m) | none => false))) := rfl
      by_cases hm : Valid ⟨name, .integer, val, choices, min, max, source, dep⟩ (.int n)
      · refine .inl ⟨_, .inl rfl, hm, rfl, ?_⟩
        rw [hval]
        obtain ⟨a, b⟩ := hm
        simp only at a b
        cases max <;> cases min <;> simp at a b ⊢ <;> omega
      · refine .inr ⟨?_, .inr ⟨.int n, rfl, ?_⟩⟩
        · rintro v' (rfl | ⟨h, _⟩) hv
          · exact hm hv
          · cases h
        · rw [hval]
          unfold Valid at hm
          simp only at hm
          cases max <;> cases min <;> simp at hm ⊢ <;> omega
    | disabler => exact absurd rfl hd
    | _ =>
      refine .inr ⟨?_, .inl rfl⟩
      rintro v' (rfl | ⟨h, _⟩) hv
      · exact hv
      · cases h
  | array =>
    cases v with
    | arr l =>
      cases choices with
      | none => exact .inl ⟨_, .inl rfl, (fun _ h => by cases h), rfl, rfl⟩
      | some cs =>
        by_cases hm : ∀ e ∈ l, e ∈ cs
        · exact .inl ⟨_, .inl rfl, (fun cs' h => by cases h; exact hm), rfl, by simpa [validate] using hm⟩
        · refine .inr ⟨?_, .inr ⟨.arr l, rfl, ?_⟩⟩
          · rintro v' (rfl | ⟨h, _⟩) hv
            · exact hm (hv cs rfl)
            · cases h
          · simp only [validate, Res.ok.injEq]
            apply Bool.eq_false_iff.2
            intro h
            exact hm (by simpa using h)
    | disabler => exact absurd rfl hd
    | _ =>
      refine .inr ⟨?_, .inl rfl⟩
      rintro v' (rfl | ⟨h, _⟩) hv
      · exact hv
      · cases h
  | feature =>
    cases v with
    | feature n => exact .inl ⟨_, .inl rfl, trivial, rfl, rfl⟩
    | str s =>
      cases hf : coerceFeature s with
      | none =>
        refine .inr ⟨?_, .inl (by simp [typecheckOpt, hf])⟩
        rintro v' (rfl | ⟨_, h⟩) hv
        · exact hv
        · have : coerceFeature s = some v' := by
            rw [hfs]
            simpa using h
          rw [hf] at this
          cases this
      | some x =>
        have hx := (hfs s x).1 hf
        have hxf : ∃ n, x = .feature n := by rcases hx with ⟨_, h⟩ | ⟨_, h⟩ | ⟨_, h⟩ <;> exact ⟨_, h⟩
        obtain ⟨n, hxn⟩ := hxf
        refine .inl ⟨x, .inr ⟨rfl, by simpa using hx⟩, by rw [hxn]; trivial, by simp [typecheckOpt, hf, hxn, hasType], by rfl⟩
    | disabler => exact absurd rfl hd
    | _ =>
      refine .inr ⟨?_, .inl rfl⟩
      rintro v' (rfl | ⟨_, h⟩) hv
      · exact hv
      · simp at h

/-- Reading is unique. -/
theorem check_unique {o : Opt} {v v1 v2 : OV} (h1 : Reads o.ty v v1) (h2 : Reads o.ty v v2) (g1 : Valid o v1) (g2 : Valid o v2) : v1 = v2 := by
  have e1 : ascii "auto" ≠ ascii "enabled" ∧ ascii "auto" ≠ ascii "disabled" ∧ ascii "enabled" ≠ ascii "disabled" := by decide +kernel
  have hbad : ∀ s, o.ty = .feature → Valid o (.str s) → False := by
    intro s ht h
    unfold Valid at h
    rw [ht] at h
    exact h
  rcases h1 with rfl | ⟨ht, h1⟩
  · rcases h2 with rfl | ⟨ht, h2⟩
    · rfl
    · rcases h2 with ⟨rfl, _⟩ | ⟨rfl, _⟩ | ⟨rfl, _⟩ <;> exact (hbad _ ht g1).elim
  · rcases h2 with rfl | ⟨ht, h2⟩
    · rcases h1 with ⟨rfl, _⟩ | ⟨rfl, _⟩ | ⟨rfl, _⟩ <;> exact (hbad _ ht g2).elim
    · rcases h1 with ⟨rfl, rfl⟩ | ⟨rfl, rfl⟩ | ⟨rfl, rfl⟩ <;> simp [e1, Ne.symm e1.1, Ne.symm e1.2.1, Ne.symm e1.2.2] at h2 <;> simp [h2]

theorem bytes_bool_false {b : Bool} (h : ¬ b = true) : b = false := by simpa using h

/-- Making an option. -/
theorem create_cases (ev : Bytes → Option OV) (proj : Option Bytes) (f : Nat) (w : W) (o : Opt) (v : OV) (hs : o.source = srcUnset)
    (hc : o.ty = .combo → o.choices ≠ none) (hd : v ≠ .disabler) :
    (∃ v', Reads o.ty v v' ∧ Valid o v' ∧ 0 ∉ o.name ∧ 58 ∉ o.name ∧ (∀ x ∈ w.opts, x.name ≠ o.name) ∧
      createOption ev proj (f + 1) w o v = .ok (true, { w with opts := w.opts ++ [{ o with val := v', source := srcDefault }] })) ∨
    (createOption ev proj (f + 1) w o v = .ok (false, w) ∧
      ¬ ∃ v', Reads o.ty v v' ∧ Valid o v' ∧ 0 ∉ o.name ∧ 58 ∉ o.name ∧ (∀ x ∈ w.opts, x.name ≠ o.name)) := by
  have hget : ({ w with opts := w.opts ++ [o] } : W).opts[w.opts.length]? = some o := by simp
  have hset : setOption ev proj (f + 1) { w with opts := w.opts ++ [o] } w.opts.length v srcDefault false =
      store (W.upd { w with opts := w.opts ++ [o] } w.opts.length fun o => { o with source := srcDefault }) w.opts.length o v := by
    unfold setOption
    rw [hget]
    dsimp only
    rw [if_neg (by rw [hs]; decide), if_neg (by simp)]
  rcases check_cases o v hc hd with ⟨v', h1, h2, h3, h4⟩ | ⟨h1, h2⟩
  · have hst : store (W.upd { w with opts := w.opts ++ [o] } w.opts.length fun o => { o with source := srcDefault }) w.opts.length o v =
        .ok (true, { w with opts := w.opts ++ [{ o with val := v', source := srcDefault }] }) := by
      unfold store
      rw [h3]
      dsimp only
      rw [h4, Res.ok_bind, if_pos rfl]
      unfold W.upd
      dsimp only
      rw [modify_last, modify_last]
    by_cases hn : (o.name.contains 0 || o.name.contains 58) = true
    · right
      refine ⟨?_, ?_⟩
      · unfold createOption
        rw [hset, hst, Res.ok_bind]
        dsimp only
        rw [if_neg (by simp), if_pos hn]
      · rintro ⟨_, _, _, a, b, _⟩
        simp [a, b] at hn
    · have hn' : 0 ∉ o.name ∧ 58 ∉ o.name := by simpa using hn
      by_cases hf : (find w.opts o.name).isSome = true
      · right
        refine ⟨?_, ?_⟩
        · unfold createOption
          rw [hset, hst, Res.ok_bind]
          dsimp only
          rw [if_neg (by simp), if_neg hn, if_pos hf]
        · rintro ⟨_, _, _, _, _, a⟩
          rw [(find_none _ _).2 a] at hf
          cases hf
      · left
        refine ⟨v', h1, h2, hn'.1, hn'.2, (find_none _ _).1 (bytes_bool_false hf), ?_⟩
        unfold createOption
        rw [hset, hst, Res.ok_bind]
        dsimp only
        rw [if_neg (by simp), if_neg hn, if_neg hf]
  · right
    refine ⟨?_, fun ⟨v', a, b, _⟩ => h1 v' a b⟩
    unfold createOption
    rw [hset]
    unfold store
    rcases h2 with h2 | ⟨v', h2, h3⟩
    · rw [h2]; rfl
    · rw [h2]
      dsimp only
      rw [h3]
      rfl

theorem find_stands (l : List Opt) (hl : Distinct l) (name : Bytes) (o : Opt) : l.find? (fun o => o.name == name) = some o ↔ o ∈ l ∧ o.name = name := by
  induction l with
  | nil => simp
  | cons a l ih =>
    unfold Distinct at hl ih
    rw [List.map_cons, List.nodup_cons] at hl
    rw [List.find?_cons]
    by_cases h : a.name = name
    · rw [show (a.name == name) = true from by simp [h]]
      constructor
      · intro e; cases e; exact ⟨by simp, h⟩
      · rintro ⟨hm, hn⟩
        rcases List.mem_cons.1 hm with rfl | hm
        · rfl
        · exact absurd (List.mem_map.2 ⟨o, hm, by rw [hn, h]⟩) hl.1
    · rw [show (a.name == name) = false from by simp [h], ih hl.2]
      constructor
      · rintro ⟨hm, hn⟩; exact ⟨by simp [hm], hn⟩
      · rintro ⟨hm, hn⟩
        rcases List.mem_cons.1 hm with rfl | hm
        · exact absurd hn h
        · exact ⟨hm, hn⟩

theorem find_absent (l : List Opt) (name : Bytes) : l.find? (fun o => o.name == name) = none ↔ ∀ x ∈ l, x.name ≠ name := by
  rw [List.find?_eq_none]
  simp

end Muon.Odecl
