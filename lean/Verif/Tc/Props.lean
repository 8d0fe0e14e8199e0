import Verif.Tc.Lemmas
/-
Type checking: properties.
-/
namespace Muon.Tc
open Muon Muon.Tc.Spec

theorem type_obj (t id : Nat) : (V.obj t id).type = t := rfl
theorem type_arr (l : List V) : (V.arr l).type = 9 := rfl
theorem type_dict (l : List (Bytes × V)) : (V.dict l).type = 10 := rfl

theorem Means.bits {ti : Infos} {tag : Tag} {T : Ty} (h : Means ti tag T) :
    tag.getLsbD 63 = true ∧ tag.getLsbD 61 = false ∧ tag.getLsbD 62 = false := by
  have key : ∀ i k, i < 2 ^ 32 → (k = 0 ∨ k = 1) →
      (complexTag i k).getLsbD 63 = true ∧ (complexTag i k).getLsbD 61 = false ∧ (complexTag i k).getLsbD 62 = false := by
    intro i k hi hk
    have e63 : tagged.getLsbD 63 = true := by decide
    have c61 : complex.getLsbD 61 = false := by decide
    have c62 : complex.getLsbD 62 = false := by decide
    have t61 : tagged.getLsbD 61 = false := by decide
    have t62 : tagged.getLsbD 62 = false := by decide
    have k61 : (BitVec.ofNat 64 k <<< 48).getLsbD 61 = false := by rcases hk with rfl | rfl <;> decide
    have k62 : (BitVec.ofNat 64 k <<< 48).getLsbD 62 = false := by rcases hk with rfl | rfl <;> decide
    unfold complexTag
    simp only [BitVec.getLsbD_or, e63, c61, c62, t61, t62, k61, k62, ofNat_high i hi 61 (by omega), ofNat_high i hi 62 (by omega)]
    simp
  cases h with
  | simple h1 h2 h3 h4 => exact ⟨h1, h3, h4⟩
  | or hi _ _ _ => exact key _ _ hi (.inl rfl)
  | list hi _ _ => exact key _ _ hi (.inr rfl)
  | dict hi _ _ => exact key _ _ hi (.inr rfl)

theorem tagged_bit (tag : Tag) (h : tag.getLsbD 63 = true) : tag &&& tagged ≠ 0 := by
  rw [BitVec.and_comm]; exact (and_twoPow_ne tag 63 (by omega)).mpr h

theorem not_bad_of_simple {t : Nat} (ht : t ≤ 32) {tag : Tag} {b : Bool} (h : checkSimple (ofObjType t) tag = .ok b) :
    t ≠ 0 ∨ tag ≠ tcFunc := by
  by_cases hz : t = 0
  · right
    rintro rfl
    subst hz
    have : checkSimple (ofObjType 0) tcFunc = .bad := by decide +kernel
    rw [this] at h; cases h
  · exact .inl hz

/-- The check of an array or dictionary type before its elements. -/
theorem check_container (t : Nat) (ht : t ≤ 32) (tag : Tag) (hc : tag = tcArray ∨ tag = tcDict) :
    checkSimple (ofObjType t) tag = .ok (decide (t = 2 ∨ (tag = tcArray ∧ t = 9) ∨ (tag = tcDict ∧ t = 10))) := by
  have key : ∀ t : Fin 33, checkSimple (ofObjType t.val) tcArray = .ok (decide (t.val = 2 ∨ t.val = 9)) ∧
      checkSimple (ofObjType t.val) tcDict = .ok (decide (t.val = 2 ∨ t.val = 10)) := by decide +kernel
  have hne : tcArray ≠ tcDict := by decide
  rcases hc with rfl | rfl
  · rw [(key ⟨t, by omega⟩).1]; simp [hne]
  · rw [(key ⟨t, by omega⟩).2]; simp [Ne.symm hne]

theorem check_exact {ti : Infos} {tag : Tag} {T : Ty} (h : Means ti tag T) : ∀ (n : Nat) (v : V), Wf v →
    (check ti n v (ofObjType v.type) tag = .ok true → Has T v) ∧
    (check ti n v (ofObjType v.type) tag = .ok false → ¬ Has T v) := by
  induction h with
  | @simple tag h1 h2 h3 h4 =>
    intro n v hv
    cases n with
    | zero => exact ⟨fun h => (by cases h), fun h => (by cases h)⟩
    | succ n =>
      rw [check, if_pos ((complex_bit tag).mpr h2)]
      have ht := wf_type hv
      constructor
      · intro h
        obtain ⟨b, hb, hiff⟩ := checkSimple_iff v.type ht tag h2 h3 h4 (not_bad_of_simple ht h)
        rw [h] at hb; cases hb
        exact hiff.mp rfl
      · intro h
        obtain ⟨b, hb, hiff⟩ := checkSimple_iff v.type ht tag h2 h3 h4 (not_bad_of_simple ht h)
        rw [h] at hb; cases hb
        intro hh
        exact absurd (hiff.mpr hh) (by simp)
  | @or i a b A B hi hti _ _ iha ihb =>
    intro n v hv
    cases n with
    | zero => exact ⟨fun h => (by cases h), fun h => (by cases h)⟩
    | succ n =>
      rw [check, if_neg (by rw [complex_bit, complexTag_bit60]; simp), complexTag_index i 0 hi (.inl rfl), hti,
        complexTag_kind i 0 hi (.inl rfl)]
      dsimp only
      rw [if_pos rfl]
      constructor
      · intro h
        obtain ⟨c, h1, h2⟩ := Res.bind_eq_ok.mp h
        cases c with
        | true => exact .inl ((iha n v hv).1 h1)
        | false => exact .inr ((ihb n v hv).1 (by simpa using h2))
      · intro h
        obtain ⟨c, h1, h2⟩ := Res.bind_eq_ok.mp h
        cases c with
        | true => simp at h2
        | false =>
          rintro (hh | hh)
          · exact (iha n v hv).2 h1 hh
          · exact (ihb n v hv).2 (by simpa using h2) hh
  | @list i b B hi hti _ ih =>
    intro n v hv
    cases n with
    | zero => exact ⟨fun h => (by cases h), fun h => (by cases h)⟩
    | succ n =>
      rw [check, if_neg (by rw [complex_bit, complexTag_bit60]; simp), complexTag_index i 1 hi (.inr rfl), hti,
        complexTag_kind i 1 hi (.inr rfl)]
      dsimp only
      rw [if_neg (by simp), if_pos rfl]
      cases n with
      | zero => exact ⟨fun h => (by cases h), fun h => (by cases h)⟩
      | succ n =>
        have hc : check ti (n + 1) v (ofObjType v.type) tcArray =
            .ok (decide (v.type = 2 ∨ (tcArray = tcArray ∧ v.type = 9) ∨ (tcArray = tcDict ∧ v.type = 10))) := by
          rw [check, if_pos (by decide), check_container v.type (wf_type hv) tcArray (.inl rfl)]
        rw [hc, Res.ok_bind]
        have hne : tcArray ≠ tcDict := by decide
        simp only [hne, false_and, or_false, true_and]
        cases v with
        | arr l =>
          have hl : EachList (fun t => t ≤ 32 ∧ t ≠ 9 ∧ t ≠ 10) l := by unfold Wf at hv; rw [Each] at hv; exact hv
          have hx : ∀ x ∈ l, Wf x := fun x hx => eachList_mem hl hx
          simp only [type_arr, type_dict]
          constructor
          · intro h
            refine ⟨l, rfl, every_true (fun x hx' hh => (ih (n + 1) x (hx x hx')).1 hh) (by simpa using h)⟩
          · rintro h ⟨l', e, hh⟩
            cases e
            obtain ⟨x, hx', hn⟩ := every_false (fun x hx' hh => (ih (n + 1) x (hx x hx')).2 hh)
              (show every (fun x => check ti (n + 1) x (ofObjType x.type) b) l = .ok false by simpa using h)
            exact hn (hh x hx')
        | dict l =>
          simp only [type_arr, type_dict]
          constructor
          · intro h; simp at h
          · rintro _ ⟨l', e, _⟩; cases e
        | obj t id =>
          constructor
          · intro h
            simp only [type_obj, type_arr, type_dict] at h
            split at h <;> simp at h
          · rintro _ ⟨l', e, _⟩; cases e
  | @dict i b B hi hti _ ih =>
    intro n v hv
    cases n with
    | zero => exact ⟨fun h => (by cases h), fun h => (by cases h)⟩
    | succ n =>
      rw [check, if_neg (by rw [complex_bit, complexTag_bit60]; simp), complexTag_index i 1 hi (.inr rfl), hti,
        complexTag_kind i 1 hi (.inr rfl)]
      dsimp only
      rw [if_neg (by simp), if_pos rfl]
      cases n with
      | zero => exact ⟨fun h => (by cases h), fun h => (by cases h)⟩
      | succ n =>
        have hc : check ti (n + 1) v (ofObjType v.type) tcDict =
            .ok (decide (v.type = 2 ∨ (tcDict = tcArray ∧ v.type = 9) ∨ (tcDict = tcDict ∧ v.type = 10))) := by
          rw [check, if_pos (by decide), check_container v.type (wf_type hv) tcDict (.inr rfl)]
        rw [hc, Res.ok_bind]
        have hne : tcDict ≠ tcArray := by decide
        simp only [hne, false_and, false_or, true_and, if_false]
        cases v with
        | arr l =>
          simp only [type_arr, type_dict]
          constructor
          · intro h; simp at h
          · rintro _ ⟨l', e, _⟩; cases e
        | dict l =>
          have hl : EachDict (fun t => t ≤ 32 ∧ t ≠ 9 ∧ t ≠ 10) l := by unfold Wf at hv; rw [Each] at hv; exact hv
          have hx : ∀ x ∈ l.map (·.2), Wf x := by
            intro x hx
            obtain ⟨e, he, rfl⟩ := List.mem_map.mp hx
            exact eachDict_mem hl he
          simp only [type_arr, type_dict]
          constructor
          · intro h
            have := every_true (fun x hx' hh => (ih (n + 1) x (hx x hx')).1 hh)
              (show every (fun x => check ti (n + 1) x (ofObjType x.type) b) (l.map (·.2)) = .ok true by simpa using h)
            exact ⟨l, rfl, fun e he => this e.2 (List.mem_map.mpr ⟨e, he, rfl⟩)⟩
          · rintro h ⟨l', e, hh⟩
            cases e
            obtain ⟨x, hx', hn⟩ := every_false (fun x hx' hh => (ih (n + 1) x (hx x hx')).2 hh)
              (show every (fun x => check ti (n + 1) x (ofObjType x.type) b) (l.map (·.2)) = .ok false by simpa using h)
            obtain ⟨e, he, rfl⟩ := List.mem_map.mp hx'
            exact hn (hh e he)
        | obj t id =>
          constructor
          · intro h
            simp only [type_obj, type_arr, type_dict] at h
            split at h <;> simp at h
          · rintro _ ⟨l', e, _⟩; cases e

theorem typecheck_check {ti : Infos} {tag : Tag} {T : Ty} (h : Means ti tag T) (n : Nat) (v : V) :
    typecheck ti n v tag = check ti n v (ofObjType v.type) tag := by
  unfold typecheck
  rw [if_neg (tagged_bit tag (Means.bits h).1)]

/-- **C43**: a value that passes a type check has the type, whatever the type and the value. -/
theorem typecheck_sound {ti : Infos} {tag : Tag} {T : Ty} (h : Means ti tag T) (n : Nat) (v : V) (hv : Wf v)
    (hc : typecheck ti n v tag = .ok true) : Has T v := by
  rw [typecheck_check h] at hc
  exact (check_exact h n v hv).1 hc

/-- **C43**: a value that fails a type check does not have the type. -/
theorem typecheck_complete {ti : Infos} {tag : Tag} {T : Ty} (h : Means ti tag T) (n : Nat) (v : V) (hv : Wf v)
    (hc : typecheck ti n v tag = .ok false) : ¬ Has T v := by
  rw [typecheck_check h] at hc
  exact (check_exact h n v hv).2 hc

theorem check_total {ti : Infos} {tag : Tag} {T : Ty} (h : Means ti tag T) : ∃ n, ∀ m, n ≤ m → ∀ v, Plain v →
    ∃ b, check ti m v (ofObjType v.type) tag = .ok b := by
  induction h with
  | @simple tag h1 h2 h3 h4 =>
    refine ⟨1, fun m hm v hv => ?_⟩
    obtain ⟨m, rfl⟩ : ∃ k, m = k + 1 := ⟨m - 1, by omega⟩
    rw [check, if_pos ((complex_bit tag).mpr h2)]
    obtain ⟨b, hb, _⟩ := checkSimple_iff v.type (wf_type (Plain.wf hv)) tag h2 h3 h4 (.inl (plain_type hv).1)
    exact ⟨b, hb⟩
  | @or i a b A B hi hti _ _ iha ihb =>
    obtain ⟨n1, h1⟩ := iha
    obtain ⟨n2, h2⟩ := ihb
    refine ⟨n1 + n2 + 1, fun m hm v hv => ?_⟩
    obtain ⟨m, rfl⟩ : ∃ k, m = k + 1 := ⟨m - 1, by omega⟩
    rw [check, if_neg (by rw [complex_bit, complexTag_bit60]; simp), complexTag_index i 0 hi (.inl rfl), hti,
        complexTag_kind i 0 hi (.inl rfl)]
    dsimp only
    rw [if_pos rfl]
    obtain ⟨c, hc⟩ := h1 m (by omega) v hv
    obtain ⟨d, hd⟩ := h2 m (by omega) v hv
    rw [hc]
    cases c with
    | true => exact ⟨true, rfl⟩
    | false => exact ⟨d, by simpa using hd⟩
  | @list i b B hi hti _ ih =>
    obtain ⟨n1, h1⟩ := ih
    refine ⟨n1 + 2, fun m hm v hv => ?_⟩
    obtain ⟨m, rfl⟩ : ∃ k, m = k + 2 := ⟨m - 2, by omega⟩
    rw [check, if_neg (by rw [complex_bit, complexTag_bit60]; simp), complexTag_index i 1 hi (.inr rfl), hti,
        complexTag_kind i 1 hi (.inr rfl)]
    dsimp only
    rw [if_neg (by simp), if_pos rfl]
    have hc : check ti (m + 1) v (ofObjType v.type) tcArray =
        .ok (decide (v.type = 2 ∨ (tcArray = tcArray ∧ v.type = 9) ∨ (tcArray = tcDict ∧ v.type = 10))) := by
      rw [check, if_pos (by decide), check_container v.type (wf_type (Plain.wf hv)) tcArray (.inl rfl)]
    rw [hc, Res.ok_bind]
    have hne : tcArray ≠ tcDict := by decide
    simp only [hne, false_and, or_false, true_and, (plain_type hv).2, false_or]
    cases v with
    | arr l =>
      have hl : EachList (fun t => t ≤ 32 ∧ t ≠ 9 ∧ t ≠ 10 ∧ t ≠ 0 ∧ t ≠ 2) l := by unfold Plain at hv; rw [Each] at hv; exact hv
      obtain ⟨c, hc⟩ := every_total (f := fun x => check ti (m + 1) x (ofObjType x.type) b) (l := l)
        (fun x hx => h1 (m + 1) (by omega) x (eachList_mem hl hx))
      exact ⟨c, by simpa [type_arr, type_dict] using hc⟩
    | dict l => exact ⟨false, by simp [type_arr, type_dict, type_obj]⟩
    | obj t id =>
      refine ⟨false, ?_⟩
      have : t ≠ 9 := by unfold Plain at hv; rw [Each] at hv; exact hv.2.1
      simp [type_arr, type_dict, type_obj, this]
  | @dict i b B hi hti _ ih =>
    obtain ⟨n1, h1⟩ := ih
    refine ⟨n1 + 2, fun m hm v hv => ?_⟩
    obtain ⟨m, rfl⟩ : ∃ k, m = k + 2 := ⟨m - 2, by omega⟩
    rw [check, if_neg (by rw [complex_bit, complexTag_bit60]; simp), complexTag_index i 1 hi (.inr rfl), hti,
        complexTag_kind i 1 hi (.inr rfl)]
    dsimp only
    rw [if_neg (by simp), if_pos rfl]
    have hc : check ti (m + 1) v (ofObjType v.type) tcDict =
        .ok (decide (v.type = 2 ∨ (tcDict = tcArray ∧ v.type = 9) ∨ (tcDict = tcDict ∧ v.type = 10))) := by
      rw [check, if_pos (by decide), check_container v.type (wf_type (Plain.wf hv)) tcDict (.inr rfl)]
    rw [hc, Res.ok_bind]
    have hne : tcDict ≠ tcArray := by decide
    simp only [hne, false_and, false_or, true_and, (plain_type hv).2, if_false]
    cases v with
    | arr l => exact ⟨false, by simp [type_arr, type_dict, type_obj]⟩
    | dict l =>
      have hl : EachDict (fun t => t ≤ 32 ∧ t ≠ 9 ∧ t ≠ 10 ∧ t ≠ 0 ∧ t ≠ 2) l := by unfold Plain at hv; rw [Each] at hv; exact hv
      obtain ⟨c, hc⟩ := every_total (f := fun x => check ti (m + 1) x (ofObjType x.type) b) (l := l.map (·.2))
        (fun x hx => by
          obtain ⟨e, he, rfl⟩ := List.mem_map.mp hx
          exact h1 (m + 1) (by omega) e.2 (eachDict_mem hl he))
      exact ⟨c, by simpa [type_arr, type_dict] using hc⟩
    | obj t id =>
      refine ⟨false, ?_⟩
      have : t ≠ 10 := by unfold Plain at hv; rw [Each] at hv; exact hv.2.2.1
      simp [type_arr, type_dict, type_obj, this]

/-- **C43**: the type check of a value without disablers always comes to a result (the recursion is no deeper than the
type), which by `typecheck_sound` and `typecheck_complete` is whether the value has the type. -/
theorem typecheck_total_partial {ti : Infos} {tag : Tag} {T : Ty} (h : Means ti tag T) : ∃ n, ∀ m, n ≤ m → ∀ v, Plain v →
    (typecheck ti m v tag = .ok true ∧ Has T v) ∨ (typecheck ti m v tag = .ok false ∧ ¬ Has T v) := by
  obtain ⟨n, hn⟩ := check_total h
  refine ⟨n, fun m hm v hv => ?_⟩
  obtain ⟨b, hb⟩ := hn m hm v hv
  rw [← typecheck_check h] at hb
  cases b with
  | true => exact .inl ⟨hb, typecheck_sound h m v (Plain.wf hv) hb⟩
  | false => exact .inr ⟨hb, typecheck_complete h m v (Plain.wf hv) hb⟩

/-- **C43**: a disabler passes every type check that is not of an array or dictionary type with an element type. -/
theorem typecheck_disabler (ti : Infos) (tag : Tag) (ks : List Nat) (void : Bool) (h : Means ti tag (.simple ks void))
    (n id : Nat) : typecheck ti (n + 1) (.obj 2 id) tag = .ok true := by
  rw [typecheck_check h]
  cases h with
  | simple h1 h2 h3 h4 =>
    rw [check, if_pos ((complex_bit tag).mpr h2)]
    obtain ⟨b, hb, hiff⟩ := checkSimple_iff 2 (by omega) tag h2 h3 h4 (.inl (by omega))
    have : b = true := hiff.mpr (.inr (.inl rfl))
    subst this
    exact hb

/-- A disabler that is checked against an array type with an element type aborts muon instead of being accepted. -/
theorem typecheck_disabler_counterexample : ∃ ti tag T, Means ti tag (.list T) ∧ ∀ n, typecheck ti n (.obj 2 0) tag = .bad := by
  refine ⟨[(tcArray, ofObjType 8)], complexTag 0 1, _, .list (i := 0) (by omega) rfl
    (.simple (tag := ofObjType 8) (by decide) (by decide) (by decide) (by decide)), fun n => ?_⟩
  cases n with
  | zero => rfl
  | succ n =>
    cases n with
    | zero => decide +kernel
    | succ n =>
      have h0 : complexTag 0 1 &&& tagged ≠ 0 := by decide
      have h1 : complexTag 0 1 &&& complex ≠ 0 := by decide
      unfold typecheck
      rw [if_neg h0, check, if_neg h1, complexTag_index 0 1 (by omega) (.inr rfl), complexTag_kind 0 1 (by omega) (.inr rfl)]
      have hc : check [(tcArray, ofObjType 8)] (n + 1) (.obj 2 0) (ofObjType (V.obj 2 0).type) tcArray = .ok true := by
        rw [check, if_pos (by decide)]; decide +kernel
      simp [hc]

/-- **C43**: making a union, or an array or dictionary type, from types gives a type that stands for it, and types made
before still stand for the same. -/
theorem makeComplex_means (ti : Infos) (hti : ti.length < 2 ^ 32) (a b : Tag) (A B : Ty) (ha : Means ti a A) (hb : Means ti b B) :
    Means (makeComplex ti 0 a b).1 (makeComplex ti 0 a b).2 (.or A B) ∧
      Means (makeComplex ti 1 tcArray b).1 (makeComplex ti 1 tcArray b).2 (.list B) ∧
      Means (makeComplex ti 1 tcDict b).1 (makeComplex ti 1 tcDict b).2 (.dict B) ∧
      ∀ k x y c C, Means ti c C → Means (makeComplex ti k x y).1 c C := by
  have ext : ∀ (e : Tag × Tag) (c : Tag) (C : Ty), Means ti c C → Means (ti ++ [e]) c C := by
    intro e c C h
    have look : ∀ {i : Nat} {x : Tag × Tag}, ti[i]? = some x → (ti ++ [e])[i]? = some x := by
      intro i x h
      rcases Nat.lt_or_ge i ti.length with hi | hi
      · rw [List.getElem?_append_left hi, h]
      · rw [List.getElem?_eq_none hi] at h; cases h
    induction h with
    | simple h1 h2 h3 h4 => exact .simple h1 h2 h3 h4
    | or h1 h2 _ _ ih1 ih2 => exact .or h1 (look h2) ih1 ih2
    | list h1 h2 _ ih => exact .list h1 (look h2) ih
    | dict h1 h2 _ ih => exact .dict h1 (look h2) ih
  have last : ∀ e : Tag × Tag, (ti ++ [e])[ti.length]? = some e := by intro e; simp
  exact ⟨.or hti (last _) (ext _ _ _ ha) (ext _ _ _ hb), .list hti (last _) (ext _ _ _ hb), .dict hti (last _) (ext _ _ _ hb),
    fun _ x y c C h => ext (x, y) c C h⟩

theorem check_ne_error {ti : Infos} : ∀ (n : Nat) (v : V) (got type : Tag), check ti n v got type ≠ .error := by
  intro n
  induction n with
  | zero => intro v got type h; cases h
  | succ n ih =>
    have hev : ∀ (f : V → Res Bool), (∀ x, f x ≠ .error) → ∀ l, every f l ≠ .error := by
      intro f hf l
      induction l with
      | nil => intro h; cases h
      | cons x l ihl =>
        intro h
        rw [every] at h
        cases hx : f x with
        | ok b => rw [hx] at h; cases b <;> simp at h; exact ihl h
        | error => exact hf x hx
        | bad => rw [hx] at h; simp at h
    intro v got type h
    rw [check] at h
    split at h
    · unfold checkSimple at h
      dsimp only at h
      repeat' split at h
      all_goals cases h
    · split at h
      · cases h
      · next t sub _ =>
        dsimp only at h
        split at h
        · cases hc : check ti n v got t with
          | ok b => rw [hc] at h; cases b <;> simp at h; exact ih _ _ _ h
          | error => exact ih _ _ _ hc
          | bad => rw [hc] at h; simp at h
        · split at h
          · cases hc : check ti n v got t with
            | ok b =>
              rw [hc] at h
              cases b with
              | false => simp at h
              | true =>
                simp only [Res.ok_bind, Bool.not_true, Bool.false_eq_true, if_false] at h
                split at h
                · split at h
                  · exact hev _ (fun x => ih _ _ _) _ h
                  · cases h
                · split at h
                  · split at h
                    · exact hev _ (fun x => ih _ _ _) _ h
                    · cases h
                  · cases h
            | error => exact ih _ _ _ hc
            | bad => rw [hc] at h; simp at h
          · cases h

/-! ### Arguments of functions -/

/-- **C43**: an argument declared as a list of a type is accepted exactly if the elements of the arrays nested in it, or
the value itself if it is not an array, all have the type; the function gets the flat array of them. A disabler anywhere
in the arrays makes the call give a disabler. -/
theorem arg_list {ti : Infos} {tag : Tag} {T : Ty} (h : Means ti tag T) : ∃ n, ∀ m, n ≤ m → ∀ immune v, Wf v →
    (immune = false ∧ (∃ x ∈ listOf v, x.type = 2) ∧ checkArg ti m immune v (listify ||| tag) = .disabled) ∨
    ((immune = true ∨ ∀ x ∈ listOf v, x.type ≠ 2) ∧
      ((∀ w, checkArg ti m immune v (listify ||| tag) = .ok w → w = .arr (listOf v) ∧ ∀ x ∈ listOf v, Has T x) ∧
      (checkArg ti m immune v (listify ||| tag) = .error → ∃ x ∈ listOf v, ¬ Has T x) ∧
      (Plain v → checkArg ti m immune v (listify ||| tag) = .error ∨ checkArg ti m immune v (listify ||| tag) = .ok (.arr (listOf v))))) := by
  obtain ⟨n, hn⟩ := typecheck_total_partial h
  refine ⟨n, fun m hm immune v hv => ?_⟩
  have hl : (listify ||| tag) &&& listify ≠ 0 := by
    rw [BitVec.and_comm]
    refine (and_twoPow_ne _ 62 (by omega)).mpr ?_
    rw [BitVec.getLsbD_or]
    have : listify.getLsbD 62 = true := by decide
    rw [this]; rfl
  have hs : (listify ||| tag) &&& ~~~listify = tag := by
    apply BitVec.eq_of_getLsbD_eq
    intro i hi
    rw [BitVec.getLsbD_and, BitVec.getLsbD_or]
    by_cases h62 : i = 62
    · subst h62
      have : (~~~listify).getLsbD 62 = false := by decide
      rw [this, (Means.bits h).2.2]; simp
    · have a : ∀ i : Fin 64, i.val ≠ 62 → listify.getLsbD i.val = false ∧ (~~~listify).getLsbD i.val = true := by decide +kernel
      rw [(a ⟨i, hi⟩ h62).1, (a ⟨i, hi⟩ h62).2]; simp
  by_cases hd : immune = false ∧ ∃ x ∈ listOf v, x.type = 2
  · left
    refine ⟨hd.1, hd.2, ?_⟩
    obtain ⟨x, hx, ht⟩ := hd.2
    unfold checkArg
    rw [if_pos]
    rw [hd.1, Bool.not_false, Bool.true_and, List.any_eq_true]
    exact ⟨x, hx, by simpa using ht⟩
  · right
    have hd' : immune = true ∨ ∀ x ∈ listOf v, x.type ≠ 2 := by
      cases immune with
      | true => exact .inl rfl
      | false => exact .inr fun x hx e => hd ⟨rfl, x, hx, e⟩
    have hnd : (!immune && (listOf v).any fun x => x.type == 2) ≠ true := by
      intro e
      rw [Bool.and_eq_true, List.any_eq_true] at e
      obtain ⟨e1, x, hx, ht⟩ := e
      exact hd ⟨by simpa using e1, x, hx, by simpa using ht⟩
    have hca : checkArg ti m immune v (listify ||| tag) =
        outOf (every (fun x => typecheck ti m x tag) (listOf v)) (.arr (listOf v)) := by
      unfold checkArg
      rw [if_neg hnd, if_pos hl, hs]
    have hw := listOf_each hv
    rw [hca]
    refine ⟨hd', ?_, ?_, ?_⟩
    · intro w h1
      cases he : every (fun x => typecheck ti m x tag) (listOf v) with
      | ok b =>
        rw [he] at h1
        cases b with
        | false => cases h1
        | true => cases h1; exact ⟨rfl, every_true (fun x hx hh => typecheck_sound h m x (hw x hx) hh) he⟩
      | error => rw [he] at h1; cases h1
      | bad => rw [he] at h1; cases h1
    · intro h1
      cases he : every (fun x => typecheck ti m x tag) (listOf v) with
      | ok b =>
        rw [he] at h1
        cases b with
        | true => cases h1
        | false => exact every_false (fun x hx hh => typecheck_complete h m x (hw x hx) hh) he
      | error =>
        exfalso
        have hev : ∀ l, every (fun x => typecheck ti m x tag) l ≠ .error := by
          intro l
          induction l with
          | nil => intro h; cases h
          | cons x l ihl =>
            intro h
            rw [every] at h
            cases hx : typecheck ti m x tag with
            | ok b => rw [hx] at h; cases b <;> simp at h; exact ihl h
            | error => exact check_ne_error _ _ _ _ hx
            | bad => rw [hx] at h; simp at h
        exact hev _ he
      | bad => rw [he] at h1; cases h1
    · intro hp
      have hpl := listOf_each hp
      obtain ⟨b, hb⟩ := every_total (f := fun x => typecheck ti m x tag) (l := listOf v) (fun x hx => by
        rcases hn m hm x (hpl x hx) with ⟨h, _⟩ | ⟨h, _⟩
        · exact ⟨true, h⟩
        · exact ⟨false, h⟩)
      rw [hb]
      cases b with
      | true => exact .inr rfl
      | false => exact .inl rfl

theorem oneFile_eq (v : V) : (oneFile v = v ∧ ∀ w, ¬ FileOf v w) ∨ FileOf v (oneFile v) := by
  unfold oneFile
  split
  · next f =>
    by_cases h5 : f.type = 5
    · rw [if_pos h5]; exact .inr ⟨rfl, h5⟩
    · rw [if_neg h5]
      refine .inl ⟨rfl, ?_⟩
      rintro w ⟨e, h⟩
      cases e; exact h5 h
  · next hn =>
    refine .inl ⟨rfl, ?_⟩
    rintro w ⟨e, h⟩
    exact hn w e

theorem outOf_typecheck {ti : Infos} {tag : Tag} {T : Ty} (h : Means ti tag T) (n : Nat) (u : V) (hu : Wf u) :
    (∀ w, outOf (typecheck ti n u tag) u = .ok w → w = u ∧ Has T u) ∧
    (outOf (typecheck ti n u tag) u = .error → ¬ Has T u) := by
  cases ht : typecheck ti n u tag with
  | ok b =>
    cases b with
    | false => exact ⟨fun w h => (by cases h), fun _ => typecheck_complete h n u hu ht⟩
    | true => exact ⟨fun w hw => by cases hw; exact ⟨rfl, typecheck_sound h n u hu ht⟩, fun h => (by cases h)⟩
  | error => rw [typecheck_check h] at ht; exact absurd ht (check_ne_error n u _ _)
  | bad => exact ⟨fun w h => (by cases h), fun h => (by cases h)⟩

theorem tcFile_iff (tag : Tag) (h : tag.getLsbD 63 = true) : (tag = 5 ∨ tag &&& tcFile = tcFile) ↔ tag.getLsbD 4 = true := by
  constructor
  · rintro (rfl | e)
    · revert h; decide
    · have := congrArg (fun x => BitVec.getLsbD x 4) e
      simp only [BitVec.getLsbD_and] at this
      have h4 : tcFile.getLsbD 4 = true := by decide
      rw [h4] at this
      simpa using this
  · intro e
    right
    apply BitVec.eq_of_getLsbD_eq
    intro i hi
    rw [BitVec.getLsbD_and]
    have key : ∀ i : Fin 64, tcFile.getLsbD i.val = decide (i.val = 63 ∨ i.val = 4) := by decide +kernel
    rw [key ⟨i, hi⟩]
    by_cases hh : i = 63 ∨ i = 4
    · rcases hh with rfl | rfl
      · rw [h]; rfl
      · rw [e]; rfl
    · simp [hh]

/-- **C43**: a function that declares an argument with a type that is not a list gets the value passed if it has the type,
and the call is rejected if it does not, except that an array of one file may be replaced by the file: it is if the type
is one of several kinds of objects with `file` among them, and it is not if `file` is not. -/
theorem arg_plain {ti : Infos} {tag : Tag} {T : Ty} (h : Means ti tag T) (n : Nat) (immune : Bool) (v : V) (hv : Wf v) :
    ∃ u, (u = v ∨ FileOf v u) ∧
      (∀ w, checkArg ti n immune v tag = .ok w → w = u ∧ Has T u) ∧
      (checkArg ti n immune v tag = .error → ¬ Has T u) ∧
      ∀ ks void, T = .simple ks void → (5 ∈ ks → ∀ w, FileOf v w → u = w) ∧ (5 ∉ ks → u = v) := by
  have h62 := (Means.bits h).2.2
  have hl : ¬ (tag &&& listify ≠ 0) := by
    rw [BitVec.and_comm]
    intro e
    have := (and_twoPow_ne tag 62 (by omega)).mp e
    rw [h62] at this; cases this
  have hwf : ∀ u, (u = v ∨ FileOf v u) → Wf u := by
    rintro u (rfl | ⟨rfl, _⟩)
    · exact hv
    · unfold Wf at hv
      rw [Each, EachList] at hv
      exact hv.1
  refine ⟨if tag = 5 ∨ tag &&& tcFile = tcFile then oneFile v else v, ?_, ?_, ?_, ?_⟩
  · split
    · rcases oneFile_eq v with h | h
      · exact .inl h.1
      · exact .inr h
    · exact .inl rfl
  · intro w hc
    unfold checkArg at hc
    rw [if_neg hl] at hc
    split at hc
    · cases hc
    · refine (outOf_typecheck h n _ (hwf _ ?_)).1 w hc
      split
      · rcases oneFile_eq v with h | h
        · exact .inl h.1
        · exact .inr h
      · exact .inl rfl
  · intro hc
    unfold checkArg at hc
    rw [if_neg hl] at hc
    split at hc
    · cases hc
    · refine (outOf_typecheck h n _ (hwf _ ?_)).2 hc
      split
      · rcases oneFile_eq v with h | h
        · exact .inl h.1
        · exact .inr h
      · exact .inl rfl
  · rintro ks void rfl
    cases h with
    | simple h1 h2 h3 h4 =>
      have hk : 5 ∈ kinds tag ↔ tag.getLsbD 4 = true := by rw [mem_kinds]; simp
      constructor
      · intro h5 w hw
        rw [if_pos ((tcFile_iff tag h1).mpr (hk.mp h5))]
        rcases oneFile_eq v with ⟨_, h⟩ | h
        · exact absurd hw (h w)
        · obtain ⟨e1, _⟩ := h
          obtain ⟨e2, _⟩ := hw
          rw [e1] at e2; cases e2; rfl
      · intro h5
        rw [if_neg (fun h => h5 (hk.mpr ((tcFile_iff tag h1).mp h)))]

/-- The sixteenth type with an element type made in a program looks like `file`: an argument declared `list[any]` that is
an array of one file is replaced by the file, and the call is rejected although the argument has the type. -/
theorem arg_file_counterexample : ∃ ti tag T v n, Means ti tag (.list T) ∧ Wf v ∧ Has (.list T) v ∧
    checkArg ti n false v tag = .error := by
  refine ⟨List.replicate 16 (tcArray, tcFile) ++ [(tcArray, tcFile)], complexTag 16 1, _, .arr [.obj 5 0], 5,
    .list (i := 16) (by omega) rfl (.simple (tag := tcFile) (by decide) (by decide) (by decide) (by decide)), ?_, ?_, ?_⟩
  · simp [Wf, Each, EachList]
  · refine ⟨_, rfl, ?_⟩
    intro x hx
    simp only [List.mem_singleton] at hx
    subst hx
    exact .inl (by decide +kernel)
  · rfl

/-! The hypotheses hold for `list[str|dict[int]]`. -/
def exTi : Infos := [(tcDict, ofObjType 7), (complexTag 0 1, ofObjType 8), (tcArray, complexTag 1 0)]

theorem exMeans : Means exTi (complexTag 2 1) (.list (.or (.dict (.simple [7] false)) (.simple [8] false))) :=
  .list (i := 2) (by omega) rfl (.or (i := 1) (by omega) rfl
    (.dict (i := 0) (by omega) rfl (.simple (tag := ofObjType 7) (by decide) (by decide) (by decide) (by decide)))
    (.simple (tag := ofObjType 8) (by decide) (by decide) (by decide) (by decide)))

example : Plain (.arr [.obj 8 1, .dict [([97], .obj 7 2)]]) ∧
    typecheck exTi 5 (.arr [.obj 8 1, .dict [([97], .obj 7 2)]]) (complexTag 2 1) = .ok true ∧
    typecheck exTi 5 (.arr [.obj 8 1, .dict [([97], .obj 8 2)]]) (complexTag 2 1) = .ok false ∧
    checkArg exTi 5 false (.arr [.arr [.obj 8 1], .obj 8 2]) (listify ||| ofObjType 8) = .ok (.arr [.obj 8 1, .obj 8 2]) := by
  refine ⟨by simp [Plain, Each, EachList, EachDict], by decide +kernel, by decide +kernel, by rfl⟩

end Muon.Tc
