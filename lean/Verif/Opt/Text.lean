import Verif.Opt.Props
namespace Muon.Opt
open Muon Muon.Opt.Spec

/-! ### C37: what is stored -/

theorem digit_iff : ∀ c : UInt8, (Lex.digitVal c < 10 ↔ isDigit c = true) := forall_byte (by decide +kernel)
theorem digit_val : ∀ c : UInt8, isDigit c = true → Lex.digitVal c = c.toNat - 48 ∧ isSpace c = false ∧ c ≠ 45 ∧ c ≠ 43 := forall_byte (by decide +kernel)

theorem digitsVal_eq (ds : Bytes) (h : ∀ c ∈ ds, isDigit c = true) : Lex.digitsVal 10 ds = decimal ds := by
  unfold Lex.digitsVal decimal
  have : ∀ (ds : Bytes) (n : Nat), (∀ c ∈ ds, isDigit c = true) →
      ds.foldl (fun v c => v * 10 + Lex.digitVal c) n = ds.foldl (fun n c => n * 10 + (c.toNat - 48)) n := by
    intro ds
    induction ds with
    | nil => intro n _; rfl
    | cons c ds ih =>
      intro n h
      rw [List.foldl_cons, List.foldl_cons, (digit_val c (h c (by simp))).1]
      exact ih _ (fun c hc => h c (by simp [hc]))
  exact this ds 0 h

theorem skipPrefix10 (r : Bytes) : Lex.skipPrefix 10 r = r := by
  unfold Lex.skipPrefix
  split
  · rw [if_neg (by simp)]
  · rfl

theorem takeWhile_all {p : UInt8 → Bool} (l : Bytes) (h : ∀ c ∈ l, p c = true) : l.takeWhile p = l ∧ l.dropWhile p = [] := by
  have h1 := List.takeWhile_append_of_pos (p := p) (l₁ := l) (l₂ := []) h
  have h2 := List.dropWhile_append_of_pos (p := p) (l₁ := l) (l₂ := []) h
  simp at h1 h2
  exact ⟨by simpa using h1, by simpa using h2⟩

theorem mem_takeWhile {p : UInt8 → Bool} (l : Bytes) : ∀ c ∈ l.takeWhile p, p c = true := by
  induction l with
  | nil => intro c h; cases h
  | cons a l ih =>
    intro c hc
    rw [List.takeWhile_cons] at hc
    split at hc
    · rcases List.mem_cons.1 hc with rfl | hc
      · assumption
      · exact ih c hc
    · cases hc

/-- An integer is read as a decimal number. -/
theorem coerceInt_iff (s : Bytes) (v : OV) : coerceInt s = some v ↔ ∃ n, Number s n ∧ v = .int n := by
  have hp : (fun c => decide (Lex.digitVal c < 10)) = isDigit := by
    funext c
    have := digit_iff c
    by_cases h : Lex.digitVal c < 10
    · rw [decide_eq_true h]; exact (this.1 h).symm
    · rw [decide_eq_false h]
      cases hd : isDigit c with
      | false => rfl
      | true => exact absurd (this.2 hd) h
  constructor
  · intro h
    unfold coerceInt Lex.strtol at h
    dsimp only at h
    rw [hp, skipPrefix10] at h
    generalize hsg : Lex.signOf (s.dropWhile isSpace) = sg at h
    obtain ⟨neg, r⟩ := sg
    dsimp only at h
    by_cases hd : r.takeWhile isDigit = []
    · rw [if_pos hd] at h; cases h
    rw [if_neg hd] at h
    split at h
    · next n heq =>
      cases h
      simp only [Option.some.injEq, Prod.mk.injEq] at heq
      obtain ⟨hn, hrest⟩ := heq
      have hr : r.takeWhile isDigit = r := by
        have := List.takeWhile_append_dropWhile (p := isDigit) (l := r)
        rw [hrest, List.append_nil] at this
        exact this
      rw [hr] at hn hd
      have hdig : ∀ c ∈ r, isDigit c = true := by rw [← hr]; exact mem_takeWhile r
      rw [digitsVal_eq r hdig] at hn
      have hsplit := (List.takeWhile_append_dropWhile (p := isSpace) (l := s)).symm
      refine ⟨_, ⟨s.takeWhile isSpace, ?_⟩, rfl⟩
      unfold Lex.signOf at hsg
      split at hsg
      · next r' hr' =>
        cases hsg
        refine ⟨[45], r, by rw [hr'] at hsplit; exact hsplit, mem_takeWhile s, hd, hdig, .inr ⟨rfl, ?_⟩⟩
        rw [← hn, if_pos rfl]
        omega
      · next r' hr' =>
        cases hsg
        refine ⟨[43], r, by rw [hr'] at hsplit; exact hsplit, mem_takeWhile s, hd, hdig, .inl ⟨.inr rfl, ?_⟩⟩
        rw [← hn, if_neg (by simp)]
        omega
      · cases hsg
        refine ⟨[], s.dropWhile isSpace, hsplit, mem_takeWhile s, hd, hdig, .inl ⟨.inl rfl, ?_⟩⟩
        rw [← hn, if_neg (by simp)]
        omega
    · cases h
  · rintro ⟨n, ⟨sp, sign, ds, rfl, hsp, hne, hdig, hcase⟩, rfl⟩
    unfold coerceInt Lex.strtol
    dsimp only
    rw [hp, skipPrefix10]
    have hdrop : (sp ++ (sign ++ ds)).dropWhile isSpace = sign ++ ds := by
      rw [List.dropWhile_append_of_pos hsp]
      cases ds with
      | nil => exact absurd rfl hne
      | cons c ds =>
        have hc := digit_val c (hdig c (by simp))
        rcases hcase with ⟨rfl | rfl, _⟩ | ⟨rfl, _⟩
        · rw [List.nil_append, List.dropWhile_cons_of_neg (by simp [hc.2.1])]
        · rw [List.cons_append, List.dropWhile_cons_of_neg (by decide)]
        · rw [List.cons_append, List.dropWhile_cons_of_neg (by decide)]
    have ht := takeWhile_all ds hdig
    rw [hdrop]
    rcases hcase with ⟨rfl | rfl, rfl⟩ | ⟨rfl, rfl⟩
    · have hs : Lex.signOf ([] ++ ds) = (false, ds) := by
        rw [List.nil_append]
        unfold Lex.signOf
        split
        · next h => exact absurd rfl (digit_val 45 (hdig 45 (by simp))).2.2.1
        · next h => exact absurd rfl (digit_val 43 (hdig 43 (by simp))).2.2.2
        · rfl
      rw [hs]
      dsimp only
      rw [ht.1, ht.2, if_neg hne, if_neg (by simp), digitsVal_eq ds hdig]
      dsimp only
      congr 2; omega
    · rw [show Lex.signOf ([43] ++ ds) = (false, ds) from rfl]
      dsimp only
      rw [ht.1, ht.2, if_neg hne, if_neg (by simp), digitsVal_eq ds hdig]
      dsimp only
      congr 2; omega
    · rw [show Lex.signOf ([45] ++ ds) = (true, ds) from rfl]
      dsimp only
      rw [ht.1, ht.2, if_neg hne, if_pos rfl, digitsVal_eq ds hdig]
      dsimp only
      congr 2; omega

theorem commaJoin_cons (p : Bytes) (ps : List Bytes) (h : ps ≠ []) : commaJoin (p :: ps) = p ++ (44 :: commaJoin ps) := by
  cases ps with
  | nil => exact absurd rfl h
  | cons q qs => rfl

theorem splitComma_join (s : Bytes) : commaJoin (splitComma s) = s ∧ ∀ p ∈ splitComma s, 44 ∉ p := by
  induction s with
  | nil => exact ⟨rfl, by intro p hp; simp [splitComma] at hp; subst hp; simp⟩
  | cons c s ih =>
    unfold splitComma
    by_cases hc : c = 44
    · rw [if_pos hc, commaJoin_cons _ _ (splitComma_ne s), ih.1, hc]
      refine ⟨rfl, fun p hp => ?_⟩
      rcases List.mem_cons.1 hp with rfl | hp
      · simp
      · exact ih.2 p hp
    · rw [if_neg hc]
      cases hs : splitComma s with
      | nil => exact absurd hs (splitComma_ne s)
      | cons q qs =>
        rw [hs] at ih
        dsimp only
        constructor
        · cases qs with
          | nil => show c :: q = c :: s; rw [← ih.1]; rfl
          | cons r rs =>
            rw [commaJoin_cons _ _ (by simp)]
            rw [commaJoin_cons _ _ (by simp)] at ih
            rw [List.cons_append, ih.1]
        · intro p hp
          rcases List.mem_cons.1 hp with rfl | hp
          · have := ih.2 q (by simp)
            simp [this, Ne.symm hc]
          · exact ih.2 p (by simp [hp])

theorem commaJoin_unique (ps : List Bytes) (hne : ps ≠ []) (h : ∀ p ∈ ps, 44 ∉ p) : splitComma (commaJoin ps) = ps := by
  have base : ∀ p : Bytes, 44 ∉ p → splitComma p = [p] := by
    intro p
    induction p with
    | nil => intro _; rfl
    | cons c p ih =>
      intro h
      unfold splitComma
      rw [if_neg (fun e => h (by simp [e])), ih (fun e => h (by simp [e]))]
  have app : ∀ (p s : Bytes), 44 ∉ p → splitComma (p ++ 44 :: s) = p :: splitComma s := by
    intro p s
    induction p with
    | nil => intro _; rw [List.nil_append, splitComma, if_pos rfl]
    | cons c p ih =>
      intro h
      rw [List.cons_append, splitComma, if_neg (fun e => h (by simp [e])), ih (fun e => h (by simp [e]))]
  induction ps with
  | nil => exact absurd rfl hne
  | cons p ps ih =>
    cases ps with
    | nil => exact base p (h p (by simp))
    | cons q qs =>
      rw [commaJoin_cons _ _ (by simp), app _ _ (h p (by simp)), ih (by simp) (fun x hx => h x (by simp [hx]))]

/-- Text is converted as described. -/
theorem coerce_text (ev : Bytes → Option OV) (o : Opt) (s : Bytes) (v : OV) :
    coerceTy o.ty (if o.ty = .array then coerceArray ev s else none) s = some v ↔ Text ev o.ty s v := by
  unfold coerceTy Text
  cases hty : o.ty <;> dsimp only
  · simp [eq_comm]
  · have hne : ascii "true" ≠ ascii "false" := by decide
    by_cases h1 : s = ascii "true"
    · rw [if_pos h1, h1]
      constructor
      · intro h; cases h; exact .inl ⟨rfl, rfl⟩
      · rintro (⟨_, rfl⟩ | ⟨h, _⟩)
        · rfl
        · exact absurd h hne
    · rw [if_neg h1]
      by_cases h2 : s = ascii "false"
      · rw [if_pos h2, h2]
        constructor
        · intro h; cases h; exact .inr ⟨rfl, rfl⟩
        · rintro (⟨h, _⟩ | ⟨_, rfl⟩)
          · exact absurd h.symm hne
          · rfl
      · rw [if_neg h2]
        constructor
        · intro h; cases h
        · rintro (⟨h, _⟩ | ⟨h, _⟩)
          · exact absurd h h1
          · exact absurd h h2
  · simp [eq_comm]
  · exact coerceInt_iff s v
  · rw [if_pos rfl]
    unfold coerceArray
    by_cases h1 : s = []
    · subst h1; rw [if_pos rfl]; constructor
      · intro h; cases h; exact .inl ⟨rfl, rfl⟩
      · rintro (⟨_, rfl⟩ | ⟨h, _⟩ | ⟨h, _⟩)
        · rfl
        · cases h
        · exact absurd rfl h
    · rw [if_neg h1]
      by_cases h2 : s.head? = some 91
      · rw [if_pos h2]; simp [h1, h2]
      · rw [if_neg h2]
        simp only [h1, false_and, h2, false_or, ne_eq, not_false_eq_true, true_and]
        constructor
        · intro h
          cases h
          exact ⟨splitComma s, (splitComma_join s).1, (splitComma_join s).2, rfl⟩
        · rintro ⟨ps, rfl, h, rfl⟩
          have hne : ps ≠ [] := by rintro rfl; exact h1 rfl
          rw [commaJoin_unique ps hne h]
  · unfold coerceFeature
    have n1 : ascii "auto" ≠ ascii "enabled" := by decide
    have n2 : ascii "auto" ≠ ascii "disabled" := by decide
    have n3 : ascii "enabled" ≠ ascii "disabled" := by decide
    by_cases h1 : s = ascii "auto"
    · rw [if_pos h1, h1]
      constructor
      · intro h; cases h; exact .inl ⟨rfl, rfl⟩
      · rintro (⟨_, rfl⟩ | ⟨h, _⟩ | ⟨h, _⟩)
        · rfl
        · exact absurd h n1
        · exact absurd h n2
    · rw [if_neg h1]
      by_cases h2 : s = ascii "enabled"
      · rw [if_pos h2, h2]
        constructor
        · intro h; cases h; exact .inr (.inl ⟨rfl, rfl⟩)
        · rintro (⟨h, _⟩ | ⟨_, rfl⟩ | ⟨h, _⟩)
          · exact absurd h.symm n1
          · rfl
          · exact absurd h n3
      · rw [if_neg h2]
        by_cases h3 : s = ascii "disabled"
        · rw [if_pos h3, h3]
          constructor
          · intro h; cases h; exact .inr (.inr ⟨rfl, rfl⟩)
          · rintro (⟨h, _⟩ | ⟨h, _⟩ | ⟨_, rfl⟩)
            · exact absurd h.symm n2
            · exact absurd h.symm n3
            · rfl
        · rw [if_neg h3]
          constructor
          · intro h; cases h
          · rintro (⟨h, _⟩ | ⟨h, _⟩ | ⟨h, _⟩)
            · exact absurd h h1
            · exact absurd h h2
            · exact absurd h h3

/-- An assignment of text of sufficient precedence to an option without replaced values: it succeeds exactly if the text
stands for an allowed value, which is then the value of the option; otherwise the old value is kept. -/
theorem opt_text (ev : Bytes → Option OV) (proj : Option Bytes) (hev : ∀ s, ev s ≠ some .disabler) (f : Nat) (w w' : W) (i : Nat) (o : Opt) (s : Bytes) (src : Nat)
    (b : Bool) (ho : w.opts[i]? = some o) (hd : o.dep = none ∨ o.dep = some .flag) (hs : o.source ≤ src)
    (h : setOption ev proj (f + 1) w i (.str s) src true = .ok (b, w')) :
    (b = true ↔ ∃ v, Text ev o.ty s v ∧ Valid o v) ∧
    ∃ o', w'.opts[i]? = some o' ∧ o'.source = src ∧ (b = true → Text ev o.ty s o'.val) ∧ (b = false → o'.val = o.val) := by
  have hnr : ∀ o1, w.opts[i]? = some o1 → ∀ n, o1.dep ≠ some (.rename n) := by
    intro o1 h1 n hn
    rw [ho] at h1
    cases h1
    rcases hd with hd | hd <;> rw [hd] at hn <;> cases hn
  obtain ⟨o1, o', st⟩ := setOption_step hnr h
  have hold := st.old
  rw [ho] at hold
  cases hold
  obtain ⟨e1, e2, e3⟩ := st.high hs
  -- what is accepted
  have hacc : acceptV ev o (.str s) true = (match coerceTy o.ty (if o.ty = .array then coerceArray ev s else none) s with
      | some v => (match typecheckOpt o.ty v with
        | none => .ok none
        | some v => validate o v >>= fun b => .ok (if b then some v else none))
      | none => .ok none) := by
    unfold acceptV
    rw [if_pos rfl]
    dsimp only
    have hcw : coerceWith o (if o.ty = .array then coerceArray ev s else none) s = .ok (coerceTy o.ty (if o.ty = .array then coerceArray ev s else none) s) := by
      unfold coerceWith
      rcases hd with hd | hd <;> rw [hd]
    by_cases ha : o.ty = .array ∧ (if o.ty = .array then coerceArray ev s else none) = none
    · rw [if_pos ha, ha.2]
      unfold coerceTy
      rw [ha.1]
    · rw [if_neg ha, hcw, Res.ok_bind]
      cases coerceTy o.ty (if o.ty = .array then coerceArray ev s else none) s with
      | none => rfl
      | some v => rfl
  -- a text stands for a value of the right type
  have htype : ∀ v, Text ev o.ty s v → Valid o v → typecheckOpt o.ty v = some v := by
    intro v _ hv
    unfold Valid at hv
    unfold typecheckOpt
    cases hty : o.ty <;> rw [hty] at hv <;> cases v <;> first | exact hv.elim | rfl
  have hvalid : ∀ v, Valid o v → validate o v = .ok true := by
    intro v hv
    unfold Valid at hv
    unfold validate
    cases hty : o.ty <;> rw [hty] at hv <;> cases v <;> try first | exact hv.elim | rfl
    · obtain ⟨cs, hcs, hm⟩ := hv
      rw [hcs]
      simpa using hm
    · next n =>
      obtain ⟨h1, h2⟩ := hv
      dsimp only
      cases hmx : o.max with
      | none =>
        cases hmn : o.min with
        | none => rfl
        | some m => have := h2 m hmn; simp; omega
      | some m =>
        have := h1 m hmx
        cases hmn : o.min with
        | none => simp; omega
        | some m' => have := h2 m' hmn; simp; omega
    · next l =>
      dsimp only
      cases hc : o.choices with
      | none => rfl
      | some cs =>
        simp only [Res.ok.injEq, List.all_eq_true, List.contains_iff_mem]
        exact fun e he => hv cs hc e he
  have htext := fun v => coerce_text ev o s v
  have hnd : ∀ v, Text ev o.ty s v → v ≠ .disabler := by
    intro v hv hdis
    subst hdis
    unfold Text at hv
    cases hty : o.ty <;> rw [hty] at hv
    · cases hv
    · rcases hv with ⟨_, h⟩ | ⟨_, h⟩ <;> cases h
    · cases hv
    · obtain ⟨n, _, h⟩ := hv; cases h
    · rcases hv with ⟨_, h⟩ | ⟨_, h⟩ | ⟨_, _, ps, _, _, h⟩
      · cases h
      · exact hev s h
      · cases h
    · rcases hv with ⟨_, h⟩ | ⟨_, h⟩ | ⟨_, h⟩ <;> cases h
  have hself : ∀ v v', Text ev o.ty s v → typecheckOpt o.ty v = some v' → v' = v := by
    intro v v' hv ht
    unfold typecheckOpt at ht
    dsimp only at ht
    split at ht
    · next x hx =>
      split at ht
      · cases ht
        split at hx
        · next hty =>
          unfold Text at hv
          rw [hty] at hv
          rcases hv with ⟨_, h⟩ | ⟨_, h⟩ | ⟨_, h⟩ <;> cases h
        · cases hx; rfl
      · cases ht
    · cases ht
  rw [hacc] at e2 e3
  refine ⟨⟨fun hb => ?_, fun ⟨v, hv, hval⟩ => ?_⟩, o', st.new, e1, fun hb => ?_, fun hb => (e3 hb).1⟩
  · have h2 := e2 hb
    split at h2
    · next v hv =>
      have hv := (htext v).1 hv
      split at h2
      · cases h2
      · next v' ht =>
        have := hself v v' hv ht
        subst this
        cases hvd : validate o v' with
        | ok x =>
          rw [hvd, Res.ok_bind] at h2
          cases x with
          | false => cases h2
          | true =>
            refine ⟨v', hv, ?_⟩
            rcases typecheck_validate ht hvd with h | ⟨_, h⟩
            · exact h
            · exact absurd h (hnd v' hv)
        | error => rw [hvd] at h2; cases h2
        | bad => rw [hvd] at h2; cases h2
    · cases h2
  · cases b with
    | true => rfl
    | false =>
      have h3 := (e3 rfl).2
      rw [(htext v).2 hv] at h3
      dsimp only at h3
      rw [htype v hv hval] at h3
      dsimp only at h3
      rw [hvalid v hval] at h3
      cases h3
  · have h2 := e2 hb
    split at h2
    · next v hv =>
      have hv := (htext v).1 hv
      split at h2
      · cases h2
      · next v' ht =>
        have := hself v v' hv ht
        subst this
        cases hvd : validate o v' with
        | ok x =>
          rw [hvd, Res.ok_bind] at h2
          cases x with
          | false => cases h2
          | true => rw [← Option.some.inj (Res.ok.inj h2)]; exact hv
        | error => rw [hvd] at h2; cases h2
        | bad => rw [hvd] at h2; cases h2
    · cases h2

/-- Adding to an array option: at the end, unless the option was set with higher precedence. -/
theorem extend_appends (w : W) (i : Nat) (l : List Bytes) (src : Nat) (o : Opt) (a : List El) (ho : w.opts[i]? = some o) (ha : o.val = .arr a) :
    (src < o.source → extendArray w i l src = .ok w) ∧
    (o.source ≤ src → ∃ w', extendArray w i l src = .ok w' ∧ w'.opts[i]? = some { o with source := src, val := .arr (a ++ l.map .s) } ∧ ∀ j, j ≠ i → w'.opts[j]? = w.opts[j]?) := by
  unfold extendArray
  rw [ho]
  dsimp only
  refine ⟨fun h => by rw [if_pos h], fun h => ?_⟩
  rw [if_neg (by omega), ha]
  refine ⟨_, rfl, ?_, fun j hj => ?_⟩
  · rw [upd_get, if_pos rfl, ho]; rfl
  · rw [upd_get, if_neg (Ne.symm hj)]

/-- A deprecated value in an array is replaced where it first occurs. -/
theorem deprecated_element (old new : Bytes) (a b : List El) (h : El.s old ∉ a) :
    deprecateArray [(old, some new)] (a ++ .s old :: b) = a ++ .s new :: b ∧ deprecateArray [(old, some new)] a = a := by
  have h1 : ∀ l, setFirst old new (a ++ l) = a ++ setFirst old new l := by
    intro l
    induction a with
    | nil => rfl
    | cons x a ih =>
      rw [List.cons_append, setFirst, if_neg (fun e => h (by simp [e])), ih (fun e => h (by simp [e]))]
      rfl
  constructor
  · show setFirst old new (a ++ .s old :: b) = _
    rw [h1, setFirst, if_pos rfl]
  · show setFirst old new a = _
    have := h1 []
    simpa [setFirst] using this

/-- A deprecated value of another type is replaced, if it is not listed twice. -/
theorem deprecated_value (s new : Bytes) (a b : List (Bytes × Option Bytes)) (hb : ∀ p ∈ b, p.1 ≠ s) :
    deprecateStr s (a ++ (s, some new) :: b) none = some new := by
  have h2 : ∀ (b : List (Bytes × Option Bytes)) cur, (∀ p ∈ b, p.1 ≠ s) → deprecateStr s b cur = cur := by
    intro b
    induction b with
    | nil => intro cur _; rfl
    | cons p b ih =>
      intro cur h
      obtain ⟨old, n⟩ := p
      rw [deprecateStr, if_neg (fun e => h (old, n) (by simp) e.1.symm)]
      exact ih _ (fun p hp => h p (by simp [hp]))
  have h1 : ∀ (a : List (Bytes × Option Bytes)) cur, deprecateStr s (a ++ (s, some new) :: b) cur = some new := by
    intro a
    induction a with
    | nil =>
      intro cur
      rw [List.nil_append, deprecateStr, if_pos ⟨rfl, rfl⟩]
      exact h2 b _ hb
    | cons p a ih => intro cur; obtain ⟨old, n⟩ := p; rw [List.cons_append, deprecateStr]; exact ih _
  exact h1 a none

theorem findName_upd (w : W) (i : Nat) (n : Bytes) (g : Opt → Opt) (hg : ∀ o, (g o).name = o.name) : find (w.upd i g).opts n = find w.opts n := by
  unfold find W.upd
  dsimp only
  generalize w.opts = l
  induction l generalizing i with
  | nil => rw [List.modify_nil]
  | cons o l ih =>
    cases i with
    | zero => rw [List.modify_zero_cons, List.findIdx?_cons, List.findIdx?_cons, hg]
    | succ i => rw [List.modify_succ_cons, List.findIdx?_cons, List.findIdx?_cons, ih]

/-- Setting an option that is deprecated to another one, which does not exist yet: the assignment is kept for later. -/
theorem opt_rename_later (ev : Bytes → Option OV) (proj : Option Bytes) (f : Nat) (w w' : W) (i : Nat) (o : Opt) (n s : Bytes) (src : Nat)
    (ho : w.opts[i]? = some o) (hty : o.ty = .string) (hd : o.dep = some (.rename n)) (hs : o.source ≤ src) (hf : find w.opts n = none)
    (h : setOption ev proj (f + 1) w i (.str s) src true = .ok (true, w')) :
    w'.overrides = w.overrides ++ [⟨proj, n, s, srcDeprecatedRename⟩] := by
  unfold setOption at h
  rw [ho] at h
  dsimp only at h
  rw [if_neg (by omega), if_pos rfl, if_neg (by rw [hty]; simp), hd] at h
  unfold renameTo at h
  dsimp only at h
  rw [findName_upd w i n (fun o => { o with source := src }) (fun _ => rfl), hf] at h
  dsimp only at h
  rw [Res.ok_bind, Res.bind_eq_ok] at h
  obtain ⟨c, hc, h⟩ := h
  cases c with
  | none => cases h
  | some v =>
    dsimp only at h
    unfold store at h
    split at h
    · cases h
    · rw [Res.bind_eq_ok] at h
      obtain ⟨b, _, h⟩ := h
      cases b with
      | false => cases h
      | true => cases h; rfl

/-- Setting an option that is deprecated to another one sets that one, with its own precedence, to what the same text means
there. -/
theorem opt_rename (ev : Bytes → Option OV) (proj : Option Bytes) (f : Nat) (w w' : W) (i j : Nat) (o oj : Opt) (n s : Bytes) (src : Nat) (b : Bool)
    (ho : w.opts[i]? = some o) (hd : o.dep = some (.rename n)) (hs : o.source ≤ src) (hty : o.ty ≠ .array) (hf : find w.opts n = some j) (hij : j ≠ i)
    (hoj : w.opts[j]? = some oj) (hnr : ∀ n', oj.dep ≠ some (.rename n'))
    (h : setOption ev proj (f + 2) w i (.str s) src true = .ok (b, w')) :
    ∃ oj', w'.opts[j]? = some oj' ∧
      (srcDeprecatedRename < oj.source → oj' = oj) ∧
      (oj.source ≤ srcDeprecatedRename → oj'.source = srcDeprecatedRename ∧ (acceptV ev oj (.str s) true = .ok (some oj'.val) ∨ (acceptV ev oj (.str s) true = .ok none ∧ oj'.val = oj.val))) := by
  unfold setOption at h
  rw [ho] at h
  dsimp only at h
  rw [if_neg (by omega), if_pos rfl, if_neg (by simp [hty]), hd] at h
  unfold renameTo at h
  dsimp only at h
  rw [findName_upd w i n (fun o => { o with source := src }) (fun _ => rfl), hf] at h
  dsimp only at h
  rw [Res.bind_eq_ok] at h
  obtain ⟨w2, h2, h⟩ := h
  rw [Res.bind_eq_ok] at h2
  obtain ⟨⟨b2, w3⟩, h3, h4⟩ := h2
  cases h4
  have hj1 : (w.upd i fun o => { o with source := src }).opts[j]? = some oj := by rw [upd_get, if_neg (Ne.symm hij)]; exact hoj
  obtain ⟨o1, oj', st⟩ := setOption_step (fun o1 h1 n' => by rw [hj1] at h1; cases h1; exact hnr n') h3
  have hold := st.old
  rw [hj1] at hold
  cases hold
  have hkeep : w'.opts[j]? = w3.opts[j]? := by
    rw [Res.bind_eq_ok] at h
    obtain ⟨c, _, h⟩ := h
    cases c with
    | none => cases h; rfl
    | some v =>
      dsimp only at h
      unfold store at h
      split at h
      · cases h; rfl
      · rw [Res.bind_eq_ok] at h
        obtain ⟨b', _, h⟩ := h
        cases b' with
        | false => cases h; rfl
        | true => cases h; rw [upd_get, if_neg (Ne.symm hij)]
  refine ⟨oj', by rw [hkeep]; exact st.new, fun hl => (st.low hl).1, fun hh => ?_⟩
  obtain ⟨e1, e2, e3⟩ := st.high hh
  refine ⟨e1, ?_⟩
  cases b2 with
  | true => exact .inl (e2 rfl)
  | false => exact .inr ⟨(e3 rfl).2, (e3 rfl).1⟩

/-! ### Examples -/

example : Number (ascii " -12") (-12) := ⟨[32], [45], ascii "12", by decide, by decide, by decide, by decide, .inr ⟨rfl, by decide⟩⟩
example : Text (fun _ => none) .array (ascii "a,,b") (.arr [.s (ascii "a"), .s [], .s (ascii "b")]) :=
  .inr (.inr ⟨by decide, by decide, [ascii "a", [], ascii "b"], by decide, by decide, rfl⟩)
/-- An option deprecated to another one. -/
example : setOption (fun _ => none) none 2 ⟨[⟨ascii "old", .string, .str [], none, none, none, srcDefault, some (.rename (ascii "new"))⟩,
      ⟨ascii "new", .string, .str [], none, none, none, srcDefault, none⟩], []⟩ 0 (.str (ascii "x")) srcCommandline true =
    .ok (true, ⟨[⟨ascii "old", .string, .str (ascii "x"), none, none, none, srcCommandline, some (.rename (ascii "new"))⟩,
      ⟨ascii "new", .string, .str (ascii "x"), none, none, none, srcDeprecatedRename, none⟩], []⟩) := by decide

end Muon.Opt
