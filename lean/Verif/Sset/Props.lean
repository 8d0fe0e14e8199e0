import Verif.Sset.Lemmas
/-
Source sets: properties.
-/
namespace Muon.Sset
open Muon Muon.Sset.Spec

/-! ### The invariant -/

/-- `S'` has the same rules as `S`, and at least the same sets are frozen. -/
def Ext (S S' : List SS) : Prop :=
  S'.length = S.length ∧ ∀ (j : Nat) (s : SS), S[j]? = some s →
    ∃ s', S'[j]? = some s' ∧ s'.rules = s.rules ∧ (s.frozen = true → s'.frozen = true)

theorem Ext.refl (S : List SS) : Ext S S := ⟨rfl, fun _ s h => ⟨s, h, rfl, id⟩⟩

theorem Ext.trans {A B C : List SS} (h : Ext A B) (h' : Ext B C) : Ext A C := by
  refine ⟨h'.1.trans h.1, fun j s hs => ?_⟩
  obtain ⟨s1, h1, h2, h3⟩ := h.2 j s hs
  obtain ⟨s2, h4, h5, h6⟩ := h'.2 j s1 h1
  exact ⟨s2, h4, h5.trans h2, fun hf => h6 (h3 hf)⟩

theorem ext_freeze (S : List SS) (i : Nat) : Ext S (S.modify i fun s => { s with frozen := true }) := by
  refine ⟨by simp, fun j s hs => ?_⟩
  rw [List.getElem?_modify, hs]
  by_cases h : i = j
  · exact ⟨_, rfl, by simp [h], by simp [h]⟩
  · exact ⟨s, by simp [h], rfl, id⟩

theorem ext_freezeNested : ∀ (l : List Item) (S : List SS), Ext S (freezeNested S l) := by
  intro l
  induction l with
  | nil => intro S; exact .refl S
  | cons x l ih =>
    intro S
    cases x with
    | src s => exact ih S
    | dep d => exact ih S
    | set j => exact (ext_freeze S j).trans (ih _)

theorem freezeNested_frozen : ∀ (l : List Item) (S : List SS) (j : Nat), Item.set j ∈ l → j < S.length →
    ∃ s, (freezeNested S l)[j]? = some s ∧ s.frozen = true := by
  intro l
  induction l with
  | nil => intro S j h; cases h
  | cons x l ih =>
    intro S j hj hl
    cases x with
    | src s => exact ih S j (by simpa using hj) hl
    | dep d => exact ih S j (by simpa using hj) hl
    | set k =>
      rw [freezeNested]
      by_cases h : k = j
      · subst h
        have hk : (S.modify k fun s => { s with frozen := true })[k]? = some { S[k] with frozen := true } := by
          rw [List.getElem?_modify, List.getElem?_eq_getElem hl]; simp
        obtain ⟨s', h1, _, h3⟩ := (ext_freezeNested l _).2 k _ hk
        exact ⟨s', h1, h3 rfl⟩
      · have hj' : Item.set j ∈ l := by
          rcases List.mem_cons.mp hj with e | e
          · cases e; exact absurd rfl h
          · exact e
        exact ih _ j hj' (by simpa using hl)

theorem rulesOf_ext {S S' : List SS} (h : Ext S S') (i : Nat) : rulesOf S' i = rulesOf S i := by
  unfold rulesOf
  cases hi : S[i]? with
  | none =>
    have : S'[i]? = none := by
      rw [List.getElem?_eq_none_iff] at hi ⊢
      rw [h.1]; exact hi
    rw [this]
  | some s =>
    obtain ⟨s', h1, h2, _⟩ := h.2 i s hi
    rw [h1]; exact h2

theorem inv_ext {S S' : List SS} {rank : Nat → Nat} (h : Ext S S') (hI : Inv S rank) : Inv S' rank := by
  constructor
  · intro i r hr; rw [rulesOf_ext h] at hr; exact hI.ok i r hr
  · intro i r hr; rw [rulesOf_ext h] at hr; exact hI.noFalse i r hr
  · intro i r hr t ht j hj
    rw [rulesOf_ext h] at hr
    obtain ⟨⟨s, h1, h2⟩, h3⟩ := hI.nested i r hr t ht j hj
    obtain ⟨s', h4, _, h5⟩ := h.2 j s h1
    exact ⟨⟨s', h4, h5 h2⟩, h3⟩

theorem bound (rank : Nat → Nat) : ∀ l : List Item, ∃ b, ∀ j, Item.set j ∈ l → rank j < b := by
  intro l
  induction l with
  | nil => exact ⟨0, fun j h => by cases h⟩
  | cons x l ih =>
    obtain ⟨b, hb⟩ := ih
    cases x with
    | src s => exact ⟨b, fun j h => hb j (by simpa using h)⟩
    | dep d => exact ⟨b, fun j h => hb j (by simpa using h)⟩
    | set k =>
      refine ⟨b + rank k + 1, fun j h => ?_⟩
      rcases List.mem_cons.mp h with e | e
      · cases e; omega
      · have := hb j e; omega

theorem rulesOf_push (S : List SS) (i j : Nat) (r : Rule) (hi : i < S.length) :
    rulesOf (S.modify i fun s => { s with rules := s.rules ++ [r] }) j =
      if i = j then rulesOf S j ++ [r] else rulesOf S j := by
  unfold rulesOf
  rw [List.getElem?_modify]
  by_cases h : i = j
  · subst h
    rw [List.getElem?_eq_getElem hi]
    simp
  · cases hj : S[j]? <;> simp [h]

/-- Adding a rule to a set that is not frozen keeps the invariant. -/
theorem inv_push {S : List SS} {rank : Nat → Nat} (hI : Inv S rank) (i : Nat) (hi : i < S.length)
    (hfr : ∀ s, S[i]? = some s → s.frozen = false) (r : Rule) (hr : RuleOk r)
    (hf : ∀ f, r.ifFalse = some f → ∀ j, Item.set j ∉ f)
    (ht : ∀ t, r.ifTrue = some t → ∀ j, Item.set j ∈ t → j ≠ i ∧ j < S.length) :
    ∃ rank', Inv ((match r.ifTrue with
      | some t => freezeNested S t
      | none => S).modify i fun s => { s with rules := s.rules ++ [r] }) rank' := by
  generalize hS1 : (match r.ifTrue with
      | some t => freezeNested S t
      | none => S) = S1
  have he : Ext S S1 := by
    rw [← hS1]
    cases r.ifTrue with
    | none => exact .refl S
    | some t => exact ext_freezeNested t S
  have hfrz : ∀ t, r.ifTrue = some t → ∀ j, Item.set j ∈ t → ∃ s, S1[j]? = some s ∧ s.frozen = true := by
    intro t hT j hj
    rw [← hS1, hT]
    exact freezeNested_frozen t S j hj (ht t hT j hj).2
  have hI1 := inv_ext he hI
  obtain ⟨b, hb⟩ := bound rank (r.ifTrue.getD [])
  have hi1 : i < S1.length := by rw [he.1]; exact hi
  refine ⟨fun x => if x = i then max (rank i) b else rank x, ?_, ?_, ?_⟩
  · intro j r' hr'
    rw [rulesOf_push _ _ _ _ hi1] at hr'
    split at hr'
    · rcases List.mem_append.mp hr' with h | h
      · exact hI1.ok j r' h
      · rw [List.mem_singleton] at h; subst h; exact hr
    · exact hI1.ok j r' hr'
  · intro j r' hr'
    rw [rulesOf_push _ _ _ _ hi1] at hr'
    split at hr'
    · rcases List.mem_append.mp hr' with h | h
      · exact hI1.noFalse j r' h
      · rw [List.mem_singleton] at h; subst h; exact hf
    · exact hI1.noFalse j r' hr'
  · have hfz : ∀ j : Nat, (∃ s : SS, S1[j]? = some s ∧ s.frozen = true) →
        ∃ s : SS, (S1.modify i fun s => { s with rules := s.rules ++ [r] })[j]? = some s ∧ s.frozen = true := by
      rintro j ⟨s, h1, h2⟩
      rw [List.getElem?_modify, h1]
      by_cases h : i = j <;> simp [h, h2]
    have old : ∀ j : Nat, ∀ r' ∈ rulesOf S1 j, ∀ t, r'.ifTrue = some t → ∀ k, Item.set k ∈ t →
        (∃ s : SS, (S1.modify i fun s => { s with rules := s.rules ++ [r] })[k]? = some s ∧ s.frozen = true) ∧
          (if k = i then max (rank i) b else rank k) < (if j = i then max (rank i) b else rank j) := by
      intro j r' hr' t hT k hk
      rw [rulesOf_ext he] at hr'
      obtain ⟨⟨s, h1, h2⟩, h3⟩ := hI.nested j r' hr' t hT k hk
      have hki : k ≠ i := by
        intro e; subst e
        have := hfr s h1
        rw [h2] at this; cases this
      obtain ⟨s', h4, _, h5⟩ := he.2 k s h1
      refine ⟨hfz k ⟨s', h4, h5 h2⟩, ?_⟩
      rw [if_neg hki]
      split
      · next e => subst e; omega
      · exact h3
    intro j r' hr' t hT k hk
    rw [rulesOf_push _ _ _ _ hi1] at hr'
    split at hr'
    · next hij =>
      rcases List.mem_append.mp hr' with h | h
      · exact old j r' h t hT k hk
      · rw [List.mem_singleton] at h; subst h
        refine ⟨hfz k (hfrz t hT k hk), ?_⟩
        rw [if_neg (ht t hT k hk).1, if_pos hij.symm]
        have := hb k (by rw [hT]; exact hk)
        omega
    · exact old j r' hr' t hT k hk

theorem inv_new {S : List SS} {rank : Nat → Nat} (hI : Inv S rank) : Inv (S ++ [⟨false, []⟩]) rank := by
  have hr : ∀ i, rulesOf (S ++ [⟨false, []⟩]) i = rulesOf S i := by
    intro i
    unfold rulesOf
    rw [List.getElem?_append]
    by_cases h : i < S.length
    · rw [if_pos h]
    · rw [if_neg h]
      have : S[i]? = none := by rw [List.getElem?_eq_none_iff]; omega
      rw [this]
      cases i - S.length with
      | zero => rfl
      | succ n => rfl
  constructor
  · intro i r h; rw [hr] at h; exact hI.ok i r h
  · intro i r h; rw [hr] at h; exact hI.noFalse i r h
  · intro i r h t ht j hj
    rw [hr] at h
    obtain ⟨⟨s, h1, h2⟩, h3⟩ := hI.nested i r h t ht j hj
    refine ⟨⟨s, ?_, h2⟩, h3⟩
    rw [List.getElem?_append]
    have : j < S.length := by
      rcases Nat.lt_or_ge j S.length with h | h
      · exact h
      · rw [List.getElem?_eq_none h] at h1; cases h1
    rw [if_pos this, h1]

theorem checkNotFrozen_ok {S : List SS} {i : Nat} {u : Unit} (h : checkNotFrozen S i = .ok u) :
    i < S.length ∧ ∀ s, S[i]? = some s → s.frozen = false := by
  unfold checkNotFrozen at h
  cases hs : S[i]? with
  | none => rw [hs] at h; cases h
  | some s =>
    rw [hs] at h
    constructor
    · rcases Nat.lt_or_ge i S.length with h | h
      · exact h
      · rw [List.getElem?_eq_none h] at hs; cases hs
    · intro s' e; cases e
      cases hf : s.frozen with
      | false => rfl
      | true => dsimp only at h; rw [if_pos hf] at h; cases h

theorem noset_leaves (l : List Leaf) (j : Nat) : Item.set j ∉ l.map Leaf.item := by
  intro h
  obtain ⟨x, _, hx⟩ := List.mem_map.mp h
  cases x <;> simp [Leaf.item] at hx

theorem noset_srcs (l : List Nat) (j : Nat) : Item.set j ∉ l.map Item.src := by simp

theorem inv_step {S S' : List SS} {rank : Nat → Nat} (hI : Inv S rank) (op : Op) (hop : NoSelf op) (h : step S op = .ok S') :
    ∃ rank', Inv S' rank' := by
  cases op with
  | new => cases h; exact ⟨rank, inv_new hI⟩
  | apply i => cases h; exact ⟨rank, inv_ext (ext_freeze S i) hI⟩
  | add i pos when t f =>
    simp only [step] at h
    obtain ⟨u, h1, h2⟩ := Res.bind_eq_ok.mp h
    obtain ⟨hi, hfr⟩ := checkNotFrozen_ok h1
    unfold addRule at h2
    split at h2
    · cases h2
    · injection h2 with h2
      rw [← h2]
      apply inv_push hI i hi hfr
      · right
        intro t' ht' j
        by_cases hp : (pos.map Leaf.item).length ≠ 0
        · rw [if_pos hp] at ht'; cases ht'; exact noset_leaves _ _
        · rw [if_neg hp] at ht'
          cases t with
          | none => cases ht'
          | some t => cases ht'; exact noset_leaves _ _
      · intro f' hf' j
        by_cases hp : (pos.map Leaf.item).length ≠ 0
        · rw [if_pos hp] at hf'; cases hf'
        · rw [if_neg hp] at hf'
          cases f with
          | none => cases hf'
          | some f => cases hf'; exact noset_srcs _ _
      · intro t' ht' j hj
        exfalso
        by_cases hp : (pos.map Leaf.item).length ≠ 0
        · rw [if_pos hp] at ht'; cases ht'; exact noset_leaves _ _ hj
        · rw [if_neg hp] at ht'
          cases t with
          | none => cases ht'
          | some t => cases ht'; exact noset_leaves _ _ hj
  | addAll i pos when t =>
    simp only [step] at h
    split at h
    · next hall =>
      obtain ⟨u, h1, h2⟩ := Res.bind_eq_ok.mp h
      obtain ⟨hi, hfr⟩ := checkNotFrozen_ok h1
      unfold addRule at h2
      split at h2
      · cases h2
      · injection h2 with h2
        rw [← h2]
        apply inv_push hI i hi hfr
        · left
          split <;> rfl
        · intro f' hf'
          by_cases hp : (pos.map Item.set).length ≠ 0
          · rw [if_pos hp] at hf'; cases hf'
          · rw [if_neg hp] at hf'; cases hf'
        · intro t' ht' j hj
          have hmem : j ∈ pos ∨ j ∈ t.getD [] := by
            by_cases hp : (pos.map Item.set).length ≠ 0
            · rw [if_pos hp] at ht'; cases ht'
              obtain ⟨x, hx, e⟩ := List.mem_map.mp hj; cases e; exact .inl hx
            · rw [if_neg hp] at ht'
              cases t with
              | none => cases ht'
              | some t =>
                cases ht'
                obtain ⟨x, hx, e⟩ := List.mem_map.mp hj; cases e; exact .inr hx
          constructor
          · intro e; subst e
            rcases hmem with h | h
            · exact hop.1 h
            · exact hop.2 h
          · have := List.all_eq_true.mp hall j (by simpa using hmem)
            simpa using this
    · cases h

theorem inv_run : ∀ (ops : List Op) (S S' : List SS) (rank : Nat → Nat), Inv S rank → (∀ op ∈ ops, NoSelf op) →
    run S ops = .ok S' → ∃ rank', Inv S' rank' := by
  intro ops
  induction ops with
  | nil => intro S S' rank hI _ h; cases h; exact ⟨rank, hI⟩
  | cons op ops ih =>
    intro S S' rank hI hn h
    rw [run] at h
    obtain ⟨S1, h1, h2⟩ := Res.bind_eq_ok.mp h
    obtain ⟨rank1, hI1⟩ := inv_step hI op (hn op (by simp)) h1
    exact ih S1 S' rank1 hI1 (fun o ho => hn o (by simp [ho])) h2

theorem inv_reachable (ops : List Op) (S : List SS) (hn : ∀ op ∈ ops, NoSelf op) (h : run [] ops = .ok S) :
    ∃ rank, Inv S rank :=
  inv_run ops [] S (fun _ => 0) ⟨by simp [rulesOf], by simp [rulesOf], by simp [rulesOf]⟩ hn h

/-! ### What is collected -/

theorem leaves_exist_list {rules : Nat → List Rule} {yes no : List Cond → Bool} : ∀ (l : List Item),
    (∀ j, Item.set j ∈ l → ∃ o, Leaves rules yes no ((rules j).flatMap (chosen yes no)) o) →
    ∃ out, Leaves rules yes no l out := by
  intro l
  induction l with
  | nil => intro _; exact ⟨[], .nil⟩
  | cons x l ih =>
    intro h
    obtain ⟨o, ho⟩ := ih (fun j hj => h j (by simp [hj]))
    cases x with
    | src s => exact ⟨_, .src ho⟩
    | dep d => exact ⟨_, .dep ho⟩
    | set j =>
      obtain ⟨o1, h1⟩ := h j (by simp)
      exact ⟨_, .set h1 ho⟩

theorem chosen_set {yes no : List Cond → Bool} {r : Rule} {j : Nat} (h : Item.set j ∈ chosen yes no r) :
    (∃ t, r.ifTrue = some t ∧ Item.set j ∈ t) ∨ ∃ f, r.ifFalse = some f ∧ Item.set j ∈ f := by
  unfold chosen at h
  rcases List.mem_append.mp h with h | h
  · left
    cases ht : r.ifTrue with
    | none => rw [ht] at h; cases h
    | some t =>
      rw [ht] at h
      dsimp only at h
      split at h
      · rcases List.mem_append.mp h with h | h
        · rw [← whenDeps_eq] at h; simp at h
        · exact ⟨t, rfl, h⟩
      · cases h
  · right
    split at h
    · cases hf : r.ifFalse with
      | none => rw [hf] at h; cases h
      | some f => rw [hf] at h; exact ⟨f, rfl, h⟩
    · cases h

theorem leaves_exist {S : List SS} {rank : Nat → Nat} (hI : Inv S rank) (yes no : List Cond → Bool) : ∀ (n i : Nat),
    rank i < n → ∃ out, Leaves (rulesOf S) yes no ((rulesOf S i).flatMap (chosen yes no)) out := by
  intro n
  induction n with
  | zero => intro i h; omega
  | succ n ih =>
    intro i h
    apply leaves_exist_list
    intro j hj
    obtain ⟨r, hr, hj⟩ := List.mem_flatMap.mp hj
    rcases chosen_set hj with ⟨t, ht, hj⟩ | ⟨f, hf, hj⟩
    · have := (hI.nested i r hr t ht j hj).2
      exact ih j (by omega)
    · exact absurd hj (hI.noFalse i r hr f hf j)

theorem set_good {S : List SS} {rank : Nat → Nat} (hI : Inv S rank) (found : Nat → Bool)
    (conf : Option (Bytes → Option CVal)) (mode : Mode) (strict : Bool) (yes no : List Cond → Bool)
    (hno : ∀ w, no w = (conf.isNone || !yes w)) : ∀ (n i : Nat), rank i < n →
    (∀ r ∈ rulesOf S i, matchRule found conf strict r = .ok (yes (r.when.getD []))) →
    (∀ j, Contains (rulesOf S) i j → ∀ r ∈ rulesOf S j, matchRule found conf strict r = .ok (yes (r.when.getD []))) →
    ∀ out, Leaves (rulesOf S) yes no ((rulesOf S i).flatMap (chosen yes no)) out →
    ∀ f, n ≤ f → ∀ st, Good (collectSet found conf mode strict S f i st) (st.res ++ pick mode out) := by
  intro n
  induction n with
  | zero => intro i h; omega
  | succ n ih =>
    intro i h hD hC out ho f hf st
    obtain ⟨f, rfl⟩ : ∃ g, f = g + 1 := ⟨f - 1, by omega⟩
    rw [collectSet]
    apply rules_good found conf mode strict (rulesOf S) yes no _ _ (hI.ok i) hD hno ?_ out ho
    intro r hr t j o ht hj hl st'
    rcases ht with ht | ht
    · have hc : Contains (rulesOf S) i j := .direct hr ht hj
      have := (hI.nested i r hr t ht j hj).2
      exact ih j (by omega) (hC j hc) (fun k hk => hC k (.trans hc hk)) o hl f (by omega) st'
    · exact absurd hj (hI.noFalse i r hr t ht j)

/-- If the conditions of some rule are an error, so is collecting the rules. -/
theorem rules_err (found : Nat → Bool) (conf : Option (Bytes → Option CVal)) (mode : Mode) (strict : Bool)
    (rules : Nat → List Rule) (yes no : List Cond → Bool) (nested : Nat → St → Out)
    (hno : ∀ w, no w = (conf.isNone || !yes w)) : ∀ (rs : List Rule),
    (∀ r ∈ rs, RuleOk r) →
    (∀ r ∈ rs, matchRule found conf strict r = .ok (yes (r.when.getD [])) ∨ matchRule found conf strict r = .error) →
    (∀ r ∈ rs, ∀ t j, (r.ifTrue = some t ∨ r.ifFalse = some t) → Item.set j ∈ t →
      ∃ o, Leaves rules yes no ((rules j).flatMap (chosen yes no)) o ∧ ∀ st, Good (nested j st) (st.res ++ pick mode o)) →
    (∃ r ∈ rs, matchRule found conf strict r = .error) →
    ∀ st, ∃ st', collectRules found conf mode strict nested rs st = .err st' := by
  intro rs
  induction rs with
  | nil => rintro _ _ _ ⟨r, hr, _⟩; cases hr
  | cons r rs ih =>
    intro hr hm hn hex st
    rw [collectRules]
    rcases hm r (by simp) with hmr | hmr
    · have hl : ∃ out, Leaves rules yes no (chosen yes no r) out := by
        apply leaves_exist_list
        intro j hj
        rcases chosen_set hj with ⟨t, ht, hj⟩ | ⟨t, ht, hj⟩
        · obtain ⟨o, ho, _⟩ := hn r (by simp) t j (.inl ht) hj; exact ⟨o, ho⟩
        · obtain ⟨o, ho, _⟩ := hn r (by simp) t j (.inr ht) hj; exact ⟨o, ho⟩
      obtain ⟨out, hl⟩ := hl
      obtain ⟨m, hg⟩ := rule_good found conf mode strict rules yes no nested r (hr r (by simp)) hmr (hno _)
        (fun t j o ht hj ho st => by
          obtain ⟨o', h1, h2⟩ := hn r (by simp) t j ht hj
          rw [leaves_det ho h1]; exact h2 st) out hl st
      rw [hg]
      apply ih (fun r h => hr r (by simp [h])) (fun r h => hm r (by simp [h])) (fun r h => hn r (by simp [h]))
      obtain ⟨r', h1, h2⟩ := hex
      rcases List.mem_cons.mp h1 with rfl | h1
      · rw [hmr] at h2; cases h2
      · exact ⟨r', h1, h2⟩
    · refine ⟨{ st with mat := true }, ?_⟩
      unfold collectRule
      rw [hmr]

theorem matchRule_conf (found : Nat → Bool) (conf : Bytes → Option CVal) (strict : Bool) (hc : ∀ k, conf k ≠ some .other)
    (r : Rule) :
    (strict = true ∧ Missing found conf (r.when.getD []) ∧ matchRule found (some conf) strict r = .error) ∨
      ((strict = false ∨ ¬ Missing found conf (r.when.getD [])) ∧
        matchRule found (some conf) strict r = .ok ((r.when.getD []).all (holds found conf))) := by
  cases hw : r.when with
  | none =>
    right
    refine ⟨.inr ?_, by simp [matchRule, hw]⟩
    rintro ⟨pre, k, post, h, _⟩
    cases pre <;> simp at h
  | some w =>
    have := matchWhen_conf found conf strict hc w
    simpa [matchRule, hw] using this

theorem leaves_single {rules : Nat → List Rule} {yes no : List Cond → Bool} {i : Nat} {out : List Leaf}
    (h : Leaves rules yes no ((rules i).flatMap (chosen yes no)) out) : Leaves rules yes no [.set i] out := by
  have := Leaves.set h .nil
  simpa using this

/-- **C42**: `apply()` selects, in the order of the rules and with each only once, the sources and dependencies of the
`if_true` of every rule all of whose conditions hold, with the dependencies among its conditions, and the `if_false` of
every rule one of whose conditions does not; source sets in `if_true` stand for what their own rules select. With
`strict`, a condition that is evaluated and has no value in the configuration is an error. The source sets are those
of any program in which no set is put into itself.

Partial: the configuration has only booleans, strings and numbers, and with `strict` no condition without a value is in
a nested set (`apply_nested_strict_counterexample`). -/
theorem apply_selects_partial (ops : List Op) (S : List SS) (hself : ∀ op ∈ ops, NoSelf op) (hrun : run [] ops = .ok S)
    (found : Nat → Bool) (conf : Bytes → Option CVal) (strict : Bool) (i : Nat) (hc : ∀ k, conf k ≠ some .other)
    (hn : strict = true → ∀ j, Contains (rulesOf S) i j → ∀ r ∈ rulesOf S j, ¬ Missing found conf (r.when.getD [])) :
    ∃ n out, Leaves (rulesOf S) (Spec.all found conf) (fun w => !Spec.all found conf w) [.set i] out ∧ ∀ m, n ≤ m →
      ((strict = true ∧ ∃ r ∈ rulesOf S i, Missing found conf (r.when.getD [])) →
        ∀ mode, collect found (some conf) mode strict S m i = .error) ∧
      (¬ (strict = true ∧ ∃ r ∈ rulesOf S i, Missing found conf (r.when.getD [])) →
        ∃ a b, collect found (some conf) .sources strict S m i = .ok a ∧ Firsts (sources out) a ∧
          collect found (some conf) .dependencies strict S m i = .ok b ∧ Firsts (dependencies out) b) := by
  obtain ⟨rank, hI⟩ := inv_reachable ops S hself hrun
  have hno : ∀ w : List Cond, (!Spec.all found conf w) = ((some conf).isNone || !Spec.all found conf w) := by simp
  have hC : ∀ j, Contains (rulesOf S) i j → ∀ r ∈ rulesOf S j,
      matchRule found (some conf) strict r = .ok (Spec.all found conf (r.when.getD [])) := by
    intro j hj r hr
    rcases matchRule_conf found conf strict hc r with ⟨h1, h2, _⟩ | ⟨_, h⟩
    · exact absurd h2 (hn h1 j hj r hr)
    · exact h
  obtain ⟨out, ho⟩ := leaves_exist hI (Spec.all found conf) (fun w => !Spec.all found conf w) (rank i + 1) i (by omega)
  refine ⟨rank i + 1, out, leaves_single ho, fun m hm => ⟨?_, ?_⟩⟩
  · rintro ⟨hs, r, hr, hmiss⟩ mode
    have herr : ∃ r ∈ rulesOf S i, matchRule found (some conf) strict r = .error := by
      refine ⟨r, hr, ?_⟩
      rcases matchRule_conf found conf strict hc r with ⟨_, _, h⟩ | ⟨h | h, _⟩
      · exact h
      · rw [hs] at h; cases h
      · exact absurd hmiss h
    obtain ⟨m, rfl⟩ : ∃ k, m = k + 1 := ⟨m - 1, by omega⟩
    obtain ⟨st', he⟩ := rules_err found (some conf) mode strict (rulesOf S) (Spec.all found conf)
      (fun w => !Spec.all found conf w) (collectSet found (some conf) mode strict S m) hno (rulesOf S i) (hI.ok i)
      (fun r hr => by
        rcases matchRule_conf found conf strict hc r with ⟨_, _, h⟩ | ⟨_, h⟩
        · exact .inr h
        · exact .inl h)
      (fun r hr t j ht hj => by
        rcases ht with ht | ht
        · have hcn : Contains (rulesOf S) i j := .direct hr ht hj
          have hlt := (hI.nested i r hr t ht j hj).2
          obtain ⟨o, ho⟩ := leaves_exist hI (Spec.all found conf) (fun w => !Spec.all found conf w) (rank j + 1) j (by omega)
          exact ⟨o, ho, fun st => set_good hI found (some conf) mode strict _ _ hno (rank j + 1) j (by omega) (hC j hcn)
            (fun k hk => hC k (.trans hcn hk)) o ho m (by omega) st⟩
        · exact absurd hj (hI.noFalse i r hr t ht j)) herr ⟨[], false⟩
    unfold collect
    rw [collectSet, he]
  · intro hnm
    have hD : ∀ r ∈ rulesOf S i, matchRule found (some conf) strict r = .ok (Spec.all found conf (r.when.getD [])) := by
      intro r hr
      rcases matchRule_conf found conf strict hc r with ⟨h1, h2, _⟩ | ⟨_, h⟩
      · exact absurd ⟨h1, r, hr, h2⟩ hnm
      · exact h
    have hg := fun mode => set_good hI found (some conf) mode strict _ _ hno (rank i + 1) i (by omega) hD hC out ho m hm ⟨[], false⟩
    obtain ⟨m1, h1⟩ := hg .sources
    obtain ⟨m2, h2⟩ := hg .dependencies
    refine ⟨dedup (sources out), dedup (dependencies out), ?_, dedup_firsts _, ?_, dedup_firsts _⟩
    · unfold collect; rw [h1]; simp [pick]
    · unfold collect; rw [h2]; simp [pick]

/-- **C42**: `all_sources()` and `all_dependencies()` select, in the order of the rules and with each only once, what is
in the `if_true` of every rule whose conditions name only dependencies that have been found (or configuration keys), and
in the `if_false` of every rule. -/
theorem all_sources (ops : List Op) (S : List SS) (hself : ∀ op ∈ ops, NoSelf op) (hrun : run [] ops = .ok S)
    (found : Nat → Bool) (i : Nat) :
    ∃ n out, Leaves (rulesOf S) (Spec.depsFound found) (fun _ => true) [.set i] out ∧ ∀ m, n ≤ m →
      ∃ a b, collect found none .sources true S m i = .ok a ∧ Firsts (sources out) a ∧
        collect found none .dependencies true S m i = .ok b ∧ Firsts (dependencies out) b := by
  obtain ⟨rank, hI⟩ := inv_reachable ops S hself hrun
  have hD : ∀ r : Rule, matchRule found none true r = .ok (Spec.depsFound found (r.when.getD [])) := by
    intro r
    unfold matchRule Spec.depsFound
    cases r.when with
    | none => rfl
    | some w => exact matchWhen_none found true w
  obtain ⟨out, ho⟩ := leaves_exist hI (Spec.depsFound found) (fun _ => true) (rank i + 1) i (by omega)
  refine ⟨rank i + 1, out, leaves_single ho, fun m hm => ?_⟩
  have hg := fun mode => set_good hI found none mode true (Spec.depsFound found) (fun _ => true) (by simp) (rank i + 1) i
    (by omega) (fun r _ => hD r) (fun _ _ r _ => hD r) out ho m hm ⟨[], false⟩
  obtain ⟨m1, h1⟩ := hg .sources
  obtain ⟨m2, h2⟩ := hg .dependencies
  refine ⟨dedup (sources out), dedup (dependencies out), ?_, dedup_firsts _, ?_, dedup_firsts _⟩
  · unfold collect; rw [h1]; simp [pick]
  · unfold collect; rw [h2]; simp [pick]

/-! ### Sets that are used do not change -/

theorem push_same {S : List SS} {i j : Nat} {r : Rule} (h : i ≠ j) :
    (S.modify i fun s => { s with rules := s.rules ++ [r] })[j]? = S[j]? := by
  rw [List.getElem?_modify]
  cases S[j]? <;> simp [h]

theorem addRule_same {S S' : List SS} {i : Nat} {pos : List Item} {when : Kw Cond} {t f : Kw Item}
    (h : addRule S i pos when t f = .ok S') (j : Nat) (s : SS) (hs : S[j]? = some s) (hij : i ≠ j) :
    ∃ s', S'[j]? = some s' ∧ s'.rules = s.rules ∧ (s.frozen = true → s'.frozen = true) := by
  unfold addRule at h
  split at h
  · cases h
  · injection h with h
    rw [← h, push_same hij]
    generalize (if pos.length ≠ 0 then (⟨none, some pos, none⟩ : Rule) else ⟨when, t, f⟩) = r
    cases r.ifTrue with
    | none => exact ⟨s, hs, rfl, id⟩
    | some t => exact (ext_freezeNested t S).2 j s hs

theorem frozen_step (S S' : List SS) (op : Op) (j : Nat) (s : SS) (hs : S[j]? = some s) (hf : s.frozen = true)
    (h : step S op = .ok S') : ∃ s', S'[j]? = some s' ∧ s'.frozen = true ∧ s'.rules = s.rules := by
  have key : ∀ (i : Nat) (u : Unit), checkNotFrozen S i = .ok u → i ≠ j := by
    intro i u hu e
    subst e
    have := (checkNotFrozen_ok hu).2 s hs
    rw [hf] at this; cases this
  cases op with
  | new =>
    cases h
    have : j < S.length := by
      rcases Nat.lt_or_ge j S.length with h | h
      · exact h
      · rw [List.getElem?_eq_none h] at hs; cases hs
    exact ⟨s, by rw [List.getElem?_append, if_pos this, hs], hf, rfl⟩
  | apply i =>
    cases h
    obtain ⟨s', h1, h2, h3⟩ := (ext_freeze S i).2 j s hs
    exact ⟨s', h1, h3 hf, h2⟩
  | add i pos when t f =>
    simp only [step] at h
    obtain ⟨u, h1, h2⟩ := Res.bind_eq_ok.mp h
    obtain ⟨s', h3, h4, h5⟩ := addRule_same h2 j s hs (key i u h1)
    exact ⟨s', h3, h5 hf, h4⟩
  | addAll i pos when t =>
    simp only [step] at h
    split at h
    · obtain ⟨u, h1, h2⟩ := Res.bind_eq_ok.mp h
      obtain ⟨s', h3, h4, h5⟩ := addRule_same h2 j s hs (key i u h1)
      exact ⟨s', h3, h5 hf, h4⟩
    · cases h

/-- **C42**: a source set that has been used, by `apply()` or by adding it to another one, keeps its rules whatever is
done afterwards. -/
theorem used_unchanged (S S1 S' : List SS) (op : Op) (ops : List Op) (h1 : step S op = .ok S1) (h : run S1 ops = .ok S')
    (j : Nat) (hj : j < S.length) (hu : op = .apply j ∨ ∃ i pos w t, op = .addAll i pos w t ∧ i ≠ j ∧ (j ∈ pos ∨ j ∈ t.getD [])) :
    rulesOf S' j = rulesOf S j := by
  have hs : S[j]? = some S[j] := List.getElem?_eq_getElem hj
  have first : ∃ s, S1[j]? = some s ∧ s.frozen = true ∧ s.rules = S[j].rules := by
    rcases hu with rfl | ⟨i, pos, w, t, rfl, hij, hmem⟩
    · cases h1
      refine ⟨{ S[j] with frozen := true }, ?_, rfl, rfl⟩
      rw [List.getElem?_modify, hs]; simp
    · simp only [step] at h1
      split at h1
      · obtain ⟨u, _, h2⟩ := Res.bind_eq_ok.mp h1
        obtain ⟨s', h3, h4, _⟩ := addRule_same h2 j _ hs hij
        refine ⟨s', h3, ?_, h4⟩
        unfold addRule at h2
        split at h2
        · cases h2
        · next hcond =>
          injection h2 with h2
          rw [← h2, push_same hij] at h3
          have hfz : ∃ l, (if (pos.map Item.set).length ≠ 0 then (⟨none, some (pos.map Item.set), none⟩ : Rule)
              else ⟨w, t.map (·.map Item.set), none⟩).ifTrue = some l ∧ Item.set j ∈ l := by
            by_cases hp : (pos.map Item.set).length ≠ 0
            · rw [if_pos hp]
              have ht : t = none := by
                cases t with
                | none => rfl
                | some t => exact absurd ⟨hp, .inr (.inl (by simp))⟩ hcond
              subst ht
              rcases hmem with h | h
              · exact ⟨_, rfl, List.mem_map.mpr ⟨j, h, rfl⟩⟩
              · cases h
            · rw [if_neg hp]
              have : pos = [] := by simpa using hp
              subst this
              cases t with
              | none => rcases hmem with h | h <;> cases h
              | some t =>
                rcases hmem with h | h
                · cases h
                · exact ⟨_, rfl, List.mem_map.mpr ⟨j, h, rfl⟩⟩
          obtain ⟨l, hl, hjl⟩ := hfz
          rw [hl] at h3
          obtain ⟨s2, h5, h6⟩ := freezeNested_frozen l S j hjl hj
          dsimp only at h3
          rw [h5] at h3
          cases h3
          exact h6
      · cases h1
  obtain ⟨s, hs1, hf, hr⟩ := first
  have later : ∀ (ops : List Op) (A B : List SS) (s : SS), A[j]? = some s → s.frozen = true → run A ops = .ok B →
      ∃ s', B[j]? = some s' ∧ s'.rules = s.rules := by
    intro ops
    induction ops with
    | nil => intro A B s h1 _ h; cases h; exact ⟨s, h1, rfl⟩
    | cons op ops ih =>
      intro A B s h1 h2 h
      rw [run] at h
      obtain ⟨A', h3, h4⟩ := Res.bind_eq_ok.mp h
      obtain ⟨s', h5, h6, h7⟩ := frozen_step A A' op j s h1 h2 h3
      obtain ⟨s2, h8, h9⟩ := ih A' B s' h5 h6 h4
      exact ⟨s2, h8, h9.trans h7⟩
  obtain ⟨s', h3, h4⟩ := later ops S1 S' s hs1 hf h
  simp [rulesOf, h3, hs, h4, hr]

/-- **C42**: changing a set that has been used is an error. -/
theorem used_add_error (S : List SS) (j : Nat) (s : SS) (hs : S[j]? = some s) (hf : s.frozen = true) :
    (∀ pos w t f, step S (.add j pos w t f) = .error) ∧
      ∀ pos w t, (∀ k ∈ pos ++ t.getD [], k < S.length) → step S (.addAll j pos w t) = .error := by
  have : checkNotFrozen S j = .error := by simp [checkNotFrozen, hs, hf]
  refine ⟨fun pos w t f => by simp [step, this], fun pos w t h => ?_⟩
  simp only [step, this]
  rw [if_pos (List.all_eq_true.mpr fun k hk => by simpa using h k hk)]
  rfl

/-! ### Where the code differs -/

/-- With `strict`, a condition without a value in a nested set is not an error: what the nested set would have selected
is silently left out (`ss1.add(when: 'A', if_true: f1); ss2.add_all(ss1); ss2.add(f2); ss2.apply({})`). -/
theorem apply_nested_strict_counterexample : ∃ S, run [] [.new, .new, .add 0 [] (some [.key [65]]) (some [.src 1]) none,
    .addAll 1 [0] none none, .add 1 [.src 2] none none none] = .ok S ∧
    ∀ m, collect (fun _ => false) (some fun _ => none) .sources true S (m + 2) 1 = .ok [2] :=
  ⟨_, rfl, fun _ => rfl⟩

/-- A set put into itself makes `apply()` recurse without end. -/
theorem apply_self_counterexample : ∃ S, run [] [.new, .addAll 0 [0] none none] = .ok S ∧
    ∀ m, collect (fun _ => false) (some fun _ => none) .sources true S m 0 = .bad := by
  refine ⟨_, rfl, fun m => ?_⟩
  have : ∀ m st, collectSet (fun _ => false) (some fun _ => none) .sources true [⟨true, [⟨none, some [.set 0], none⟩]⟩] m 0 st = .bad := by
    intro m
    induction m with
    | zero => intro st; rfl
    | succ m ih =>
      intro st
      simp [collectSet, collectRules, rulesOf, collectRule, matchRule, collectTrue, pushWhen, collectItems, ih, Out.ignore]
  show collect _ _ _ _ [⟨true, [⟨none, some [.set 0], none⟩]⟩] m 0 = .bad
  unfold collect
  rw [this]

/-- A configuration value that is not a boolean, string or number aborts muon. -/
theorem apply_value_counterexample : ∃ S, run [] [.new, .add 0 [] (some [.key [65]]) (some [.src 1]) none] = .ok S ∧
    ∀ m, collect (fun _ => false) (some fun _ => some .other) .sources true S (m + 1) 0 = .bad :=
  ⟨_, rfl, fun _ => rfl⟩

/-- `all_sources()` does not count as a use: the set can be changed afterwards (it does not change the state), and it
leaves out the sources of rules with a dependency that was not found. -/
theorem all_sources_counterexample : ∃ S, run [] [.new, .add 0 [] (some [.dep 7]) (some [.src 1]) (some [2])] = .ok S ∧
    ∀ m, collect (fun _ => false) none .sources true S (m + 1) 0 = .ok [2] :=
  ⟨_, rfl, fun _ => rfl⟩

/-! The hypotheses of the theorems hold for a program with a nested set. -/
def exOps : List Op :=
  [.new, .new, .add 0 [] (some [.key [65], .dep 3]) (some [.src 1, .dep 4]) (some [5]), .add 0 [.src 6, .src 1] none none none,
    .addAll 1 [0] none none, .add 1 [] (some [.key [66]]) (some [.src 7]) (some [6, 8]), .apply 1]

example : (∀ op ∈ exOps, NoSelf op) ∧ ∃ S, run [] exOps = .ok S ∧
    collect (fun _ => true) (some fun k => some (.bool (k == [65]))) .sources true S 3 1 = .ok [1, 6, 8] ∧
    collect (fun _ => true) (some fun k => some (.bool (k == [65]))) .dependencies true S 3 1 = .ok [3, 4] := by
  refine ⟨by simp [exOps, NoSelf], _, rfl, by decide +kernel, by decide +kernel⟩

end Muon.Sset
