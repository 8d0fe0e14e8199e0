import Verif.Sset.Spec
/-
Source sets: lemmas.
-/
namespace Muon.Sset
open Muon Muon.Sset.Spec

/-! ### Removing duplicates -/

theorem mem_dedup {l : List Nat} {x : Nat} : x ∈ dedup l ↔ x ∈ l := by
  induction l with
  | nil => simp [dedup]
  | cons y l ih =>
    by_cases h : x = y
    · simp [dedup, h]
    · simp [dedup, List.mem_filter, ih, h]

theorem dedup_firsts (l : List Nat) : Firsts l (dedup l) := by
  induction l with
  | nil => refine ⟨by simp [dedup], by simp [dedup], by simp, ?_⟩; intro a b pre h; simp [dedup] at h
  | cons x l ih =>
    obtain ⟨h1, h2, h3, h4⟩ := ih
    refine ⟨?_, ?_, ?_, ?_⟩
    · simp only [dedup, List.nodup_cons]
      exact ⟨by simp [List.mem_filter], h1.filter _⟩
    · simp only [dedup]
      exact (List.filter_sublist.trans h2).cons_cons x
    · intro y hy; exact mem_dedup.mpr hy
    · intro a b pre hp hb
      by_cases ha : a = x
      · subst ha; simp at hb
      · cases pre with
        | nil =>
          simp only [List.nil_append, dedup] at hp
          have := List.cons_prefix_cons.mp hp
          exact absurd this.1 ha
        | cons p pre =>
          simp only [dedup, List.cons_append] at hp
          obtain ⟨hpx, hp⟩ := List.cons_prefix_cons.mp hp
          subst hpx
          by_cases hbx : b = p
          · simp [hbx]
          · rw [List.takeWhile_cons, if_pos (by simpa using Ne.symm ha)] at hb
            simp only [List.mem_cons, hbx, false_or] at hb
            have hda : a ∈ dedup l := by
              obtain ⟨t, ht⟩ := hp
              have : a ∈ (dedup l).filter (· ≠ p) := by rw [← ht]; simp
              exact (List.mem_filter.mp this).1
            obtain ⟨u, v, huv⟩ := List.append_of_mem hda
            by_cases hau : a ∈ u
            · exfalso
              rw [huv] at h1
              exact (List.nodup_append.mp h1).2.2 a hau a (by simp) rfl
            have hbu := h4 a b u ⟨v, by simp [huv]⟩ hb
            have hpre : pre = u.filter (· ≠ p) := by
              obtain ⟨t, ht⟩ := hp
              have hf : (dedup l).filter (· ≠ p) = u.filter (· ≠ p) ++ a :: v.filter (· ≠ p) := by
                rw [huv]; simp [List.filter_append, ha]
              rw [hf] at ht
              have hn : (u.filter (· ≠ p) ++ a :: v.filter (· ≠ p)).Nodup := by rw [← hf]; exact h1.filter _
              have hap : a ∉ pre := by
                rw [← ht] at hn
                intro h
                rw [List.append_assoc] at hn
                exact (List.nodup_append.mp hn).2.2 a h a (by simp) rfl
              have hau' : a ∉ u.filter (· ≠ p) := fun h => hau (List.mem_filter.mp h).1
              have key : ∀ (x y : List Nat) (s t : List Nat), a ∉ x → a ∉ y → x ++ a :: s = y ++ a :: t → x = y := by
                intro x
                induction x with
                | nil =>
                  intro y s t _ hy h
                  cases y with
                  | nil => rfl
                  | cons z y => simp at h; exact absurd h.1 (fun e => hy (by simp [e]))
                | cons w x ih =>
                  intro y s t hx hy h
                  cases y with
                  | nil => simp at h; exact absurd h.1 (fun e => hx (by simp [e]))
                  | cons z y =>
                    simp at h
                    rw [h.1, ih y s t (fun e => hx (by simp [e])) (fun e => hy (by simp [e])) h.2]
              exact key _ _ _ _ hap hau' (by simpa [List.append_assoc] using ht)
            rw [hpre]
            simp [List.mem_filter, hbu, hbx]

/-! ### Conditions -/

theorem whenDeps_eq (w : List Cond) : (whenDeps w).map Item.dep = depsOf w := by
  induction w with
  | nil => rfl
  | cons c w ih => cases c <;> simp [whenDeps, depsOf] <;> simpa [depsOf] using ih

/-- What the conditions of a rule come to when a configuration is given. -/
theorem matchWhen_conf (found : Nat → Bool) (conf : Bytes → Option CVal) (strict : Bool) (hc : ∀ k, conf k ≠ some .other)
    (w : List Cond) :
    (strict = true ∧ Missing found conf w ∧ matchWhen found (some conf) strict w = .error) ∨
      ((strict = false ∨ ¬ Missing found conf w) ∧
        matchWhen found (some conf) strict w = .ok (w.all (holds found conf))) := by
  induction w with
  | nil =>
    refine .inr ⟨.inr ?_, rfl⟩
    rintro ⟨pre, k, post, h, _⟩
    cases pre <;> simp at h
  | cons c w ih =>
    have missing_cons : holds found conf c = true → (Missing found conf (c :: w) ↔ Missing found conf w) := by
      intro hh
      constructor
      · rintro ⟨pre, k, post, h1, h2, h3⟩
        cases pre with
        | nil =>
          simp only [List.nil_append, List.cons.injEq] at h1
          rw [h1.1] at hh
          simp [holds, h3] at hh
        | cons d pre =>
          simp only [List.cons_append, List.cons.injEq] at h1
          exact ⟨pre, k, post, h1.2, fun c hc => h2 c (by simp [hc]), h3⟩
      · rintro ⟨pre, k, post, h1, h2, h3⟩
        refine ⟨c :: pre, k, post, by simp [h1], ?_, h3⟩
        intro d hd
        rcases List.mem_cons.mp hd with rfl | hd
        · exact hh
        · exact h2 d hd
    have not_missing : (∀ k, c = .key k → conf k ≠ none) → holds found conf c = false → ¬ Missing found conf (c :: w) := by
      rintro hk hh ⟨pre, k, post, h1, h2, h3⟩
      cases pre with
      | nil =>
        simp only [List.nil_append, List.cons.injEq] at h1
        exact hk k h1.1 h3
      | cons d pre =>
        simp only [List.cons_append, List.cons.injEq] at h1
        have := h2 d (by simp)
        rw [← h1.1, hh] at this
        exact absurd this (by simp)
    have pos : holds found conf c = true → matchWhen found (some conf) strict (c :: w) = matchWhen found (some conf) strict w →
        (strict = true ∧ Missing found conf (c :: w) ∧ matchWhen found (some conf) strict (c :: w) = .error) ∨
        ((strict = false ∨ ¬ Missing found conf (c :: w)) ∧
          matchWhen found (some conf) strict (c :: w) = .ok ((c :: w).all (holds found conf))) := by
      intro hh he
      rw [he, missing_cons hh, List.all_cons, hh, Bool.true_and]
      exact ih
    have neg : (∀ k, c = .key k → conf k ≠ none) → holds found conf c = false →
        matchWhen found (some conf) strict (c :: w) = .ok false →
        (strict = true ∧ Missing found conf (c :: w) ∧ matchWhen found (some conf) strict (c :: w) = .error) ∨
        ((strict = false ∨ ¬ Missing found conf (c :: w)) ∧
          matchWhen found (some conf) strict (c :: w) = .ok ((c :: w).all (holds found conf))) := by
      intro hk hh he
      refine .inr ⟨.inr (not_missing hk hh), ?_⟩
      rw [he, List.all_cons, hh, Bool.false_and]
    cases c with
    | dep d =>
      cases hf : found d with
      | true => exact pos (by simp [holds, hf]) (by simp [matchWhen, hf])
      | false => exact neg (by simp) (by simp [holds, hf]) (by simp [matchWhen, hf])
    | key k =>
      cases hk : conf k with
      | none =>
        cases hs : strict with
        | true =>
          refine .inl ⟨rfl, ⟨[], k, w, rfl, by simp, hk⟩, ?_⟩
          simp [matchWhen, hk]
        | false =>
          refine .inr ⟨.inl rfl, ?_⟩
          simp [matchWhen, hk, holds]
      | some v =>
        have hne : ∀ k', Cond.key k = .key k' → conf k' ≠ none := by
          intro k' e; cases e; simp [hk]
        cases v with
        | bool b =>
          cases b with
          | true => exact pos (by simp [holds, hk, truthy]) (by simp [matchWhen, hk])
          | false => exact neg hne (by simp [holds, hk, truthy]) (by simp [matchWhen, hk])
        | str s =>
          cases s with
          | cons b s => exact pos (by simp [holds, hk, truthy]) (by simp [matchWhen, hk])
          | nil => exact neg hne (by simp [holds, hk, truthy]) (by simp [matchWhen, hk])
        | num n =>
          by_cases hn : 0 < n
          · exact pos (by simp [holds, hk, truthy, hn]) (by simp [matchWhen, hk, hn])
          · exact neg hne (by simp [holds, hk, truthy, hn]) (by simp [matchWhen, hk, hn])
        | other => exact absurd hk (hc k)

/-- Without a configuration only the dependencies among the conditions count. -/
theorem matchWhen_none (found : Nat → Bool) (strict : Bool) (w : List Cond) :
    matchWhen found none strict w = .ok (w.all fun | .dep d => found d | .key _ => true) := by
  induction w with
  | nil => rfl
  | cons c w ih =>
    cases c with
    | dep d => cases hf : found d <;> simp [matchWhen, hf, ih]
    | key k => simp [matchWhen, ih]

/-! ### Collecting -/

/-- The part of a list that is collected in a mode. -/
def pick : Mode → List Leaf → List Nat
  | .sources => sources
  | .dependencies => dependencies

theorem pick_append (m : Mode) (a b : List Leaf) : pick m (a ++ b) = pick m a ++ pick m b := by
  cases m <;> simp [pick, sources, dependencies, List.filterMap_append]

/-- The iteration went on with a given result. -/
def Good (o : Out) (res : List Nat) : Prop := ∃ m, o = .cont ⟨res, m⟩

theorem leaves_append {rules : Nat → List Rule} {yes no : List Cond → Bool} {a b : List Item} {oa ob : List Leaf}
    (ha : Leaves rules yes no a oa) (hb : Leaves rules yes no b ob) : Leaves rules yes no (a ++ b) (oa ++ ob) := by
  induction ha with
  | nil => exact hb
  | src _ ih => exact .src ih
  | dep _ ih => exact .dep ih
  | set h _ _ ih2 => rw [List.append_assoc]; exact .set h ih2

theorem leaves_split {rules : Nat → List Rule} {yes no : List Cond → Bool} {a b : List Item} {o : List Leaf}
    (h : Leaves rules yes no (a ++ b) o) : ∃ oa ob, o = oa ++ ob ∧ Leaves rules yes no a oa ∧ Leaves rules yes no b ob := by
  induction a generalizing o with
  | nil => exact ⟨[], o, rfl, .nil, h⟩
  | cons x a ih =>
    cases h with
    | src h => obtain ⟨oa, ob, rfl, h1, h2⟩ := ih h; exact ⟨_, ob, rfl, .src h1, h2⟩
    | dep h => obtain ⟨oa, ob, rfl, h1, h2⟩ := ih h; exact ⟨_, ob, rfl, .dep h1, h2⟩
    | set h h' => obtain ⟨oa, ob, rfl, h1, h2⟩ := ih h'; exact ⟨_, ob, (List.append_assoc ..).symm, .set h h1, h2⟩

theorem leaves_det {rules : Nat → List Rule} {yes no : List Cond → Bool} {a : List Item} {o o' : List Leaf}
    (h : Leaves rules yes no a o) (h' : Leaves rules yes no a o') : o = o' := by
  induction h generalizing o' with
  | nil => cases h'; rfl
  | src _ ih => cases h' with | src h => rw [ih h]
  | dep _ ih => cases h' with | dep h => rw [ih h]
  | set _ _ ih1 ih2 => cases h' with | set h1 h2 => rw [ih1 h1, ih2 h2]

theorem items_good (mode : Mode) (rules : Nat → List Rule) (yes no : List Cond → Bool) (nested : Nat → St → Out) :
    ∀ (l : List Item) (out : List Leaf), Leaves rules yes no l out →
    (∀ j o, Item.set j ∈ l → Leaves rules yes no ((rules j).flatMap (chosen yes no)) o →
      ∀ st, Good (nested j st) (st.res ++ pick mode o)) →
    ∀ st, Good (collectItems mode nested l st) (st.res ++ pick mode out) := by
  intro l
  induction l with
  | nil =>
    intro out h _ st
    cases h
    exact ⟨st.mat, by cases mode <;> simp [collectItems, pick, sources, dependencies]⟩
  | cons x l ih =>
    intro out h hn st
    have hn' : ∀ j o, Item.set j ∈ l → Leaves rules yes no ((rules j).flatMap (chosen yes no)) o →
      ∀ st, Good (nested j st) (st.res ++ pick mode o) := fun j o hj => hn j o (by simp [hj])
    cases h with
    | @src s _ out h =>
      rw [collectItems]
      have := ih out h hn' (if mode = .sources then { st with res := st.res ++ [s] } else st)
      cases mode <;> simpa [pick, sources, dependencies] using this
    | @dep d _ out h =>
      rw [collectItems]
      have := ih out h hn' (if mode = .dependencies then { st with res := st.res ++ [d] } else st)
      cases mode <;> simpa [pick, sources, dependencies] using this
    | @set i _ o1 o2 h1 h2 =>
      rw [collectItems]
      obtain ⟨m, hm⟩ := hn i o1 (by simp) h1 st
      rw [hm]
      have := ih o2 h2 hn' ⟨st.res ++ pick mode o1, m⟩
      rw [pick_append, ← List.append_assoc]
      exact this

/-- A rule that `add()` or `add_all()` can make. -/
def RuleOk (r : Rule) : Prop :=
  r.ifFalse = none ∨ ∀ t, r.ifTrue = some t → ∀ j, Item.set j ∉ t

theorem noset_mat (mode : Mode) (nested : Nat → St → Out) : ∀ (l : List Item), (∀ j, Item.set j ∉ l) → ∀ st,
    ∃ res, collectItems mode nested l st = .cont ⟨res, st.mat⟩ := by
  intro l
  induction l with
  | nil => intro _ st; exact ⟨st.res, rfl⟩
  | cons x l ih =>
    intro h st
    have h' : ∀ j, Item.set j ∉ l := fun j hj => h j (by simp [hj])
    cases x with
    | src s =>
      rw [collectItems]
      obtain ⟨res, hr⟩ := ih h' (if mode = .sources then { st with res := st.res ++ [s] } else st)
      refine ⟨res, by rw [hr]; split <;> rfl⟩
    | dep d =>
      rw [collectItems]
      obtain ⟨res, hr⟩ := ih h' (if mode = .dependencies then { st with res := st.res ++ [d] } else st)
      refine ⟨res, by rw [hr]; split <;> rfl⟩
    | set j => exact absurd (by simp) (h j)

theorem leaves_deps {rules : Nat → List Rule} {yes no : List Cond → Bool} (w : List Cond) :
    Leaves rules yes no (depsOf w) ((whenDeps w).map Leaf.dep) := by
  rw [← whenDeps_eq]
  induction whenDeps w with
  | nil => exact .nil
  | cons d l ih => exact .dep ih

theorem pick_deps (mode : Mode) (l : List Nat) : pick mode (l.map Leaf.dep) = if mode = .dependencies then l else [] := by
  cases mode with
  | sources => simp [pick, sources, List.filterMap_map, Function.comp_def]
  | dependencies =>
    simp only [pick, dependencies, List.filterMap_map, Function.comp_def, if_true]
    induction l <;> simp_all

theorem rule_good (found : Nat → Bool) (conf : Option (Bytes → Option CVal)) (mode : Mode) (strict : Bool)
    (rules : Nat → List Rule) (yes no : List Cond → Bool) (nested : Nat → St → Out) (r : Rule) (hr : RuleOk r)
    (hm : matchRule found conf strict r = .ok (yes (r.when.getD [])))
    (hno : no (r.when.getD []) = (conf.isNone || !yes (r.when.getD [])))
    (hn : ∀ t j o, (r.ifTrue = some t ∨ r.ifFalse = some t) → Item.set j ∈ t →
      Leaves rules yes no ((rules j).flatMap (chosen yes no)) o →
      ∀ st, Good (nested j st) (st.res ++ pick mode o))
    (out : List Leaf) (ho : Leaves rules yes no (chosen yes no r) out) (st : St) :
    Good (collectRule found conf mode strict nested r st) (st.res ++ pick mode out) := by
  unfold collectRule
  rw [hm]
  dsimp only
  unfold chosen at ho
  obtain ⟨o1, o2, rfl, h1, h2⟩ := leaves_split ho
  -- `if_true`
  have ht : ∃ m, collectTrue mode nested r { st with mat := yes (r.when.getD []) } = .cont ⟨st.res ++ pick mode o1, m⟩ ∧
      (r.ifFalse = none ∨ m = yes (r.when.getD [])) := by
    unfold collectTrue
    cases hT : r.ifTrue with
    | none =>
      rw [hT] at h1
      cases h1
      exact ⟨yes (r.when.getD []), by cases mode <;> simp [pick, sources, dependencies], .inr rfl⟩
    | some t =>
      rw [hT] at h1
      dsimp only at h1 ⊢
      by_cases hy : yes (r.when.getD []) = true
      · rw [if_pos hy] at h1
        rw [if_pos hy]
        obtain ⟨d, a, rfl, h3, h4⟩ := leaves_split h1
        have hd := leaves_det h3 (leaves_deps _)
        subst hd
        have hst1 : pushWhen mode r ⟨st.res, yes (r.when.getD [])⟩ =
            ⟨st.res ++ pick mode ((whenDeps (r.when.getD [])).map Leaf.dep), yes (r.when.getD [])⟩ := by
          rw [pick_deps]
          unfold pushWhen
          cases hw : r.when with
          | none => cases mode <;> simp [whenDeps]
          | some w => cases mode <;> simp
        rw [hst1]
        obtain ⟨m, hg⟩ := items_good mode rules yes no nested t a h4 (fun j o hj ho => hn t j o (.inl hT) hj ho)
          ⟨st.res ++ pick mode ((whenDeps (r.when.getD [])).map Leaf.dep), yes (r.when.getD [])⟩
        refine ⟨m, ?_, ?_⟩
        · rw [pick_append, ← List.append_assoc, hg]; rfl
        · rcases hr with h | h
          · exact .inl h
          · right
            obtain ⟨res, hres⟩ := noset_mat mode nested t (h t hT)
              ⟨st.res ++ pick mode ((whenDeps (r.when.getD [])).map Leaf.dep), yes (r.when.getD [])⟩
            rw [hg] at hres
            cases hres
            rfl
      · rw [if_neg hy] at h1
        cases h1
        rw [if_neg hy]
        exact ⟨yes (r.when.getD []), by cases mode <;> simp [pick, sources, dependencies], .inr rfl⟩
  obtain ⟨m, ht, hmm⟩ := ht
  rw [ht]
  dsimp only
  -- `if_false`
  unfold collectFalse
  cases hF : r.ifFalse with
  | none =>
    rw [hF] at h2
    have : o2 = [] := by
      cases hb : no (r.when.getD []) <;> rw [hb] at h2 <;> simp at h2 <;> cases h2 <;> rfl
    subst this
    exact ⟨m, by simp⟩
  | some f =>
    have hmm : m = yes (r.when.getD []) := by
      rcases hmm with h | h
      · rw [hF] at h; cases h
      · exact h
    dsimp only
    rw [hmm, ← hno]
    rw [hF] at h2
    by_cases hb : no (r.when.getD []) = true
    · rw [if_pos hb] at h2 ⊢
      obtain ⟨m', hg⟩ := items_good mode rules yes no nested f o2 h2 (fun j o hj ho => hn f j o (.inr hF) hj ho)
        ⟨st.res ++ pick mode o1, yes (r.when.getD [])⟩
      rw [hg]
      exact ⟨m', by simp [Out.ignore, pick_append]⟩
    · rw [if_neg hb] at h2 ⊢
      cases h2
      exact ⟨_, by simp; rfl⟩

theorem rules_good (found : Nat → Bool) (conf : Option (Bytes → Option CVal)) (mode : Mode) (strict : Bool)
    (rules : Nat → List Rule) (yes no : List Cond → Bool) (nested : Nat → St → Out) : ∀ (rs : List Rule),
    (∀ r ∈ rs, RuleOk r) →
    (∀ r ∈ rs, matchRule found conf strict r = .ok (yes (r.when.getD []))) →
    (∀ w, no w = (conf.isNone || !yes w)) →
    (∀ r ∈ rs, ∀ t j o, (r.ifTrue = some t ∨ r.ifFalse = some t) → Item.set j ∈ t →
      Leaves rules yes no ((rules j).flatMap (chosen yes no)) o → ∀ st, Good (nested j st) (st.res ++ pick mode o)) →
    ∀ out, Leaves rules yes no (rs.flatMap (chosen yes no)) out → ∀ st,
    Good (collectRules found conf mode strict nested rs st) (st.res ++ pick mode out) := by
  intro rs
  induction rs with
  | nil =>
    intro _ _ _ _ out ho st
    cases ho
    exact ⟨st.mat, by cases mode <;> simp [collectRules, pick, sources, dependencies]⟩
  | cons r rs ih =>
    intro hr hm hno hn out ho st
    rw [List.flatMap_cons] at ho
    obtain ⟨o1, o2, rfl, h1, h2⟩ := leaves_split ho
    obtain ⟨m, hg⟩ := rule_good found conf mode strict rules yes no nested r (hr r (by simp)) (hm r (by simp)) (hno _)
      (hn r (by simp)) o1 h1 st
    rw [collectRules, hg]
    have := ih (fun r hr' => hr r (by simp [hr'])) (fun r hr' => hm r (by simp [hr'])) hno
      (fun r hr' => hn r (by simp [hr'])) o2 h2 ⟨st.res ++ pick mode o1, m⟩
    rw [pick_append, ← List.append_assoc]
    exact this

/-! ### The state invariant -/

/-- What holds of the source sets of a program in which no set is put into itself. -/
structure Inv (S : List SS) (rank : Nat → Nat) : Prop where
  ok : ∀ i, ∀ r ∈ rulesOf S i, RuleOk r
  noFalse : ∀ i, ∀ r ∈ rulesOf S i, ∀ f, r.ifFalse = some f → ∀ j, Item.set j ∉ f
  nested : ∀ i, ∀ r ∈ rulesOf S i, ∀ t, r.ifTrue = some t → ∀ j, Item.set j ∈ t →
    (∃ s, S[j]? = some s ∧ s.frozen = true) ∧ rank j < rank i

end Muon.Sset
