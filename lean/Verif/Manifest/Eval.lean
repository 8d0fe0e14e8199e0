import Verif.Manifest.Lemmas
/-
The variables of an edge.
-/
namespace Muon.Manifest
open Muon Esc Spec

theorem find_lastOf {α : Type} (l : List (Bytes × α)) (v : Bytes) : find l.reverse v = lastOf l v := by
  unfold find lastOf
  congr 1
  induction l with
  | nil => rfl
  | cons x l ih =>
    rw [List.reverse_cons, List.find?_append, ih]
    by_cases hx : x.1 = v
    · rw [List.filter_cons, if_pos (by simpa using hx)]
      cases hl : l.filter (fun x => decide (x.1 = v)) with
      | nil => simp [hx]
      | cons y ys => simp [List.getLast?_eq_some_getLast]
    · rw [List.filter_cons, if_neg (by simpa using hx)]
      have : List.find? (fun x => x.1 == v) [x] = none := by simp [hx]
      rw [this, Option.or_none]

theorem rule_find (r : Rule) (v : Bytes) : r.find v = lastOf (r.lets.map (fun l => (l.name, l.val))) v := by
  rw [← find_lastOf]
  unfold Rule.find find
  rw [← List.map_reverse, List.find?_map, Option.map_map]
  rfl

theorem paths_list (esc : Bool) (sep : UInt8) (l : List Bytes) : paths esc sep l = listOf esc sep l := by
  cases l with
  | nil => simp [paths, listOf]
  | cons p ps =>
    simp only [paths, listOf, List.cons_ne_nil, if_false, Option.some.injEq]
    rw [List.map_cons]
    generalize (if esc = true then nodePath p else p) = x
    induction ps generalizing x with
    | nil => simp
    | cons q ps ih =>
      rw [List.map_cons, List.flatMap_cons]
      have := ih (if esc = true then nodePath q else q)
      simp only [List.intersperse, List.flatten_cons] at this ⊢
      rw [this]
      simp

variable {s : St} {e : Edge} {esc : Bool}

theorem direct_none {scope : Bytes → Option Bytes} {v : Bytes} (h : direct scope e esc v = none) :
    ∃ ps, ruleText scope e esc v ps := by
  cases hl : lastOf (e.rule.lets.map (fun l => (l.name, l.val))) v with
  | some ps => exact ⟨ps, h, hl⟩
  | none =>
    exfalso
    unfold direct at h
    simp only [hl] at h
    split at h
    · cases h
    · split at h
      · cases h
      · split at h
        · cases h
        · split at h <;> cases h

theorem edgeParts_nil (f : Nat) (seen : List Bytes) : edgeParts s e esc f seen [] = .ok [] := rfl
theorem edgeParts_lit (f : Nat) (seen : List Bytes) (x : Bytes) (ps : List Part) :
    edgeParts s e esc f seen (.lit x :: ps) = (edgeParts s e esc f seen ps >>= fun y => .ok (x ++ y)) := rfl
theorem edgeParts_var (f : Nat) (seen : List Bytes) (v : Bytes) (ps : List Part) :
    edgeParts s e esc f seen (.var v :: ps) =
      (edgeVar s e esc f seen v >>= fun x => edgeParts s e esc f seen ps >>= fun y => .ok (x.getD [] ++ y)) := rfl
theorem edgeVar_zero (seen : List Bytes) (v : Bytes) :
    edgeVar s e esc 0 seen v = edgeVarWith s e esc (fun _ => if v ∈ seen then .error else .bad) v := rfl
theorem edgeVar_succ (f : Nat) (seen : List Bytes) (v : Bytes) : edgeVar s e esc (f + 1) seen v =
    edgeVarWith s e esc (fun parts => if v ∈ seen then .error else edgeParts s e esc f (v :: seen) parts >>= fun x => .ok (some x)) v := rfl
theorem edgeVar_with (f : Nat) (seen : List Bytes) (v : Bytes) : ∃ g, edgeVar s e esc f seen v = edgeVarWith s e esc g v := by
  cases f with
  | zero => exact ⟨_, rfl⟩
  | succ f => exact ⟨_, rfl⟩

/-- The cases of the evaluation. -/
theorem edgeVar_direct {f : Nat} {seen : List Bytes} {v : Bytes} {x : Option Bytes} (h : direct (s.var e.env) e esc v = some x) :
    edgeVar s e esc f seen v = .ok x := by
  obtain ⟨g, hg⟩ := edgeVar_with (s := s) (e := e) (esc := esc) f seen v
  rw [hg, edgeVarWith]
  unfold direct at h
  simp only [← paths_list] at h
  rw [← rule_find, ← find_lastOf, List.reverse_reverse] at h
  by_cases h1 : v = ascii "in"
  · rw [if_pos h1] at h ⊢; cases h; rw [paths_list]
  · rw [if_neg h1] at h ⊢
    by_cases h2 : v = ascii "in_newline"
    · rw [if_pos h2] at h ⊢; cases h; rw [paths_list]
    · rw [if_neg h2] at h ⊢
      by_cases h3 : v = ascii "out"
      · rw [if_pos h3] at h ⊢; cases h; rw [paths_list]
      · rw [if_neg h3] at h ⊢
        cases hf : find e.vars v with
        | some y => rw [hf] at h; cases h; rfl
        | none =>
          rw [hf] at h
          cases hr : e.rule.find v with
          | none => rw [hr] at h; cases h; rfl
          | some ps => rw [hr] at h; cases h

theorem edgeVar_rule {f : Nat} {seen : List Bytes} {v : Bytes} {ps : List Part} (h : ruleText (s.var e.env) e esc v ps) :
    (v ∈ seen → edgeVar s e esc f seen v = .error) ∧ (v ∉ seen → edgeVar s e esc 0 seen v = .bad) ∧
    (v ∉ seen → edgeVar s e esc (f + 1) seen v = (edgeParts s e esc f (v :: seen) ps >>= fun x => .ok (some x))) := by
  obtain ⟨h, hr⟩ := h
  unfold direct at h
  rw [← rule_find] at hr
  simp only [← paths_list] at h
  rw [← rule_find, ← find_lastOf, List.reverse_reverse] at h
  by_cases h1 : v = ascii "in"
  · rw [if_pos h1] at h; cases h
  · rw [if_neg h1] at h
    by_cases h2 : v = ascii "in_newline"
    · rw [if_pos h2] at h; cases h
    · rw [if_neg h2] at h
      by_cases h3 : v = ascii "out"
      · rw [if_pos h3] at h; cases h
      · rw [if_neg h3] at h
        cases hf : find e.vars v with
        | some y => rw [hf] at h; cases h
        | none =>
          refine ⟨fun hm => ?_, fun hm => ?_, fun hm => ?_⟩
          · cases f with
            | zero => rw [edgeVar_zero, edgeVarWith, if_neg h1, if_neg h2, if_neg h3, hf, hr]; simp only []; rw [if_pos hm]
            | succ f => rw [edgeVar_succ, edgeVarWith, if_neg h1, if_neg h2, if_neg h3, hf, hr]; simp only []; rw [if_pos hm]
          · rw [edgeVar_zero, edgeVarWith, if_neg h1, if_neg h2, if_neg h3, hf, hr]; simp only []; rw [if_neg hm]
          · rw [edgeVar_succ, edgeVarWith, if_neg h1, if_neg h2, if_neg h3, hf, hr]; simp only []; rw [if_neg hm]

theorem res_cases {α : Type} (x : Res α) : (∃ a, x = .ok a) ∨ x = .error ∨ x = .bad := by cases x <;> simp

/-- Results are right. -/
theorem edgeVar_sound : ∀ (f : Nat),
    (∀ seen v x, edgeVar s e esc f seen v = .ok x → Value (s.var e.env) e esc v x) ∧
    (∀ seen ps x, edgeParts s e esc f seen ps = .ok x → Text (s.var e.env) e esc ps x) := by
  intro f
  induction f with
  | zero =>
    have hv : ∀ seen v x, edgeVar s e esc 0 seen v = .ok x → direct (s.var e.env) e esc v = some x := by
      intro seen v x h
      cases hd : direct (s.var e.env) e esc v with
      | some y => rw [edgeVar_direct hd] at h; cases h; rfl
      | none =>
        obtain ⟨ps, hr⟩ := direct_none hd
        by_cases hm : v ∈ seen
        · rw [(edgeVar_rule (f := 0) hr).1 hm] at h; cases h
        · rw [(edgeVar_rule (f := 0) hr).2.1 hm] at h; cases h
    refine ⟨fun seen v x h => Or.inl (hv seen v x h), ?_⟩
    intro seen ps
    induction ps with
    | nil => intro x h; rw [edgeParts_nil] at h; cases h; exact .nil
    | cons p ps ih =>
      intro x h
      cases p with
      | lit y =>
        rw [edgeParts_lit] at h
        obtain ⟨z, hz, h⟩ := Res.bind_eq_ok.1 h
        cases h
        exact .lit _ _ _ (ih z hz)
      | var v =>
        rw [edgeParts_var] at h
        obtain ⟨y, hy, h⟩ := Res.bind_eq_ok.1 h
        obtain ⟨z, hz, h⟩ := Res.bind_eq_ok.1 h
        cases h
        exact .value _ _ _ _ (hv seen v y hy) (ih z hz)
  | succ f ihf =>
    have hv : ∀ seen v x, edgeVar s e esc (f + 1) seen v = .ok x → Value (s.var e.env) e esc v x := by
      intro seen v x h
      cases hd : direct (s.var e.env) e esc v with
      | some y => rw [edgeVar_direct hd] at h; cases h; exact Or.inl hd
      | none =>
        obtain ⟨ps, hr⟩ := direct_none hd
        by_cases hm : v ∈ seen
        · rw [(edgeVar_rule hr).1 hm] at h; cases h
        · rw [(edgeVar_rule hr).2.2 hm] at h
          obtain ⟨y, hy, h⟩ := Res.bind_eq_ok.1 h
          cases h
          exact Or.inr ⟨ps, y, hr, ihf.2 _ _ _ hy, rfl⟩
    refine ⟨hv, ?_⟩
    intro seen ps
    induction ps with
    | nil => intro x h; rw [edgeParts_nil] at h; cases h; exact .nil
    | cons p ps ih =>
      intro x h
      cases p with
      | lit y =>
        rw [edgeParts_lit] at h
        obtain ⟨z, hz, h⟩ := Res.bind_eq_ok.1 h
        cases h
        exact .lit _ _ _ (ih z hz)
      | var v =>
        rw [edgeParts_var] at h
        obtain ⟨y, hy, h⟩ := Res.bind_eq_ok.1 h
        obtain ⟨z, hz, h⟩ := Res.bind_eq_ok.1 h
        cases h
        rcases hv seen v y hy with hd | ⟨qs, y', hr, ht, rfl⟩
        · exact .value _ _ _ _ hd (ih z hz)
        · exact .rule _ _ _ _ _ hr ht (ih z hz)

theorem text_det {scope : Bytes → Option Bytes} {ps : List Part} {x y : Bytes} (h1 : Text scope e esc ps x) : Text scope e esc ps y → x = y := by
  intro h2
  induction h1 generalizing y with
  | nil => cases h2; rfl
  | lit a ps z h ih => cases h2 with | lit _ _ z' h' => rw [ih h']
  | value v a ps z hd h ih =>
    cases h2 with
    | value _ a' _ z' hd' h' => rw [hd] at hd'; cases hd'; rw [ih h']
    | rule _ qs a' _ z' hr ht h' => rw [hr.1] at hd; cases hd
  | rule v qs a ps z hr ht h iht ih =>
    cases h2 with
    | value _ a' _ z' hd' h' => rw [hr.1] at hd'; cases hd'
    | rule _ qs' a' _ z' hr' ht' h' =>
      have := hr.2.symm.trans hr'.2
      cases this
      rw [iht ht', ih h']

theorem value_det {scope : Bytes → Option Bytes} {v : Bytes} {x y : Option Bytes} (h1 : Value scope e esc v x) (h2 : Value scope e esc v y) : x = y := by
  rcases h1 with h1 | ⟨ps, a, h1, t1, rfl⟩
  · rcases h2 with h2 | ⟨qs, b, h2, t2, rfl⟩
    · rw [h1] at h2; cases h2; rfl
    · rw [h2.1] at h1; cases h1
  · rcases h2 with h2 | ⟨qs, b, h2, t2, rfl⟩
    · rw [h1.1] at h2; cases h2
    · have := h1.2.symm.trans h2.2
      cases this
      rw [text_det t1 t2]

theorem Steps.snoc {α : Type} {r : α → α → Prop} {a b c : α} (h : Steps r a b) (h2 : r b c) : Steps r a c := by
  induction h with
  | one h => exact .more h (.one h2)
  | more h _ ih => exact .more h (ih h2)

theorem Steps.trans {α : Type} {r : α → α → Prop} {a b c : α} (h : Steps r a b) (h2 : Steps r b c) : Steps r a c := by
  induction h with
  | one h => exact .more h h2
  | more h _ ih => exact .more h (ih h2)

/-- A variable that has a value is not part of a cycle, and mentions none. -/
theorem text_acc {scope : Bytes → Option Bytes} {ps : List Part} {x : Bytes} (h : Text scope e esc ps x) :
    ∀ v, .var v ∈ ps → Acc (fun a b => Mentions scope e esc b a) v := by
  induction h with
  | nil => intro v hv; cases hv
  | lit a ps z h ih => intro v hv; simp at hv; exact ih v hv
  | value w a ps z hd h ih =>
    intro v hv
    rcases List.mem_cons.1 hv with h' | h'
    · cases h'
      refine ⟨_, ?_⟩
      rintro u ⟨qs, hr, _⟩
      rw [hr.1] at hd; cases hd
    · exact ih v h'
  | rule w qs a ps z hr ht h iht ih =>
    intro v hv
    rcases List.mem_cons.1 hv with h' | h'
    · cases h'
      refine ⟨_, ?_⟩
      rintro u ⟨qs', hr', hu⟩
      have := hr.2.symm.trans hr'.2
      cases this
      exact iht u hu
    · exact ih v h'

theorem value_acc {scope : Bytes → Option Bytes} {v : Bytes} {x : Option Bytes} (h : Value scope e esc v x) :
    Acc (fun a b => Mentions scope e esc b a) v := by
  refine ⟨_, ?_⟩
  rintro u ⟨qs, hr, hu⟩
  rcases h with hd | ⟨ps, y, hr', ht, rfl⟩
  · rw [hr.1] at hd; cases hd
  · have := hr'.2.symm.trans hr.2
    cases this
    exact text_acc ht u hu

theorem acc_steps {α : Type} {r : α → α → Prop} {a b : α} (h : Acc (fun a b => r b a) a) (hs : Steps r a b) : Acc (fun a b => r b a) b := by
  induction hs with
  | one h1 => exact h.inv h1
  | more h1 _ ih => exact ih (h.inv h1)

theorem acc_irrefl {α : Type} {r : α → α → Prop} {a : α} (h : Acc (fun a b => r b a) a) : ¬ Steps r a a := by
  induction h with
  | intro a _ ih =>
    intro hs
    cases hs with
    | one h1 => exact ih a h1 (.one h1)
    | more h1 h2 => exact ih _ h1 (Steps.snoc h2 h1)

/-- The end of a chain of variables. -/
def Leads (scope : Bytes → Option Bytes) (e : Edge) (esc : Bool) (v w : Bytes) : Prop := v = w ∨ Steps (Mentions scope e esc) v w

/-- An error: there is a cycle. -/
theorem edgeVar_error : ∀ (f : Nat),
    (∀ seen v, edgeVar s e esc f seen v = .error →
      ∃ w, Leads (s.var e.env) e esc v w ∧ (w ∈ seen ∨ Steps (Mentions (s.var e.env) e esc) w w)) ∧
    (∀ seen ps, edgeParts s e esc f seen ps = .error →
      ∃ v, .var v ∈ ps ∧ ∃ w, Leads (s.var e.env) e esc v w ∧ (w ∈ seen ∨ Steps (Mentions (s.var e.env) e esc) w w)) := by
  have parts : ∀ (f : Nat) (_ : ∀ seen v, edgeVar s e esc f seen v = .error →
      ∃ w, Leads (s.var e.env) e esc v w ∧ (w ∈ seen ∨ Steps (Mentions (s.var e.env) e esc) w w)) (seen : List Bytes) (ps : List Part),
      edgeParts s e esc f seen ps = .error →
      ∃ v, .var v ∈ ps ∧ ∃ w, Leads (s.var e.env) e esc v w ∧ (w ∈ seen ∨ Steps (Mentions (s.var e.env) e esc) w w) := by
    intro f hv seen ps
    induction ps with
    | nil => intro h; rw [edgeParts_nil] at h; cases h
    | cons p ps ih =>
      intro h
      cases p with
      | lit y =>
        rw [edgeParts_lit] at h
        rcases res_cases (edgeParts s e esc f seen ps) with ⟨a, ha⟩ | ha | ha
        · rw [ha] at h; cases h
        · obtain ⟨v, h1, h2⟩ := ih ha
          exact ⟨v, by simp [h1], h2⟩
        · rw [ha] at h; cases h
      | var v =>
        rw [edgeParts_var] at h
        rcases res_cases (edgeVar s e esc f seen v) with ⟨a, ha⟩ | ha | ha
        · rw [ha] at h
          simp only [Res.ok_bind] at h
          rcases res_cases (edgeParts s e esc f seen ps) with ⟨b, hb⟩ | hb | hb
          · rw [hb] at h; cases h
          · obtain ⟨v, h1, h2⟩ := ih hb
            exact ⟨v, by simp [h1], h2⟩
          · rw [hb] at h; cases h
        · exact ⟨v, by simp, hv seen v ha⟩
        · rw [ha] at h; cases h
  intro f
  induction f with
  | zero =>
    have hv : ∀ seen v, edgeVar s e esc 0 seen v = .error →
        ∃ w, Leads (s.var e.env) e esc v w ∧ (w ∈ seen ∨ Steps (Mentions (s.var e.env) e esc) w w) := by
      intro seen v h
      cases hd : direct (s.var e.env) e esc v with
      | some y => rw [edgeVar_direct hd] at h; cases h
      | none =>
        obtain ⟨ps, hr⟩ := direct_none hd
        by_cases hm : v ∈ seen
        · exact ⟨v, Or.inl rfl, Or.inl hm⟩
        · rw [(edgeVar_rule (f := 0) hr).2.1 hm] at h; cases h
    exact ⟨hv, parts 0 hv⟩
  | succ f ihf =>
    have hv : ∀ seen v, edgeVar s e esc (f + 1) seen v = .error →
        ∃ w, Leads (s.var e.env) e esc v w ∧ (w ∈ seen ∨ Steps (Mentions (s.var e.env) e esc) w w) := by
      intro seen v h
      cases hd : direct (s.var e.env) e esc v with
      | some y => rw [edgeVar_direct hd] at h; cases h
      | none =>
        obtain ⟨ps, hr⟩ := direct_none hd
        by_cases hm : v ∈ seen
        · exact ⟨v, Or.inl rfl, Or.inl hm⟩
        · rw [(edgeVar_rule hr).2.2 hm] at h
          rcases res_cases (edgeParts s e esc f (v :: seen) ps) with ⟨a, ha⟩ | ha | ha
          · rw [ha] at h; cases h
          · obtain ⟨u, hu, w, hw, hc⟩ := ihf.2 _ _ ha
            have hvu : Mentions (s.var e.env) e esc v u := ⟨ps, hr, hu⟩
            have hvw : Steps (Mentions (s.var e.env) e esc) v w := by
              rcases hw with rfl | hw
              · exact .one hvu
              · exact .more hvu hw
            rcases hc with hc | hc
            · rcases List.mem_cons.1 hc with rfl | hc
              · exact ⟨w, Or.inl rfl, Or.inr hvw⟩
              · exact ⟨w, Or.inr hvw, Or.inl hc⟩
            · exact ⟨w, Or.inr hvw, Or.inr hc⟩
          · rw [ha] at h; cases h
    exact ⟨hv, parts (f + 1) hv⟩

theorem ruleText_name {scope : Bytes → Option Bytes} {v : Bytes} {ps : List Part} (h : ruleText scope e esc v ps) : v ∈ e.rule.lets.map (·.name) := by
  have h2 := h.2
  unfold lastOf at h2
  cases hl : (List.filter (fun x => decide (x.1 = v)) (e.rule.lets.map (fun l => (l.name, l.val)))).getLast? with
  | none => rw [hl] at h2; cases h2
  | some x =>
    have := List.mem_of_getLast? hl
    rw [List.mem_filter] at this
    obtain ⟨h3, h4⟩ := this
    rw [List.mem_map] at h3 ⊢
    obtain ⟨l, hl1, rfl⟩ := h3
    exact ⟨l, hl1, by simpa using h4⟩

theorem nodup_length : ∀ {l m : List Bytes}, l.Nodup → (∀ x ∈ l, x ∈ m) → l.length ≤ m.length := by
  intro l
  induction l with
  | nil => intro m _ _; simp
  | cons x l ih =>
    intro m hn hs
    rw [List.nodup_cons] at hn
    have hx := hs x (by simp)
    have := ih (m := m.erase x) hn.2 (by
      intro y hy
      have hne : y ≠ x := by rintro rfl; exact hn.1 hy
      exact (List.mem_erase_of_ne hne).2 (hs y (by simp [hy])))
    rw [List.length_erase_of_mem hx] at this
    have : 0 < m.length := List.length_pos_of_mem hx
    simp only [List.length_cons]; omega

/-- The bound on the depth is never reached. -/
theorem edgeVar_enough : ∀ (f : Nat) (seen : List Bytes), seen.Nodup → (∀ v ∈ seen, v ∈ e.rule.lets.map (·.name)) →
    e.rule.lets.length ≤ f + seen.length →
    (∀ v, edgeVar s e esc f seen v ≠ .bad) ∧ (∀ ps, edgeParts s e esc f seen ps ≠ .bad) := by
  have parts : ∀ (f : Nat) (seen : List Bytes), (∀ v, edgeVar s e esc f seen v ≠ .bad) → ∀ ps, edgeParts s e esc f seen ps ≠ .bad := by
    intro f seen hv ps
    induction ps with
    | nil => rw [edgeParts_nil]; simp
    | cons p ps ih =>
      cases p with
      | lit y =>
        rw [edgeParts_lit]
        rcases res_cases (edgeParts s e esc f seen ps) with ⟨a, ha⟩ | ha | ha
        · rw [ha]; simp
        · rw [ha]; simp
        · exact absurd ha ih
      | var v =>
        rw [edgeParts_var]
        rcases res_cases (edgeVar s e esc f seen v) with ⟨a, ha⟩ | ha | ha
        · rw [ha]
          rcases res_cases (edgeParts s e esc f seen ps) with ⟨a, ha⟩ | ha | ha
          · rw [ha]; simp
          · rw [ha]; simp
          · exact absurd ha ih
        · rw [ha]; simp
        · exact absurd ha (hv v)
  intro f
  induction f with
  | zero =>
    intro seen hn hs hl
    have hv : ∀ v, edgeVar s e esc 0 seen v ≠ .bad := by
      intro v
      cases hd : direct (s.var e.env) e esc v with
      | some y => rw [edgeVar_direct hd]; simp
      | none =>
        obtain ⟨ps, hr⟩ := direct_none hd
        by_cases hm : v ∈ seen
        · rw [(edgeVar_rule hr).1 hm]; simp
        · exfalso
          have := nodup_length (l := v :: seen) (m := e.rule.lets.map (·.name)) (List.nodup_cons.2 ⟨hm, hn⟩) (by
            intro x hx
            rcases List.mem_cons.1 hx with rfl | hx
            · exact ruleText_name hr
            · exact hs x hx)
          simp at this hl
          omega
    exact ⟨hv, parts 0 seen hv⟩
  | succ f ihf =>
    intro seen hn hs hl
    have hv : ∀ v, edgeVar s e esc (f + 1) seen v ≠ .bad := by
      intro v
      cases hd : direct (s.var e.env) e esc v with
      | some y => rw [edgeVar_direct hd]; simp
      | none =>
        obtain ⟨ps, hr⟩ := direct_none hd
        by_cases hm : v ∈ seen
        · rw [(edgeVar_rule hr).1 hm]; simp
        · rw [(edgeVar_rule hr).2.2 hm]
          have := (ihf (v :: seen) (List.nodup_cons.2 ⟨hm, hn⟩) (by
            intro x hx
            rcases List.mem_cons.1 hx with rfl | hx
            · exact ruleText_name hr
            · exact hs x hx) (by simp; omega)).2 ps
          rcases res_cases (edgeParts s e esc f (v :: seen) ps) with ⟨a, ha⟩ | ha | ha
          · simp only [ha]; simp
          · simp only [ha]; simp
          · exact absurd ha this
    exact ⟨hv, parts (f + 1) seen hv⟩

theorem edgeVar_spec (s : St) (e : Edge) (esc : Bool) (v : Bytes) :
    (∀ x, s.edgeVar e esc v = .ok x ↔ Value (s.var e.env) e esc v x) ∧
    (s.edgeVar e esc v = .error ↔ ∃ w, (v = w ∨ Steps (Mentions (s.var e.env) e esc) v w) ∧ Steps (Mentions (s.var e.env) e esc) w w) ∧
    s.edgeVar e esc v ≠ .bad := by
  have hbad : s.edgeVar e esc v ≠ .bad := (edgeVar_enough e.rule.lets.length [] (by simp) (by simp) (by simp)).1 v
  have herr : s.edgeVar e esc v = .error → ∃ w, (v = w ∨ Steps (Mentions (s.var e.env) e esc) v w) ∧ Steps (Mentions (s.var e.env) e esc) w w := by
    intro h
    obtain ⟨w, h1, h2 | h2⟩ := (edgeVar_error e.rule.lets.length).1 [] v h
    · cases h2
    · exact ⟨w, h1, h2⟩
  have hno : ∀ x, Value (s.var e.env) e esc v x →
      ¬ ∃ w, (v = w ∨ Steps (Mentions (s.var e.env) e esc) v w) ∧ Steps (Mentions (s.var e.env) e esc) w w := by
    rintro x hx ⟨w, h1, h2⟩
    have ha := value_acc hx
    rcases h1 with rfl | h1
    · exact acc_irrefl ha h2
    · exact acc_irrefl (acc_steps ha h1) h2
  refine ⟨fun x => ⟨fun h => (edgeVar_sound _).1 _ _ _ h, fun h => ?_⟩, ⟨herr, fun h => ?_⟩, hbad⟩
  · rcases res_cases (s.edgeVar e esc v) with ⟨y, hy⟩ | hy | hy
    · rw [hy, value_det ((edgeVar_sound _).1 _ _ _ hy) h]
    · exact absurd (herr hy) (hno x h)
    · exact absurd hy hbad
  · rcases res_cases (s.edgeVar e esc v) with ⟨y, hy⟩ | hy | hy
    · exact absurd h (hno y ((edgeVar_sound _).1 _ _ _ hy))
    · exact hy
    · exact absurd hy hbad

end Muon.Manifest
