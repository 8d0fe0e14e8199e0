import Verif.Interp.Spec
import Verif.Val.Props
/-
Heaps and the values they hold.
-/
namespace Muon.Interp
open Muon Val
open _root_.Muon.Val.Spec (valOf Holds Same)

/-- The objects an object refers to. -/
def kids : Obj → List Nat
  | .arr l => l
  | .dict l => l.map Prod.snd
  | _ => []

def isCont : Obj → Prop
  | .arr _ => True
  | .dict _ => True
  | _ => False

def HoldsL (h : Heap) : List Nat → List Val → Prop
  | [], [] => True
  | i :: l, v :: vs => Holds h i v ∧ HoldsL h l vs
  | _, _ => False

def HoldsD (h : Heap) : List (Bytes × Nat) → List (Bytes × Val) → Prop
  | [], [] => True
  | p :: l, q :: vs => p.1 = q.1 ∧ Holds h p.2 q.2 ∧ HoldsD h l vs
  | _, _ => False

theorem mapM_cons_some {α β : Type} {g : α → Option β} {x : α} {l : List α} {vs : List β} :
    (x :: l).mapM g = some vs ↔ ∃ v vs', vs = v :: vs' ∧ g x = some v ∧ l.mapM g = some vs' := by
  rw [List.mapM_cons]
  cases hx : g x with
  | none => simp
  | some v =>
    cases hl : l.mapM g with
    | none => simp
    | some vs' => simp [eq_comm]

theorem holdsL_iff {h : Heap} : ∀ {l : List Nat} {vs : List Val}, HoldsL h l vs ↔ ∃ f, l.mapM (valOf h f) = some vs
  | [], [] => by simp [HoldsL]
  | [], _ :: _ => by simp [HoldsL]
  | _ :: _, [] => by
    simp only [HoldsL, false_iff, not_exists]
    intro f hf
    obtain ⟨v, vs, e, _⟩ := mapM_cons_some.1 hf
    cases e
  | i :: l, v :: vs => by
    simp only [HoldsL, holdsL_iff (l := l)]
    constructor
    · rintro ⟨⟨f, hf⟩, g, hg⟩
      exact ⟨max f g, mapM_cons_some.2 ⟨v, vs, rfl, valOf_mono (by omega) hf, mapM_mono (fun x v hx => valOf_mono (Nat.le_max_right f g) hx) hg⟩⟩
    · rintro ⟨f, hf⟩
      obtain ⟨_, _, e, h1, h2⟩ := mapM_cons_some.1 hf
      cases e
      exact ⟨⟨f, h1⟩, f, h2⟩

theorem entry_some {h : Heap} {f : Nat} {p : Bytes × Nat} {q : Bytes × Val} : (valOf h f p.2).map (p.1, ·) = some q ↔ p.1 = q.1 ∧ valOf h f p.2 = some q.2 := by
  obtain ⟨k, v⟩ := q
  cases hv : valOf h f p.2 with
  | none => simp
  | some w => simp

theorem holdsD_iff {h : Heap} : ∀ {l : List (Bytes × Nat)} {vs : List (Bytes × Val)},
    HoldsD h l vs ↔ ∃ f, l.mapM (fun x => (valOf h f x.2).map (x.1, ·)) = some vs
  | [], [] => by simp [HoldsD]
  | [], _ :: _ => by simp [HoldsD]
  | _ :: _, [] => by
    simp only [HoldsD, false_iff, not_exists]
    intro f hf
    obtain ⟨v, vs, e, _⟩ := mapM_cons_some.1 hf
    cases e
  | p :: l, q :: vs => by
    simp only [HoldsD, holdsD_iff (l := l)]
    constructor
    · rintro ⟨hk, ⟨f, hf⟩, g, hg⟩
      refine ⟨max f g, mapM_cons_some.2 ⟨q, vs, rfl, entry_some.2 ⟨hk, valOf_mono (by omega) hf⟩, mapM_mono (fun x v hx => ?_) hg⟩⟩
      obtain ⟨h1, h2⟩ := entry_some.1 hx
      exact entry_some.2 ⟨h1, valOf_mono (Nat.le_max_right f g) h2⟩
    · rintro ⟨f, hf⟩
      obtain ⟨_, _, e, h1, h2⟩ := mapM_cons_some.1 hf
      cases e
      obtain ⟨hk, hv⟩ := entry_some.1 h1
      exact ⟨hk, ⟨f, hv⟩, f, h2⟩

theorem holds_iff {h : Heap} {i : Nat} {v : Val} : Holds h i v ↔
    match h.obj i with
    | .bool b => v = .bool b
    | .num n => v = .num n
    | .str s => v = .str s
    | .file s => v = .file s
    | .feature n => v = .feature n
    | .inc p s => v = .inc p s
    | .arr l => ∃ vs, v = .arr vs ∧ HoldsL h l vs
    | .dict l => ∃ vs, v = .dict vs ∧ (l.map Prod.fst).Nodup ∧ HoldsD h l vs
    | .other t => v = .other t i := by
  have base : ∀ w : Val, (∀ f, valOf h (f + 1) i = some w) → (Holds h i v ↔ v = w) := by
    intro w hw
    constructor
    · intro hv
      exact holds_det hv ⟨1, hw 0⟩
    · rintro rfl
      exact ⟨1, hw 0⟩
  cases ho : h.obj i with
  | arr l =>
    simp only [holdsL_iff]
    constructor
    · rintro ⟨f, hf⟩
      cases f with
      | zero => cases hf
      | succ f =>
        unfold valOf at hf
        rw [ho] at hf
        dsimp only at hf
        cases hm : l.mapM (valOf h f) with
        | none => rw [hm] at hf; cases hf
        | some vs => rw [hm] at hf; cases hf; exact ⟨vs, rfl, f, hm⟩
    · rintro ⟨vs, rfl, f, hf⟩
      refine ⟨f + 1, ?_⟩
      unfold valOf
      rw [ho]
      dsimp only
      rw [hf]
      rfl
  | dict l =>
    simp only [holdsD_iff]
    constructor
    · rintro ⟨f, hf⟩
      cases f with
      | zero => cases hf
      | succ f =>
        unfold valOf at hf
        rw [ho] at hf
        dsimp only at hf
        by_cases hn : (l.map Prod.fst).Nodup
        · rw [if_pos hn] at hf
          cases hm : l.mapM (fun x => (valOf h f x.2).map (x.1, ·)) with
          | none => rw [hm] at hf; cases hf
          | some vs => rw [hm] at hf; cases hf; exact ⟨vs, rfl, hn, f, hm⟩
        · rw [if_neg hn] at hf; cases hf
    · rintro ⟨vs, rfl, hn, f, hf⟩
      refine ⟨f + 1, ?_⟩
      unfold valOf
      rw [ho]
      dsimp only
      rw [if_pos hn, hf]
      rfl
  | _ => exact base _ fun f => by unfold valOf; rw [ho]

/-- Values only depend on the objects reached. -/
theorem valOf_congr {h h' : Heap} (A : Nat → Prop) (hA : ∀ i, A i → h'.obj i = h.obj i ∧ ∀ k ∈ kids (h.obj i), A k) :
    ∀ f i, A i → valOf h' f i = valOf h f i := by
  intro f
  induction f with
  | zero => intro i _; rfl
  | succ f ih =>
    intro i hi
    obtain ⟨he, hk⟩ := hA i hi
    unfold valOf
    rw [he]
    cases ho : h.obj i with
    | arr l =>
      rw [ho] at hk
      dsimp only
      have : l.mapM (valOf h' f) = l.mapM (valOf h f) := by
        clear ho
        induction l with
        | nil => rfl
        | cons x l ihl =>
          rw [List.mapM_cons, List.mapM_cons, ih x (hk x (by simp [kids])), ihl fun k hk' => hk k (by simp only [kids, List.mem_cons] at hk' ⊢; exact Or.inr hk')]
      rw [this]
    | dict l =>
      rw [ho] at hk
      dsimp only
      have : l.mapM (fun x => (valOf h' f x.2).map (x.1, ·)) = l.mapM (fun x => (valOf h f x.2).map (x.1, ·)) := by
        clear ho
        induction l with
        | nil => rfl
        | cons x l ihl =>
          rw [List.mapM_cons, List.mapM_cons, ih x.2 (hk x.2 (by simp [kids])), ihl fun k hk' => hk k (by simp only [kids, List.map_cons, List.mem_cons] at hk' ⊢; exact Or.inr hk')]
      rw [this]
    | _ => rfl

theorem holds_congr {h h' : Heap} (A : Nat → Prop) (hA : ∀ i, A i → h'.obj i = h.obj i ∧ ∀ k ∈ kids (h.obj i), A k)
    {i : Nat} {v : Val} (hi : A i) (hv : Holds h i v) : Holds h' i v := by
  obtain ⟨f, hf⟩ := hv
  exact ⟨f, by rw [valOf_congr A hA f i hi]; exact hf⟩

theorem holdsL_length {h : Heap} : ∀ {l : List Nat} {vs : List Val}, HoldsL h l vs → l.length = vs.length
  | [], [], _ => rfl
  | _ :: _, _ :: _, H => by simp [holdsL_length H.2]
  | [], _ :: _, H => by cases H
  | _ :: _, [], H => by cases H

theorem holdsL_get {h : Heap} : ∀ {l : List Nat} {vs : List Val}, HoldsL h l vs → ∀ (k : Nat) (i : Nat), l[k]? = some i → ∃ v, vs[k]? = some v ∧ Holds h i v
  | _ :: _, _ :: _, H, 0, i, e => by cases e; exact ⟨_, rfl, H.1⟩
  | _ :: _, _ :: _, H, k + 1, i, e => holdsL_get H.2 k i e
  | [], [], _, k, i, e => by cases e
  | [], _ :: _, H, _, _, _ => by cases H
  | _ :: _, [], H, _, _, _ => by cases H

theorem holdsL_append {h : Heap} {l r : List Nat} {vs ws : List Val} (hl : HoldsL h l vs) (hr : HoldsL h r ws) : HoldsL h (l ++ r) (vs ++ ws) := by
  induction l generalizing vs with
  | nil => cases vs with | nil => exact hr | cons _ _ => cases hl
  | cons x l ih => cases vs with | nil => cases hl | cons v vs => exact ⟨hl.1, ih hl.2⟩

theorem holdsL_mono {h h' : Heap} {l : List Nat} {vs : List Val} (H : ∀ i ∈ l, ∀ v, Holds h i v → Holds h' i v) (hl : HoldsL h l vs) : HoldsL h' l vs := by
  induction l generalizing vs with
  | nil => cases vs with | nil => trivial | cons _ _ => cases hl
  | cons x l ih =>
    cases vs with
    | nil => cases hl
    | cons v vs => exact ⟨H x (by simp) v hl.1, ih (fun i hi => H i (by simp [hi])) hl.2⟩

theorem holdsD_mono {h h' : Heap} {l : List (Bytes × Nat)} {vs : List (Bytes × Val)} (H : ∀ p ∈ l, ∀ v, Holds h p.2 v → Holds h' p.2 v) (hl : HoldsD h l vs) : HoldsD h' l vs := by
  induction l generalizing vs with
  | nil => cases vs with | nil => trivial | cons _ _ => cases hl
  | cons x l ih =>
    cases vs with
    | nil => cases hl
    | cons v vs => exact ⟨hl.1, H x (by simp) _ hl.2.1, ih (fun i hi => H i (by simp [hi])) hl.2.2⟩

theorem holdsD_append {h : Heap} {l r : List (Bytes × Nat)} {vs ws : List (Bytes × Val)} (hl : HoldsD h l vs) (hr : HoldsD h r ws) : HoldsD h (l ++ r) (vs ++ ws) := by
  induction l generalizing vs with
  | nil => cases vs with | nil => exact hr | cons _ _ => cases hl
  | cons x l ih => cases vs with | nil => cases hl | cons v vs => exact ⟨hl.1, hl.2.1, ih hl.2.2⟩

theorem holdsD_keys {h : Heap} : ∀ {l : List (Bytes × Nat)} {vs : List (Bytes × Val)}, HoldsD h l vs → l.map Prod.fst = vs.map Prod.fst
  | [], [], _ => rfl
  | p :: l, q :: vs, H => by simp [H.1, holdsD_keys H.2.2]
  | [], _ :: _, H => by cases H
  | _ :: _, [], H => by cases H

theorem holdsD_lookup {h : Heap} {k : Bytes} : ∀ {l : List (Bytes × Nat)} {vs : List (Bytes × Val)}, HoldsD h l vs →
    match l.lookup k, vs.lookup k with
    | some i, some v => Holds h i v
    | none, none => True
    | _, _ => False
  | [], [], _ => by simp
  | (a, i) :: l, (b, v) :: vs, H => by
    obtain ⟨hk, hv, ht⟩ := H
    dsimp only at hk hv
    subst hk
    rw [List.lookup_cons, List.lookup_cons]
    by_cases e : (k == a) = true
    · simp only [e]; exact hv
    · simp only [Bool.not_eq_true] at e
      simp only [e]
      exact holdsD_lookup ht
  | [], _ :: _, H => by cases H
  | _ :: _, [], H => by cases H

theorem holdsD_get {h : Heap} : ∀ {l : List (Bytes × Nat)} {vs : List (Bytes × Val)}, HoldsD h l vs → ∀ (k : Nat) p, l[k]? = some p → ∃ q, vs[k]? = some q ∧ p.1 = q.1 ∧ Holds h p.2 q.2
  | _ :: _, _ :: _, H, 0, i, e => by cases e; exact ⟨_, rfl, H.1, H.2.1⟩
  | _ :: _, _ :: _, H, k + 1, i, e => holdsD_get H.2.2 k i e
  | [], [], _, k, i, e => by cases e
  | [], _ :: _, H, _, _, _ => by cases H
  | _ :: _, [], H, _, _, _ => by cases H

/-! ### Merging dictionaries -/

/-- `dictSet`, for entries of any type. -/
theorem dictSet_keys (l : List (Bytes × Nat)) (p : Bytes × Nat) : (dictSet l p).map Prod.fst = l.map Prod.fst ++ (if p.1 ∈ l.map Prod.fst then [] else [p.1]) := by
  induction l with
  | nil => simp [dictSet]
  | cons a l ih =>
    obtain ⟨k, v⟩ := a
    rw [dictSet]
    by_cases e : k = p.1
    · simp [e]
    · rw [if_neg e]
      simp only [List.map_cons, ih, List.cons_append, List.mem_cons]
      have : (p.1 = k ∨ p.1 ∈ l.map Prod.fst) ↔ p.1 ∈ l.map Prod.fst := ⟨fun h => h.resolve_left fun h => e h.symm, Or.inr⟩
      by_cases hm : p.1 ∈ l.map Prod.fst
      · rw [if_pos hm, if_pos (this.2 hm)]
      · rw [if_neg hm, if_neg (fun h => hm (this.1 h))]

theorem dictSet_snoc (l : List (Bytes × Nat)) (p : Bytes × Nat) (h : p.1 ∉ l.map Prod.fst) : dictSet l p = l ++ [p] := by
  induction l with
  | nil => rfl
  | cons a l ih =>
    obtain ⟨k, v⟩ := a
    simp only [List.map_cons, List.mem_cons, not_or] at h
    rw [dictSet, if_neg (fun e => h.1 e.symm), ih h.2]
    rfl

theorem dictSet_map (l : List (Bytes × Nat)) (p : Bytes × Nat) (hn : (l.map Prod.fst).Nodup) (h : p.1 ∈ l.map Prod.fst) :
    dictSet l p = l.map fun q => (q.1, if q.1 = p.1 then p.2 else q.2) := by
  induction l with
  | nil => cases h
  | cons a l ih =>
    obtain ⟨k, v⟩ := a
    simp only [List.map_cons, List.nodup_cons, List.mem_cons] at hn h
    rw [dictSet]
    by_cases e : k = p.1
    · rw [if_pos e]
      simp only [List.map_cons, if_pos e]
      congr 1
      symm
      rw [List.map_congr_left (g := id)]
      · simp
      · intro q hq
        have : ¬ q.1 = p.1 := fun e' => hn.1 (by rw [e, ← e']; exact List.mem_map_of_mem hq)
        simp [this]
    · rw [if_neg e, ih hn.2 (h.resolve_left fun e' => e e'.symm)]
      simp [e]

theorem lookup_isNone {α : Type} {l : List (Bytes × α)} {k : Bytes} : (l.lookup k).isNone = true ↔ k ∉ l.map Prod.fst := by
  rw [Option.isNone_iff_eq_none, lookup_none]

/-- Merging keeps the entries of the left dictionary in place and adds the new ones of the right. -/
theorem dictMerge_eq (l r : List (Bytes × Nat)) (hl : (l.map Prod.fst).Nodup) (hr : (r.map Prod.fst).Nodup) : dictMerge l r = Spec.merge l r := by
  induction r generalizing l with
  | nil => simp [dictMerge, Spec.merge]
  | cons p r ih =>
    simp only [List.map_cons, List.nodup_cons] at hr
    show dictMerge (dictSet l p) r = _
    have hk := dictSet_keys l p
    by_cases hp : p.1 ∈ l.map Prod.fst
    · rw [if_pos hp, List.append_nil] at hk
      rw [ih _ (by rw [hk]; exact hl) hr.2]
      have hf : ∀ q : Bytes × Nat, ((dictSet l p).lookup q.1).isNone = (l.lookup q.1).isNone := by
        intro q
        rw [Bool.eq_iff_iff, lookup_isNone, lookup_isNone, hk]
      have hp' : (l.lookup p.1).isNone = false := by
        rw [← Bool.not_eq_true, lookup_isNone]
        exact fun h => h hp
      rw [Spec.merge, Spec.merge]
      simp only [hf, List.filter_cons, hp', Bool.false_eq_true, if_false]
      congr 1
      rw [dictSet_map l p hl hp, List.map_map]
      apply List.map_congr_left
      intro q _
      simp only [Function.comp]
      rw [List.lookup_cons]
      by_cases e : q.1 = p.1
      · simp [e, show r.lookup p.1 = none from lookup_none.2 hr.1]
      · have : (q.1 == p.1) = false := by simpa using e
        simp [e, this]
    · rw [dictSet_snoc l p hp] at hk ⊢
      rw [ih _ (by rw [hk, if_neg hp]; exact List.nodup_append.2 ⟨hl, by simp, by simpa using fun a b hab e => hp (by rw [← e]; exact List.mem_map_of_mem hab)⟩) hr.2]
      have hp' : (l.lookup p.1).isNone = true := lookup_isNone.2 hp
      rw [Spec.merge, Spec.merge, List.map_append, List.append_assoc]
      have e1 : l.map (fun q => (q.1, ((p :: r).lookup q.1).getD q.2)) = l.map (fun q => (q.1, (r.lookup q.1).getD q.2)) := by
        apply List.map_congr_left
        intro q hq
        have : (q.1 == p.1) = false := by
          simpa using fun e : q.1 = p.1 => hp (by rw [← e]; exact List.mem_map_of_mem hq)
        rw [List.lookup_cons, this]
      rw [e1]
      congr 1
      have e2 : r.filter (fun q => ((l ++ [p]).lookup q.1).isNone) = r.filter (fun q => (l.lookup q.1).isNone) := by
        apply List.filter_congr
        intro q hq
        rw [Bool.eq_iff_iff, lookup_isNone, lookup_isNone, List.map_append, List.mem_append]
        have : q.1 ≠ p.1 := fun e => hr.1 (by rw [← e]; exact List.mem_map_of_mem hq)
        simp [this]
      rw [List.filter_cons, if_pos hp', e2]
      simp [show r.lookup p.1 = none from lookup_none.2 hr.1]

theorem merge_keys_nodup {α : Type} {l r : List (Bytes × α)} (hl : (l.map Prod.fst).Nodup) (hr : (r.map Prod.fst).Nodup) : ((Spec.merge l r).map Prod.fst).Nodup := by
  rw [Spec.merge, List.map_append, List.map_map]
  have : (Prod.fst ∘ fun p : Bytes × α => (p.1, (r.lookup p.1).getD p.2)) = Prod.fst := rfl
  rw [this, List.nodup_append]
  refine ⟨hl, (List.filter_sublist.map _).nodup hr, ?_⟩
  intro a ha b hb e
  obtain ⟨q, hq, rfl⟩ := List.mem_map.1 hb
  exact lookup_isNone.1 (List.mem_filter.1 hq).2 (by rw [← e]; exact ha)

theorem holdsD_merge {h : Heap} {l r : List (Bytes × Nat)} {vs ws : List (Bytes × Val)} (hl : HoldsD h l vs) (hr : HoldsD h r ws) : HoldsD h (Spec.merge l r) (Spec.merge vs ws) := by
  rw [Spec.merge, Spec.merge]
  refine holdsD_append ?_ ?_
  · induction l generalizing vs with
    | nil => cases vs with | nil => trivial | cons _ _ => cases hl
    | cons p l ih =>
      cases vs with
      | nil => cases hl
      | cons q vs =>
        refine ⟨hl.1, ?_, ih hl.2.2⟩
        have := holdsD_lookup (k := p.1) hr
        show Holds h ((r.lookup p.1).getD p.2) ((ws.lookup q.1).getD q.2)
        rw [← hl.1]
        cases h1 : r.lookup p.1 <;> cases h2 : ws.lookup p.1 <;> rw [h1, h2] at this <;> first | exact this.elim | skip
        · exact hl.2.1
        · exact this
  · have hk := holdsD_keys hl
    clear hl
    induction r generalizing ws with
    | nil => cases ws with | nil => trivial | cons _ _ => cases hr
    | cons p r ih =>
      cases ws with
      | nil => cases hr
      | cons q ws =>
        have e : (l.lookup p.1).isNone = (vs.lookup q.1).isNone := by
          rw [Bool.eq_iff_iff, lookup_isNone, lookup_isNone, hk, hr.1]
        rw [List.filter_cons, List.filter_cons, ← e]
        split
        · exact ⟨hr.1, hr.2.1, ih hr.2.2⟩
        · exact ih hr.2.2

theorem merge_vals {l r : List (Bytes × Nat)} {k : Nat} (h : k ∈ (Spec.merge l r).map Prod.snd) : k ∈ l.map Prod.snd ∨ k ∈ r.map Prod.snd := by
  obtain ⟨p, hp, rfl⟩ := List.mem_map.1 h
  rw [Spec.merge, List.mem_append] at hp
  rcases hp with hp | hp
  · obtain ⟨q, hq, rfl⟩ := List.mem_map.1 hp
    show (r.lookup q.1).getD q.2 ∈ _ ∨ (r.lookup q.1).getD q.2 ∈ _
    cases e : r.lookup q.1 with
    | none => exact Or.inl (List.mem_map_of_mem (f := Prod.snd) hq)
    | some v => exact Or.inr (List.mem_map_of_mem (f := Prod.snd) (lookup_mem e))
  · exact Or.inr (List.mem_map_of_mem (f := Prod.snd) (List.mem_filter.1 hp).1)

end Muon.Interp
