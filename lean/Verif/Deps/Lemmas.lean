import Verif.Deps.Spec
import Verif.Path.Props
namespace Muon.Deps
open Muon

/-! ### lists without repetitions -/

theorem mem_dedup_aux (l : List Item) : ∀ (r : List Item) (v : Item),
    v ∈ l.foldl (fun r x => if x ∈ r then r else r ++ [x]) r ↔ v ∈ r ∨ v ∈ l := by
  induction l with
  | nil => intro r v; simp
  | cons x l ih =>
    intro r v
    rw [List.foldl_cons, ih]
    by_cases hx : x ∈ r
    · rw [if_pos hx, List.mem_cons]
      constructor
      · rintro (h | h)
        · exact .inl h
        · exact .inr (.inr h)
      · rintro (h | rfl | h)
        · exact .inl h
        · exact .inl hx
        · exact .inr h
    · rw [if_neg hx, List.mem_append, List.mem_singleton, List.mem_cons, or_assoc]

theorem mem_dedup (l : List Item) (v : Item) : v ∈ dedup l ↔ v ∈ l := by
  unfold dedup; rw [mem_dedup_aux]; simp

theorem nodup_dedup (l : List Item) : (dedup l).Nodup := by
  unfold dedup
  have : ∀ (l r : List Item), r.Nodup → (l.foldl (fun r x => if x ∈ r then r else r ++ [x]) r).Nodup := by
    intro l
    induction l with
    | nil => intro r h; exact h
    | cons x l ih =>
      intro r h
      rw [List.foldl_cons]
      apply ih
      by_cases hx : x ∈ r
      · rw [if_pos hx]; exact h
      · rw [if_neg hx, List.nodup_append]
        refine ⟨h, by simp, ?_⟩
        intro a ha b hb
        rw [List.mem_singleton] at hb
        rintro rfl
        exact hx (hb ▸ ha)
  exact this l [] List.nodup_nil

theorem mem_dedupArgs (l : List Item) (v : Item) : v ∈ dedupArgs l ↔ v ∈ l := by
  unfold dedupArgs
  have : ∀ (l r : List Item), v ∈ l.foldl (fun r x => if x.text = ascii "-pthread" ∧ x ∈ r then r else r ++ [x]) r ↔ v ∈ r ∨ v ∈ l := by
    intro l
    induction l with
    | nil => intro r; simp
    | cons x l ih =>
      intro r
      rw [List.foldl_cons, ih]
      by_cases hx : x.text = ascii "-pthread" ∧ x ∈ r
      · rw [if_pos hx, List.mem_cons]
        constructor
        · rintro (h | h)
          · exact .inl h
          · exact .inr (.inr h)
        · rintro (h | rfl | h)
          · exact .inl h
          · exact .inl hx.2
          · exact .inr h
      · rw [if_neg hx, List.mem_append, List.mem_singleton, List.mem_cons, or_assoc]
  rw [this]; simp

theorem mem_dedupDep (d : BDep) (f : Field) (v : Item) : v ∈ (dedupDep d).lists f ↔ v ∈ d.lists f := by
  unfold dedupDep
  simp only
  split
  · exact mem_dedupArgs _ _
  · exact mem_dedup _ _

theorem mem_push (d : BDep) (f g : Field) (v w : Item) : w ∈ (d.push f v).lists g ↔ w ∈ d.lists g ∨ (g = f ∧ w = v) := by
  unfold BDep.push BDep.set
  simp only
  by_cases h : g = f
  · subst h; simp
  · simp [h]

theorem mem_merge (src dest : BDep) (dep : Bool) (f : Field) (v : Item) :
    v ∈ (merge src dest dep).lists f ↔ v ∈ dest.lists f ∨ ((dep = true ∨ passes f = true) ∧ v ∈ src.lists f) := by
  unfold merge
  simp only
  by_cases h : dep = true ∨ passes f = true
  · rw [if_pos (by simpa using h), List.mem_append]; simp [h]
  · rw [if_neg (by simpa using h)]
    constructor
    · exact .inl
    · rintro (h' | ⟨h', _⟩)
      · exact h'
      · exact absurd h' h

/-! ### what linking adds, in terms of the store -/

/-- What a target adds where it is linked. -/
def FromTarget (root : Bytes) (whole : Bool) (k : Kind) (p : Bytes) (ext : BDep) (f : Field) (v : Item) : Prop :=
  (f = destField whole ∧ k ≠ .exe ∧ v = ⟨p, false⟩) ∨ (f = .rpath ∧ k ≠ .static ∧ v = ⟨runDir root p, false⟩) ∨
    (passes f = true ∧ v ∈ ext.lists f)

/-- What an object adds where it is linked. -/
inductive FromObj (root : Bytes) (st : Store) (whole : Bool) : Nat → Field → Item → Prop
  | target {j k p int ext f v} : st[j]? = some (.target k p int ext) → FromTarget root whole k p ext f v → FromObj root st whole j f v
  | both {j s t k p int ext f v} : st[j]? = some (.both s t) → st[t]? = some (.target k p int ext) →
      FromTarget root whole k p ext f v → FromObj root st whole j f v
  | file {j p} : st[j]? = some (.file p) → FromObj root st whole j (destField whole) ⟨p, false⟩
  | custom {j outs o p} : st[j]? = some (.custom outs) → o ∈ outs → st[o]? = some (.file p) →
      FromObj root st whole j (destField whole) ⟨p, false⟩

/-- The objects that may be linked. -/
inductive Linkable (st : Store) : Nat → Prop
  | target {j k p int ext} : st[j]? = some (.target k p int ext) → Linkable st j
  | both {j s t k p int ext} : st[j]? = some (.both s t) → st[t]? = some (.target k p int ext) → Linkable st j
  | file {j p} : st[j]? = some (.file p) → Linkable st j
  | custom {j outs} : st[j]? = some (.custom outs) → (∀ o ∈ outs, ∃ p, st[o]? = some (.file p)) → Linkable st j

theorem linkTarget_mem {root : Bytes} {whole : Bool} {k : Kind} {p : Bytes} {ext d d' : BDep}
    (h : linkTarget root whole k p ext d = .ok d') (f : Field) (v : Item) :
    v ∈ d'.lists f ↔ v ∈ d.lists f ∨ FromTarget root whole k p ext f v := by
  unfold linkTarget at h
  split at h
  · cases h
  · injection h with h
    subst h
    rw [mem_merge]
    unfold FromTarget
    simp only [Bool.false_eq_true, false_or]
    rw [← or_assoc, ← or_assoc]
    refine or_congr ?_ Iff.rfl
    by_cases hx : k = .exe
    · subst hx
      simp only [if_true, reduceCtorEq, if_false, ne_eq, not_true_eq_false, false_and, and_false, or_false, not_false_iff, true_and]
      split
      · rename_i hm
        constructor
        · exact .inl
        · rintro (h | ⟨rfl, rfl⟩)
          · exact h
          · exact hm
      · exact mem_push _ _ _ _ _
    · rw [if_neg hx]
      have e1 : v ∈ (d.push (destField whole) ⟨p, false⟩).lists f ↔ v ∈ d.lists f ∨ (f = destField whole ∧ k ≠ .exe ∧ v = ⟨p, false⟩) := by
        rw [mem_push]; simp [hx]
      by_cases hs : k = .static
      · rw [if_pos hs]
        simp only [hs, ne_eq, not_true_eq_false, false_and, and_false, or_false]
        simpa [hs] using e1
      · rw [if_neg hs]
        split
        · rename_i hm
          rw [e1]
          constructor
          · exact .inl
          · rintro (h | ⟨rfl, -, rfl⟩)
            · exact h
            · exact e1.1 hm
        · rw [mem_push, e1]; simp [hs]

/-- The outputs of custom targets are files. -/
def Outs (st : Store) : Prop := ∀ (j : Nat) (outs : List Nat), st[j]? = some (Obj.custom outs) → ∀ o ∈ outs, ∃ p, st[o]? = some (Obj.file p)

/-- After linking some objects: those seen have added all they have to add, and nothing else was added. -/
structure LinkInv (root : Bytes) (st : Store) (whole : Bool) (d0 : BDep) (js : List Nat) (s : List Nat × BDep) : Prop where
  mem : ∀ f v, v ∈ s.2.lists f ↔ v ∈ d0.lists f ∨ ∃ j ∈ js, FromObj root st whole j f v
  seen : ∀ j ∈ s.1, Linkable st j ∧ ∀ f v, FromObj root st whole j f v → v ∈ s.2.lists f

theorem fromObj_file {root : Bytes} {st : Store} {whole : Bool} {j : Nat} {p : Bytes} (h : st[j]? = some (.file p)) (f : Field) (v : Item) :
    FromObj root st whole j f v ↔ f = destField whole ∧ v = ⟨p, false⟩ := by
  constructor
  · intro hf
    cases hf with
    | target h' _ => rw [h] at h'; cases h'
    | both h' _ _ => rw [h] at h'; cases h'
    | file h' => rw [h] at h'; cases h'; exact ⟨rfl, rfl⟩
    | custom h' _ _ => rw [h] at h'; cases h'
  · rintro ⟨rfl, rfl⟩; exact .file h

theorem fromObj_target {root : Bytes} {st : Store} {whole : Bool} {j : Nat} {k : Kind} {p : Bytes} {int ext : BDep}
    (h : st[j]? = some (.target k p int ext)) (f : Field) (v : Item) :
    FromObj root st whole j f v ↔ FromTarget root whole k p ext f v := by
  constructor
  · intro hf
    cases hf with
    | target h' hf => rw [h] at h'; cases h'; exact hf
    | both h' _ _ => rw [h] at h'; cases h'
    | file h' => rw [h] at h'; cases h'
    | custom h' _ _ => rw [h] at h'; cases h'
  · exact .target h

theorem fromObj_both {root : Bytes} {st : Store} {whole : Bool} {j s t : Nat} {k : Kind} {p : Bytes} {int ext : BDep}
    (h : st[j]? = some (.both s t)) (ht : st[t]? = some (.target k p int ext)) (f : Field) (v : Item) :
    FromObj root st whole j f v ↔ FromTarget root whole k p ext f v := by
  constructor
  · intro hf
    cases hf with
    | target h' _ => rw [h] at h'; cases h'
    | both h' h2 hf => rw [h] at h'; cases h'; rw [ht] at h2; cases h2; exact hf
    | file h' => rw [h] at h'; cases h'
    | custom h' _ _ => rw [h] at h'; cases h'
  · exact .both h ht

theorem fromObj_custom {root : Bytes} {st : Store} {whole : Bool} {j : Nat} {outs : List Nat}
    (h : st[j]? = some (.custom outs)) (f : Field) (v : Item) :
    FromObj root st whole j f v ↔ ∃ o ∈ outs, ∃ p, st[o]? = some (.file p) ∧ f = destField whole ∧ v = ⟨p, false⟩ := by
  constructor
  · intro hf
    cases hf with
    | target h' _ => rw [h] at h'; cases h'
    | both h' _ _ => rw [h] at h'; cases h'
    | file h' => rw [h] at h'; cases h'
    | custom h' ho hp => rw [h] at h'; cases h'; exact ⟨_, ho, _, hp, rfl, rfl⟩
  · rintro ⟨o, ho, p, hp, rfl, rfl⟩; exact .custom h ho hp

theorem linkOuts_spec {st : Store} {whole : Bool} :
    ∀ (outs : List Nat) (s s' : List Nat × BDep), linkOuts st whole outs s = .ok s' →
      (∀ o ∈ outs, o ∈ s.1 → ∃ p, st[o]? = some (.file p) ∧ (⟨p, false⟩ : Item) ∈ s.2.lists (destField whole)) →
      (∀ o ∈ outs, ∃ p, st[o]? = some (.file p)) ∧
      (∀ f v, v ∈ s'.2.lists f ↔ v ∈ s.2.lists f ∨ ∃ o ∈ outs, ∃ p, st[o]? = some (.file p) ∧ f = destField whole ∧ v = ⟨p, false⟩) ∧
      (∀ j, j ∈ s'.1 → j ∈ s.1 ∨ j ∈ outs) := by
  intro outs
  induction outs with
  | nil =>
    intro s s' h _
    unfold linkOuts at h
    cases h
    exact ⟨by simp, by simp, fun j hj => .inl hj⟩
  | cons j outs ih =>
    rintro ⟨seen, d⟩ s' h hseen
    unfold linkOuts at h
    split at h
    · rename_i hj
      obtain ⟨p, hp, hm⟩ := hseen j (by simp) hj
      obtain ⟨a, b, c⟩ := ih _ _ h (fun o ho hs => hseen o (List.mem_cons_of_mem _ ho) hs)
      refine ⟨?_, ?_, ?_⟩
      · intro o ho
        rcases List.mem_cons.1 ho with rfl | ho
        · exact ⟨p, hp⟩
        · exact a o ho
      · intro f v
        rw [b]
        constructor
        · rintro (h | ⟨o, ho, r⟩)
          · exact .inl h
          · exact .inr ⟨o, List.mem_cons_of_mem _ ho, r⟩
        · rintro (h | ⟨o, ho, q, hq, rfl, rfl⟩)
          · exact .inl h
          · rcases List.mem_cons.1 ho with rfl | ho
            · rw [hp] at hq; cases hq; exact .inl hm
            · exact .inr ⟨o, ho, q, hq, rfl, rfl⟩
      · intro i hi
        rcases c i hi with h | h
        · exact .inl h
        · exact .inr (List.mem_cons_of_mem _ h)
    · rename_i hj
      split at h
      · rename_i p hp
        obtain ⟨a, b, c⟩ := ih _ _ h (by
          intro o ho hs
          rcases List.mem_cons.1 hs with rfl | hs
          · exact ⟨p, hp, (mem_push _ _ _ _ _).2 (.inr ⟨rfl, rfl⟩)⟩
          · obtain ⟨q, hq, hm⟩ := hseen o (List.mem_cons_of_mem _ ho) hs
            exact ⟨q, hq, (mem_push _ _ _ _ _).2 (.inl hm)⟩)
        refine ⟨?_, ?_, ?_⟩
        · intro o ho
          rcases List.mem_cons.1 ho with rfl | ho
          · exact ⟨p, hp⟩
          · exact a o ho
        · intro f v
          rw [b, mem_push]
          constructor
          · rintro ((h | ⟨rfl, rfl⟩) | ⟨o, ho, r⟩)
            · exact .inl h
            · exact .inr ⟨j, by simp, p, hp, rfl, rfl⟩
            · exact .inr ⟨o, List.mem_cons_of_mem _ ho, r⟩
          · rintro (h | ⟨o, ho, q, hq, rfl, rfl⟩)
            · exact .inl (.inl h)
            · rcases List.mem_cons.1 ho with rfl | ho
              · rw [hp] at hq; cases hq; exact .inl (.inr ⟨rfl, rfl⟩)
              · exact .inr ⟨o, ho, q, hq, rfl, rfl⟩
        · intro i hi
          rcases c i hi with h | h
          · rcases List.mem_cons.1 h with rfl | h
            · exact .inr (by simp)
            · exact .inl h
          · exact .inr (List.mem_cons_of_mem _ h)
      · cases h

theorem linkOne_inv {root : Bytes} {st : Store} {whole : Bool} {d0 : BDep} {js : List Nat} {s s' : List Nat × BDep} {i : Nat}
    (hc : Outs st)
    (hi : LinkInv root st whole d0 js s) (h : linkOne root st whole s i = .ok s') :
    LinkInv root st whole d0 (js ++ [i]) s' ∧ Linkable st i := by
  -- a step that adds what `i` adds
  have key : ∀ (s' : List Nat × BDep), (∀ f v, v ∈ s'.2.lists f ↔ v ∈ s.2.lists f ∨ FromObj root st whole i f v) →
      (∀ j ∈ s'.1, j ∈ s.1 ∨ j = i ∨ (∃ p, st[j]? = some (.file p) ∧ (⟨p, false⟩ : Item) ∈ s'.2.lists (destField whole))) →
      Linkable st i → LinkInv root st whole d0 (js ++ [i]) s' := by
    intro s' hm hs hl
    constructor
    · intro f v
      rw [hm, hi.mem]
      constructor
      · rintro ((h | ⟨j, hj, h⟩) | h)
        · exact .inl h
        · exact .inr ⟨j, List.mem_append.2 (.inl hj), h⟩
        · exact .inr ⟨i, by simp, h⟩
      · rintro (h | ⟨j, hj, h⟩)
        · exact .inl (.inl h)
        · rcases List.mem_append.1 hj with hj | hj
          · exact .inl (.inr ⟨j, hj, h⟩)
          · rw [List.mem_singleton] at hj; subst hj; exact .inr (by assumption)
    · intro j hj
      rcases hs j hj with h | rfl | ⟨p, hp, hm'⟩
      · exact ⟨(hi.seen j h).1, fun f v hf => (hm f v).2 (.inl ((hi.seen j h).2 f v hf))⟩
      · exact ⟨hl, fun f v hf => (hm f v).2 (.inr hf)⟩
      · refine ⟨.file hp, fun f v hf => ?_⟩
        obtain ⟨rfl, rfl⟩ := (fromObj_file hp f v).1 hf
        exact hm'
  unfold linkOne at h
  split at h
  · rename_i hin
    cases h
    have := hi.seen i hin
    refine ⟨key s (fun f v => ⟨.inl, fun h => h.elim id (this.2 f v)⟩) (fun j hj => .inl hj) this.1, this.1⟩
  · rename_i hni
    split at h
    · rename_i k p int ext hk
      obtain ⟨d, hd, h⟩ := (Res.bind_eq_ok (x := linkTarget root whole k p ext s.2)).1 h
      cases h
      have hl : Linkable st i := .target hk
      refine ⟨key _ (fun f v => ?_) (fun j hj => ?_) hl, hl⟩
      · rw [linkTarget_mem hd, fromObj_target hk]
      · rcases List.mem_cons.1 hj with rfl | hj
        · exact .inr (.inl rfl)
        · exact .inl hj
    · rename_i s0 dyn hk
      split at h
      · rename_i k p int ext ht
        obtain ⟨d, hd, h⟩ := (Res.bind_eq_ok (x := linkTarget root whole k p ext s.2)).1 h
        cases h
        have hl : Linkable st i := .both hk ht
        refine ⟨key _ (fun f v => ?_) (fun j hj => ?_) hl, hl⟩
        · rw [linkTarget_mem hd, fromObj_both hk ht]
        · rcases List.mem_cons.1 hj with rfl | hj
          · exact .inr (.inl rfl)
          · exact .inl hj
      · cases h
    · rename_i outs hk
      have hseen : ∀ o ∈ outs, o ∈ i :: s.1 → ∃ p, st[o]? = some (.file p) ∧ (⟨p, false⟩ : Item) ∈ s.2.lists (destField whole) := by
        intro o ho hs
        obtain ⟨p, hp⟩ := hc i outs hk o ho
        rcases List.mem_cons.1 hs with rfl | hs
        · rw [hk] at hp; cases hp
        · exact ⟨p, hp, (hi.seen o hs).2 _ _ (.file hp)⟩
      obtain ⟨a, b, c⟩ := linkOuts_spec outs _ _ h hseen
      have hl : Linkable st i := .custom hk a
      refine ⟨key _ (fun f v => ?_) (fun j hj => ?_) hl, hl⟩
      · rw [b, fromObj_custom hk]
      · rcases c j hj with hj | hj
        · rcases List.mem_cons.1 hj with rfl | hj
          · exact .inr (.inl rfl)
          · exact .inl hj
        · obtain ⟨p, hp⟩ := a j hj
          exact .inr (.inr ⟨p, hp, (b _ _).2 (.inr ⟨j, hj, p, hp, rfl, rfl⟩)⟩)
    · rename_i p hk
      cases h
      have hl : Linkable st i := .file hk
      refine ⟨key _ (fun f v => ?_) (fun j hj => ?_) hl, hl⟩
      · rw [mem_push, fromObj_file hk]
      · rcases List.mem_cons.1 hj with rfl | hj
        · exact .inr (.inl rfl)
        · exact .inl hj
    · cases h

theorem each_link {root : Bytes} {st : Store} {whole : Bool} {d0 : BDep}
    (hc : Outs st) :
    ∀ (l js : List Nat) (s s' : List Nat × BDep), LinkInv root st whole d0 js s → each (linkOne root st whole) l s = .ok s' →
      LinkInv root st whole d0 (js ++ l) s' ∧ ∀ j ∈ l, Linkable st j := by
  intro l
  induction l with
  | nil => intro js s s' hi h; unfold each at h; cases h; exact ⟨by simpa using hi, by simp⟩
  | cons i l ih =>
    intro js s s' hi h
    unfold each at h
    obtain ⟨s1, h1, h⟩ := (Res.bind_eq_ok (x := linkOne root st whole s i)).1 h
    obtain ⟨hi1, hl⟩ := linkOne_inv hc hi h1
    obtain ⟨hi2, hl2⟩ := ih _ _ _ hi1 h
    refine ⟨by simpa using hi2, fun j hj => ?_⟩
    rcases List.mem_cons.1 hj with rfl | hj
    · exact hl
    · exact hl2 j hj

theorem processLink_spec {root : Bytes} {st : Store} {whole : Bool} {l : Option (List Nat)} {d d' : BDep}
    (hc : Outs st)
    (h : processLink root st whole l d = .ok d') :
    (∀ f v, v ∈ d'.lists f ↔ v ∈ d.lists f ∨ ∃ l', l = some l' ∧ ∃ j ∈ l', FromObj root st whole j f v) ∧
    (∀ l', l = some l' → ∀ j ∈ l', Linkable st j) := by
  unfold processLink at h
  split at h
  · cases h; exact ⟨by simp, by simp⟩
  · rename_i l
    obtain ⟨s, hs, h⟩ := (Res.bind_eq_ok (x := each (linkOne root st whole) l ([], d))).1 h
    cases h
    obtain ⟨hi, hl⟩ := each_link (d0 := d) hc l [] _ _ ⟨by simp, by simp⟩ hs
    refine ⟨fun f v => ?_, by intro l' e; cases e; exact hl⟩
    rw [mem_dedupDep, hi.mem]
    simp

/-- What a dependency adds. -/
def FromDep (st : Store) (j : Nat) (f : Field) (v : Item) : Prop := ∃ d, st[j]? = some (.dep true d) ∧ v ∈ d.lists f

theorem each_dep {st : Store} {d0 : BDep} :
    ∀ (l js : List Nat) (s s' : List Nat × BDep),
      (∀ f v, v ∈ s.2.lists f ↔ v ∈ d0.lists f ∨ ∃ j ∈ js, FromDep st j f v) →
      (∀ j ∈ s.1, (∃ b d, st[j]? = some (.dep b d)) ∧ ∀ f v, FromDep st j f v → v ∈ s.2.lists f) →
      each (depOne st) l s = .ok s' →
      (∀ f v, v ∈ s'.2.lists f ↔ v ∈ d0.lists f ∨ ∃ j ∈ js ++ l, FromDep st j f v) ∧ ∀ j ∈ l, ∃ b d, st[j]? = some (.dep b d) := by
  intro l
  induction l with
  | nil => intro js s s' hm _ h; unfold each at h; cases h; exact ⟨by simpa using hm, by simp⟩
  | cons i l ih =>
    intro js s s' hm hseen h
    unfold each at h
    obtain ⟨s1, h1, h⟩ := (Res.bind_eq_ok (x := depOne st s i)).1 h
    have step : (∀ f v, v ∈ s1.2.lists f ↔ v ∈ s.2.lists f ∨ FromDep st i f v) ∧ (∃ b d, st[i]? = some (.dep b d)) ∧
        ∀ j ∈ s1.1, j ∈ s.1 ∨ j = i := by
      unfold depOne at h1
      split at h1
      · rename_i hin
        cases h1
        exact ⟨fun f v => ⟨.inl, fun h => h.elim id ((hseen i hin).2 f v)⟩, (hseen i hin).1, fun j hj => .inl hj⟩
      · split at h1
        · rename_i found src hk
          cases h1
          refine ⟨fun f v => ?_, ⟨_, _, hk⟩, fun j hj => ?_⟩
          · unfold FromDep
            rw [hk]
            cases found with
            | true => simp only [if_true]; rw [mem_merge]; simp
            | false => simp
          · rcases List.mem_cons.1 hj with rfl | hj
            · exact .inr rfl
            · exact .inl hj
        · cases h1
    obtain ⟨a, b⟩ := ih (js ++ [i]) s1 s' (by
        intro f v
        rw [step.1, hm]
        constructor
        · rintro ((h | ⟨j, hj, h⟩) | h)
          · exact .inl h
          · exact .inr ⟨j, List.mem_append.2 (.inl hj), h⟩
          · exact .inr ⟨i, by simp, h⟩
        · rintro (h | ⟨j, hj, h⟩)
          · exact .inl (.inl h)
          · rcases List.mem_append.1 hj with hj | hj
            · exact .inl (.inr ⟨j, hj, h⟩)
            · rw [List.mem_singleton] at hj; subst hj; exact .inr (by assumption)) (by
        intro j hj
        rcases step.2.2 j hj with h | rfl
        · exact ⟨(hseen j h).1, fun f v hf => (step.1 f v).2 (.inl ((hseen j h).2 f v hf))⟩
        · exact ⟨step.2.1, fun f v hf => (step.1 f v).2 (.inr hf)⟩) h
    refine ⟨by simpa using a, fun j hj => ?_⟩
    rcases List.mem_cons.1 hj with rfl | hj
    · exact step.2.1
    · exact b j hj

theorem processDeps_spec {st : Store} {l : Option (List Nat)} {d d' : BDep} (h : processDeps st l d = .ok d') :
    (∀ f v, v ∈ d'.lists f ↔ v ∈ d.lists f ∨ ∃ l', l = some l' ∧ ∃ j ∈ l', FromDep st j f v) ∧
    (∀ l', l = some l' → ∀ j ∈ l', ∃ b d, st[j]? = some (.dep b d)) := by
  unfold processDeps at h
  split at h
  · cases h; exact ⟨by simp, by simp⟩
  · rename_i l
    obtain ⟨s, hs, h⟩ := (Res.bind_eq_ok (x := each (depOne st) l ([], d))).1 h
    cases h
    obtain ⟨hi, hl⟩ := each_dep (d0 := d) l [] _ _ (by simp) (by simp) hs
    refine ⟨fun f v => ?_, by intro l' e; cases e; exact hl⟩
    rw [mem_dedupDep, hi]
    simp

end Muon.Deps
