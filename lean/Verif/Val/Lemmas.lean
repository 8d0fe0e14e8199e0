import Verif.Val.Spec
import Verif.Hash.Lemmas
import Batteries.Data.List.Perm
namespace Muon.Val
open Muon Spec

theorem mapM_some {α β : Type} {g : α → Option β} : ∀ {l : List α} {vs : List β},
    l.mapM g = some vs ↔ (l.length = vs.length ∧ ∀ (i : Nat) x, l[i]? = some x → g x = vs[i]?) := by
  intro l
  induction l with
  | nil =>
    intro vs
    simp only [List.mapM_nil, List.length_nil]
    constructor
    · intro h; cases h; exact ⟨rfl, fun i x h => by simp at h⟩
    · rintro ⟨h, _⟩
      rw [List.length_eq_zero_iff.1 h.symm]; rfl
  | cons a l ih =>
    intro vs
    rw [List.mapM_cons]
    constructor
    · intro h
      cases ha : g a with
      | none => rw [ha] at h; cases h
      | some b =>
        cases hl : l.mapM g with
        | none => rw [ha, hl] at h; cases h
        | some bs =>
          rw [ha, hl] at h
          cases h
          obtain ⟨h1, h2⟩ := ih.1 hl
          refine ⟨by simp [h1], fun i x hx => ?_⟩
          cases i with
          | zero => cases hx; simpa using ha
          | succ i => exact h2 i x (by simpa using hx)
    · rintro ⟨h1, h2⟩
      cases vs with
      | nil => cases h1
      | cons b bs =>
        have ha : g a = some b := h2 0 a rfl
        have hl : l.mapM g = some bs := ih.2 ⟨by simpa using h1, fun i x hx => by simpa using h2 (i + 1) x (by simpa using hx)⟩
        rw [ha, hl]; rfl

theorem mapM_mono {α β : Type} {g g' : α → Option β} (h : ∀ x v, g x = some v → g' x = some v) {l : List α} {vs : List β} (hl : l.mapM g = some vs) : l.mapM g' = some vs := by
  obtain ⟨h1, h2⟩ := mapM_some.1 hl
  refine mapM_some.2 ⟨h1, fun i x hx => ?_⟩
  have hi : i < vs.length := by
    have := (List.getElem?_eq_some_iff.1 hx).1
    omega
  have := h2 i x hx
  rw [List.getElem?_eq_getElem hi] at this ⊢
  exact h x _ this

theorem valOf_succ (h : Heap) (f : Nat) : ∀ i v, valOf h f i = some v → valOf h (f + 1) i = some v := by
  induction f with
  | zero => intro i v h; cases h
  | succ f ih =>
    intro i v hr
    unfold valOf at hr ⊢
    cases ho : h.obj i with
    | arr l =>
      rw [ho] at hr
      dsimp only at hr ⊢
      cases hm : l.mapM (valOf h f) with
      | none => rw [hm] at hr; cases hr
      | some vs => rw [hm] at hr; rw [mapM_mono ih hm]; exact hr
    | dict l =>
      rw [ho] at hr
      dsimp only at hr ⊢
      by_cases hn : (l.map Prod.fst).Nodup
      · rw [if_pos hn] at hr ⊢
        cases hm : l.mapM (fun x => (valOf h f x.2).map (x.1, ·)) with
        | none => rw [hm] at hr; cases hr
        | some vs =>
          rw [hm] at hr
          rw [mapM_mono (g' := fun x => (valOf h (f + 1) x.2).map (x.1, ·)) ?_ hm]; exact hr
          intro x v hx
          cases hy : valOf h f x.2 with
          | none => rw [hy] at hx; cases hx
          | some y => rw [hy] at hx; rw [ih _ _ hy]; exact hx
      · rw [if_neg hn] at hr; cases hr
    | _ => rw [ho] at hr; exact hr

theorem valOf_mono {h : Heap} {f f' i : Nat} {v : Val} (hf : f ≤ f') (hr : valOf h f i = some v) : valOf h f' i = some v := by
  induction hf with
  | refl => exact hr
  | step _ ih => exact valOf_succ h _ i v ih

theorem holds_det {h : Heap} {i : Nat} {v w : Val} (hv : Holds h i v) (hw : Holds h i w) : v = w := by
  obtain ⟨f, hf⟩ := hv
  obtain ⟨g, hg⟩ := hw
  have h1 := valOf_mono (Nat.le_max_left f g) hf
  have h2 := valOf_mono (Nat.le_max_right f g) hg
  rw [h1] at h2
  exact Option.some.inj h2

theorem sizeOf_lookup {l : List (Bytes × Val)} {k : Bytes} {a : Val} (h : l.lookup k = some a) : sizeOf a < sizeOf l := by
  induction l with
  | nil => cases h
  | cons x l ih =>
    rw [List.lookup_cons] at h
    split at h
    · cases h
      show _ < 1 + sizeOf x + sizeOf l
      cases x; simp; omega
    · have := ih h
      show _ < 1 + sizeOf x + sizeOf l
      omega

theorem same_refl (v : Val) : Same v v := by
  match v with
  | .bool b => exact .bool b
  | .num n => exact .num n
  | .str s => exact .str s
  | .file s => exact .file s
  | .feature n => exact .feature n
  | .inc p s => exact .inc p s
  | .arr l =>
    refine .arr rfl fun i a b ha hb => ?_
    rw [ha] at hb; cases hb
    have := List.sizeOf_lt_of_mem (List.mem_of_getElem? ha)
    exact same_refl a
  | .dict l =>
    refine .dict (fun _ => Iff.rfl) fun k a b ha hb => ?_
    rw [ha] at hb; cases hb
    have := sizeOf_lookup ha
    exact same_refl a
  | .other t i => exact .other t i
termination_by sizeOf v
decreasing_by all_goals simp_wf; omega

theorem same_symm {v w : Val} (h : Same v w) : Same w v := by
  induction h with
  | bool b => exact .bool b
  | num n => exact .num n
  | str s => exact .str s
  | file s => exact .file s
  | feature n => exact .feature n
  | inc p s => exact .inc p s
  | arr hl _ ih => exact .arr hl.symm fun i a b ha hb => ih i b a hb ha
  | dict hk _ ih => exact .dict (fun k => (hk k).symm) fun k a b ha hb => ih k b a hb ha
  | other t i => exact .other t i

theorem same_trans {u v w : Val} (h : Same u v) (h' : Same v w) : Same u w := by
  induction h generalizing w with
  | bool b => exact h'
  | num n => exact h'
  | str s => exact h'
  | file s => exact h'
  | feature n => exact h'
  | inc p s => exact h'
  | @arr l r hl hp ih =>
    cases h' with
    | @arr _ t hl' hp' =>
      refine .arr (hl.trans hl') fun i a c ha hc => ?_
      have hi : i < r.length := by
        have := (List.getElem?_eq_some_iff.1 ha).1
        omega
      exact ih i a r[i] ha (List.getElem?_eq_getElem hi) (hp' i r[i] c (List.getElem?_eq_getElem hi) hc)
  | @dict l r hk hp ih =>
    cases h' with
    | @dict _ t hk' hp' =>
      refine .dict (fun k => (hk k).trans (hk' k)) fun k a c ha hc => ?_
      cases hb : r.lookup k with
      | none => rw [(hk k).2 hb] at ha; cases ha
      | some b => exact ih k a b ha hb (hp' k b c hb hc)
  | other t i => exact h'

/-! `obj_equal` -/

theorem equalArr_spec {eq : Nat → Nat → Option Bool} (r : List Nat) (P : Nat → Nat → Prop) : ∀ (l : List Nat) (i : Nat), l.length + i = r.length →
    (∀ (k : Nat) x y, l[k]? = some x → r[i + k]? = some y → ∃ b, eq x y = some b ∧ (b = true ↔ P x y)) →
    ∃ b, equalArr eq r l i = some b ∧ (b = true ↔ ∀ (k : Nat) x y, l[k]? = some x → r[i + k]? = some y → P x y) := by
  intro l
  induction l with
  | nil => intro i _ _; exact ⟨true, rfl, by simp⟩
  | cons x l ih =>
    intro i hl h
    simp only [List.length_cons] at hl
    have hi : i < r.length := by omega
    unfold equalArr
    rw [List.getElem?_eq_getElem hi]
    dsimp only
    obtain ⟨b, hb, hP⟩ := h 0 x r[i] rfl (List.getElem?_eq_getElem hi)
    rw [hb]
    cases b with
    | false =>
      refine ⟨false, rfl, by simp, fun hall => ?_⟩
      exact absurd (hP.2 (hall 0 x r[i] rfl (List.getElem?_eq_getElem hi))) (by simp)
    | true =>
      obtain ⟨b', hb', hP'⟩ := ih (i + 1) (by omega) fun k x' y' hx hy => h (k + 1) x' y' (by simpa using hx) (by rw [← hy]; congr 1; omega)
      refine ⟨b', hb', hP'.trans ⟨fun H k x' y' hx hy => ?_, fun H k x' y' hx hy => H (k + 1) x' y' (by simpa using hx) (by rw [← hy]; congr 1; omega)⟩⟩
      cases k with
      | zero =>
        cases hx
        have : y' = r[i] := by rw [Nat.add_zero, List.getElem?_eq_getElem hi] at hy; exact (Option.some.inj hy).symm
        subst this
        exact hP.1 rfl
      | succ k => exact H k x' y' (by simpa using hx) (by rw [← hy]; congr 1; omega)

theorem equalDict_spec {eq : Nat → Nat → Option Bool} (r : List (Bytes × Nat)) (P : Nat → Nat → Prop) : ∀ (l : List (Bytes × Nat)),
    (∀ p ∈ l, ∀ y, r.lookup p.1 = some y → ∃ b, eq p.2 y = some b ∧ (b = true ↔ P p.2 y)) →
    ∃ b, equalDict eq r l = some b ∧ (b = true ↔ ∀ p ∈ l, ∃ y, r.lookup p.1 = some y ∧ P p.2 y) := by
  intro l
  induction l with
  | nil => intro _; exact ⟨true, rfl, by simp⟩
  | cons p l ih =>
    intro h
    obtain ⟨k, v⟩ := p
    unfold equalDict
    cases hk : r.lookup k with
    | none =>
      refine ⟨false, rfl, by simp, fun hall => ?_⟩
      obtain ⟨y, hy, _⟩ := hall (k, v) (by simp)
      rw [hk] at hy; cases hy
    | some x =>
      dsimp only
      obtain ⟨b, hb, hP⟩ := h (k, v) (by simp) x hk
      dsimp only at hb
      rw [hb]
      cases b with
      | false =>
        refine ⟨false, rfl, by simp, fun hall => ?_⟩
        obtain ⟨y, hy, hPy⟩ := hall (k, v) (by simp)
        rw [hk] at hy; cases hy
        exact absurd (hP.2 hPy) (by simp)
      | true =>
        obtain ⟨b', hb', hP'⟩ := ih fun p hp => h p (List.mem_cons_of_mem _ hp)
        refine ⟨b', hb', hP'.trans ⟨fun H p hp => ?_, fun H p hp => H p (List.mem_cons_of_mem _ hp)⟩⟩
        cases hp with
        | head => exact ⟨x, hk, hP.1 rfl⟩
        | tail _ hp => exact H p hp

theorem lookup_mem {α : Type} {l : List (Bytes × α)} {k : Bytes} {a : α} (h : l.lookup k = some a) : (k, a) ∈ l := by
  induction l with
  | nil => cases h
  | cons x l ih =>
    rw [List.lookup_cons] at h
    split at h
    · next hk => cases h; rw [eq_of_beq hk]; exact List.mem_cons_self ..
    · exact List.mem_cons_of_mem _ (ih h)

theorem mem_lookup {α : Type} {l : List (Bytes × α)} {k : Bytes} {a : α} (hn : (l.map Prod.fst).Nodup) (h : (k, a) ∈ l) : l.lookup k = some a := by
  induction l with
  | nil => cases h
  | cons x l ih =>
    rw [List.map_cons, List.nodup_cons] at hn
    rw [List.lookup_cons]
    cases h with
    | head => simp
    | tail _ h =>
      have : (k == x.1) = false := by
        apply beq_false_of_ne
        intro he
        exact hn.1 (he ▸ List.mem_map.2 ⟨_, h, rfl⟩)
      rw [this]
      exact ih hn.2 h

theorem lookup_none {α : Type} {l : List (Bytes × α)} {k : Bytes} : l.lookup k = none ↔ k ∉ l.map Prod.fst := by
  rw [List.lookup_eq_none_iff]
  simp only [List.mem_map, not_exists, not_and]
  constructor
  · intro h x hx he
    have := h x hx
    rw [he] at this; simp at this
  · intro h x hx
    simpa using fun he : k = x.1 => h x hx he.symm

/-- The values of the entries of a dictionary. -/
theorem dict_lookup {h : Heap} {f : Nat} {l : List (Bytes × Nat)} {vs : List (Bytes × Val)} (hm : l.mapM (fun x => (valOf h f x.2).map (x.1, ·)) = some vs) :
    vs.map Prod.fst = l.map Prod.fst ∧ ∀ k, vs.lookup k = (l.lookup k).bind (valOf h f) := by
  induction l generalizing vs with
  | nil => cases hm; exact ⟨rfl, fun _ => rfl⟩
  | cons x l ih =>
    rw [List.mapM_cons] at hm
    cases hx : valOf h f x.2 with
    | none => rw [hx] at hm; cases hm
    | some v =>
      cases hl : l.mapM (fun x => (valOf h f x.2).map (x.1, ·)) with
      | none => rw [hx, hl] at hm; cases hm
      | some ws =>
        rw [hx, hl] at hm
        cases hm
        obtain ⟨h1, h2⟩ := ih hl
        refine ⟨by simp [h1], fun k => ?_⟩
        rw [List.lookup_cons, List.lookup_cons]
        cases (k == x.1) with
        | true => exact hx.symm
        | false => exact h2 k

theorem keys_back {α β : Type} {l : List (Bytes × α)} {r : List (Bytes × β)} (hl : (l.map Prod.fst).Nodup) (hlen : l.length = r.length)
    (h : ∀ k ∈ l.map Prod.fst, k ∈ r.map Prod.fst) : ∀ k ∈ r.map Prod.fst, k ∈ l.map Prod.fst := by
  have hp := (List.subperm_of_subset hl h).perm_of_length_le (by simp [hlen])
  exact fun k hk => hp.mem_iff.2 hk

theorem equal_spec (h : Heap) (f : Nat) : ∀ a b va vb, valOf h f a = some va → valOf h f b = some vb →
    ∃ r, equal h f a b = some r ∧ (r = true ↔ Same va vb) := by
  induction f with
  | zero => intro a b va vb h; cases h
  | succ f ih =>
    intro a b va vb hra hrb
    unfold equal
    by_cases hab : a = b
    · rw [if_pos hab]
      subst hab
      rw [hra] at hrb; cases hrb
      exact ⟨true, rfl, by simp [same_refl]⟩
    · rw [if_neg hab]
      unfold valOf at hra hrb
      cases ha : h.obj a with
      | arr l =>
        rw [ha] at hra
        dsimp only at hra
        cases hm : l.mapM (valOf h f) with
        | none => rw [hm] at hra; cases hra
        | some vs =>
          rw [hm] at hra
          cases hra
          obtain ⟨hl1, hl2⟩ := mapM_some.1 hm
          cases hb : h.obj b with
          | arr r =>
            rw [hb] at hrb
            dsimp only at hrb ⊢
            cases hm' : r.mapM (valOf h f) with
            | none => rw [hm'] at hrb; cases hrb
            | some ws =>
              rw [hm'] at hrb
              cases hrb
              obtain ⟨hr1, hr2⟩ := mapM_some.1 hm'
              by_cases hlen : l.length = r.length
              · rw [if_pos hlen]
                have get : ∀ (k : Nat) x y, l[k]? = some x → r[k]? = some y → ∃ v w, vs[k]? = some v ∧ ws[k]? = some w ∧ valOf h f x = some v ∧ valOf h f y = some w := by
                  intro k x y hx hy
                  have hk := (List.getElem?_eq_some_iff.1 hx).1
                  have hkv : k < vs.length := by omega
                  have hkw : k < ws.length := by omega
                  refine ⟨vs[k], ws[k], List.getElem?_eq_getElem hkv, List.getElem?_eq_getElem hkw, ?_, ?_⟩
                  · rw [hl2 k x hx, List.getElem?_eq_getElem hkv]
                  · rw [hr2 k y hy, List.getElem?_eq_getElem hkw]
                obtain ⟨res, he, hP⟩ := equalArr_spec (eq := equal h f) r (fun x y => ∃ v w, valOf h f x = some v ∧ valOf h f y = some w ∧ Same v w) l 0 (by omega) (by
                  intro k x y hx hy
                  rw [Nat.zero_add] at hy
                  obtain ⟨v, w, _, _, hv, hw⟩ := get k x y hx hy
                  obtain ⟨res, he, hs⟩ := ih x y v w hv hw
                  refine ⟨res, he, hs.trans ⟨fun h => ⟨v, w, hv, hw, h⟩, ?_⟩⟩
                  rintro ⟨v', w', hv', hw', hs'⟩
                  rw [hv] at hv'; rw [hw] at hw'; cases hv'; cases hw'; exact hs')
                refine ⟨res, he, hP.trans ⟨fun H => .arr (by omega) fun i v w hv hw => ?_, fun H => ?_⟩⟩
                · have hi : i < l.length := by have := (List.getElem?_eq_some_iff.1 hv).1; omega
                  have hi' : i < r.length := by omega
                  obtain ⟨v', w', hv', hw', hs⟩ := H i l[i] r[i] (List.getElem?_eq_getElem hi) (by rw [Nat.zero_add]; exact List.getElem?_eq_getElem hi')
                  rw [hl2 i _ (List.getElem?_eq_getElem hi), hv] at hv'
                  rw [hr2 i _ (List.getElem?_eq_getElem hi'), hw] at hw'
                  cases hv'; cases hw'; exact hs
                · cases H with
                  | arr _ hs =>
                    intro k x y hx hy
                    rw [Nat.zero_add] at hy
                    obtain ⟨v, w, hv, hw, hrv, hrw⟩ := get k x y hx hy
                    exact ⟨v, w, hrv, hrw, hs k v w hv hw⟩
              · rw [if_neg hlen]
                refine ⟨false, rfl, by simp, fun H => ?_⟩
                cases H with
                | arr hl _ => exact absurd (by omega) hlen
          | dict r =>
            rw [hb] at hrb
            dsimp only at hrb ⊢
            refine ⟨false, rfl, by simp, fun H => ?_⟩
            cases H
            split at hrb
            · cases hm' : r.mapM (fun x => (valOf h f x.2).map (x.1, ·)) with
              | none => rw [hm'] at hrb; cases hrb
              | some ws => rw [hm'] at hrb; cases hrb
            · cases hrb
          | _ =>
            rw [hb] at hrb
            cases hrb
            exact ⟨false, rfl, by simp, fun H => (by cases H)⟩
      | dict l =>
        rw [ha] at hra
        dsimp only at hra
        by_cases hn : (l.map Prod.fst).Nodup
        · rw [if_pos hn] at hra
          cases hm : l.mapM (fun x => (valOf h f x.2).map (x.1, ·)) with
          | none => rw [hm] at hra; cases hra
          | some vs =>
            rw [hm] at hra
            cases hra
            obtain ⟨hk1, hv1⟩ := dict_lookup hm
            cases hb : h.obj b with
            | dict r =>
              rw [hb] at hrb
              dsimp only at hrb ⊢
              by_cases hn' : (r.map Prod.fst).Nodup
              · rw [if_pos hn'] at hrb
                cases hm' : r.mapM (fun x => (valOf h f x.2).map (x.1, ·)) with
                | none => rw [hm'] at hrb; cases hrb
                | some ws =>
                  rw [hm'] at hrb
                  cases hrb
                  obtain ⟨hk2, hv2⟩ := dict_lookup hm'
                  have rd : ∀ (l : List (Bytes × Nat)) (vs : List (Bytes × Val)), vs.map Prod.fst = l.map Prod.fst → (∀ k, vs.lookup k = (l.lookup k).bind (valOf h f)) →
                      ∀ k x, l.lookup k = some x → ∃ v, valOf h f x = some v ∧ vs.lookup k = some v := by
                    intro l vs e1 e2 k x hx
                    have hne : vs.lookup k ≠ none := by
                      rw [Ne, lookup_none, e1, ← lookup_none, hx]; simp
                    cases hvk : vs.lookup k with
                    | none => exact absurd hvk hne
                    | some v =>
                      have := e2 k
                      rw [hvk, hx] at this
                      exact ⟨v, this.symm, rfl⟩
                  have hlv : vs.length = l.length := by simpa using congrArg List.length hk1
                  have hlw : ws.length = r.length := by simpa using congrArg List.length hk2
                  by_cases hlen : l.length = r.length
                  · rw [if_pos hlen]
                    obtain ⟨res, he, hP⟩ := equalDict_spec (eq := equal h f) r (fun x y => ∃ v w, valOf h f x = some v ∧ valOf h f y = some w ∧ Same v w) l (by
                      rintro ⟨k, x⟩ hp y hy
                      obtain ⟨v, hv, _⟩ := rd l vs hk1 hv1 k x (mem_lookup hn hp)
                      obtain ⟨w, hw, _⟩ := rd r ws hk2 hv2 k y hy
                      obtain ⟨res, he, hs⟩ := ih x y v w hv hw
                      refine ⟨res, he, hs.trans ⟨fun h => ⟨v, w, hv, hw, h⟩, ?_⟩⟩
                      rintro ⟨v', w', hv', hw', hs'⟩
                      rw [hv] at hv'; rw [hw] at hw'; cases hv'; cases hw'; exact hs')
                    refine ⟨res, he, hP.trans ⟨fun H => ?_, fun H => ?_⟩⟩
                    · have hsub : ∀ k ∈ l.map Prod.fst, k ∈ r.map Prod.fst := by
                        intro k hk
                        obtain ⟨p, hp, rfl⟩ := List.mem_map.1 hk
                        obtain ⟨y, hy, _⟩ := H p hp
                        exact List.mem_map.2 ⟨_, lookup_mem hy, rfl⟩
                      have hback := keys_back hn hlen hsub
                      refine .dict (fun k => ?_) fun k v w hv hw => ?_
                      · rw [lookup_none, lookup_none, hk1, hk2]
                        exact ⟨fun h hk => h (hback k hk), fun h hk => h (hsub k hk)⟩
                      · rw [hv1] at hv
                        rw [hv2] at hw
                        cases hx : l.lookup k with
                        | none => rw [hx] at hv; cases hv
                        | some x =>
                          obtain ⟨y, hy, v', w', hv', hw', hs⟩ := H (k, x) (lookup_mem hx)
                          dsimp only at hy hv'
                          rw [hx] at hv
                          rw [hy] at hw
                          dsimp only [Option.bind_some] at hv hw
                          rw [hv] at hv'; rw [hw] at hw'; cases hv'; cases hw'; exact hs
                    · cases H with
                      | dict hk hs =>
                        rintro ⟨k, x⟩ hp
                        obtain ⟨v, hv, hvk⟩ := rd l vs hk1 hv1 k x (mem_lookup hn hp)
                        cases hy : r.lookup k with
                        | none =>
                          have : ws.lookup k = none := by rw [hv2, hy]; rfl
                          rw [(hk k).2 this] at hvk; cases hvk
                        | some y =>
                          obtain ⟨w, hw, hwk⟩ := rd r ws hk2 hv2 k y hy
                          exact ⟨y, rfl, v, w, hv, hw, hs k v w hvk hwk⟩
                  · rw [if_neg hlen]
                    refine ⟨false, rfl, by simp, fun H => ?_⟩
                    cases H with
                    | dict hk _ =>
                      exfalso
                      apply hlen
                      have e : ∀ k, k ∈ l.map Prod.fst ↔ k ∈ r.map Prod.fst := by
                        intro k
                        have := hk k
                        rw [lookup_none, lookup_none, hk1, hk2] at this
                        exact ⟨fun hk' => Classical.byContradiction fun hn => this.2 hn hk', fun hk' => Classical.byContradiction fun hn => this.1 hn hk'⟩
                      have := ((List.perm_ext_iff_of_nodup hn hn').2 e).length_eq
                      simpa using this
              · rw [if_neg hn'] at hrb; cases hrb
            | arr r =>
              rw [hb] at hrb
              dsimp only at hrb ⊢
              refine ⟨false, rfl, by simp, fun H => ?_⟩
              cases H
              cases hm' : r.mapM (valOf h f) with
              | none => rw [hm'] at hrb; cases hrb
              | some ws => rw [hm'] at hrb; cases hrb
            | _ =>
              rw [hb] at hrb
              cases hrb
              exact ⟨false, rfl, by simp, fun H => (by cases H)⟩
        · rw [if_neg hn] at hra; cases hra
      | other t =>
        rw [ha] at hra
        cases hra
        cases hb : h.obj b with
        | arr r =>
          rw [hb] at hrb
          dsimp only at hrb ⊢
          refine ⟨false, rfl, by simp, fun H => ?_⟩
          cases H
          cases hm' : r.mapM (valOf h f) with
          | none => rw [hm'] at hrb; cases hrb
          | some ws => rw [hm'] at hrb; cases hrb
        | dict r =>
          rw [hb] at hrb
          dsimp only at hrb ⊢
          refine ⟨false, rfl, by simp, fun H => ?_⟩
          cases H
          split at hrb
          · cases hm' : r.mapM (fun x => (valOf h f x.2).map (x.1, ·)) with
            | none => rw [hm'] at hrb; cases hrb
            | some ws => rw [hm'] at hrb; cases hrb
          · cases hrb
        | _ =>
          rw [hb] at hrb
          cases hrb
          refine ⟨false, rfl, by simp, fun H => ?_⟩
          cases H <;> exact absurd rfl hab
      | _ =>
        rw [ha] at hra
        cases hra
        cases hb : h.obj b with
        | arr r =>
          rw [hb] at hrb
          dsimp only at hrb ⊢
          refine ⟨false, rfl, by simp, fun H => ?_⟩
          cases H
          cases hm' : r.mapM (valOf h f) with
          | none => rw [hm'] at hrb; cases hrb
          | some ws => rw [hm'] at hrb; cases hrb
        | dict r =>
          rw [hb] at hrb
          dsimp only at hrb ⊢
          refine ⟨false, rfl, by simp, fun H => ?_⟩
          cases H
          split at hrb
          · cases hm' : r.mapM (fun x => (valOf h f x.2).map (x.1, ·)) with
            | none => rw [hm'] at hrb; cases hrb
            | some ws => rw [hm'] at hrb; cases hrb
          · cases hrb
        | _ =>
          rw [hb] at hrb
          cases hrb
          first
          | exact ⟨false, rfl, by simp, fun H => (by cases H)⟩
          | (refine ⟨_, rfl, ?_⟩
             constructor
             · intro h; simp only [Bool.and_eq_true, beq_iff_eq] at h; first | (subst h; constructor) | (obtain ⟨h1, h2⟩ := h; subst h1; subst h2; constructor)
             · intro h; cases h; simp)

/-! Membership and `obj_array_dedup` -/

theorem indexOf_spec (h : Heap) (f v : Nat) (va : Val) (hv : valOf h f v = some va) : ∀ (l : List Nat) (i : Nat), (∀ x ∈ l, ∃ w, valOf h f x = some w) →
    ∃ r, indexOf h f v l i = some r ∧ (r.isSome = true ↔ ∃ x ∈ l, ∃ w, valOf h f x = some w ∧ Same va w) := by
  intro l
  induction l with
  | nil => intro i _; exact ⟨none, rfl, by simp⟩
  | cons x l ih =>
    intro i hl
    unfold indexOf
    obtain ⟨w, hw⟩ := hl x (by simp)
    obtain ⟨r, hr, hs⟩ := equal_spec h f v x va w hv hw
    rw [hr]
    cases r with
    | true => exact ⟨some i, rfl, by simp only [Option.isSome_some, true_iff]; exact ⟨x, by simp, w, hw, hs.1 rfl⟩⟩
    | false =>
      obtain ⟨r', hr', hs'⟩ := ih (i + 1) fun y hy => hl y (List.mem_cons_of_mem _ hy)
      refine ⟨r', hr', hs'.trans ⟨fun ⟨y, hy, h⟩ => ⟨y, List.mem_cons_of_mem _ hy, h⟩, ?_⟩⟩
      rintro ⟨y, hy, w', hw', hs2⟩
      cases hy with
      | head => rw [hw] at hw'; cases hw'; exact absurd (hs.2 hs2) (by simp)
      | tail _ hy => exact ⟨y, hy, w', hw', hs2⟩

theorem arrayIn_spec (h : Heap) (f v : Nat) (va : Val) (hv : valOf h f v = some va) (l : List Nat) (hl : ∀ x ∈ l, ∃ w, valOf h f x = some w) :
    ∃ r, arrayIn h f l v = some r ∧ (r = true ↔ ∃ x ∈ l, ∃ w, valOf h f x = some w ∧ Same va w) := by
  obtain ⟨r, hr, hs⟩ := indexOf_spec h f v va hv l 0 hl
  exact ⟨r.isSome, by rw [arrayIn, hr]; rfl, hs⟩


theorem filterMap_congr {α β : Type} {g g' : α → Option β} {l : List α} (h : ∀ x ∈ l, g x = g' x) : l.filterMap g = l.filterMap g' := by
  induction l with
  | nil => rfl
  | cons x l ih => rw [List.filterMap_cons, List.filterMap_cons, h x (by simp), ih fun y hy => h y (List.mem_cons_of_mem _ hy)]

theorem mem_firsts {vals : List Val} {i : Nat} : i ∈ firsts vals ↔ i < vals.length ∧ ∀ j < i, ∀ a b, vals[j]? = some a → vals[i]? = some b → ¬ Same a b := by
  unfold firsts
  simp

open Classical in
theorem firsts_snoc (vals : List Val) (v : Val) (new : Prop) [Decidable new] (hn : new ↔ ∀ a ∈ vals, ¬ Same a v) :
    firsts (vals ++ [v]) = firsts vals ++ if new then [vals.length] else [] := by
  unfold firsts
  rw [List.length_append, List.length_singleton, List.range_succ, List.filter_append]
  congr 1
  · apply List.filter_congr
    intro i hi
    rw [List.mem_range] at hi
    congr 1
    apply propext
    constructor
    · intro h j hj a b ha hb
      exact h j hj a b (by rw [List.getElem?_append_left (by omega)]; exact ha) (by rw [List.getElem?_append_left hi]; exact hb)
    · intro h j hj a b ha hb
      rw [List.getElem?_append_left (by omega)] at ha
      rw [List.getElem?_append_left hi] at hb
      exact h j hj a b ha hb
  · have e : (∀ j < vals.length, ∀ a b, (vals ++ [v])[j]? = some a → (vals ++ [v])[vals.length]? = some b → ¬ Same a b) ↔ new := by
      rw [hn]
      constructor
      · intro h a ha
        obtain ⟨j, hj, rfl⟩ := List.getElem_of_mem ha
        exact h j hj vals[j] v (by rw [List.getElem?_append_left hj, List.getElem?_eq_getElem hj]) (by simp)
      · intro h j hj a b ha hb
        have : b = v := by simpa using hb.symm
        subst this
        rw [List.getElem?_append_left hj] at ha
        exact h a (List.mem_of_getElem? ha)
    by_cases hnew : new
    · rw [List.filter_cons, if_pos (by exact decide_eq_true (e.2 hnew)), if_pos hnew, List.filter_nil]
    · rw [List.filter_cons, if_neg (fun h => hnew (e.1 (of_decide_eq_true h))), if_neg hnew, List.filter_nil]

theorem firsts_cover (vals : List Val) (i : Nat) (v : Val) (hv : vals[i]? = some v) : ∃ k ∈ firsts vals, ∃ w, vals[k]? = some w ∧ Same w v := by
  induction i using Nat.strongRecOn generalizing v with
  | _ i ih =>
    by_cases h : i ∈ firsts vals
    · exact ⟨i, h, v, hv, same_refl v⟩
    · rw [mem_firsts] at h
      have hi := (List.getElem?_eq_some_iff.1 hv).1
      have : ∃ j < i, ∃ a, vals[j]? = some a ∧ Same a v := by
        apply Classical.byContradiction
        intro hno
        refine h ⟨hi, fun j hj a b ha hb hs => hno ⟨j, hj, a, ha, ?_⟩⟩
        rw [hv] at hb; cases hb; exact hs
      obtain ⟨j, hj, a, ha, hs⟩ := this
      obtain ⟨k, hk, w, hw, hs'⟩ := ih j hj a ha
      exact ⟨k, hk, w, hw, same_trans hs' hs⟩

theorem dedupLoop_spec (hash : Nat → UInt64) (h : Heap) (f : Nat) : ∀ (l pre : List Nat) (vl vpre : List Val) (t : Hash.Table Nat Nat) (m : Nat → Option Nat) (res : List Nat),
    Hash.Inv hash t m → (∀ x, m x ≠ none ↔ x ∈ pre) → pre.mapM (valOf h f) = some vpre → l.mapM (valOf h f) = some vl →
    res = (firsts vpre).filterMap (pre[·]?) →
    dedupLoop hash h f l t res = some ((firsts (vpre ++ vl)).filterMap ((pre ++ l)[·]?)) := by
  intro l
  induction l with
  | nil =>
    intro pre vl vpre t m res I hm hp hl hres
    rw [List.mapM_nil] at hl
    have : vl = [] := (Option.some.inj hl).symm
    subst this
    rw [List.append_nil, List.append_nil, hres]; rfl
  | cons x l ih =>
    intro pre vl vpre t m res I hm hp hl hres
    rw [List.mapM_cons] at hl
    cases hx : valOf h f x with
    | none => rw [hx] at hl; cases hl
    | some v =>
      cases hl' : l.mapM (valOf h f) with
      | none => rw [hx, hl'] at hl; cases hl
      | some vs =>
        rw [hx, hl'] at hl
        cases hl
        obtain ⟨hp1, hp2⟩ := mapM_some.1 hp
        have hp' : (pre ++ [x]).mapM (valOf h f) = some (vpre ++ [v]) := by
          rw [List.mapM_append, hp]
          simp [hx]
        have e1 : vpre ++ v :: vs = (vpre ++ [v]) ++ vs := by simp
        have e2 : pre ++ x :: l = (pre ++ [x]) ++ l := by simp
        show dedupLoop hash h f (x :: l) t res = some ((firsts (vpre ++ v :: vs)).filterMap ((pre ++ x :: l)[·]?))
        rw [e1, e2]
        -- the elements kept so far do not change
        have old : (firsts vpre).filterMap ((pre ++ [x])[·]?) = res := by
          rw [hres]
          apply filterMap_congr
          intro i hi
          have := (mem_firsts.1 hi).1
          rw [List.getElem?_append_left (by omega)]
        have seen : (¬ ∀ a ∈ vpre, ¬ Same a v) → res = (firsts (vpre ++ [v])).filterMap ((pre ++ [x])[·]?) := by
          intro hn
          rw [firsts_snoc vpre v False (by simpa using hn), if_neg id, List.append_nil, old]
        unfold dedupLoop
        rw [Hash.get_eq hash t I.wf I.used_lt m I.rep x]
        cases hmx : m x with
        | some y =>
          dsimp only
          have hmem : x ∈ pre := (hm x).1 (by rw [hmx]; simp)
          apply ih (pre ++ [x]) vs (vpre ++ [v]) t m res I ?_ hp' hl' ?_
          · intro z
            rw [hm z]
            simp only [List.mem_append, List.mem_singleton]
            constructor
            · exact .inl
            · rintro (h | rfl)
              · exact h
              · exact hmem
          · apply seen
            intro hall
            obtain ⟨i, hi, rfl⟩ := List.getElem_of_mem hmem
            have : valOf h f pre[i] = vpre[i]? := hp2 i _ (List.getElem?_eq_getElem hi)
            rw [hx] at this
            exact hall v (List.mem_of_getElem? this.symm) (same_refl v)
        | none =>
          dsimp only
          obtain ⟨t', ht', I'⟩ := Hash.set_ok hash t m I x 1
          rw [ht']
          dsimp only
          have hm' : ∀ z, (if z = x then some 1 else m z) ≠ none ↔ z ∈ pre ++ [x] := by
            intro z
            by_cases hz : z = x
            · rw [if_pos hz]; simp [hz]
            · rw [if_neg hz, hm z]; simp [hz]
          have hread : ∀ y ∈ res, ∃ w, valOf h f y = some w := by
            intro y hy
            rw [hres, List.mem_filterMap] at hy
            obtain ⟨i, hi, hy⟩ := hy
            have hlt := (mem_firsts.1 hi).1
            exact ⟨vpre[i], by rw [hp2 i y hy, List.getElem?_eq_getElem hlt]⟩
          obtain ⟨r, hr, hin⟩ := arrayIn_spec h f x v hx res hread
          rw [hr]
          have key : r = true ↔ ¬ ∀ a ∈ vpre, ¬ Same a v := by
            rw [hin]
            constructor
            · rintro ⟨y, hy, w, hw, hs⟩ hall
              rw [hres, List.mem_filterMap] at hy
              obtain ⟨i, hi, hy⟩ := hy
              rw [hp2 i y hy] at hw
              exact hall w (List.mem_of_getElem? hw) (same_symm hs)
            · intro hne
              have : ∃ a ∈ vpre, Same a v := by
                apply Classical.byContradiction
                intro hno
                exact hne fun a ha hs => hno ⟨a, ha, hs⟩
              obtain ⟨a, ha, hs⟩ := this
              obtain ⟨i, hi, rfl⟩ := List.getElem_of_mem ha
              obtain ⟨k, hk, w, hw, hs'⟩ := firsts_cover vpre i _ (List.getElem?_eq_getElem hi)
              have hkl : k < pre.length := by
                have := (mem_firsts.1 hk).1
                omega
              refine ⟨pre[k], ?_, w, ?_, same_symm (same_trans hs' hs)⟩
              · rw [hres, List.mem_filterMap]
                exact ⟨k, hk, List.getElem?_eq_getElem hkl⟩
              · rw [hp2 k _ (List.getElem?_eq_getElem hkl)]; exact hw
          cases r with
          | true =>
            dsimp only
            exact ih (pre ++ [x]) vs (vpre ++ [v]) t' _ res I' hm' hp' hl' (seen (key.1 rfl))
          | false =>
            dsimp only
            apply ih (pre ++ [x]) vs (vpre ++ [v]) t' _ (res ++ [x]) I' hm' hp' hl'
            have hall : ∀ a ∈ vpre, ¬ Same a v := by
              apply Classical.byContradiction
              intro hn
              exact absurd (key.2 hn) (by simp)
            rw [firsts_snoc vpre v True (by simpa using hall), if_pos trivial, List.filterMap_append, old]
            simp [← hp1]

end Muon.Val
