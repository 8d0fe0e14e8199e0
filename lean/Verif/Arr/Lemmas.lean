import Verif.Arr.Spec
/-
Helper lemmas: representation of sequences by linked lists, frame conditions.
-/
namespace Muon.Arr
open Muon

/-- A chain of objects `ids` holding the elements `l`. -/
def Seg (h : Heap) : List Nat → List Nat → Prop
  | [x], [v] => (h.cell x).val = v ∧ (h.cell x).haveNext = false
  | x :: y :: ids, v :: w :: l => (h.cell x).val = v ∧ (h.cell x).haveNext = true ∧ (h.cell x).next = y ∧ Seg h (y :: ids) (w :: l)
  | _, _ => False

/-- The array `a`, made of the objects `ids`, holds the sequence `l`. -/
structure Holds (h : Heap) (a : Nat) (l ids : List Nat) : Prop where
  nodup : ids.Nodup
  head : ids.head? = some a
  bound : ∀ x ∈ ids, x < h.n
  len : (h.cell a).len = l.length
  seg : l ≠ [] → Seg h ids l
  last : l ≠ [] → ids.getLast? = some (h.cell a).tail

theorem Seg.length {h : Heap} : ∀ {ids l : List Nat}, Seg h ids l → ids.length = l.length
  | [], _, hs => by simp [Seg] at hs
  | [_], [_], _ => rfl
  | [_], [], hs => by simp [Seg] at hs
  | [_], _ :: _ :: _, hs => by simp [Seg] at hs
  | _ :: _ :: _, [], hs => by simp [Seg] at hs
  | _ :: _ :: _, [_], hs => by simp [Seg] at hs
  | _ :: y :: ids, _ :: w :: l, hs => by
    have := Seg.length hs.2.2.2
    simp at this ⊢; exact this

theorem Seg.congr {h h' : Heap} : ∀ {ids l : List Nat}, Seg h ids l →
    (∀ x ∈ ids, (h'.cell x).val = (h.cell x).val ∧ (h'.cell x).haveNext = (h.cell x).haveNext ∧
      ((h.cell x).haveNext = true → (h'.cell x).next = (h.cell x).next)) → Seg h' ids l
  | [], _, hs, _ => by simp [Seg] at hs
  | [x], [_], hs, hc => by
    obtain ⟨h1, h2, _⟩ := hc x (by simp)
    exact ⟨h1.trans hs.1, h2.trans hs.2⟩
  | [_], [], hs, _ => by simp [Seg] at hs
  | [_], _ :: _ :: _, hs, _ => by simp [Seg] at hs
  | _ :: _ :: _, [], hs, _ => by simp [Seg] at hs
  | _ :: _ :: _, [_], hs, _ => by simp [Seg] at hs
  | x :: y :: ids, _ :: w :: l, hs, hc => by
    obtain ⟨h1, h2, h3⟩ := hc x (by simp)
    exact ⟨h1.trans hs.1, h2.trans hs.2.1, (h3 hs.2.1).trans hs.2.2.1, Seg.congr hs.2.2.2 (fun z hz => hc z (by simp [hz]))⟩

theorem Seg.frame {h h' : Heap} {ids l : List Nat} (hs : Seg h ids l) (hc : ∀ x ∈ ids, h'.cell x = h.cell x) : Seg h' ids l :=
  hs.congr fun x hx => by rw [hc x hx]; simp

theorem Holds.mem {h : Heap} {a : Nat} {l ids : List Nat} (hh : Holds h a l ids) : a ∈ ids := by
  have := hh.head
  cases ids with
  | nil => simp at this
  | cons x ids => simp at this; simp [this]

theorem Holds.frame {h h' : Heap} {a : Nat} {l ids : List Nat} (hh : Holds h a l ids) (hc : ∀ x ∈ ids, h'.cell x = h.cell x)
    (hn : h.n ≤ h'.n) : Holds h' a l ids where
  nodup := hh.nodup
  head := hh.head
  bound x hx := Nat.lt_of_lt_of_le (hh.bound x hx) hn
  len := by rw [hc a hh.mem]; exact hh.len
  seg hl := (hh.seg hl).frame hc
  last hl := by rw [hc a hh.mem]; exact hh.last hl

/-- What an operation that changes only the objects `ids` and new ones leaves alone. -/
structure Frame (h h' : Heap) (ids : List Nat) : Prop where
  n : h.n ≤ h'.n
  cell : ∀ x, x < h.n → x ∉ ids → h'.cell x = h.cell x

theorem Frame.refl (h : Heap) (ids : List Nat) : Frame h h ids := ⟨Nat.le_refl _, fun _ _ _ => rfl⟩

theorem Frame.trans {h h' h'' : Heap} {ids ids' : List Nat} (f : Frame h h' ids) (g : Frame h' h'' ids')
    (hi : ∀ x ∈ ids', x < h.n → x ∈ ids) : Frame h h'' ids where
  n := Nat.le_trans f.n g.n
  cell x hx hx' := by rw [g.cell x (Nat.lt_of_lt_of_le hx f.n) (fun hm => hx' (hi x hm hx)), f.cell x hx hx']

theorem Holds.frame' {h h' : Heap} {a : Nat} {l ids ids' : List Nat} (hh : Holds h a l ids) (f : Frame h h' ids')
    (hd : ∀ x ∈ ids, x ∉ ids') : Holds h' a l ids :=
  hh.frame (fun x hx => f.cell x (hh.bound x hx) (hd x hx)) f.n

@[simp] theorem set_n (h : Heap) (a : Nat) (c : Cell) : (h.set a c).n = h.n := rfl
@[simp] theorem set_same (h : Heap) (a : Nat) (c : Cell) : (h.set a c).cell a = c := by simp [Heap.set]
theorem set_other (h : Heap) (a x : Nat) (c : Cell) (hx : x ≠ a) : (h.set a c).cell x = h.cell x := by simp [Heap.set, hx]

theorem make_spec (h : Heap) : Holds (make h).2 h.n [] [h.n] ∧ Frame h (make h).2 [] ∧ (make h).1 = h.n ∧ (make h).2.n = h.n + 1 := by
  refine ⟨⟨by simp, rfl, by simp [make], by simp [make], by simp, by simp⟩, ⟨by simp [make], fun x hx _ => ?_⟩, rfl, rfl⟩
  simp only [make]
  rw [if_neg (by omega)]

/-- Appending an object to a chain. -/
theorem Seg.snoc {h : Heap} {c v : Nat} : ∀ {ids l : List Nat} {t : Nat} {h' : Heap}, Seg h ids l → ids.getLast? = some t → ids.Nodup →
    c ∉ ids → (∀ x ∈ ids, x ≠ t → (h'.cell x).val = (h.cell x).val ∧ (h'.cell x).haveNext = (h.cell x).haveNext ∧
      (h'.cell x).next = (h.cell x).next) →
    (h'.cell t).val = (h.cell t).val → (h'.cell t).haveNext = true → (h'.cell t).next = c → (h'.cell c).val = v →
    (h'.cell c).haveNext = false → Seg h' (ids ++ [c]) (l ++ [v])
  | [], _, _, _, hs, _, _, _, _, _, _, _, _, _ => by simp [Seg] at hs
  | [x], [_], t, h', hs, hl, _, _, _, h1, h2, h3, h4, h5 => by
    simp at hl; subst hl
    exact ⟨h1.trans hs.1, h2, h3, h4, h5⟩
  | [_], [], _, _, hs, _, _, _, _, _, _, _, _, _ => by simp [Seg] at hs
  | [_], _ :: _ :: _, _, _, hs, _, _, _, _, _, _, _, _, _ => by simp [Seg] at hs
  | _ :: _ :: _, [], _, _, hs, _, _, _, _, _, _, _, _, _ => by simp [Seg] at hs
  | _ :: _ :: _, [_], _, _, hs, _, _, _, _, _, _, _, _, _ => by simp [Seg] at hs
  | x :: y :: ids, _ :: w :: l, t, h', hs, hl, hn, hc, ho, h1, h2, h3, h4, h5 => by
    have hl' : (y :: ids).getLast? = some t := by simpa using hl
    have hx : x ≠ t := by
      rintro rfl
      have : x ∈ y :: ids := List.mem_of_getLast? hl'
      exact (List.nodup_cons.1 hn).1 this
    obtain ⟨o1, o2, o3⟩ := ho x (by simp) hx
    exact ⟨o1.trans hs.1, o2.trans hs.2.1, o3.trans hs.2.2.1,
      Seg.snoc hs.2.2.2 hl' (List.nodup_cons.1 hn).2 (fun hm => hc (by simp at hm ⊢; exact Or.inr hm))
        (fun z hz => ho z (by simp at hz ⊢; exact Or.inr hz)) h1 h2 h3 h4 h5⟩

theorem Seg.last_not_next {h : Heap} : ∀ {ids l : List Nat} {t : Nat}, Seg h ids l → ids.getLast? = some t → (h.cell t).haveNext = false
  | [], _, _, hs, _ => by simp [Seg] at hs
  | [x], [_], t, hs, hl => by simp at hl; subst hl; exact hs.2
  | [_], [], _, hs, _ => by simp [Seg] at hs
  | [_], _ :: _ :: _, _, hs, _ => by simp [Seg] at hs
  | _ :: _ :: _, [], _, hs, _ => by simp [Seg] at hs
  | _ :: _ :: _, [_], _, hs, _ => by simp [Seg] at hs
  | x :: y :: ids, _ :: w :: l, t, hs, hl => Seg.last_not_next hs.2.2.2 (by simpa using hl)

theorem Holds.tail_mem {h : Heap} {a : Nat} {l ids : List Nat} (hh : Holds h a l ids) (hl : l ≠ []) : (h.cell a).tail ∈ ids :=
  List.mem_of_getLast? (hh.last hl)

theorem push_spec {h : Heap} {a v : Nat} {l ids : List Nat} (hh : Holds h a l ids) :
    ∃ h' ids', push h a v = some h' ∧ Holds h' a (l ++ [v]) ids' ∧ Frame h h' ids ∧ (∀ x ∈ ids', x ∈ ids ∨ h.n ≤ x) := by
  unfold push
  by_cases hl : l = []
  · subst hl
    have hlen := hh.len
    rw [if_pos (by simpa using hlen)]
    refine ⟨_, [a], rfl, ?_, ⟨Nat.le_refl _, fun x _ hx => set_other _ _ _ _ (fun e => hx (by rw [e]; exact hh.mem))⟩, by simp [hh.mem]⟩
    refine ⟨by simp, rfl, by simpa using hh.bound a hh.mem, by simp, fun _ => ?_, fun _ => by simp⟩
    exact ⟨by simp, by simp⟩
  · have hlen : (h.cell a).len ≠ 0 := by rw [hh.len]; cases l <;> simp at hl ⊢
    rw [if_neg hlen]
    have ha : a ≠ h.n := by have := hh.bound a hh.mem; omega
    have htm := hh.tail_mem hl
    have htn : (h.cell a).tail ≠ h.n := by have := hh.bound _ htm; omega
    have hnn : h.n ∉ ids := fun hm => Nat.lt_irrefl _ (hh.bound _ hm)
    generalize htt : (h.cell a).tail = t at *
    have htnext : (h.cell t).haveNext = false := (hh.seg hl).last_not_next (by rw [hh.last hl, htt])
    generalize hm : make h = m
    obtain ⟨c, g⟩ := m
    have hc : c = h.n := (congrArg Prod.fst hm).symm
    have hg : (make h).2 = g := congrArg Prod.snd hm
    subst hc
    dsimp only
    have gn : g.n = h.n + 1 := by rw [← hg]; rfl
    have gc : ∀ x, x ≠ h.n → g.cell x = h.cell x := fun x hx => by rw [← hg]; simp [make, hx]
    have gnew : g.cell h.n = {} := by rw [← hg]; simp [make]
    generalize hg1 : g.set h.n { g.cell h.n with val := v } = g1
    have g1n : g1.n = h.n + 1 := by rw [← hg1]; simp [gn]
    have g1c : ∀ x, x ≠ h.n → g1.cell x = h.cell x := fun x hx => by rw [← hg1, set_other _ _ _ _ hx, gc x hx]
    have g1new : g1.cell h.n = { val := v } := by rw [← hg1, set_same, gnew]
    rw [g1c a ha, htt, g1c t htn, htnext]
    simp only [Bool.false_eq_true, if_false]
    generalize hg2 : g1.set t { h.cell t with haveNext := true, next := h.n } = g2
    have g2c : ∀ x, x ≠ t → g2.cell x = g1.cell x := fun x hx => by rw [← hg2, set_other _ _ _ _ hx]
    have g2t : g2.cell t = { h.cell t with haveNext := true, next := h.n } := by rw [← hg2, set_same]
    refine ⟨_, ids ++ [h.n], rfl, ?_, ?_, ?_⟩
    · have hc3 : ∀ x, ((g2.set a { g2.cell a with tail := h.n, len := (g2.cell a).len + 1 }).cell x).val = (g2.cell x).val ∧
          ((g2.set a { g2.cell a with tail := h.n, len := (g2.cell a).len + 1 }).cell x).haveNext = (g2.cell x).haveNext ∧
          ((g2.set a { g2.cell a with tail := h.n, len := (g2.cell a).len + 1 }).cell x).next = (g2.cell x).next := by
        intro x
        by_cases hx : x = a
        · subst hx; simp
        · rw [set_other _ _ _ _ hx]; simp
      have g2new : g2.cell h.n = { val := v } := by rw [g2c _ (Ne.symm htn), g1new]
      refine ⟨?_, ?_, ?_, ?_, fun _ => ?_, fun _ => ?_⟩
      · exact List.nodup_append.2 ⟨hh.nodup, by simp, by rintro x hx y hy rfl; simp at hy; subst hy; exact hnn hx⟩
      · have := hh.head; cases ids <;> simp at this ⊢; exact this
      · intro x hx
        have : g2.n = h.n + 1 := by rw [← hg2]; simp [g1n]
        simp only [set_n, this]
        rcases List.mem_append.1 hx with hx | hx
        · have := hh.bound x hx; omega
        · simp at hx; omega
      · rw [set_same]
        simp only [List.length_append, List.length_singleton]
        congr 1
        by_cases hat : a = t
        · rw [hat, g2t]; simp; rw [← hat]; exact hh.len
        · rw [g2c a hat, g1c a ha]; exact hh.len
      · refine (hh.seg hl).snoc (t := t) (by rw [hh.last hl, htt]) hh.nodup hnn ?_ ?_ ?_ ?_ ?_ ?_
        · intro x hx hxt
          have hxn : x ≠ h.n := fun e => hnn (e ▸ hx)
          obtain ⟨c1, c2, c3⟩ := hc3 x
          rw [c1, c2, c3, g2c x hxt, g1c x hxn]; simp
        · rw [(hc3 t).1, g2t]
        · rw [(hc3 t).2.1, g2t]
        · rw [(hc3 t).2.2, g2t]
        · rw [(hc3 _).1, g2new]
        · rw [(hc3 _).2.1, g2new]
      · simp
    · refine ⟨by rw [set_n, ← hg2, set_n, g1n]; omega, fun x hx hx' => ?_⟩
      rw [set_other _ a x _ (fun e => hx' (by rw [e]; exact hh.mem)), g2c x (fun e => hx' (by rw [e]; exact htm)), g1c x (by omega)]
    · intro x hx
      rcases List.mem_append.1 hx with hx | hx
      · exact Or.inl hx
      · simp at hx; exact Or.inr (by omega)


/-- Iterating over a chain that the callback does not change. -/
theorem loop_spec {σ : Type} (cb : Nat → σ → Heap → Bool × σ × Heap) (h0 : Heap) (total : List Nat)
    (I : List Nat → σ → Heap → Prop) (J : σ → Heap → Prop) (all : List Nat)
    (hstep : ∀ pre v suf s h, total = pre ++ v :: suf → I pre s h →
      ((cb v s h).1 = false ∧ I (pre ++ [v]) (cb v s h).2.1 (cb v s h).2.2) ∨ ((cb v s h).1 = true ∧ J (cb v s h).2.1 (cb v s h).2.2))
    (hframe : ∀ pre s h, I pre s h → ∀ x ∈ all, h.cell x = h0.cell x) :
    ∀ (f : Nat) (ids l pre : List Nat) (a : Nat) (s : σ) (h : Heap), total = pre ++ l → (∀ x ∈ ids, x ∈ all) → Seg h0 ids l → ids.head? = some a →
      I pre s h → ids.length ≤ f →
      ∃ s' h', loop cb f a s h = some (s', h') ∧ (I total s' h' ∨ J s' h') := by
  intro f
  induction f with
  | zero =>
    intro ids l pre a s h _ _ hs hhd _ hf
    cases ids with
    | nil => simp at hhd
    | cons => simp at hf
  | succ f ih =>
    intro ids l pre a s h ht hall hs hhd hI hf
    rw [loop]
    match ids, l, hs with
    | [x], [v], hs =>
      simp at hhd; subst hhd
      rw [hframe _ _ _ hI x (hall x (by simp)), hs.1]
      rcases hstep pre v [] s h ht hI with ⟨h1, h2⟩ | ⟨h1, h2⟩
      · rw [h1, hframe _ _ _ h2 x (hall x (by simp)), hs.2]
        exact ⟨_, _, rfl, Or.inl (by rw [ht]; exact h2)⟩
      · rw [h1]; exact ⟨_, _, rfl, Or.inr h2⟩
    | x :: y :: ids, v :: w :: l, hs =>
      simp at hhd; subst hhd
      rw [hframe _ _ _ hI x (hall x (by simp)), hs.1]
      rcases hstep pre v (w :: l) s h ht hI with ⟨h1, h2⟩ | ⟨h1, h2⟩
      · rw [h1, hframe _ _ _ h2 x (hall x (by simp)), hs.2.1, hs.2.2.1]
        simp only [Bool.false_eq_true, if_false, if_true]
        exact ih (y :: ids) (w :: l) (pre ++ [v]) y _ _ (by rw [ht]; simp) (fun z hz => hall z (by simp at hz ⊢; exact Or.inr hz)) hs.2.2.2 rfl h2
          (by simp at hf ⊢; omega)
      · rw [h1]; exact ⟨_, _, rfl, Or.inr h2⟩

theorem nodup_length : ∀ (n : Nat) (l : List Nat), l.Nodup → (∀ x ∈ l, x < n) → l.length ≤ n := by
  intro n
  induction n with
  | zero =>
    intro l _ hb
    cases l with
    | nil => exact Nat.le_refl _
    | cons x l => exact absurd (hb x (by simp)) (Nat.not_lt_zero _)
  | succ n ih =>
    intro l hn hb
    have h1 := ih (l.erase n) (hn.erase n) (fun x hx => by
      have := hb x (List.mem_of_mem_erase hx)
      have : x ≠ n := fun e => by subst e; exact (List.Nodup.not_mem_erase hn) hx
      omega)
    have h2 : l.length ≤ (l.erase n).length + 1 := by
      rw [List.length_erase]
      split <;> omega
    omega

theorem Holds.fits {h : Heap} {a : Nat} {l ids : List Nat} (hh : Holds h a l ids) : ids.length ≤ h.n := by
  exact nodup_length _ _ hh.nodup hh.bound

theorem foreach_spec {σ : Type} (cb : Nat → σ → Heap → Bool × σ × Heap) (h0 : Heap) (a : Nat) (l ids : List Nat) (hh : Holds h0 a l ids)
    (I : List Nat → σ → Heap → Prop) (J : σ → Heap → Prop)
    (hstep : ∀ pre v suf s h, l = pre ++ v :: suf → I pre s h →
      ((cb v s h).1 = false ∧ I (pre ++ [v]) (cb v s h).2.1 (cb v s h).2.2) ∨ ((cb v s h).1 = true ∧ J (cb v s h).2.1 (cb v s h).2.2))
    (hframe : ∀ pre s h, I pre s h → ∀ x ∈ ids, h.cell x = h0.cell x) (s : σ) (hI : I [] s h0) :
    ∃ s' h', foreach cb a s h0 = some (s', h') ∧ (I l s' h' ∨ J s' h') := by
  unfold foreach
  by_cases hl : l = []
  · subst hl
    rw [if_pos (by simpa using hh.len)]
    exact ⟨_, _, rfl, Or.inl hI⟩
  · rw [if_neg (by rw [hh.len]; cases l <;> simp at hl ⊢)]
    exact loop_spec cb h0 l I J ids hstep hframe h0.n ids l [] a s h0 rfl (fun _ hx => hx) (hh.seg hl) hh.head hI hh.fits

theorem contents_spec {h : Heap} {a : Nat} {l ids : List Nat} (hh : Holds h a l ids) : contents h a = some l := by
  unfold contents
  obtain ⟨s', h', e, hI | hJ⟩ := foreach_spec (fun v (s : List Nat) h => (false, s ++ [v], h)) h a l ids hh (fun pre s h' => s = pre ∧ h' = h) (fun _ _ => False)
    (by rintro pre v suf s h' _ ⟨rfl, rfl⟩; exact Or.inl ⟨rfl, rfl, rfl⟩) (by rintro _ _ _ ⟨_, rfl⟩ _ _; rfl) [] ⟨rfl, rfl⟩
  · rw [e, Option.map_some, hI.1]
  · exact absurd hJ id

theorem copyTo_spec {h : Heap} {a r : Nat} {l ids lr idr : List Nat} (hh : Holds h a l ids) (hr : Holds h r lr idr)
    (hd : ∀ x ∈ ids, x ∉ idr) :
    ∃ h' idr', copyTo h a r = some h' ∧ Holds h' r (lr ++ l) idr' ∧ Frame h h' idr ∧ (∀ x ∈ idr', x ∈ idr ∨ h.n ≤ x) := by
  obtain ⟨s', h', e, hI | hJ⟩ := foreach_spec (pushTo r) h a l ids hh
    (fun pre s h' => s = true ∧ ∃ idr', Holds h' r (lr ++ pre) idr' ∧ Frame h h' idr ∧ (∀ x ∈ idr', x ∈ idr ∨ h.n ≤ x)) (fun _ _ => False)
    (by
      rintro pre v suf s h1 _ ⟨rfl, idr', g1, g2, g3⟩
      obtain ⟨h2, idr2, k1, k2, k3, k4⟩ := push_spec (v := v) g1
      refine Or.inl ⟨by simp [pushTo, k1], by simp [pushTo, k1], idr2, ?_, ?_, ?_⟩
      · simp only [pushTo, k1]; rw [← List.append_assoc]; exact k2
      · simp only [pushTo, k1]
        exact g2.trans k3 (fun x hx hlt => (g3 x hx).resolve_right (by omega))
      · intro x hx
        rcases k4 x hx with h' | h'
        · exact g3 x h'
        · exact Or.inr (Nat.le_trans g2.n h'))
    (by
      rintro pre s h1 ⟨_, idr', g1, g2, g3⟩ x hx
      exact g2.cell x (hh.bound x hx) (hd x hx))
    true ⟨rfl, idr, by simpa using hr, Frame.refl _ _, fun x hx => Or.inl hx⟩
  · obtain ⟨rfl, idr', g1, g2, g3⟩ := hI
    exact ⟨h', idr', by simp [copyTo, e], g1, g2, g3⟩
  · exact absurd hJ id

theorem dup_spec {h : Heap} {a : Nat} {l ids : List Nat} (hh : Holds h a l ids) :
    ∃ r h' idr, dup h a = some (r, h') ∧ Holds h' r l idr ∧ Frame h h' [] ∧ (∀ x ∈ idr, h.n ≤ x) := by
  obtain ⟨m1, m2, m3, m4⟩ := make_spec h
  unfold dup
  generalize make h = m at m1 m2 m3 m4
  obtain ⟨c, g⟩ := m
  simp only at m1 m2 m3 m4
  subst m3
  have hh' : Holds g a l ids := hh.frame' m2 (by simp)
  have hnn : h.n ∉ ids := fun hm => Nat.lt_irrefl _ (hh.bound _ hm)
  obtain ⟨h', idr', e1, e2, e3, e4⟩ := copyTo_spec hh' m1 (by simp; rintro x hx rfl; exact hnn hx)
  refine ⟨h.n, h', idr', by simp [e1], by simpa using e2, m2.trans e3 (by simp), fun x hx => ?_⟩
  rcases e4 x hx with h1 | h1
  · simp at h1; omega
  · omega

/-- Linking two chains. -/
theorem Seg.link {h : Heap} {b : Nat} : ∀ {ids l idb m : List Nat} {t : Nat} {h' : Heap}, Seg h ids l → ids.getLast? = some t → ids.Nodup →
    Seg h' idb m → idb.head? = some b →
    (∀ x ∈ ids, x ≠ t → (h'.cell x).val = (h.cell x).val ∧ (h'.cell x).haveNext = (h.cell x).haveNext ∧
      (h'.cell x).next = (h.cell x).next) →
    (h'.cell t).val = (h.cell t).val → (h'.cell t).haveNext = true → (h'.cell t).next = b → Seg h' (ids ++ idb) (l ++ m)
  | [], _, _, _, _, _, hs, _, _, _, _, _, _, _, _ => by simp [Seg] at hs
  | [x], [_], idb, m, t, h', hs, hl, _, hb, hhd, _, h1, h2, h3 => by
    simp at hl; subst hl
    cases idb with
    | nil => simp at hhd
    | cons y idb =>
      cases m with
      | nil => exact absurd hb.length (by simp)
      | cons w m =>
        simp at hhd; subst hhd
        exact ⟨h1.trans hs.1, h2, h3, hb⟩
  | [_], [], _, _, _, _, hs, _, _, _, _, _, _, _, _ => by simp [Seg] at hs
  | [_], _ :: _ :: _, _, _, _, _, hs, _, _, _, _, _, _, _, _ => by simp [Seg] at hs
  | _ :: _ :: _, [], _, _, _, _, hs, _, _, _, _, _, _, _, _ => by simp [Seg] at hs
  | _ :: _ :: _, [_], _, _, _, _, hs, _, _, _, _, _, _, _, _ => by simp [Seg] at hs
  | x :: y :: ids, _ :: w :: l, idb, m, t, h', hs, hl, hn, hb, hhd, ho, h1, h2, h3 => by
    have hl' : (y :: ids).getLast? = some t := by simpa using hl
    have hx : x ≠ t := by
      rintro rfl
      have : x ∈ y :: ids := List.mem_of_getLast? hl'
      exact (List.nodup_cons.1 hn).1 this
    obtain ⟨o1, o2, o3⟩ := ho x (by simp) hx
    exact ⟨o1.trans hs.1, o2.trans hs.2.1, o3.trans hs.2.2.1,
      Seg.link hs.2.2.2 hl' (List.nodup_cons.1 hn).2 hb hhd (fun z hz => ho z (by simp at hz ⊢; exact Or.inr hz)) h1 h2 h3⟩

theorem extendNodup_spec {h : Heap} {a b : Nat} {l ids m idb : List Nat} (hh : Holds h a l ids) (hb : Holds h b m idb)
    (hd : ∀ x ∈ ids, x ∉ idb) :
    ∃ h' ids', extendNodup h a b = some h' ∧ Holds h' a (l ++ m) ids' ∧ Frame h h' ids ∧ (∀ x ∈ ids', x ∈ ids ∨ x ∈ idb ∨ h.n ≤ x) := by
  unfold extendNodup
  by_cases hm : m = []
  · subst hm
    rw [if_pos (by simpa using hb.len)]
    exact ⟨h, ids, rfl, by simpa using hh, Frame.refl _ _, fun x hx => Or.inl hx⟩
  rw [if_neg (by rw [hb.len]; cases m <;> simp at hm ⊢)]
  by_cases hl : l = []
  · subst hl
    rw [if_pos (by simpa using hh.len)]
    obtain ⟨h', idr', e1, e2, e3, e4⟩ := copyTo_spec hb hh (fun x hx hx' => hd x hx' hx)
    exact ⟨h', idr', e1, e2, e3, fun x hx => (e4 x hx).imp id Or.inr⟩
  rw [if_neg (by rw [hh.len]; cases l <;> simp at hl ⊢)]
  have htm := hh.tail_mem hl
  have hlast := hh.last hl
  generalize htt : (h.cell a).tail = t at *
  have htnext : (h.cell t).haveNext = false := (hh.seg hl).last_not_next hlast
  dsimp only
  rw [htnext]
  simp only [Bool.false_eq_true, if_false]
  generalize hg2 : h.set t { h.cell t with haveNext := true, next := b } = g2
  have g2c : ∀ x, x ≠ t → g2.cell x = h.cell x := fun x hx => by rw [← hg2, set_other _ _ _ _ hx]
  have g2t : g2.cell t = { h.cell t with haveNext := true, next := b } := by rw [← hg2, set_same]
  have hba : b ≠ a := fun e => hd a hh.mem (e ▸ hb.mem)
  have hbt : b ≠ t := fun e => hd t htm (e ▸ hb.mem)
  generalize hg3 : g2.set a { g2.cell a with tail := (g2.cell b).tail, len := (g2.cell a).len + (g2.cell b).len } = g3
  have hc3 : ∀ x, (g3.cell x).val = (g2.cell x).val ∧ (g3.cell x).haveNext = (g2.cell x).haveNext ∧ (g3.cell x).next = (g2.cell x).next := by
    intro x
    by_cases hx : x = a
    · subst hx; rw [← hg3]; simp
    · rw [← hg3, set_other _ _ _ _ hx]; simp
  have hout : ∀ x, x ∉ ids → g3.cell x = h.cell x := fun x hx => by
    rw [← hg3, set_other _ a x _ (fun e => hx (by rw [e]; exact hh.mem)), g2c x (fun e => hx (by rw [e]; exact htm))]
  have hn3 : g3.n = h.n := by rw [← hg3, ← hg2]; rfl
  refine ⟨g3, ids ++ idb, rfl, ?_, ⟨by rw [hn3]; exact Nat.le_refl _, fun x _ hx => hout x hx⟩, ?_⟩
  · refine ⟨?_, ?_, ?_, ?_, fun _ => ?_, fun _ => ?_⟩
    · exact List.nodup_append.2 ⟨hh.nodup, hb.nodup, by rintro x hx y hy rfl; exact hd x hx hy⟩
    · have := hh.head; cases ids <;> simp at this ⊢; exact this
    · intro x hx
      rw [hn3]
      rcases List.mem_append.1 hx with hx | hx
      · exact hh.bound x hx
      · exact hb.bound x hx
    · rw [← hg3, set_same, g2c b hbt, hb.len, List.length_append]
      show (g2.cell a).len + m.length = _
      congr 1
      by_cases hat : a = t
      · rw [hat, g2t]; simp; rw [← hat]; exact hh.len
      · rw [g2c a hat]; exact hh.len
    · refine (hh.seg hl).link hlast hh.nodup ((hb.seg hm).frame fun x hx => hout x (fun h' => hd x h' hx)) hb.head ?_ ?_ ?_ ?_
      · intro x hx hxt
        obtain ⟨c1, c2, c3⟩ := hc3 x
        rw [c1, c2, c3, g2c x hxt]; simp
      · rw [(hc3 t).1, g2t]
      · rw [(hc3 t).2.1, g2t]
      · rw [(hc3 t).2.2, g2t]
    · rw [← hg3, set_same, g2c b hbt]
      have := hb.last hm
      rw [List.getLast?_append, this]; rfl
  · intro x hx
    rcases List.mem_append.1 hx with hx | hx
    · exact Or.inl hx
    · exact Or.inr (Or.inl hx)

theorem extend_spec {h : Heap} {a b : Nat} {l ids m idb : List Nat} (hh : Holds h a l ids) (hb : Holds h b m idb) :
    ∃ h' ids', extend h a b = some h' ∧ Holds h' a (l ++ m) ids' ∧ Frame h h' ids ∧ (∀ x ∈ ids', x ∈ ids ∨ h.n ≤ x) := by
  obtain ⟨r, h1, idr, e1, e2, e3, e4⟩ := dup_spec hb
  have hd : ∀ x ∈ ids, x ∉ idr := fun x hx hx' => by have := hh.bound x hx; have := e4 x hx'; omega
  obtain ⟨h2, ids', k1, k2, k3, k4⟩ := extendNodup_spec (hh.frame' e3 (by simp)) e2 hd
  refine ⟨h2, ids', by simp [extend, e1, k1], k2, ?_, ?_⟩
  · refine ⟨Nat.le_trans e3.n k3.n, fun x hx hx' => ?_⟩
    rw [k3.cell x (Nat.lt_of_lt_of_le hx e3.n) hx', e3.cell x hx (by simp)]
  · intro x hx
    rcases k4 x hx with h' | h' | h'
    · exact Or.inl h'
    · exact Or.inr (e4 x h')
    · exact Or.inr (Nat.le_trans e3.n h')

theorem prepend_spec {h : Heap} {a v : Nat} {l ids : List Nat} (hh : Holds h a l ids) :
    ∃ p h' ids', prepend h a v = some (p, h') ∧ Holds h' p (v :: l) ids' ∧ Frame h h' ids ∧ (∀ x ∈ ids', x ∈ ids ∨ h.n ≤ x) := by
  obtain ⟨m1, m2, m3, m4⟩ := make_spec h
  unfold prepend
  generalize make h = m at m1 m2 m3 m4
  obtain ⟨c, g⟩ := m
  simp only at m1 m2 m3 m4
  subst m3
  obtain ⟨h1, id1, k1, k2, k3, k4⟩ := push_spec (v := v) m1
  have f1 : Frame h h1 [] := m2.trans k3 (by simp)
  have hh1 : Holds h1 a l ids := hh.frame' f1 (by simp)
  have hid1 : ∀ x ∈ id1, h.n ≤ x := fun x hx => by
    rcases k4 x hx with h' | h'
    · simp at h'; omega
    · omega
  obtain ⟨h2, id2, e1, e2, e3, e4⟩ := extendNodup_spec k2 hh1 (fun x hx hx' => by have := hid1 x hx; have := hh.bound x hx'; omega)
  refine ⟨h.n, h2, id2, by simp [k1, e1], e2, ?_, ?_⟩
  · refine ⟨Nat.le_trans f1.n e3.n, fun x hx hx' => ?_⟩
    rw [e3.cell x (Nat.lt_of_lt_of_le hx f1.n) (fun hm => by have := hid1 x hm; omega), f1.cell x hx (by simp)]
  · intro x hx
    rcases e4 x hx with h' | h' | h'
    · exact Or.inr (hid1 x h')
    · exact Or.inl h'
    · exact Or.inr (Nat.le_trans f1.n h')

theorem index_spec {h : Heap} {a i : Nat} {l ids : List Nat} (hh : Holds h a l ids) (hi : i < l.length) : index h a i = l[i]? := by
  unfold index
  rw [if_pos (by rw [hh.len]; exact hi)]
  obtain ⟨s', h', e, hI | hJ⟩ := foreach_spec
    (fun v (s : Nat × Nat) h => if s.1 = i then (true, (s.1, v), h) else (false, (s.1 + 1, s.2), h)) h a l ids hh
    (fun pre s h' => s.1 = pre.length ∧ pre.length ≤ i ∧ h' = h) (fun s _ => l[i]? = some s.2)
    (by
      rintro pre v suf s h' ht ⟨h1, h2, rfl⟩
      by_cases he : s.1 = i
      · right
        simp only [if_pos he]
        refine ⟨trivial, ?_⟩
        rw [ht, ← he, h1]; simp
      · left
        simp only [if_neg he]
        refine ⟨trivial, by simp [h1], ?_⟩
        simp; omega)
    (by rintro _ _ _ ⟨_, _, rfl⟩ _ _; rfl) (0, 0) ⟨rfl, Nat.zero_le _, rfl⟩
  · have := hI.2.1; omega
  · rw [e, hJ]; rfl

theorem seg_iff {h : Heap} : ∀ (ids l : List Nat), Seg h ids l ↔ ids.length = l.length ∧ l ≠ [] ∧ ∀ i x v, ids[i]? = some x → l[i]? = some v →
    (h.cell x).val = v ∧ (h.cell x).haveNext = decide (i + 1 < l.length) ∧ ∀ y, ids[i + 1]? = some y → (h.cell x).next = y
  | [], l => by cases l <;> simp [Seg]
  | [x], [] => by simp [Seg]
  | [x], [v] => by
    constructor
    · rintro ⟨h1, h2⟩
      refine ⟨rfl, by simp, fun i y w hy hw => ?_⟩
      cases i with
      | zero => simp at hy hw; subst hy hw; exact ⟨h1, by simp [h2], by simp⟩
      | succ i => simp at hy
    · rintro ⟨_, _, h3⟩
      have := h3 0 x v rfl rfl
      exact ⟨this.1, by simpa using this.2.1⟩
  | [x], _ :: _ :: _ => by simp [Seg]
  | _ :: _ :: _, [] => by simp [Seg]
  | _ :: _ :: _, [_] => by simp [Seg]
  | x :: y :: ids, v :: w :: l => by
    have ih := seg_iff (h := h) (y :: ids) (w :: l)
    constructor
    · rintro ⟨h1, h2, h3, h4⟩
      obtain ⟨k1, _, k3⟩ := ih.1 h4
      refine ⟨by simpa using k1, by simp, fun i z u hz hu => ?_⟩
      cases i with
      | zero =>
        simp at hz hu; subst hz hu
        exact ⟨h1, by simp [h2], fun y' hy' => by simp at hy'; rw [h3, hy']⟩
      | succ i =>
        obtain ⟨j1, j2, j3⟩ := k3 i z u (by simpa using hz) (by simpa using hu)
        exact ⟨j1, by rw [j2]; simp, fun y' hy' => j3 y' (by simpa using hy')⟩
    · rintro ⟨h1, _, h3⟩
      obtain ⟨j1, j2, j3⟩ := h3 0 x v rfl rfl
      refine ⟨j1, by simpa using j2, j3 y rfl, ih.2 ⟨by simpa using h1, by simp, fun i z u hz hu => ?_⟩⟩
      obtain ⟨j1, j2, j3⟩ := h3 (i + 1) z u (by simpa using hz) (by simpa using hu)
      exact ⟨j1, by rw [j2]; simp, fun y' hy' => j3 y' (by simpa using hy')⟩

theorem nth_spec {h : Heap} : ∀ (i : Nat) (ids l : List Nat) (p a x : Nat), Seg h ids l → ids.head? = some a → ids[i]? = some x →
    nth h p a i = some (if i = 0 then p else (ids[i - 1]?).getD 0, x) := by
  intro i
  induction i with
  | zero =>
    intro ids l p a x _ hhd hx
    have : a = x := by cases ids <;> simp at hhd hx; omega
    subst this; rfl
  | succ i ih =>
    intro ids l p a x hs hhd hx
    match ids, l, hs with
    | [y], [v], hs => simp at hx
    | y :: z :: ids, v :: w :: l, hs =>
      simp at hhd; subst hhd
      rw [nth, if_pos hs.2.1, hs.2.2.1, ih (z :: ids) (w :: l) y z x hs.2.2.2 rfl (by simpa using hx)]
      cases i with
      | zero => simp
      | succ i => simp

theorem Seg.get {h : Heap} {ids l : List Nat} (hs : Seg h ids l) {i : Nat} (hi : i < l.length) : ∃ x, ids[i]? = some x :=
  ⟨ids[i]'(by rw [hs.length]; exact hi), by simp [hs.length, hi]⟩

theorem nodup_get {ids : List Nat} (hn : ids.Nodup) {i j x : Nat} (hi : ids[i]? = some x) (hj : ids[j]? = some x) : i = j := by
  obtain ⟨h1, h2⟩ := List.getElem?_eq_some_iff.1 hi
  obtain ⟨h3, h4⟩ := List.getElem?_eq_some_iff.1 hj
  exact (List.getElem_inj hn).1 (h2.trans h4.symm)

theorem set_spec {h : Heap} {a i v : Nat} {l ids : List Nat} (hh : Holds h a l ids) (hi : i < l.length) :
    ∃ h', set h a i v = some h' ∧ Holds h' a (l.set i v) ids ∧ Frame h h' ids := by
  have hl : l ≠ [] := by rintro rfl; simp at hi
  obtain ⟨x, hx⟩ := (hh.seg hl).get hi
  unfold set
  rw [if_pos (by rw [hh.len]; exact hi), nth_spec i ids l a a x (hh.seg hl) hh.head hx]
  dsimp only [Option.map_some]
  have hmem : x ∈ ids := List.mem_of_getElem? hx
  refine ⟨_, rfl, ?_, ⟨Nat.le_refl _, fun y _ hy => set_other _ _ _ _ (fun e => hy (by rw [e]; exact hmem))⟩⟩
  generalize hg : h.set x { h.cell x with val := v } = g
  have gx : g.cell x = { h.cell x with val := v } := by rw [← hg, set_same]
  have go : ∀ y, y ≠ x → g.cell y = h.cell y := fun y hy => by rw [← hg, set_other _ _ _ _ hy]
  have gf : ∀ y, (g.cell y).len = (h.cell y).len ∧ (g.cell y).tail = (h.cell y).tail ∧ (g.cell y).next = (h.cell y).next ∧ (g.cell y).haveNext = (h.cell y).haveNext := by
    intro y
    by_cases hy : y = x
    · subst hy; rw [gx]; simp
    · rw [go y hy]; simp
  refine ⟨hh.nodup, hh.head, by rw [← hg]; exact hh.bound, by rw [(gf a).1, hh.len]; simp, fun _ => ?_, fun _ => by rw [(gf a).2.1]; exact hh.last hl⟩
  obtain ⟨h1, h2, h3⟩ := (seg_iff _ _).1 (hh.seg hl)
  refine (seg_iff _ _).2 ⟨by simpa using h1, by simpa using h2, fun j y w hy hw => ?_⟩
  rw [(gf y).2.2.1, (gf y).2.2.2]
  have hj : j < l.length := by have := (List.getElem?_eq_some_iff.1 hw).1; simpa using this
  obtain ⟨k1, k2, k3⟩ := h3 j y (l[j]) hy (by simp [hj])
  refine ⟨?_, by simpa using k2, k3⟩
  by_cases hyx : y = x
  · subst hyx
    have : i = j := nodup_get hh.nodup hx hy
    subst this
    rw [gx]; simp [hj] at hw ⊢; exact hw
  · rw [go y hyx, k1]
    have hne : i ≠ j := by rintro rfl; rw [hx] at hy; exact hyx (Option.some.inj hy).symm
    rw [List.getElem?_set_ne hne] at hw
    simpa [hj] using hw

theorem del_spec {h : Heap} {a i : Nat} {l ids : List Nat} (hh : Holds h a l ids) (hi : i < l.length) (hbad : i = 0 → l.length ≠ 2) :
    ∃ h' ids', del h a i = some h' ∧ Holds h' a (l.eraseIdx i) ids' ∧ Frame h h' ids ∧ (∀ x ∈ ids', x ∈ ids) := by
  have hl : l ≠ [] := by rintro rfl; simp at hi
  unfold del
  rw [if_pos (by rw [hh.len]; exact hi)]
  cases i with
  | zero =>
    rw [if_pos rfl]
    have hs := hh.seg hl
    have hhd := hh.head
    have hbound := hh.bound
    have hlen := hh.len
    have hlast := hh.last hl
    have hnd := hh.nodup
    match ids, l, hs with
    | [x], [v], hs =>
      simp at hhd; subst hhd
      rw [hs.2]
      simp only [Bool.false_eq_true, if_false]
      refine ⟨_, [x], rfl, ⟨by simp, rfl, by simpa using hbound, by simp, by simp, by simp⟩, ⟨Nat.le_refl _, fun y _ hy => set_other _ _ _ _ (by simpa using hy)⟩, by simp⟩
    | [x, y], [v, w], hs => exact absurd rfl (hbad rfl)
    | x :: y :: z :: ids, v :: w :: u :: l, hs =>
      simp at hhd; subst hhd
      have hxy : x ≠ y := by rintro rfl; simp at hnd
      have hyz : y ≠ z := by rintro rfl; simp at hnd
      have hxz : x ≠ z := by rintro rfl; simp at hnd
      rw [hs.2.1, hs.2.2.1]
      simp only [if_true, set_same]
      obtain ⟨_, _, _, hy1, hy2, hy3, hs3⟩ := hs
      generalize hg : (h.set y { h.cell y with tail := (h.cell x).tail, len := (h.cell x).len - 1 }) = g
      generalize hg' : g.set x { h.cell y with tail := (h.cell x).tail, len := (h.cell x).len - 1 } = g'
      have go : ∀ k, k ≠ x → k ≠ y → g'.cell k = h.cell k := fun k h1 h2 => by rw [← hg', set_other _ _ _ _ h1, ← hg, set_other _ _ _ _ h2]
      have gx : g'.cell x = { h.cell y with tail := (h.cell x).tail, len := (h.cell x).len - 1 } := by rw [← hg', set_same]
      refine ⟨g', x :: z :: ids, rfl, ⟨?_, rfl, ?_, ?_, fun _ => ?_, fun _ => ?_⟩, ⟨by rw [← hg', ← hg]; exact Nat.le_refl _, fun k _ hk => go k ?_ ?_⟩, ?_⟩
      · simp at hnd ⊢; exact ⟨⟨hnd.1.2.1, hnd.1.2.2⟩, hnd.2.2⟩
      · intro k hk
        have : g'.n = h.n := by rw [← hg', ← hg]; rfl
        rw [this]
        exact hbound k (by simp at hk ⊢; rcases hk with h1 | h1 | h1 <;> simp [h1])
      · rw [gx]; simp [hlen]
      · refine ⟨by rw [gx]; exact hy1, by rw [gx]; exact hy2, by rw [gx]; exact hy3, hs3.frame fun k hk => go k ?_ ?_⟩
        · rintro rfl; simp at hnd hk; rcases hk with rfl | hk
          · exact hxz rfl
          · exact hnd.1.2.2 hk
        · rintro rfl; simp at hnd hk; rcases hk with rfl | hk
          · exact hyz rfl
          · exact hnd.2.1.2 hk
      · rw [gx]; simpa using hlast
      · rintro rfl; simp at hk
      · rintro rfl; simp at hk
      · intro k hk; simp at hk ⊢; rcases hk with h1 | h1 | h1 <;> simp [h1]
  | succ i =>
    rw [if_neg (by simp)]
    have hs := hh.seg hl
    obtain ⟨d, hd⟩ := hs.get hi
    obtain ⟨p, hp⟩ := hs.get (show i < l.length by omega)
    rw [nth_spec (i + 1) ids l a a d hs hh.head hd]
    rw [if_neg (by simp), Nat.add_sub_cancel, hp]
    dsimp only [Option.map_some, Option.getD_some]
    obtain ⟨h1, h2, h3⟩ := (seg_iff _ _).1 hs
    obtain ⟨d1, d2, d3⟩ := h3 (i + 1) d (l[i + 1]) hd (by simp [hi])
    have hpm : p ∈ ids := List.mem_of_getElem? hp
    have hdm : d ∈ ids := List.mem_of_getElem? hd
    have hpd : p ≠ d := by rintro rfl; have := nodup_get hh.nodup hp hd; omega
    have hda : d ≠ a := by
      rintro rfl
      have h0 : ids[0]? = some d := by have := hh.head; rw [List.head?_eq_getElem?] at this; exact this
      have := nodup_get hh.nodup hd h0; omega
    -- the new heap
    generalize hg : (if (h.cell d).haveNext = true then h.set p { h.cell p with next := (h.cell d).next }
      else (h.set a { h.cell a with tail := p }).set p { (h.set a { h.cell a with tail := p }).cell p with haveNext := false }) = g
    have gn : g.n = h.n := by rw [← hg]; split <;> rfl
    have gfacts : ∀ k, ((g.cell k).val = (h.cell k).val ∧ (g.cell k).len = (h.cell k).len) ∧ (k ≠ p → k ≠ a → g.cell k = h.cell k) ∧
        (k ≠ p → (g.cell k).next = (h.cell k).next ∧ (g.cell k).haveNext = (h.cell k).haveNext) := by
      intro k
      clear hd hp h3 d1 d2 d3
      rw [← hg]
      by_cases hn : (h.cell d).haveNext = true
      · rw [if_pos hn]
        by_cases hk : k = p
        · subst hk; rw [set_same]; simp
        · rw [set_other _ _ _ _ hk]; simp
      · rw [if_neg hn]
        by_cases hk : k = p
        · subst hk; rw [set_same]
          by_cases hka : k = a
          · subst hka; rw [set_same]; simp
          · rw [set_other _ _ _ _ hka]; simp
        · rw [set_other _ _ _ _ hk]
          by_cases hka : k = a
          · subst hka; rw [set_same]; simp
          · rw [set_other _ _ _ _ hka]; simp
    have gval := fun k => (gfacts k).1
    have gout := fun k => (gfacts k).2.1
    have gnext := fun k => (gfacts k).2.2
    have gp1 : (h.cell d).haveNext = true → (g.cell p).next = (h.cell d).next ∧ (g.cell p).haveNext = (h.cell p).haveNext := by
      intro hn; rw [← hg, if_pos hn, set_same]; simp
    have gp2 : (h.cell d).haveNext = false → (g.cell p).haveNext = false := by
      intro hn; rw [← hg, if_neg (by simp [hn]), set_same]
    have gtail : (g.cell a).tail = if (h.cell d).haveNext then (h.cell a).tail else p := by
      clear hd hp h3 d1 d2 d3
      rw [← hg]
      by_cases hn : (h.cell d).haveNext = true
      · rw [if_pos hn, if_pos hn]
        by_cases hk : a = p
        · subst hk; rw [set_same]
        · rw [set_other _ _ _ _ hk]
      · rw [if_neg hn, if_neg hn]
        by_cases hk : a = p
        · subst hk; rw [set_same, set_same]
        · rw [set_other _ _ _ _ hk, set_same]
    generalize hg' : g.set a { g.cell a with len := (g.cell a).len - 1 } = g'
    have g'f : ∀ k, (g'.cell k).val = (g.cell k).val ∧ (g'.cell k).next = (g.cell k).next ∧ (g'.cell k).haveNext = (g.cell k).haveNext ∧ (g'.cell k).tail = (g.cell k).tail := by
      intro k
      by_cases hk : k = a
      · subst hk; rw [← hg', set_same]; simp
      · rw [← hg', set_other _ _ _ _ hk]; simp
    refine ⟨g', ids.eraseIdx (i + 1), rfl, ⟨?_, ?_, ?_, ?_, fun _ => ?_, fun _ => ?_⟩, ⟨by rw [← hg']; exact Nat.le_of_eq gn.symm, fun k _ hk => ?_⟩, fun x hx => List.mem_of_mem_eraseIdx hx⟩
    · exact hh.nodup.sublist (List.eraseIdx_sublist _ _)
    · have := hh.head; cases ids with
      | nil => simp at this
      | cons y ids => simpa using this
    · intro x hx
      rw [← hg']; simp only [set_n, gn]
      exact hh.bound x (List.mem_of_mem_eraseIdx hx)
    · rw [← hg', set_same]
      simp only []
      rw [(gval a).2, hh.len, List.length_eraseIdx, if_pos hi]
    · refine (seg_iff _ _).2 ⟨by rw [List.length_eraseIdx, List.length_eraseIdx, h1], ?_, fun j x v hx hv => ?_⟩
      · intro e
        have := congrArg List.length e
        rw [List.length_eraseIdx, if_pos hi] at this
        simp at this; omega
      · rw [List.getElem?_eraseIdx] at hx hv
        rw [(g'f x).1, (g'f x).2.1, (g'f x).2.2.1, (gval x).1, List.length_eraseIdx, if_pos hi]
        simp only [List.getElem?_eraseIdx]
        by_cases hj : j < i + 1
        · rw [if_pos hj] at hx hv
          obtain ⟨k1, k2, k3⟩ := h3 j x v hx hv
          refine ⟨k1, ?_⟩
          by_cases hji : j = i
          · subst hji
            have : x = p := by rw [hp] at hx; exact (Option.some.inj hx).symm
            subst this
            rw [if_neg (by omega)]
            by_cases hn : (h.cell d).haveNext = true
            · obtain ⟨e1, e2⟩ := gp1 hn
              rw [e1, e2, k2]
              rw [hn] at d2
              have d2' : j + 1 + 1 < l.length := by simpa using d2.symm
              refine ⟨?_, d3⟩
              rw [decide_eq_true (by omega), decide_eq_true (by omega)]
            · have hn' : (h.cell d).haveNext = false := by simpa using hn
              rw [gp2 hn']
              rw [hn'] at d2
              have d2' : ¬ (j + 1 + 1 < l.length) := by simpa using d2.symm
              refine ⟨?_, fun y hy => ?_⟩
              · rw [decide_eq_false (by omega)]
              · have := (List.getElem?_eq_some_iff.1 hy).1; omega
          · have hxp : x ≠ p := by rintro rfl; exact hji (nodup_get hh.nodup hx hp)
            rw [(gnext x hxp).1, (gnext x hxp).2, k2]
            refine ⟨by rw [decide_eq_true (by omega), decide_eq_true (by omega)], fun y hy => k3 y ?_⟩
            rwa [if_pos (by omega)] at hy
        · rw [if_neg hj] at hx hv
          obtain ⟨k1, k2, k3⟩ := h3 (j + 1) x v hx hv
          have hxp : x ≠ p := by rintro rfl; have := nodup_get hh.nodup hx hp; omega
          rw [(gnext x hxp).1, (gnext x hxp).2, k2]
          refine ⟨k1, by congr 1; apply propext; omega, fun y hy => k3 y ?_⟩
          rwa [if_neg (by omega)] at hy
    · rw [(g'f a).2.2.2, gtail]
      have hlast := hh.last hl
      rw [List.getLast?_eq_getElem?] at hlast ⊢
      rw [List.length_eraseIdx, h1, if_pos hi, List.getElem?_eraseIdx]
      rw [h1] at hlast
      by_cases hn : (h.cell d).haveNext = true
      · rw [hn] at d2
        have d2' : i + 1 + 1 < l.length := by simpa using d2.symm
        rw [if_pos hn, if_neg (by omega), ← hlast]
        congr 1; omega
      · have hn' : (h.cell d).haveNext = false := by simpa using hn
        rw [hn'] at d2
        have d2' : ¬ (i + 1 + 1 < l.length) := by simpa using d2.symm
        rw [if_neg hn, if_pos (by omega), ← hp]
        congr 1; omega
    · have hka : k ≠ a := fun e => hk (by rw [e]; exact hh.mem)
      rw [← hg', set_other _ _ _ _ hka, gout k (fun e => hk (by rw [e]; exact hpm)) hka]

theorem pop_spec {h : Heap} {a : Nat} {l ids : List Nat} (hh : Holds h a l ids) (hl : l ≠ []) :
    ∃ h' ids' v, l.getLast? = some v ∧ pop h a = some (v, h') ∧ Holds h' a l.dropLast ids' ∧ Frame h h' ids ∧ (∀ x ∈ ids', x ∈ ids) := by
  have hlen : 0 < l.length := by cases l <;> simp at hl ⊢
  obtain ⟨h', ids', e1, e2, e3, e4⟩ := del_spec (i := l.length - 1) hh (by omega) (by omega)
  obtain ⟨h1, h2, h3⟩ := (seg_iff _ _).1 (hh.seg hl)
  have hlast := hh.last hl
  rw [List.getLast?_eq_getElem?, h1] at hlast
  have := (h3 (l.length - 1) _ (l[l.length - 1]) hlast (by simp)).1
  refine ⟨h', ids', l[l.length - 1], by rw [List.getLast?_eq_getElem?]; simp, ?_, ?_, e3, e4⟩
  · unfold pop getTail
    rw [if_neg (by rw [hh.len]; omega), hh.len, e1, this]; rfl
  · rwa [List.eraseIdx_eq_dropLast (by omega)] at e2

theorem slice_spec {h : Heap} {a i j : Nat} {l ids : List Nat} (hh : Holds h a l ids) (hi : i < l.length) (hj : j < l.length) :
    ∃ r h' idr, slice h a i j = some (r, h') ∧ Holds h' r ((l.take (j + 1)).drop i) idr ∧ Frame h h' [] ∧ (∀ x ∈ idr, h.n ≤ x) := by
  obtain ⟨m1, m2, m3, m4⟩ := make_spec h
  unfold slice
  rw [if_pos (by rw [hh.len]; exact ⟨hi, hj⟩)]
  generalize make h = m at m1 m2 m3 m4
  obtain ⟨c, g⟩ := m
  simp only at m1 m2 m3 m4
  subst m3
  have hh' : Holds g a l ids := hh.frame' m2 (by simp)
  have hnn : h.n ∉ ids := fun hm => Nat.lt_irrefl _ (hh.bound _ hm)
  let P (pre : List Nat) (g' : Heap) := ∃ idr', Holds g' h.n (pre.drop i) idr' ∧ Frame g g' [h.n] ∧ (∀ x ∈ idr', h.n ≤ x)
  obtain ⟨s', h', e, hI | hJ⟩ := foreach_spec (sliceTo h.n i j) g a l ids hh'
    (fun pre s g' => s = (pre.length, true) ∧ pre.length ≤ j ∧ P pre g') (fun s g' => s.2 = true ∧ P (l.take (j + 1)) g')
    (by
      rintro pre v suf s h1 ht ⟨rfl, hpj, idr', g1, g2, g3⟩
      have key : ∃ h2, sliceTo h.n i j v (pre.length, true) h1 = (decide (pre.length + 1 > j), (pre.length + 1, true), h2) ∧ P (pre ++ [v]) h2 := by
        unfold sliceTo
        by_cases hp : pre.length ≥ i
        · obtain ⟨h2, idr2, k1, k2, k3, k4⟩ := push_spec (v := v) g1
          refine ⟨h2, by simp [hp, k1], idr2, ?_, ?_, ?_⟩
          · rw [List.drop_append_of_le_length hp]; exact k2
          · exact g2.trans k3 (fun x hx hlt => by have := g3 x hx; simp; omega)
          · intro x hx
            rcases k4 x hx with h' | h'
            · exact g3 x h'
            · have := g2.n; omega
        · refine ⟨h1, by simp [hp], idr', ?_, g2, g3⟩
          rw [List.drop_eq_nil_of_le (by simp; omega)]
          rwa [List.drop_eq_nil_of_le (by omega)] at g1
      obtain ⟨h2, k1, k2⟩ := key
      rw [k1]
      by_cases hs : pre.length + 1 > j
      · right
        refine ⟨by simpa using hs, rfl, ?_⟩
        have : l.take (j + 1) = pre ++ [v] := by
          rw [ht, show j + 1 = (pre ++ [v]).length by simp; omega, show pre ++ v :: suf = (pre ++ [v]) ++ suf by simp, List.take_left]
        simp only [this]; exact k2
      · left
        exact ⟨by simpa using hs, by simp, by simp; omega, k2⟩)
    (by
      rintro pre s h1 ⟨_, _, idr', g1, g2, g3⟩ x hx
      exact g2.cell x (hh'.bound x hx) (by simp; rintro rfl; exact hnn hx))
    (0, true) ⟨rfl, Nat.zero_le _, [h.n], by simpa using m1, Frame.refl _ _, by simp⟩
  · have := hI.2.1; omega
  · obtain ⟨hs, idr', g1, g2, g3⟩ := hJ
    obtain ⟨i', b⟩ := s'
    simp only at hs; subst hs
    exact ⟨h.n, h', idr', by simp [e], g1, m2.trans g2 (by simp), g3⟩

/-! ### Clients -/

/-- The variables hold sequences, in storage of their own. -/
def Rep (st : State) (ls : List (List Nat)) : Prop :=
  st.vars.length = ls.length ∧ ∃ F : Nat → List Nat,
    (∀ x a l, st.vars[x]? = some a → ls[x]? = some l → Holds st.heap a l (F x)) ∧
    ∀ x y, x < ls.length → y < ls.length → x ≠ y → ∀ k ∈ F x, k ∉ F y

/-- One variable gets a new value. -/
theorem Rep.update {st : State} {ls : List (List Nat)} {F : Nat → List Nat}
    (hlen : st.vars.length = ls.length)
    (hF : ∀ x a l, st.vars[x]? = some a → ls[x]? = some l → Holds st.heap a l (F x))
    (hd : ∀ x y, x < ls.length → y < ls.length → x ≠ y → ∀ k ∈ F x, k ∉ F y)
    {x a' : Nat} {l' ids' : List Nat} {h' : Heap} (hx : x < ls.length) (hh : Holds h' a' l' ids') (hf : Frame st.heap h' (F x))
    (hi : ∀ k ∈ ids', k ∈ F x ∨ st.heap.n ≤ k) : Rep ⟨h', st.vars.set x a'⟩ (ls.set x l') := by
  have bound : ∀ y, y < ls.length → ∀ k ∈ F y, k < st.heap.n := fun y hy k hk =>
    (hF y _ _ (by simp [hlen, hy]; rfl) (by simp [hy]; rfl)).bound k hk
  refine ⟨by simpa using hlen, fun y => if y = x then ids' else F y, ?_, ?_⟩
  · intro y a l hy hl
    by_cases hyx : y = x
    · subst hyx
      rw [List.getElem?_set_self (by omega)] at hy hl
      cases hy; cases hl
      simpa using hh
    · rw [List.getElem?_set_ne (Ne.symm hyx)] at hy hl
      simp only [if_neg hyx]
      have hyl : y < ls.length := (List.getElem?_eq_some_iff.1 hl).1
      exact (hF y a l hy hl).frame' hf (hd y x hyl hx hyx)
  · intro y z hy hz hyz k hk
    simp only [List.length_set] at hy hz
    dsimp only at hk ⊢
    by_cases hyx : y = x
    · subst hyx
      rw [if_pos rfl] at hk
      rw [if_neg (Ne.symm hyz)]
      rcases hi k hk with h1 | h1
      · exact hd y z hy hz hyz k h1
      · intro h2; have := bound z hz k h2; omega
    · rw [if_neg hyx] at hk
      split
      · next hzx =>
        subst hzx
        intro h2
        rcases hi k h2 with h1 | h1
        · exact hd y z hy hz hyz k hk h1
        · have := bound y hy k hk; omega
      · exact hd y z hy hz hyz k hk

/-- A new variable. -/
theorem Rep.new {st : State} {ls : List (List Nat)} (hr : Rep st ls) {a' : Nat} {l' ids' : List Nat} {h' : Heap} (hh : Holds h' a' l' ids')
    (hf : Frame st.heap h' []) (hi : ∀ k ∈ ids', st.heap.n ≤ k) : Rep ⟨h', st.vars ++ [a']⟩ (ls ++ [l']) := by
  obtain ⟨hlen, F, hF, hd⟩ := hr
  have bound : ∀ y, y < ls.length → ∀ k ∈ F y, k < st.heap.n := fun y hy k hk =>
    (hF y _ _ (by simp [hlen, hy]; rfl) (by simp [hy]; rfl)).bound k hk
  refine ⟨by simpa using hlen, fun y => if y = ls.length then ids' else F y, ?_, ?_⟩
  · intro y a l hy hl
    by_cases hyx : y = ls.length
    · subst hyx
      simp only [if_true]
      rw [List.getElem?_append_right (by omega)] at hy hl
      simp [hlen] at hy hl
      subst hy hl; exact hh
    · simp only [if_neg hyx]
      have hyl : y < ls.length := by
        have := (List.getElem?_eq_some_iff.1 hl).1
        simp at this; omega
      rw [List.getElem?_append_left (by omega)] at hy hl
      exact (hF y a l hy hl).frame' hf (by simp)
  · intro y z hy hz hyz k hk
    simp only [List.length_append, List.length_singleton] at hy hz
    dsimp only at hk ⊢
    by_cases hyx : y = ls.length
    · rw [if_pos hyx] at hk
      rw [if_neg (by omega)]
      intro h2; have := bound z (by omega) k h2; have := hi k hk; omega
    · rw [if_neg hyx] at hk
      split
      · next hzx => intro h2; have := bound y (by omega) k hk; have := hi k h2; omega
      · exact hd y z (by omega) (by omega) hyz k hk

theorem vars_some {st : State} {ls : List (List Nat)} (hlen : st.vars.length = ls.length) {x : Nat} {l : List Nat} (hl : ls[x]? = some l) :
    ∃ a, st.vars[x]? = some a ∧ x < ls.length := by
  have hx := (List.getElem?_eq_some_iff.1 hl).1
  exact ⟨st.vars[x], by simp [hlen, hx], hx⟩

theorem set_getElem (l : List Nat) (x a : Nat) (h : l[x]? = some a) : l.set x a = l := by
  apply List.ext_getElem?
  intro i
  rw [List.getElem?_set]
  split
  · next e => subst e; rw [h]; simp [(List.getElem?_eq_some_iff.1 h).1]
  · rfl

theorem step_spec {st : State} {ls ls' : List (List Nat)} (hr : Rep st ls) (op : Op) (hs : Spec.step ls op = some ls')
    (hbad : Spec.deletesFirstOfTwo ls op = false) : ∃ st', step st op = some st' ∧ Rep st' ls' := by
  have hr' := hr
  obtain ⟨hlen, F, hF, hd⟩ := hr
  cases op with
  | new =>
    cases hs
    obtain ⟨m1, m2, m3, m4⟩ := make_spec st.heap
    exact ⟨⟨(make st.heap).2, st.vars ++ [st.heap.n]⟩, rfl, hr'.new m1 m2 (by simp)⟩
  | push x v =>
    simp only [Spec.step, Option.bind_eq_bind, Option.bind_eq_some_iff] at hs
    obtain ⟨l, hl, hs⟩ := hs
    cases hs
    obtain ⟨a, ha, hx⟩ := vars_some hlen hl
    obtain ⟨h', ids', e1, e2, e3, e4⟩ := push_spec (v := v) (hF x a l ha hl)
    refine ⟨⟨h', st.vars⟩, by simp [step, ha, e1], ?_⟩
    have := Rep.update hlen hF hd hx e2 e3 e4
    rwa [set_getElem _ _ _ ha] at this
  | prepend x v =>
    simp only [Spec.step, Option.bind_eq_bind, Option.bind_eq_some_iff] at hs
    obtain ⟨l, hl, hs⟩ := hs
    cases hs
    obtain ⟨a, ha, hx⟩ := vars_some hlen hl
    obtain ⟨p, h', ids', e1, e2, e3, e4⟩ := prepend_spec (v := v) (hF x a l ha hl)
    exact ⟨⟨h', st.vars.set x p⟩, by simp [step, ha, e1], Rep.update hlen hF hd hx e2 e3 e4⟩
  | extend x y =>
    simp only [Spec.step, Option.bind_eq_bind, Option.bind_eq_some_iff] at hs
    obtain ⟨l, hl, m, hm, hs⟩ := hs
    cases hs
    obtain ⟨a, ha, hx⟩ := vars_some hlen hl
    obtain ⟨b, hb, hy⟩ := vars_some hlen hm
    obtain ⟨h', ids', e1, e2, e3, e4⟩ := extend_spec (hF x a l ha hl) (hF y b m hb hm)
    refine ⟨⟨h', st.vars⟩, by simp [step, ha, hb, e1], ?_⟩
    have := Rep.update hlen hF hd hx e2 e3 e4
    rwa [set_getElem _ _ _ ha] at this
  | dup x =>
    simp only [Spec.step, Option.bind_eq_bind, Option.bind_eq_some_iff] at hs
    obtain ⟨l, hl, hs⟩ := hs
    cases hs
    obtain ⟨a, ha, hx⟩ := vars_some hlen hl
    obtain ⟨r, h', ids', e1, e2, e3, e4⟩ := dup_spec (hF x a l ha hl)
    exact ⟨⟨h', st.vars ++ [r]⟩, by simp [step, ha, e1], hr'.new e2 e3 e4⟩
  | set x i v =>
    simp only [Spec.step, Option.bind_eq_bind, Option.bind_eq_some_iff] at hs
    obtain ⟨l, hl, hs⟩ := hs
    split at hs
    · next hi =>
      cases hs
      obtain ⟨a, ha, hx⟩ := vars_some hlen hl
      obtain ⟨h', e1, e2, e3⟩ := set_spec (v := v) (hF x a l ha hl) hi
      refine ⟨⟨h', st.vars⟩, by simp [step, ha, e1], ?_⟩
      have := Rep.update hlen hF hd hx e2 e3 (fun k hk => Or.inl hk)
      rwa [set_getElem _ _ _ ha] at this
    · cases hs
  | del x i =>
    simp only [Spec.step, Option.bind_eq_bind, Option.bind_eq_some_iff] at hs
    obtain ⟨l, hl, hs⟩ := hs
    split at hs
    · next hi =>
      cases hs
      obtain ⟨a, ha, hx⟩ := vars_some hlen hl
      obtain ⟨h', ids', e1, e2, e3, e4⟩ := del_spec (hF x a l ha hl) hi (by
        rintro rfl h2
        simp [Spec.deletesFirstOfTwo, hl, h2] at hbad)
      refine ⟨⟨h', st.vars⟩, by simp [step, ha, e1], ?_⟩
      have := Rep.update hlen hF hd hx e2 e3 (fun k hk => Or.inl (e4 k hk))
      rwa [set_getElem _ _ _ ha] at this
    · cases hs
  | pop x =>
    simp only [Spec.step, Option.bind_eq_bind, Option.bind_eq_some_iff] at hs
    obtain ⟨l, hl, hs⟩ := hs
    split at hs
    · next hi =>
      cases hs
      obtain ⟨a, ha, hx⟩ := vars_some hlen hl
      obtain ⟨h', ids', v, _, e1, e2, e3, e4⟩ := pop_spec (hF x a l ha hl) hi
      refine ⟨⟨h', st.vars⟩, by simp [step, ha, e1], ?_⟩
      have := Rep.update hlen hF hd hx e2 e3 (fun k hk => Or.inl (e4 k hk))
      rwa [set_getElem _ _ _ ha] at this
    · cases hs
  | slice x i j =>
    simp only [Spec.step, Option.bind_eq_bind, Option.bind_eq_some_iff] at hs
    obtain ⟨l, hl, hs⟩ := hs
    split at hs
    · next hi =>
      cases hs
      obtain ⟨a, ha, hx⟩ := vars_some hlen hl
      obtain ⟨r, h', ids', e1, e2, e3, e4⟩ := slice_spec (hF x a l ha hl) hi.1 hi.2
      exact ⟨⟨h', st.vars ++ [r]⟩, by simp [step, ha, e1], hr'.new e2 e3 e4⟩
    · cases hs

theorem run_spec : ∀ (ops : List Op) {st : State} {ls ls' : List (List Nat)}, Rep st ls → Spec.run ls ops = some ls' →
    Spec.Avoids ls ops → ∃ st', run st ops = some st' ∧ Rep st' ls' := by
  intro ops
  induction ops with
  | nil => intro st ls ls' hr hs _; cases hs; exact ⟨st, rfl, hr⟩
  | cons op ops ih =>
    intro st ls ls' hr hs ha
    simp only [Spec.run, Option.bind_eq_bind, Option.bind_eq_some_iff] at hs
    obtain ⟨l1, h1, h2⟩ := hs
    obtain ⟨st1, e1, e2⟩ := step_spec hr op h1 ha.1
    obtain ⟨st2, e3, e4⟩ := ih e2 h2 (ha.2 _ h1)
    exact ⟨st2, by simp [run, e1, e3], e4⟩

end Muon.Arr
