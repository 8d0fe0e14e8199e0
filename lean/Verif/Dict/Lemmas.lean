import Verif.Dict.Spec
import Verif.Hash.Lemmas
/-
Lemmas about dictionaries.
-/
namespace Muon.Dict
open Muon

/-- A function changed at one place. -/
def upd {α : Type} (f : Nat → α) (d : Nat) (x : α) : Nat → α := fun y => if y = d then x else f y

theorem upd_same {α : Type} (f : Nat → α) (d : Nat) (x : α) : upd f d x d = x := if_pos rfl
theorem upd_other {α : Type} (f : Nat → α) (d : Nat) (x : α) (y : Nat) (h : y ≠ d) : upd f d x y = f y := if_neg h

/-- The elements or the hash table a dictionary is made of. -/
structure Foot where
  elems : List Nat
  tab : Option Nat

/-- The map that a list of key objects and values stands for. -/
def view (env : Env) (ps : List (Nat × Nat)) : Spec.Map := ps.map fun p => (env.str p.1, p.2)

/-- `es` are the elements met following `next` from `a` up to `b`. -/
def Seg (h : Heap) : Nat → List Nat → Nat → Prop
  | a, [], b => a = b
  | a, e :: es, b => a = e ∧ Seg h (h.elem e).next es b

/-- The key and value of an element. -/
def pair (h : Heap) (e : Nat) : Nat × Nat := ((h.elem e).key, (h.elem e).val)

/-- The test for a key. -/
def isKey (env : Env) (k : Bytes) (p : Nat × Nat) : Bool := env.str p.1 == k

structure OwnsSmall (h : Heap) (o : Obj) (ps : List (Nat × Nat)) (f : Foot) : Prop where
  tab : f.tab = none
  seg : Seg h o.data f.elems 0
  nodup : f.elems.Nodup
  lt : ∀ e ∈ f.elems, 0 < e ∧ e < h.nElems
  pairs : f.elems.map (pair h) = ps
  tail : f.elems ≠ [] → f.elems.getLast? = some o.tail

structure OwnsBig (env : Env) (h : Heap) (o : Obj) (ps : List (Nat × Nat)) (f : Foot) : Prop where
  elems : f.elems = []
  tab : f.tab = some o.data
  lt : o.data < h.nHashes
  ne : ps ≠ []
  inv : Hash.Inv env.fnv (h.hash o.data) (fun k => ps.find? (isKey env k))
  keys : (h.hash o.data).keys.toList = ps.map fun p => env.str p.1
  len : (h.hash o.data).len = ps.length

/-- Object `d` is a dictionary with the given keys and values. -/
structure Owns (env : Env) (h : Heap) (d : Nat) (ps : List (Nat × Nat)) (f : Foot) : Prop where
  len : (h.obj d).len = ps.length
  nodup : (ps.map fun p => env.str p.1).Nodup
  small : (h.obj d).big = false → OwnsSmall h (h.obj d) ps f
  big : (h.obj d).big = true → OwnsBig env h (h.obj d) ps f

/-- All dictionaries are well formed and do not share anything. -/
structure Good (env : Env) (h : Heap) (F : Nat → Foot) (P : Nat → List (Nat × Nat)) : Prop where
  owns : ∀ d < h.nObjs, Owns env h d (P d) (F d)
  disj : ∀ d < h.nObjs, ∀ d' < h.nObjs, d ≠ d' → (∀ e ∈ (F d).elems, e ∉ (F d').elems) ∧ ∀ t, (F d).tab = some t → (F d').tab ≠ some t
  pos : 0 < h.nElems

theorem seg_append (h : Heap) : ∀ (xs ys : List Nat) (a b : Nat), Seg h a (xs ++ ys) b ↔ ∃ m, Seg h a xs m ∧ Seg h m ys b
  | [], ys, a, b => by simp [Seg]
  | x :: xs, ys, a, b => by simp [Seg, seg_append h xs ys, and_assoc]

theorem seg_congr (h h' : Heap) : ∀ (es : List Nat) (a b : Nat), (∀ e ∈ es, (h'.elem e).next = (h.elem e).next) → Seg h a es b → Seg h' a es b
  | [], _, _, _, s => s
  | e :: es, a, b, he, s => ⟨s.1, by
      rw [he e List.mem_cons_self]
      exact seg_congr h h' es _ b (fun x hx => he x (List.mem_cons_of_mem _ hx)) s.2⟩

theorem frameSmall {h h' : Heap} {o : Obj} {ps : List (Nat × Nat)} {f : Foot} (s : OwnsSmall h o ps f)
    (he : ∀ e ∈ f.elems, h'.elem e = h.elem e) (hn : h.nElems ≤ h'.nElems) : OwnsSmall h' o ps f where
  tab := s.tab
  seg := seg_congr h h' _ _ _ (fun e hm => by rw [he e hm]) s.seg
  nodup := s.nodup
  lt := fun e hm => ⟨(s.lt e hm).1, Nat.lt_of_lt_of_le (s.lt e hm).2 hn⟩
  pairs := by
    rw [← s.pairs]
    exact List.map_congr_left fun e hm => by simp [pair, he e hm]
  tail := s.tail

theorem frameBig {env : Env} {h h' : Heap} {o : Obj} {ps : List (Nat × Nat)} {f : Foot} (s : OwnsBig env h o ps f)
    (he : h'.hash o.data = h.hash o.data) (hn : h.nHashes ≤ h'.nHashes) : OwnsBig env h' o ps f where
  elems := s.elems
  tab := s.tab
  lt := Nat.lt_of_lt_of_le s.lt hn
  ne := s.ne
  inv := by rw [he]; exact s.inv
  keys := by rw [he]; exact s.keys
  len := by rw [he]; exact s.len

/-- Changing one dictionary leaves the others alone. -/
theorem good_update {env : Env} {h h' : Heap} {F : Nat → Foot} {P : Nat → List (Nat × Nat)} (g : Good env h F P) (d : Nat)
    (ps : List (Nat × Nat)) (f : Foot) (hobjs : h'.nObjs = h.nObjs) (ho : Owns env h' d ps f)
    (hobj : ∀ d', d' ≠ d → h'.obj d' = h.obj d')
    (helem : ∀ e < h.nElems, e ∉ (F d).elems → h'.elem e = h.elem e) (hen : h.nElems ≤ h'.nElems)
    (hhash : ∀ t < h.nHashes, (F d).tab ≠ some t → h'.hash t = h.hash t) (hhn : h.nHashes ≤ h'.nHashes)
    (fe : ∀ e ∈ f.elems, e ∈ (F d).elems ∨ h.nElems ≤ e) (ft : ∀ t, f.tab = some t → (F d).tab = some t ∨ h.nHashes ≤ t)
    (hd : d < h.nObjs) :
    Good env h' (upd F d f) (upd P d ps) := by
  have elt : ∀ d' < h.nObjs, ∀ e ∈ (F d').elems, e < h.nElems := by
    intro d' h1 e he
    cases hb : (h.obj d').big with
    | false => exact (((g.owns d' h1).small hb).lt e he).2
    | true => rw [((g.owns d' h1).big hb).elems] at he; cases he
  have tlt : ∀ d' < h.nObjs, ∀ t, (F d').tab = some t → t < h.nHashes := by
    intro d' h1 t ht
    cases hb : (h.obj d').big with
    | false => rw [((g.owns d' h1).small hb).tab] at ht; cases ht
    | true =>
      have := ((g.owns d' h1).big hb).tab
      rw [this] at ht
      rw [← Option.some.inj ht]
      exact ((g.owns d' h1).big hb).lt
  constructor
  · intro d' h1
    rw [hobjs] at h1
    by_cases e : d' = d
    · rw [e, upd_same, upd_same]; exact ho
    · rw [upd_other _ _ _ _ e, upd_other _ _ _ _ e]
      have hdj := g.disj d' h1 d hd e
      have o := g.owns d' h1
      refine ⟨by rw [hobj d' e]; exact o.len, o.nodup, ?_, ?_⟩
      · rw [hobj d' e]
        intro hb
        exact frameSmall (o.small hb) (fun x hx => helem x (elt d' h1 x hx) (hdj.1 x hx)) hen
      · rw [hobj d' e]
        intro hb
        refine frameBig (o.big hb) (hhash _ (o.big hb).lt (hdj.2 _ (o.big hb).tab)) hhn
  · intro a ha b hb hab
    rw [hobjs] at ha hb
    by_cases ea : a = d
    · have eb : b ≠ d := fun h => hab (ea.trans h.symm)
      rw [ea, upd_same, upd_other _ _ _ _ eb]
      have hdj := g.disj d hd b hb (fun h => eb h.symm)
      constructor
      · intro e he
        rcases fe e he with h1 | h1
        · exact hdj.1 e h1
        · intro h2
          exact absurd (elt b hb e h2) (by omega)
      · intro t ht
        rcases ft t ht with h1 | h1
        · exact hdj.2 t h1
        · intro h2
          exact absurd (tlt b hb t h2) (by omega)
    · rw [upd_other _ _ _ _ ea]
      by_cases eb : b = d
      · rw [eb, upd_same]
        have hdj := g.disj d hd a ha (fun h => ea h.symm)
        constructor
        · intro e he h2
          rcases fe e h2 with h1 | h1
          · exact hdj.1 e h1 he
          · exact absurd (elt a ha e he) (by omega)
        · intro t ht h2
          rcases ft t h2 with h1 | h1
          · exact hdj.2 t h1 ht
          · exact absurd (tlt a ha t ht) (by omega)
      · rw [upd_other _ _ _ _ eb]
        exact g.disj a ha b hb hab
  · exact Nat.lt_of_lt_of_le g.pos hen

/-- A new dictionary. -/
theorem good_make {env : Env} {h : Heap} {F : Nat → Foot} {P : Nat → List (Nat × Nat)} (g : Good env h F P) :
    Good env (make h).2 (upd F h.nObjs ⟨[], none⟩) (upd P h.nObjs []) := by
  constructor
  · intro d hd
    have hd : d < h.nObjs + 1 := hd
    by_cases e : d = h.nObjs
    · rw [e, upd_same, upd_same]
      have : ((make h).2.obj h.nObjs) = {} := if_pos rfl
      constructor
      · rw [this]; rfl
      · exact List.nodup_nil
      · intro _
        rw [this]
        exact ⟨rfl, rfl, List.nodup_nil, fun _ h => (by cases h), rfl, fun h => absurd rfl h⟩
      · rw [this]
        intro h; cases h
    · rw [upd_other _ _ _ _ e, upd_other _ _ _ _ e]
      have o := g.owns d (by omega)
      have eo : (make h).2.obj d = h.obj d := if_neg e
      refine ⟨by rw [eo]; exact o.len, o.nodup, ?_, ?_⟩
      · rw [eo]; intro hb; exact frameSmall (o.small hb) (fun _ _ => rfl) (Nat.le_refl _)
      · rw [eo]; intro hb; exact frameBig (o.big hb) rfl (Nat.le_refl _)
  · intro a ha b hb hab
    have ha : a < h.nObjs + 1 := ha
    have hb : b < h.nObjs + 1 := hb
    by_cases ea : a = h.nObjs
    · rw [ea, upd_same]; exact ⟨fun _ h => (by cases h), fun _ h => (by cases h)⟩
    · rw [upd_other _ _ _ _ ea]
      by_cases eb : b = h.nObjs
      · rw [eb, upd_same]; exact ⟨fun _ _ h => (by cases h), fun _ _ h => (by cases h)⟩
      · rw [upd_other _ _ _ _ eb]; exact g.disj a (by omega) b (by omega) hab
  · exact g.pos

/-! ### Searching -/

theorem find_seg (env : Env) (h : Heap) (k : Bytes) : ∀ (es : List Nat) (a fuel : Nat), es ≠ [] → Seg h a es 0 → (∀ e ∈ es, 0 < e) →
    es.length ≤ fuel → find env h k fuel a = some (es.find? fun e => isKey env k (pair h e))
  | [], _, _, h0, _, _, _ => absurd rfl h0
  | e :: es, a, 0, _, _, _, hf => absurd hf (by simp)
  | e :: es, a, fuel + 1, _, s, hp, hf => by
    have : a = e := s.1
    subst this
    unfold find
    by_cases hk : env.str (h.elem a).key = k
    · rw [if_pos hk, List.find?_cons_of_pos (by simp [isKey, pair, hk])]
    · rw [if_neg hk, List.find?_cons_of_neg (by simp [isKey, pair, hk])]
      cases es with
      | nil =>
        have : (h.elem a).next = 0 := s.2
        rw [if_pos this]; rfl
      | cons b bs =>
        have hb : (h.elem a).next = b := s.2.1
        have : b ≠ 0 := by have := hp b (by simp); omega
        rw [if_neg (by rw [hb]; exact this)]
        exact find_seg env h k (b :: bs) _ fuel (by simp) s.2 (fun e he => hp e (List.mem_cons_of_mem _ he)) (by simpa using hf)

theorem length_le {h : Heap} {o : Obj} {ps : List (Nat × Nat)} {f : Foot} (s : OwnsSmall h o ps f) : f.elems.length ≤ h.nElems := by
  have : f.elems ⊆ List.range h.nElems := fun e he => List.mem_range.2 (s.lt e he).2
  have := s.nodup.length_le_of_subset this
  simpa using this

theorem get_view (env : Env) (ps : List (Nat × Nat)) (k : Bytes) : Spec.get (view env ps) k = (ps.find? (isKey env k)).map (·.2) := by
  unfold Spec.get view
  rw [List.find?_map]
  cases h : List.find? ((fun x => x.1 == k) ∘ fun p : Nat × Nat => (env.str p.1, p.2)) ps with
  | none =>
    have : List.find? (isKey env k) ps = none := h
    rw [this]; rfl
  | some p =>
    have : List.find? (isKey env k) ps = some p := h
    rw [this]; rfl

/-- Looking up a key. -/
theorem index_ok {env : Env} {h : Heap} {d : Nat} {ps : List (Nat × Nat)} {f : Foot} (o : Owns env h d ps f) (k : Bytes) :
    index env h d k = some (Spec.get (view env ps) k) := by
  rw [get_view]
  unfold index
  by_cases hl : (h.obj d).len = 0
  · rw [if_pos hl]
    have : ps = [] := List.length_eq_zero_iff.1 (by rw [← o.len]; exact hl)
    rw [this]; rfl
  · rw [if_neg hl]
    have hne : ps ≠ [] := fun e => hl (by rw [o.len, e]; rfl)
    cases hb : (h.obj d).big with
    | true =>
      have b := o.big hb
      rw [if_pos rfl, Hash.get_eq env.fnv _ b.inv.wf b.inv.used_lt _ b.inv.rep]
      rfl
    | false =>
      have s := o.small hb
      rw [if_neg (by simp)]
      have hes : f.elems ≠ [] := fun e => hne (by rw [← s.pairs, e]; rfl)
      rw [find_seg env h k f.elems _ _ hes s.seg (fun e he => (s.lt e he).1) (length_le s)]
      rw [← s.pairs, List.find?_map]
      have e1 : (isKey env k ∘ pair h) = fun e => isKey env k (pair h e) := rfl
      rw [e1]
      cases List.find? (fun e => isKey env k (pair h e)) f.elems with
      | none => rfl
      | some e => rfl

/-! ### Setting -/

theorem inj_of_nodup {α β : Type} (f : α → β) : ∀ (l : List α), (l.map f).Nodup → ∀ x ∈ l, ∀ y ∈ l, f x = f y → x = y
  | [], _, x, hx, _, _, _ => absurd hx (by simp)
  | a :: l, hn, x, hx, y, hy, e => by
    rw [List.map_cons, List.nodup_cons] at hn
    rcases List.mem_cons.1 hx with h1 | h1 <;> rcases List.mem_cons.1 hy with h2 | h2
    · rw [h1, h2]
    · exact absurd (List.mem_map.2 ⟨y, h2, by rw [← e, h1]⟩) hn.1
    · exact absurd (List.mem_map.2 ⟨x, h1, by rw [e, h2]⟩) hn.1
    · exact inj_of_nodup f l hn.2 x h1 y h2 e

theorem view_map (env : Env) (ps : List (Nat × Nat)) (k : Bytes) (v : Nat) (g : Nat × Nat → Nat × Nat)
    (hg : ∀ p, env.str p.1 = k → env.str (g p).1 = k ∧ (g p).2 = v) (hg' : ∀ p, env.str p.1 ≠ k → g p = p)
    (hs : (ps.find? (isKey env k)).isSome) : view env (ps.map g) = Spec.set (view env ps) k v := by
  have h1 : (Spec.get (view env ps) k).isSome := by
    rw [get_view]
    cases h : List.find? (isKey env k) ps with
    | none => rw [h] at hs; cases hs
    | some p => rfl
  unfold Spec.set
  rw [if_pos h1]
  unfold view
  rw [List.map_map, List.map_map]
  apply List.map_congr_left
  intro p _
  by_cases e : env.str p.1 = k
  · simp only [Function.comp, e, if_true]
    rw [(hg p e).1, (hg p e).2]
  · simp only [Function.comp, e, if_false, hg' p e]

theorem view_push (env : Env) (ps : List (Nat × Nat)) (key v : Nat) (hs : ps.find? (isKey env (env.str key)) = none) :
    view env (ps ++ [(key, v)]) = Spec.set (view env ps) (env.str key) v := by
  unfold Spec.set
  rw [get_view, hs]
  simp [view]

theorem keys_map (env : Env) (ps : List (Nat × Nat)) (k : Bytes) (g : Nat × Nat → Nat × Nat)
    (hg : ∀ p, env.str p.1 = k → env.str (g p).1 = k) (hg' : ∀ p, env.str p.1 ≠ k → g p = p) :
    (ps.map g).map (fun p => env.str p.1) = ps.map fun p => env.str p.1 := by
  rw [List.map_map]
  apply List.map_congr_left
  intro p _
  by_cases e : env.str p.1 = k
  · simp only [Function.comp]; rw [hg p e, e]
  · simp only [Function.comp]; rw [hg' p e]

theorem keys_push (env : Env) (ps : List (Nat × Nat)) (key v : Nat) (hn : (ps.map fun p => env.str p.1).Nodup)
    (hs : ps.find? (isKey env (env.str key)) = none) : ((ps ++ [(key, v)]).map fun p => env.str p.1).Nodup := by
  rw [List.map_append, List.nodup_append]
  refine ⟨hn, by simp, ?_⟩
  intro a ha b hb
  rw [List.find?_eq_none] at hs
  simp only [List.map_cons, List.map_nil, List.mem_singleton] at hb
  obtain ⟨p, hp, rfl⟩ := List.mem_map.1 ha
  have := hs p hp
  simp only [isKey, beq_iff_eq] at this
  rw [hb]; exact this

theorem find_map_key (env : Env) (ps : List (Nat × Nat)) (key v : Nat) (x : Bytes) (hs : (ps.find? (isKey env (env.str key))).isSome) :
    (ps.map fun p => if env.str p.1 = env.str key then (key, v) else p).find? (isKey env x) =
      if x = env.str key then some (key, v) else ps.find? (isKey env x) := by
  induction ps with
  | nil => cases hs
  | cons p ps ih =>
    by_cases hk : env.str p.1 = env.str key
    · rw [List.map_cons, if_pos hk]
      by_cases hx : x = env.str key
      · rw [if_pos hx, List.find?_cons_of_pos (by simp [isKey, hx])]
      · rw [if_neg hx, List.find?_cons_of_neg (by simpa [isKey] using fun h => hx h.symm),
          List.find?_cons_of_neg (by simpa [isKey, hk] using fun h => hx h.symm)]
        cases h2 : (ps.find? (isKey env (env.str key))).isSome with
        | true => rw [ih h2, if_neg hx]
        | false =>
          have : ps.map (fun p => if env.str p.1 = env.str key then (key, v) else p) = ps := by
            have h3 : List.find? (isKey env (env.str key)) ps = none := by simpa using h2
            rw [List.find?_eq_none] at h3
            conv => rhs; rw [← List.map_id ps]
            apply List.map_congr_left
            intro q hq
            have := h3 q hq
            rw [if_neg (by simpa [isKey] using this)]; rfl
          rw [this]
    · rw [List.find?_cons_of_neg (by simpa [isKey] using hk)] at hs
      rw [List.map_cons, if_neg hk]
      by_cases hx : env.str p.1 = x
      · rw [List.find?_cons_of_pos (by simp [isKey, hx]), List.find?_cons_of_pos (by simp [isKey, hx]),
          if_neg (fun h => hk (hx.trans h))]
      · rw [List.find?_cons_of_neg (by simpa [isKey] using hx), List.find?_cons_of_neg (by simpa [isKey] using hx)]
        exact ih hs

theorem find_push_key (env : Env) (ps : List (Nat × Nat)) (key v : Nat) (x : Bytes) (hs : ps.find? (isKey env (env.str key)) = none) :
    (ps ++ [(key, v)]).find? (isKey env x) = if x = env.str key then some (key, v) else ps.find? (isKey env x) := by
  rw [List.find?_append]
  by_cases hx : x = env.str key
  · rw [if_pos hx, hx, hs]; simp [isKey]
  · rw [if_neg hx]
    have : List.find? (isKey env x) [(key, v)] = none := by
      rw [List.find?_cons_of_neg (by simpa [isKey] using fun h => hx h.symm)]; rfl
    rw [this]; simp

/-- The first element of an empty dictionary. -/
theorem set_empty {env : Env} {h : Heap} {F : Nat → Foot} {P : Nat → List (Nat × Nat)} (g : Good env h F P) {d : Nat} (hd : d < h.nObjs)
    (key v : Nat) (hl : (h.obj d).len = 0) :
    ∃ h' f' ps', set env h d key v = some h' ∧ Good env h' (upd F d f') (upd P d ps') ∧
      view env ps' = Spec.set (view env (P d)) (env.str key) v ∧ h'.nObjs = h.nObjs ∧ (h'.obj d).big = (h.obj d).big := by
  have o := g.owns d hd
  have hp : P d = [] := List.length_eq_zero_iff.1 (by rw [← o.len]; exact hl)
  have hb : (h.obj d).big = false := by
    cases hb : (h.obj d).big with
    | false => rfl
    | true => exact absurd hp (o.big hb).ne
  unfold set
  rw [if_pos hl]
  refine ⟨_, ⟨[h.nElems], none⟩, [(key, v)], rfl, ?_, ?_, rfl, ?_⟩
  · apply good_update g d _ _ (by rfl) _ _ _ _ _ (by exact Nat.le_refl _) _ _ hd
    · have ho : ((h.pushElem { key, val := v }).setObj d { (h.pushElem { key, val := v }).obj d with data := h.nElems, tail := h.nElems, len := 1 }).obj d
          = { h.obj d with data := h.nElems, tail := h.nElems, len := 1 } := if_pos rfl
      have he : ((h.pushElem { key, val := v }).setObj d { (h.pushElem { key, val := v }).obj d with data := h.nElems, tail := h.nElems, len := 1 }).elem h.nElems
          = { key, val := v } := if_pos rfl
      constructor
      · rw [ho]; rfl
      · simp
      · rw [ho]
        intro _
        refine ⟨rfl, ⟨rfl, by rw [he]; rfl⟩, by simp, ?_, by simp [pair, he], fun _ => rfl⟩
        intro e hm
        have : e = h.nElems := by simpa using hm
        rw [this]
        exact ⟨g.pos, Nat.lt_succ_self _⟩
      · rw [ho]; intro h1; rw [hb] at h1; cases h1
    · intro d' h1; exact if_neg h1
    · intro e h1 _; exact if_neg (by omega)
    · exact Nat.le_succ _
    · intro t _ _; rfl
    · intro e hm
      have : e = h.nElems := by simpa using hm
      right; omega
    · intro t h1; cases h1
  · rw [hp]; rfl
  · show (if d = d then _ else _ : Obj).big = _
    rw [if_pos rfl]; rfl

/-- Storing in a hash table. -/
theorem setBig_ok {env : Env} {h : Heap} {F : Nat → Foot} {P : Nat → List (Nat × Nat)} (g : Good env h F P) {d : Nat} (hd : d < h.nObjs)
    (key v : Nat) (hb : (h.obj d).big = true) :
    ∃ h' f' ps', setBig env h d key v = some h' ∧ Good env h' (upd F d f') (upd P d ps') ∧
      view env ps' = Spec.set (view env (P d)) (env.str key) v ∧ h'.nObjs = h.nObjs := by
  have o := g.owns d hd
  have b := o.big hb
  unfold setBig
  dsimp only
  rw [Hash.get_eq env.fnv _ b.inv.wf b.inv.used_lt _ b.inv.rep]
  simp only [Option.bind_some]
  cases hf : (P d).find? (isKey env (env.str key)) with
  | some p =>
    have hs : ((P d).find? (isKey env (env.str key))).isSome := by rw [hf]; rfl
    dsimp only
    obtain ⟨i, ha, _⟩ := (b.inv.rep (env.str key) p).1 hf
    unfold poke
    rw [Hash.probe_present env.fnv _ b.inv.wf _ i ha]
    have pk := Hash.poke_ok env.fnv _ _ b.inv (env.str key) (key, v) i ha
    refine ⟨_, F d, (P d).map fun p => if env.str p.1 = env.str key then (key, v) else p, rfl, ?_, ?_, rfl⟩
    · apply good_update g d _ _ (by rfl) _ (by intros; rfl) (by intros; rfl) (by exact Nat.le_refl _) _ (by exact Nat.le_refl _) (by intro _ h; exact .inl h) (by intro _ h; exact .inl h) hd
      · have hh : (h.setHash (h.obj d).data (Hash.setSlot (h.hash (h.obj d).data) i ((h.hash (h.obj d).data).ctrl i) { (h.hash (h.obj d).data).elem i with val := (key, v) })).hash (h.obj d).data
            = Hash.setSlot (h.hash (h.obj d).data) i ((h.hash (h.obj d).data).ctrl i) { (h.hash (h.obj d).data).elem i with val := (key, v) } := if_pos rfl
        have hk := keys_map env (P d) (env.str key) (fun p => if env.str p.1 = env.str key then (key, v) else p)
          (fun p e => by rw [if_pos e]) (fun p e => if_neg e)
        constructor
        · rw [List.length_map]; exact o.len
        · rw [hk]; exact o.nodup
        · intro h1
          have h1 : (h.obj d).big = false := h1
          rw [hb] at h1; cases h1
        · intro _
          refine ⟨b.elems, b.tab, b.lt, fun h0 => b.ne (by simpa using h0), ?_, ?_, ?_⟩
          · show Hash.Inv env.fnv ((h.setHash _ _).hash (h.obj d).data) _
            rw [hh]
            have : (fun k => List.find? (isKey env k) (List.map (fun p => if env.str p.1 = env.str key then (key, v) else p) (P d)))
                = fun x => if x = env.str key then some (key, v) else (P d).find? (isKey env x) :=
              funext fun x => find_map_key env (P d) key v x hs
            rw [this]; exact pk
          · show ((h.setHash _ _).hash (h.obj d).data).keys.toList = _
            rw [hh, hk]; exact b.keys
          · show ((h.setHash _ _).hash (h.obj d).data).len = _
            rw [hh, List.length_map]; exact b.len
      · intro t _ h1
        exact if_neg fun e => h1 (by rw [b.tab, e])
    · exact view_map env (P d) (env.str key) v _ (fun p e => by rw [if_pos e]; exact ⟨rfl, rfl⟩) (fun p e => if_neg e) hs
  | none =>
    dsimp only
    obtain ⟨t, ht, tinv⟩ := Hash.set_ok env.fnv _ _ b.inv (env.str key) (key, v)
    have tk := Hash.set_keys env.fnv _ t _ b.inv (env.str key) (key, v) ht
    rw [hf] at tk
    simp only [Option.isSome_none, Bool.false_eq_true, if_false] at tk
    rw [ht]
    refine ⟨_, F d, P d ++ [(key, v)], rfl, ?_, view_push env (P d) key v hf, rfl⟩
    apply good_update g d _ _ (by rfl) _ _ (by intros; rfl) (by exact Nat.le_refl _) _ (by exact Nat.le_refl _) (by intro _ h; exact .inl h) (by intro _ h; exact .inl h) hd
    · have ho : ((h.setHash (h.obj d).data t).setObj d { (h.setHash (h.obj d).data t).obj d with len := t.len }).obj d = { h.obj d with len := t.len } := if_pos rfl
      have hh : ((h.setHash (h.obj d).data t).setObj d { (h.setHash (h.obj d).data t).obj d with len := t.len }).hash (h.obj d).data = t := if_pos rfl
      have tl : t.len = (P d ++ [(key, v)]).length := by rw [tk.2, b.len, List.length_append]; rfl
      constructor
      · rw [ho]; exact tl
      · exact keys_push env (P d) key v o.nodup hf
      · rw [ho]; intro h1
        have h1 : (h.obj d).big = false := h1
        rw [hb] at h1; cases h1
      · rw [ho]
        intro _
        refine ⟨b.elems, b.tab, b.lt, by simp, ?_, ?_, ?_⟩
        · show Hash.Inv env.fnv (Heap.hash _ (h.obj d).data) _
          rw [hh]
          have : (fun k => List.find? (isKey env k) (P d ++ [(key, v)]))
                = fun x => if x = env.str key then some (key, v) else (P d).find? (isKey env x) :=
              funext fun x => find_push_key env (P d) key v x hf
          rw [this]; exact tinv
        · show (Heap.hash _ (h.obj d).data).keys.toList = _
          rw [hh, tk.1, Array.toList_push, b.keys]; simp
        · show (Heap.hash _ (h.obj d).data).len = _
          rw [hh]; exact tl
    · intro d' h1; exact if_neg h1
    · intro t _ h1
      exact if_neg fun e => h1 (by rw [b.tab, e])

/-- Storing in a list. -/
theorem setSmall_ok {env : Env} {h : Heap} {F : Nat → Foot} {P : Nat → List (Nat × Nat)} (g : Good env h F P) {d : Nat} (hd : d < h.nObjs)
    (key v : Nat) (hb : (h.obj d).big = false) (hl : (h.obj d).len ≠ 0) :
    ∃ h' f' ps', setSmall env h d key v = some h' ∧ Good env h' (upd F d f') (upd P d ps') ∧
      view env ps' = Spec.set (view env (P d)) (env.str key) v ∧ h'.nObjs = h.nObjs ∧ (h'.obj d).big = false := by
  have o := g.owns d hd
  have s := o.small hb
  have hne : P d ≠ [] := fun e => hl (by rw [o.len, e]; rfl)
  have hes : (F d).elems ≠ [] := fun e => hne (by rw [← s.pairs, e]; rfl)
  unfold setSmall
  rw [find_seg env h (env.str key) (F d).elems _ _ hes s.seg (fun e he => (s.lt e he).1) (length_le s)]
  have hpf : (P d).find? (isKey env (env.str key)) = ((F d).elems.find? fun e => isKey env (env.str key) (pair h e)).map (pair h) := by
    conv => lhs; rw [← s.pairs, List.find?_map]
    rfl
  cases hf : (F d).elems.find? (fun e => isKey env (env.str key) (pair h e)) with
  | some e =>
    rw [hf] at hpf
    have hs : ((P d).find? (isKey env (env.str key))).isSome := by rw [hpf]; rfl
    have hem := List.mem_of_find?_eq_some hf
    have hek : env.str (h.elem e).key = env.str key := by
      have := List.find?_some hf
      simpa [isKey, pair] using this
    simp only [Option.map_some]
    refine ⟨_, F d, (P d).map fun p => if env.str p.1 = env.str key then (p.1, v) else p, rfl, ?_, ?_, rfl, hb⟩
    · apply good_update g d _ _ (by rfl) _ (by intros; rfl) _ (by exact Nat.le_refl _) (by intros; rfl) (by exact Nat.le_refl _) (by intro _ h; exact .inl h) (by intro _ h; exact .inl h) hd
      · have hk := keys_map env (P d) (env.str key) (fun p => if env.str p.1 = env.str key then (p.1, v) else p)
          (fun p e => by rw [if_pos e]; exact e) (fun p e => if_neg e)
        constructor
        · rw [List.length_map]; exact o.len
        · rw [hk]; exact o.nodup
        · intro _
          refine ⟨s.tab, seg_congr h _ _ _ _ ?_ s.seg, s.nodup, s.lt, ?_, s.tail⟩
          · intro x _
            show (if x = e then _ else _ : Elem).next = _
            by_cases hx : x = e
            · rw [if_pos hx, hx]
            · rw [if_neg hx]
          · conv => rhs; rw [← s.pairs, List.map_map]
            apply List.map_congr_left
            intro x hx
            have hxe : (h.setElem e { h.elem e with val := v }).elem x = if x = e then { h.elem e with val := v } else h.elem x := rfl
            show _ = if env.str (pair h x).1 = env.str key then ((pair h x).1, v) else pair h x
            unfold pair
            rw [hxe]
            by_cases he : x = e
            · rw [if_pos he, if_pos (by rw [he]; exact hek), he]
            · rw [if_neg he]
              have : env.str (h.elem x).key ≠ env.str key := by
                intro hxk
                apply he
                have nd := o.nodup
                rw [← s.pairs, List.map_map] at nd
                exact inj_of_nodup _ _ nd x hx e hem (hxk.trans hek.symm)
              rw [if_neg this]
        · intro h1
          have h1 : (h.obj d).big = true := h1
          rw [hb] at h1; cases h1
      · intro x _ hx
        exact if_neg fun e1 => hx (by rw [e1]; exact hem)
    · exact view_map env (P d) (env.str key) v _ (fun p e => by rw [if_pos e]; exact ⟨e, rfl⟩) (fun p e => if_neg e) hs
  | none =>
    rw [hf] at hpf
    have hpf : (P d).find? (isKey env (env.str key)) = none := hpf
    have ht := s.tail hes
    have htm : (h.obj d).tail ∈ (F d).elems := List.mem_of_getLast? ht
    have htl := s.lt _ htm
    simp only [Option.map_some]
    generalize hT : (h.obj d).tail = T at *
    have e1 : (h.pushElem { key, val := v }).obj d = h.obj d := rfl
    rw [e1, hT]
    refine ⟨_, ⟨(F d).elems ++ [h.nElems], none⟩, P d ++ [(key, v)], rfl, ?_, view_push env (P d) key v hpf, rfl, ?_⟩
    · generalize hh' : Heap.setObj _ d _ = h'
      have hT' : T ≠ h.nElems := by omega
      have eobj : ∀ d', h'.obj d' = if d' = d then { h.obj d with tail := h.nElems, len := (h.obj d).len + 1 } else h.obj d' := by
        intro d'; rw [← hh']; rfl
      have eelem : ∀ x, h'.elem x = if x = T then { h.elem T with next := h.nElems } else if x = h.nElems then { key, val := v } else h.elem x := by
        intro x; rw [← hh']
        show (if x = T then { (if T = h.nElems then _ else h.elem T : Elem) with next := h.nElems } else _ : Elem) = _
        rw [if_neg hT']; rfl
      have nO : h'.nObjs = h.nObjs := by rw [← hh']; rfl
      have nE : h'.nElems = h.nElems + 1 := by rw [← hh']; rfl
      have nH : h'.nHashes = h.nHashes := by rw [← hh']; rfl
      have eh : h'.hash = h.hash := by rw [← hh']; rfl
      apply good_update g d _ _ nO _ _ _ (by omega) (fun _ _ _ => by rw [eh]) (by omega) _ _ hd
      · constructor
        · rw [eobj, if_pos rfl, List.length_append]; simp [o.len]
        · exact keys_push env (P d) key v o.nodup hpf
        · intro _
          rw [eobj, if_pos rfl]
          obtain ⟨as, has⟩ := List.getLast?_eq_some_iff.1 ht
          have hsplit := s.seg
          rw [has, seg_append] at hsplit
          obtain ⟨m, s1, s2⟩ := hsplit
          have hnT : T ∉ as := by
            have nd := s.nodup
            rw [has, List.nodup_append] at nd
            exact fun h => nd.2.2 T h T (by simp) rfl
          refine ⟨rfl, ?_, ?_, ?_, ?_, fun _ => by simp⟩
          · show Seg h' (h.obj d).data ((F d).elems ++ [h.nElems]) 0
            rw [has, List.append_assoc, seg_append]
            refine ⟨m, seg_congr h h' as _ _ ?_ s1, ?_⟩
            · intro x hx
              have h1 : x ≠ T := fun e => hnT (e ▸ hx)
              have h2 : x ≠ h.nElems := by
                have := (s.lt x (by rw [has]; exact List.mem_append_left _ hx)).2
                omega
              rw [eelem, if_neg h1, if_neg h2]
            · refine ⟨s2.1, ?_, ?_⟩
              · rw [eelem, if_pos rfl]
              · rw [eelem, if_neg (fun e => hT' e.symm), if_pos rfl]; rfl
          · show ((F d).elems ++ [h.nElems]).Nodup
            rw [List.nodup_append]
            refine ⟨s.nodup, by simp, ?_⟩
            intro a ha b hb
            have := (s.lt a ha).2
            have : b = h.nElems := by simpa using hb
            omega
          · intro e he
            rcases List.mem_append.1 he with h1 | h1
            · have := s.lt e h1; omega
            · have : e = h.nElems := by simpa using h1
              have := g.pos; omega
          · show ((F d).elems ++ [h.nElems]).map (pair h') = _
            rw [List.map_append]
            congr 1
            · conv => rhs; rw [← s.pairs]
              apply List.map_congr_left
              intro x hx
              have h2 : x ≠ h.nElems := by have := (s.lt x hx).2; omega
              simp only [pair, eelem, if_neg h2]
              by_cases h1 : x = T
              · rw [if_pos h1, h1]
              · rw [if_neg h1]
            · show [pair h' h.nElems] = _
              unfold pair
              rw [eelem, if_neg (fun e => hT' e.symm), if_pos rfl]
        · intro h1
          rw [eobj, if_pos rfl] at h1
          have h1 : (h.obj d).big = true := h1
          rw [hb] at h1; cases h1
      · intro d' h1; rw [eobj, if_neg h1]
      · intro x hx hn
        rw [eelem, if_neg (fun e => hn (by rw [e]; exact htm)), if_neg (by omega)]
      · intro e he
        rcases List.mem_append.1 he with h1 | h1
        · exact .inl h1
        · have : e = h.nElems := by simpa using h1
          right; omega
      · intro t h1; cases h1
    · show (if d = d then _ else _ : Obj).big = _
      rw [if_pos rfl]; exact hb

/-! ### Becoming a hash table -/

theorem toTable_seg (env : Env) (h : Heap) : ∀ (es : List Nat) (a fuel : Nat) (ps : List (Nat × Nat)) (t : Table), es ≠ [] → Seg h a es 0 →
    (∀ e ∈ es, 0 < e) → es.length ≤ fuel → Hash.Inv env.fnv t (fun k => ps.find? (isKey env k)) →
    t.keys.toList = ps.map (fun p => env.str p.1) → t.len = ps.length → ((ps ++ es.map (pair h)).map fun p => env.str p.1).Nodup →
    ∃ t', toTable env h fuel a t = some t' ∧ Hash.Inv env.fnv t' (fun k => (ps ++ es.map (pair h)).find? (isKey env k)) ∧
      t'.keys.toList = (ps ++ es.map (pair h)).map (fun p => env.str p.1) ∧ t'.len = (ps ++ es.map (pair h)).length
  | [], _, _, _, _, h0, _, _, _, _, _, _, _ => absurd rfl h0
  | e :: es, a, 0, _, _, _, _, _, hf, _, _, _, _ => absurd hf (by simp)
  | e :: es, a, fuel + 1, ps, t, _, s, hp, hf, inv, hk, hl, hn => by
    have : a = e := s.1
    subst this
    have hap : ps ++ (a :: es).map (pair h) = (ps ++ [pair h a]) ++ es.map (pair h) := by simp
    rw [hap] at hn ⊢
    have hnone : ps.find? (isKey env (env.str (h.elem a).key)) = none := by
      rw [List.find?_eq_none]
      intro p hp
      rw [List.map_append, List.map_append, List.append_assoc, List.nodup_append] at hn
      have := hn.2.2 (env.str p.1) (List.mem_map.2 ⟨p, hp, rfl⟩) (env.str (h.elem a).key) (by simp [pair])
      simpa [isKey] using this
    obtain ⟨t1, ht1, inv1⟩ := Hash.set_ok env.fnv t _ inv (env.str (h.elem a).key) (pair h a)
    have tk := Hash.set_keys env.fnv t t1 _ inv (env.str (h.elem a).key) (pair h a) ht1
    rw [hnone] at tk
    simp only [Option.isSome_none, Bool.false_eq_true, if_false] at tk
    have inv1' : Hash.Inv env.fnv t1 (fun k => (ps ++ [pair h a]).find? (isKey env k)) := by
      have : (fun k => (ps ++ [pair h a]).find? (isKey env k)) =
          fun x => if x = env.str (h.elem a).key then some (pair h a) else ps.find? (isKey env x) :=
        funext fun x => find_push_key env ps (h.elem a).key (h.elem a).val x hnone
      rw [this]; exact inv1
    have hk1 : t1.keys.toList = (ps ++ [pair h a]).map fun p => env.str p.1 := by
      rw [tk.1, Array.toList_push, hk]; simp [pair]
    have hl1 : t1.len = (ps ++ [pair h a]).length := by rw [tk.2, hl, List.length_append]; rfl
    unfold toTable
    have ht1' : Hash.set env.fnv t (env.str (h.elem a).key) ((h.elem a).key, (h.elem a).val) = some t1 := ht1
    rw [ht1']
    simp only [Option.bind_some]
    cases es with
    | nil =>
      have : (h.elem a).next = 0 := s.2
      rw [if_pos this]
      refine ⟨t1, rfl, ?_, ?_, ?_⟩
      · simpa using inv1'
      · simpa using hk1
      · simpa using hl1
    | cons b bs =>
      have hb : (h.elem a).next = b := s.2.1
      have : b ≠ 0 := by have := hp b (by simp); omega
      rw [if_neg (by rw [hb]; exact this)]
      exact toTable_seg env h (b :: bs) _ fuel (ps ++ [pair h a]) t1 (by simp) s.2 (fun e he => hp e (List.mem_cons_of_mem _ he))
        (by simpa using hf) inv1' hk1 hl1 hn

theorem expand_ok {env : Env} {h : Heap} {F : Nat → Foot} {P : Nat → List (Nat × Nat)} (g : Good env h F P) {d : Nat} (hd : d < h.nObjs)
    (hl : (h.obj d).len ≠ 0) :
    ∃ h' f', expand env h d = some h' ∧ Good env h' (upd F d f') (upd P d (P d)) ∧ h'.nObjs = h.nObjs ∧
      (h'.obj d).len = (h.obj d).len ∧ ((h'.obj d).big = true → (h.obj d).big = true ∨ 15 ≤ (P d).length) := by
  have updF : upd F d (F d) = F := by
    funext x; unfold upd; split
    · next e => rw [e]
    · rfl
  have updP : upd P d (P d) = P := by
    funext x; unfold upd; split
    · next e => rw [e]
    · rfl
  unfold expand
  by_cases hc : (!(h.obj d).big && decide ((h.obj d).len ≥ 15)) = true
  · rw [if_pos hc]
    have hb : (h.obj d).big = false := by
      cases hb : (h.obj d).big with
      | false => rfl
      | true => rw [hb] at hc; cases hc
    have o := g.owns d hd
    have s := o.small hb
    have h15 : 15 ≤ (P d).length := by
      rw [hb] at hc
      have : (h.obj d).len ≥ 15 := by simpa using hc
      rw [o.len] at this; exact this
    have hne : P d ≠ [] := fun e => hl (by rw [o.len, e]; rfl)
    have hes : (F d).elems ≠ [] := fun e => hne (by rw [← s.pairs, e]; rfl)
    have i0 : Hash.Inv env.fnv (Hash.init 16 : Table) (fun k => ([] : List (Nat × Nat)).find? (isKey env k)) :=
      Hash.inv_init env.fnv 16 (by omega) ⟨4, rfl⟩
    obtain ⟨t, ht, tinv, tkeys, tlen⟩ := toTable_seg env h (F d).elems _ h.nElems [] (Hash.init 16) hes s.seg (fun e he => (s.lt e he).1)
      (length_le s) i0 rfl rfl (by rw [List.nil_append, s.pairs]; exact o.nodup)
    rw [List.nil_append, s.pairs] at tinv tkeys tlen
    rw [ht]
    simp only [Option.map_some]
    refine ⟨_, ⟨[], some h.nHashes⟩, rfl, ?_, rfl, ?_, fun _ => .inr h15⟩
    · generalize hh' : Heap.setObj _ d _ = h'
      have eobj : ∀ d', h'.obj d' = if d' = d then { h.obj d with data := h.nHashes, tail := 0, big := true } else h.obj d' := by
        intro d'; rw [← hh']; rfl
      have ehash : ∀ x, h'.hash x = if x = h.nHashes then t else h.hash x := by intro x; rw [← hh']; rfl
      have nO : h'.nObjs = h.nObjs := by rw [← hh']; rfl
      have nE : h'.nElems = h.nElems := by rw [← hh']; rfl
      have nH : h'.nHashes = h.nHashes + 1 := by rw [← hh']; rfl
      have ee : h'.elem = h.elem := by rw [← hh']; rfl
      apply good_update g d _ _ nO _ _ (by intros; rw [ee]) (by omega) _ (by omega) _ _ hd
      · constructor
        · rw [eobj, if_pos rfl]; exact o.len
        · exact o.nodup
        · rw [eobj, if_pos rfl]; intro h1; cases h1
        · rw [eobj, if_pos rfl]
          intro _
          refine ⟨rfl, rfl, ?_, hne, ?_, ?_, ?_⟩
          · show h.nHashes < _; omega
          · show Hash.Inv env.fnv (h'.hash h.nHashes) _
            rw [ehash, if_pos rfl]; exact tinv
          · show (h'.hash h.nHashes).keys.toList = _
            rw [ehash, if_pos rfl]; exact tkeys
          · show (h'.hash h.nHashes).len = _
            rw [ehash, if_pos rfl]; exact tlen
      · intro d' h1; rw [eobj, if_neg h1]
      · intro x hx _; rw [ehash, if_neg (by omega)]
      · intro e h1; cases h1
      · intro x h1
        have : h.nHashes = x := Option.some.inj h1
        right; omega
    · show (if d = d then _ else _ : Obj).len = _
      rw [if_pos rfl]; rfl
  · rw [if_neg hc]
    exact ⟨h, F d, rfl, by rw [updF, updP]; exact g, rfl, rfl, fun h => .inl h⟩

theorem upd_upd {α : Type} (f : Nat → α) (d : Nat) (x y : α) : upd (upd f d x) d y = upd f d y := by
  funext z; unfold upd; split <;> rfl

theorem upd_self {α : Type} (f : Nat → α) (d : Nat) : upd f d (f d) = f := by
  funext x; unfold upd; split
  · next e => rw [e]
  · rfl

/-- Setting a key. -/
theorem set_ok {env : Env} {h : Heap} {F : Nat → Foot} {P : Nat → List (Nat × Nat)} (g : Good env h F P) {d : Nat} (hd : d < h.nObjs)
    (key v : Nat) :
    ∃ h' f' ps', set env h d key v = some h' ∧ Good env h' (upd F d f') (upd P d ps') ∧
      view env ps' = Spec.set (view env (P d)) (env.str key) v ∧ h'.nObjs = h.nObjs ∧
      ((h'.obj d).big = true → (h.obj d).big = true ∨ 15 ≤ (P d).length) := by
  by_cases hl : (h.obj d).len = 0
  · obtain ⟨h', f', ps', h1, h2, h3, h4, h5⟩ := set_empty g hd key v hl
    exact ⟨h', f', ps', h1, h2, h3, h4, fun h => .inl (by rw [← h5]; exact h)⟩
  · unfold set
    rw [if_neg hl]
    obtain ⟨h1, f1, e1, g1, n1, l1, b1⟩ := expand_ok g hd hl
    rw [e1]
    simp only [Option.bind_some]
    rw [upd_self] at g1
    cases hb : (h1.obj d).big with
    | true =>
      rw [if_pos rfl]
      obtain ⟨h', f', ps', h2, h3, h4, h5⟩ := setBig_ok g1 (by omega : d < h1.nObjs) key v hb
      rw [upd_upd] at h3
      exact ⟨h', f', ps', h2, h3, h4, by omega, fun _ => b1 hb⟩
    | false =>
      rw [if_neg (by simp)]
      obtain ⟨h', f', ps', h2, h3, h4, h5, h6⟩ := setSmall_ok g1 (by omega : d < h1.nObjs) key v hb (by omega)
      rw [upd_upd] at h3
      exact ⟨h', f', ps', h2, h3, h4, by omega, fun h => by rw [h6] at h; cases h⟩

/-! ### Iterating -/

theorem loopSmall_ok {σ : Type} (env : Env) (cb : Nat → Nat → σ → Heap → Option (σ × Heap)) (d : Nat) (ps : List (Nat × Nat)) (f : Foot)
    (Q : List (Nat × Nat) → σ → Heap → Prop)
    (hQ : ∀ done p rest s h, ps = done ++ p :: rest → Q done s h → Owns env h d ps f →
      ∃ s' h', cb p.1 p.2 s h = some (s', h') ∧ Q (done ++ [p]) s' h' ∧ Owns env h' d ps f ∧ (h'.obj d).big = (h.obj d).big) :
    ∀ (es before : List Nat) (fuel a : Nat) (s : σ) (h : Heap), es ≠ [] → before ++ es = f.elems → Seg h a es 0 → es.length ≤ fuel →
      Q (before.map (pair h)) s h → Owns env h d ps f → (h.obj d).big = false →
      ∃ s' h', loopSmall cb fuel a s h = some (s', h') ∧ Q ps s' h'
  | [], _, _, _, _, _, h0, _, _, _, _, _, _ => absurd rfl h0
  | e :: es, before, 0, _, _, _, _, _, _, hf, _, _, _ => absurd hf (by simp)
  | e :: es, before, fuel + 1, a, s, h, _, hs, sg, hf, q, o, hb => by
    have : a = e := sg.1
    subst this
    have sm := o.small hb
    have hps : ps = before.map (pair h) ++ pair h a :: es.map (pair h) := by rw [← sm.pairs, ← hs]; simp
    obtain ⟨s1, h1, e1, q1, o1, b1⟩ := hQ _ _ _ s h hps q o
    unfold loopSmall
    have e1' : cb (h.elem a).key (h.elem a).val s h = some (s1, h1) := e1
    rw [e1']
    simp only [Option.bind_some]
    have sm1 := o1.small (b1.trans hb)
    have sg1 := sm1.seg
    rw [← hs, seg_append] at sg1
    obtain ⟨m, _, sg1⟩ := sg1
    have hmap : (before ++ [a]).map (pair h1) = before.map (pair h) ++ [pair h a] := by
      have h2 : f.elems.map (pair h1) = f.elems.map (pair h) := by rw [sm1.pairs, sm.pairs]
      rw [← hs] at h2
      have h3 := congrArg (List.take (before.length + 1)) h2
      simp only [← List.map_take] at h3
      have h4 : List.take (before.length + 1) (before ++ a :: es) = before ++ [a] := by
        rw [List.take_append, List.take_of_length_le (by omega)]; simp
      rw [h4] at h3
      rw [h3]; simp
    cases es with
    | nil =>
      have hn : (h1.elem a).next = 0 := sg1.2
      rw [if_pos hn]
      refine ⟨s1, h1, rfl, ?_⟩
      rw [hps]; exact q1
    | cons b bs =>
      have hn : (h1.elem a).next = b := sg1.2.1
      have : b ≠ 0 := by have := (sm1.lt b (by rw [← hs]; simp)).1; omega
      rw [if_neg (by rw [hn]; exact this)]
      exact loopSmall_ok env cb d ps f Q hQ (b :: bs) (before ++ [a]) fuel _ s1 h1 (by simp) (by rw [← hs]; simp) sg1.2
        (by simpa using hf) (by rw [hmap]; exact q1) o1 (b1.trans hb)

theorem find_self (env : Env) : ∀ (ps : List (Nat × Nat)), (ps.map fun p => env.str p.1).Nodup → ∀ p ∈ ps, ps.find? (isKey env (env.str p.1)) = some p
  | [], _, p, hp => absurd hp (by simp)
  | q :: ps, hn, p, hp => by
    rw [List.map_cons, List.nodup_cons] at hn
    rcases List.mem_cons.1 hp with e | e
    · rw [List.find?_cons_of_pos (by simp [isKey, e]), e]
    · rw [List.find?_cons_of_neg (by
        simp only [isKey, beq_iff_eq]
        exact fun h => hn.1 (List.mem_map.2 ⟨p, e, h.symm⟩))]
      exact find_self env ps hn.2 p e

theorem loopBig_ok {σ : Type} (env : Env) (cb : Nat → Nat → σ → Heap → Option (σ × Heap)) (d : Nat) (ps : List (Nat × Nat)) (f : Foot) (t : Nat)
    (ft : f.tab = some t) (Q : List (Nat × Nat) → σ → Heap → Prop)
    (hQ : ∀ done p rest s h, ps = done ++ p :: rest → Q done s h → Owns env h d ps f →
      ∃ s' h', cb p.1 p.2 s h = some (s', h') ∧ Q (done ++ [p]) s' h' ∧ Owns env h' d ps f ∧ (h'.obj d).big = (h.obj d).big) :
    ∀ (rest done : List (Nat × Nat)) (s : σ) (h : Heap), ps = done ++ rest → Q done s h → Owns env h d ps f → (h.obj d).big = true →
      ∃ s' h', loopBig env cb t rest.length done.length s h = some (s', h') ∧ Q ps s' h'
  | rest, done, s, h, hps, q, o, hb => by
    have b := o.big hb
    have ht : (h.obj d).data = t := Option.some.inj (b.tab.symm.trans ft)
    rw [ht.symm] at *
    have hk := b.keys
    cases rest with
    | nil =>
      show ∃ s' h', loopBig env cb (h.obj d).data 0 done.length s h = some (s', h') ∧ Q ps s' h'
      unfold loopBig
      have : ¬ List.length done < (h.hash (h.obj d).data).keys.size := by
        rw [← Array.length_toList, hk, hps]; simp
      rw [if_neg this]
      exact ⟨s, h, rfl, by rw [hps, List.append_nil]; exact q⟩
    | cons p rest =>
      show ∃ s' h', loopBig env cb (h.obj d).data (rest.length + 1) done.length s h = some (s', h') ∧ Q ps s' h'
      unfold loopBig
      have hkey : (h.hash (h.obj d).data).keys[done.length]? = some (env.str p.1) := by
        rw [← Array.getElem?_toList, hk, hps]; simp
      rw [hkey]
      dsimp only
      rw [Hash.get_eq env.fnv _ b.inv.wf b.inv.used_lt _ b.inv.rep, find_self env ps o.nodup p (by rw [hps]; simp)]
      dsimp only
      obtain ⟨s1, h1, e1, q1, o1, b1⟩ := hQ done p rest s h hps q o
      rw [e1]
      simp only [Option.bind_some]
      have := loopBig_ok env cb d ps f (h.obj d).data b.tab Q hQ rest (done ++ [p]) s1 h1 (by rw [hps]; simp) q1 o1 (b1.trans hb)
      rw [List.length_append] at this
      exact this

/-- Iterating over a dictionary that the callback does not change. -/
theorem foreach_ok {σ : Type} (env : Env) (cb : Nat → Nat → σ → Heap → Option (σ × Heap)) (d : Nat) (ps : List (Nat × Nat)) (f : Foot)
    (Q : List (Nat × Nat) → σ → Heap → Prop)
    (hQ : ∀ done p rest s h, ps = done ++ p :: rest → Q done s h → Owns env h d ps f →
      ∃ s' h', cb p.1 p.2 s h = some (s', h') ∧ Q (done ++ [p]) s' h' ∧ Owns env h' d ps f ∧ (h'.obj d).big = (h.obj d).big)
    (s : σ) (h : Heap) (o : Owns env h d ps f) (q : Q [] s h) :
    ∃ s' h', foreach env cb d s h = some (s', h') ∧ Q ps s' h' := by
  unfold foreach
  by_cases hl : (h.obj d).len = 0
  · rw [if_pos hl]
    have : ps = [] := List.length_eq_zero_iff.1 (by rw [← o.len]; exact hl)
    exact ⟨s, h, rfl, by rw [this]; exact q⟩
  · rw [if_neg hl]
    have hne : ps ≠ [] := fun e => hl (by rw [o.len, e]; rfl)
    cases hb : (h.obj d).big with
    | true =>
      rw [if_pos rfl]
      have b := o.big hb
      have : (h.hash (h.obj d).data).keys.size = ps.length := by rw [← Array.length_toList, b.keys]; simp
      rw [this]
      exact loopBig_ok env cb d ps f _ b.tab Q hQ ps [] s h rfl q o hb
    | false =>
      rw [if_neg (by simp)]
      have sm := o.small hb
      have hes : f.elems ≠ [] := fun e => hne (by rw [← sm.pairs, e]; rfl)
      exact loopSmall_ok env cb d ps f Q hQ f.elems [] _ _ s h hes rfl sm.seg (length_le sm) q o hb

theorem contents_ok {env : Env} {h : Heap} {d : Nat} {ps : List (Nat × Nat)} {f : Foot} (o : Owns env h d ps f) :
    contents env h d = some (view env ps) := by
  unfold contents
  obtain ⟨s', h', e, q⟩ := foreach_ok env (fun k v (s : List (Bytes × Nat)) h => some (s ++ [(env.str k, v)], h)) d ps f
    (fun done s h' => h' = h ∧ s = view env done) (by
      rintro done p rest s h1 hps ⟨rfl, rfl⟩ o1
      exact ⟨_, _, rfl, ⟨rfl, by simp [view]⟩, o1, rfl⟩) [] h o ⟨rfl, rfl⟩
  rw [e]
  simp [q.2]

theorem big_iff {env : Env} {h : Heap} {d : Nat} {ps : List (Nat × Nat)} {f : Foot} (o : Owns env h d ps f) :
    (h.obj d).big = f.tab.isSome := by
  cases hb : (h.obj d).big with
  | true => rw [(o.big hb).tab]; rfl
  | false => rw [(o.small hb).tab]; rfl

theorem length_set (m : Spec.Map) (k : Bytes) (v : Nat) : m.length ≤ (Spec.set m k v).length := by
  unfold Spec.set
  split <;> simp

theorem length_view (env : Env) (ps : List (Nat × Nat)) : (view env ps).length = ps.length := by simp [view]

/-- Adding the keys of another dictionary. -/
theorem mergeInto_ok {env : Env} {h : Heap} {F : Nat → Foot} {P : Nat → List (Nat × Nat)} (g : Good env h F P) {d d2 : Nat} (hd : d < h.nObjs)
    (hd2 : d2 < h.nObjs) (hne : d ≠ d2) :
    ∃ h' f' ps', mergeInto env h d d2 = some h' ∧ Good env h' (upd F d f') (upd P d ps') ∧
      view env ps' = Spec.update (view env (P d)) (view env (P d2)) ∧ h'.nObjs = h.nObjs ∧
      (f'.tab.isSome → (F d).tab.isSome ∨ 15 ≤ ps'.length) := by
  unfold mergeInto
  obtain ⟨s', h', e, q⟩ := foreach_ok env (fun k v (_ : Unit) h => (set env h d k v).map fun h => ((), h)) d2 (P d2) (F d2)
    (fun done _ h' => ∃ f' ps', Good env h' (upd F d f') (upd P d ps') ∧ view env ps' = Spec.update (view env (P d)) (view env done) ∧
      h'.nObjs = h.nObjs ∧ (f'.tab.isSome → (F d).tab.isSome ∨ 15 ≤ ps'.length)) (by
      rintro done p rest s h1 hps ⟨f1, ps1, g1, v1, n1, b1⟩ o1
      obtain ⟨h2, f2, ps2, e2, g2, v2, n2, b2⟩ := set_ok g1 (by omega : d < h1.nObjs) p.1 p.2
      rw [upd_upd, upd_upd] at g2
      rw [upd_same] at v2 b2
      have a := g2.owns d2 (by omega)
      rw [upd_other _ _ _ _ (fun h => hne h.symm), upd_other _ _ _ _ (fun h => hne h.symm)] at a
      refine ⟨(), h2, by rw [e2]; rfl, ⟨f2, ps2, g2, ?_, by omega, ?_⟩, a, by rw [big_iff a, big_iff o1]⟩
      · rw [v2, v1]
        simp [Spec.update, view, List.foldl_append]
      · have o2 := g2.owns d (by omega)
        have o1 := g1.owns d (by omega)
        rw [upd_same, upd_same] at o1 o2
        rw [big_iff o1, big_iff o2] at b2
        intro h3
        have hle : ps1.length ≤ ps2.length := by
          rw [← length_view env ps1, ← length_view env ps2, v2]; exact length_set _ _ _
        rcases b2 h3 with h4 | h4
        · rcases b1 h4 with h5 | h5
          · exact .inl h5
          · right; omega
        · right; omega) () h (g.owns d2 hd2) ⟨F d, P d, by rw [upd_self, upd_self]; exact g, rfl, rfl, fun h => .inl h⟩
  obtain ⟨f', ps', g', v', n', b'⟩ := q
  rw [e]
  exact ⟨h', f', ps', rfl, g', v', n', b'⟩

theorem update_nil (m : Spec.Map) (hn : (m.map Prod.fst).Nodup) : Spec.update [] m = m := by
  have key : ∀ (rest done : Spec.Map), ((done ++ rest).map Prod.fst).Nodup → Spec.update done rest = done ++ rest := by
    intro rest
    induction rest with
    | nil => intro done _; simp [Spec.update]
    | cons e rest ih =>
      intro done hn
      have : Spec.set done e.1 e.2 = done ++ [e] := by
        unfold Spec.set
        have : Spec.get done e.1 = none := by
          unfold Spec.get
          rw [Option.map_eq_none_iff, List.find?_eq_none]
          intro x hx
          rw [List.map_append, List.nodup_append] at hn
          have := hn.2.2 x.1 (List.mem_map.2 ⟨x, hx, rfl⟩) e.1 (by simp)
          simpa using this
        rw [this]; rfl
      show Spec.update (Spec.set done e.1 e.2) rest = _
      rw [this, ih (done ++ [e]) (by simpa using hn)]; simp
  simpa using key m [] (by simpa using hn)

theorem dup_ok {env : Env} {h : Heap} {F : Nat → Foot} {P : Nat → List (Nat × Nat)} (g : Good env h F P) {d : Nat} (hd : d < h.nObjs) :
    ∃ h' f' ps', dup env h d = some (h.nObjs, h') ∧ Good env h' (upd F h.nObjs f') (upd P h.nObjs ps') ∧
      view env ps' = view env (P d) ∧ h'.nObjs = h.nObjs + 1 ∧ (f'.tab.isSome → 15 ≤ ps'.length) := by
  have gm := good_make g
  have hne : h.nObjs ≠ d := by omega
  obtain ⟨h', f', ps', e1, g1, v1, n1, b1⟩ := mergeInto_ok gm (d := h.nObjs) (d2 := d) (by show h.nObjs < h.nObjs + 1; omega)
    (by show d < h.nObjs + 1; omega) hne
  rw [upd_upd, upd_upd] at g1
  rw [upd_same, upd_other _ _ _ _ (fun h => hne h.symm)] at v1
  refine ⟨h', f', ps', ?_, g1, ?_, n1, ?_⟩
  · unfold dup
    show Option.map _ (mergeInto env (make h).2 h.nObjs d) = _
    rw [e1]; rfl
  · rw [v1]
    refine update_nil _ ?_
    have := (g.owns d hd).nodup
    simpa [view, Function.comp_def] using this
  · intro h1
    rcases b1 h1 with h2 | h2
    · rw [upd_same] at h2; cases h2
    · exact h2

theorem merge_ok {env : Env} {h : Heap} {F : Nat → Foot} {P : Nat → List (Nat × Nat)} (g : Good env h F P) {d d2 : Nat} (hd : d < h.nObjs)
    (hd2 : d2 < h.nObjs) :
    ∃ h' f' ps', merge env h d d2 = some (h.nObjs, h') ∧ Good env h' (upd F h.nObjs f') (upd P h.nObjs ps') ∧
      view env ps' = Spec.update (view env (P d)) (view env (P d2)) ∧ h'.nObjs = h.nObjs + 1 ∧ (f'.tab.isSome → 15 ≤ ps'.length) := by
  obtain ⟨h1, f1, ps1, e1, g1, v1, n1, b1⟩ := dup_ok g hd
  have hne : h.nObjs ≠ d2 := by omega
  obtain ⟨h', f', ps', e2, g2, v2, n2, b2⟩ := mergeInto_ok g1 (d := h.nObjs) (d2 := d2) (by omega) (by omega) hne
  rw [upd_upd, upd_upd] at g2
  rw [upd_same, upd_other _ _ _ _ (fun h => hne h.symm), v1] at v2
  rw [upd_same] at b2
  refine ⟨h', f', ps', ?_, g2, v2, by omega, ?_⟩
  · unfold merge
    rw [e1]
    simp only [Option.bind_some]
    rw [e2]; rfl
  · intro h1
    rcases b2 h1 with h2 | h2
    · have := b1 h2
      have l1 : ps1.length ≤ ps'.length := by
        rw [← length_view env ps1, ← length_view env ps', v2, v1]
        generalize view env (P d) = m
        generalize view env (P d2) = n
        induction n generalizing m with
        | nil => exact Nat.le_refl _
        | cons e n ih => exact Nat.le_trans (length_set m e.1 e.2) (ih _)
      omega
    · exact h2

/-! ### Deleting -/

theorem findPrev_seg (env : Env) (h : Heap) (k : Bytes) : ∀ (es : List Nat) (a p fuel : Nat), es ≠ [] → Seg h a es 0 → (∀ e ∈ es, 0 < e) →
    es.length ≤ fuel →
    (findPrev env h k fuel p a = some none ∧ ∀ e ∈ es, env.str (h.elem e).key ≠ k) ∨
    ∃ xs e ys, es = xs ++ e :: ys ∧ env.str (h.elem e).key = k ∧ findPrev env h k fuel p a = some (some (xs.getLast?.getD p, e))
  | [], _, _, _, h0, _, _, _ => absurd rfl h0
  | e :: es, a, _, 0, _, _, _, hf => absurd hf (by simp)
  | e :: es, a, p, fuel + 1, _, s, hp, hf => by
    have : a = e := s.1
    subst this
    unfold findPrev
    by_cases hk : env.str (h.elem a).key = k
    · rw [if_pos hk]
      exact .inr ⟨[], a, es, rfl, hk, rfl⟩
    · rw [if_neg hk]
      cases es with
      | nil =>
        have : (h.elem a).next = 0 := s.2
        rw [if_pos this]
        exact .inl ⟨rfl, by simpa using hk⟩
      | cons b bs =>
        have hb : (h.elem a).next = b := s.2.1
        have : b ≠ 0 := by have := hp b (by simp); omega
        rw [if_neg (by rw [hb]; exact this)]
        rcases findPrev_seg env h k (b :: bs) (h.elem a).next a fuel (by simp) s.2 (fun e he => hp e (List.mem_cons_of_mem _ he)) (by simpa using hf) with
          ⟨h1, h2⟩ | ⟨xs, e, ys, h1, h2, h3⟩
        · refine .inl ⟨h1, ?_⟩
          intro e he
          rcases List.mem_cons.1 he with h3 | h3
          · rw [h3]; exact hk
          · exact h2 e h3
        · refine .inr ⟨a :: xs, e, ys, by rw [h1]; rfl, h2, ?_⟩
          rw [h3]
          congr 3
          cases xs with
          | nil => rfl
          | cons x xs => simp [List.getLast?_cons_cons]; cases h4 : (x :: xs).getLast? with
            | none => simp at h4
            | some _ => rfl

theorem del_none (m : Spec.Map) (k : Bytes) (h : Spec.get m k = none) : Spec.del m k = m := by
  unfold Spec.get at h
  rw [Option.map_eq_none_iff, List.find?_eq_none] at h
  unfold Spec.del
  rw [List.filter_eq_self]
  intro e he
  have := h e he
  simpa using this

theorem unset_absent (fnv : Bytes → UInt64) (t : Table) (m : Bytes → Option (Nat × Nat)) (inv : Hash.Inv fnv t m) (k : Bytes) (hm : m k = none) :
    Hash.unset fnv t k = some t := by
  have habs : ∀ i, ¬ Hash.At t i k := by
    intro i ha
    have := (inv.rep k _).2 ⟨i, ha, rfl⟩
    rw [hm] at this; cases this
  obtain ⟨d, _, hp, he, _⟩ := Hash.probe_absent fnv t inv.wf inv.used_lt k habs
  have hg := Hash.get_eq fnv t inv.wf inv.used_lt m inv.rep k
  rw [hm] at hg
  unfold Hash.unset
  rw [hp]
  simp only [Option.bind_some, he, Hash.not_full_empty, Bool.false_eq_true, if_false, hg]

/-- Deleting a key of a dictionary that is not a hash table, or one that is not there. -/
theorem del_ok {env : Env} {h : Heap} {F : Nat → Foot} {P : Nat → List (Nat × Nat)} (g : Good env h F P) {d : Nat} (hd : d < h.nObjs)
    (k : Bytes) (hok : (F d).tab.isSome = false ∨ Spec.get (view env (P d)) k = none) :
    ∃ h' f' ps', del env h d k = some h' ∧ Good env h' (upd F d f') (upd P d ps') ∧
      view env ps' = Spec.del (view env (P d)) k ∧ h'.nObjs = h.nObjs ∧ f'.tab.isSome = (F d).tab.isSome := by
  have o := g.owns d hd
  have same : Good env h (upd F d (F d)) (upd P d (P d)) := by rw [upd_self, upd_self]; exact g
  unfold del
  by_cases hl : (h.obj d).len = 0
  · rw [if_pos hl]
    have : P d = [] := List.length_eq_zero_iff.1 (by rw [← o.len]; exact hl)
    refine ⟨h, F d, P d, rfl, same, ?_, rfl, rfl⟩
    rw [this]; rfl
  · rw [if_neg hl]
    have hne : P d ≠ [] := fun e => hl (by rw [o.len, e]; rfl)
    cases hb : (h.obj d).big with
    | true =>
      rw [if_pos rfl]
      have b := o.big hb
      have hnone : Spec.get (view env (P d)) k = none := by
        rcases hok with h1 | h1
        · rw [← big_iff o, hb] at h1; cases h1
        · exact h1
      have hf : (P d).find? (isKey env k) = none := by
        rw [get_view, Option.map_eq_none_iff] at hnone; exact hnone
      rw [unset_absent env.fnv _ _ b.inv k hf]
      have : h.setHash (h.obj d).data (h.hash (h.obj d).data) = h := by
        unfold Heap.setHash
        have : (fun x => if x = (h.obj d).data then h.hash (h.obj d).data else h.hash x) = h.hash := upd_self h.hash _
        rw [this]
      refine ⟨h, F d, P d, by simp [this], same, (del_none _ _ hnone).symm, rfl, rfl⟩
    | false =>
      rw [if_neg (by simp)]
      have s := o.small hb
      have hes : (F d).elems ≠ [] := fun e => hne (by rw [← s.pairs, e]; rfl)
      rcases findPrev_seg env h k (F d).elems _ 0 h.nElems hes s.seg (fun e he => (s.lt e he).1) (length_le s) with ⟨h1, h2⟩ | ⟨xs, e, ys, h1, h2, h3⟩
      · rw [h1]
        refine ⟨h, F d, P d, rfl, same, (del_none _ _ ?_).symm, rfl, rfl⟩
        rw [get_view, Option.map_eq_none_iff, List.find?_eq_none]
        intro p hp
        rw [← s.pairs] at hp
        obtain ⟨x, hx, rfl⟩ := List.mem_map.1 hp
        simpa [isKey, pair] using h2 x hx
      · rw [h3]
        have nd := s.nodup
        rw [h1] at nd
        have nd' : (xs ++ ys).Nodup := by
          rw [List.nodup_append] at nd ⊢
          exact ⟨nd.1, (List.nodup_cons.1 nd.2.1).2, fun a ha b hb => nd.2.2 a ha b (List.mem_cons_of_mem _ hb)⟩
        have hxe : e ∉ xs := by
          rw [List.nodup_append] at nd
          exact fun h => nd.2.2 e h e (by simp) rfl
        have hye : e ∉ ys := by
          rw [List.nodup_append] at nd
          exact (List.nodup_cons.1 nd.2.1).1
        have hsub : ∀ x ∈ xs ++ ys, x ∈ (F d).elems := by
          intro x hx
          rw [h1]
          rcases List.mem_append.1 hx with h4 | h4
          · exact List.mem_append_left _ h4
          · exact List.mem_append_right _ (List.mem_cons_of_mem _ h4)
        have sg := s.seg
        rw [h1, seg_append] at sg
        obtain ⟨m, sg1, sg2, sg3⟩ := sg
        have hps : P d = xs.map (pair h) ++ pair h e :: ys.map (pair h) := by rw [← s.pairs, h1]; simp
        have hlen : (h.obj d).len = (xs ++ ys).length + 1 := by rw [o.len, hps]; simp; omega
        have ndk : (((xs ++ ys).map (pair h)).map fun p => env.str p.1).Nodup := by
          have := o.nodup
          rw [hps] at this
          rw [List.map_append]
          rw [List.map_append, List.map_cons, List.nodup_append] at this
          rw [List.map_append, List.nodup_append]
          exact ⟨this.1, (List.nodup_cons.1 this.2.1).2, fun a ha b hb => this.2.2 a ha b (List.mem_cons_of_mem _ hb)⟩
        have hview : view env ((xs ++ ys).map (pair h)) = Spec.del (view env (P d)) k := by
          have ndk2 := o.nodup
          rw [hps, List.map_append, List.map_cons, List.nodup_append] at ndk2
          unfold Spec.del view
          rw [hps, List.map_append, List.map_append, List.map_append, List.filter_append, List.map_cons, List.filter_cons_of_neg (by simp [pair, h2])]
          congr 1
          · symm; rw [List.filter_eq_self]
            intro q hq
            obtain ⟨p, hp, rfl⟩ := List.mem_map.1 hq
            have := ndk2.2.2 (env.str p.1) (List.mem_map.2 ⟨p, hp, rfl⟩) (env.str (pair h e).1) (by simp)
            simp only [bne_iff_ne, ne_eq]
            rw [show env.str (pair h e).1 = k from h2] at this
            exact this
          · symm; rw [List.filter_eq_self]
            intro q hq
            obtain ⟨p, hp, rfl⟩ := List.mem_map.1 hq
            have := (List.nodup_cons.1 ndk2.2.1).1
            simp only [bne_iff_ne, ne_eq]
            intro h5
            apply this
            rw [show env.str (pair h e).1 = k from h2, ← h5]
            exact List.mem_map.2 ⟨p, hp, rfl⟩
        simp only [Option.map_some]
        have htab : (⟨xs ++ ys, none⟩ : Foot).tab.isSome = (F d).tab.isSome := by rw [s.tab]
        have ed0 : (h.setObj d { h.obj d with len := (h.obj d).len - 1 }).obj d = { h.obj d with len := (h.obj d).len - 1 } := if_pos rfl
        rw [ed0]
        have ee0 : (h.setObj d { h.obj d with len := (h.obj d).len - 1 }).elem = h.elem := rfl
        rw [ee0]
        dsimp only
        by_cases hfirst : e = (h.obj d).data
        · rw [if_pos hfirst]
          have hx0 : xs = [] := by
            cases xs with
            | nil => rfl
            | cons x xs =>
              have : (h.obj d).data = x := sg1.1
              rw [this] at hfirst
              exact absurd (by rw [hfirst]; simp) hxe
          subst hx0
          refine ⟨_, ⟨[] ++ ys, none⟩, ([] ++ ys).map (pair h), rfl, ?_, hview, rfl, htab⟩
          generalize hh' : Heap.setObj _ d _ = h'
          have eobj : ∀ d', h'.obj d' = if d' = d then { h.obj d with len := (h.obj d).len - 1, data := (h.elem e).next } else h.obj d' := by
            intro d'; rw [← hh']
            show (if d' = d then _ else if d' = d then _ else _ : Obj) = _
            by_cases h5 : d' = d
            · rw [if_pos h5, if_pos h5]
            · rw [if_neg h5, if_neg h5, if_neg h5]
          have nO : h'.nObjs = h.nObjs := by rw [← hh']; rfl
          have nE : h'.nElems = h.nElems := by rw [← hh']; rfl
          have nH : h'.nHashes = h.nHashes := by rw [← hh']; rfl
          have eh : h'.hash = h.hash := by rw [← hh']; rfl
          have ee : h'.elem = h.elem := by rw [← hh']; rfl
          apply good_update g d _ _ nO _ _ (by intros; rw [ee]) (by omega) (by intros; rw [eh]) (by omega) _ _ hd
          · constructor
            · rw [eobj, if_pos rfl]; simp [hlen]
            · exact ndk
            · rw [eobj, if_pos rfl]
              intro _
              refine ⟨rfl, ?_, nd', fun x hx => ?_, ?_, fun hy => ?_⟩
              · exact seg_congr h h' _ _ _ (by intros; rw [ee]) sg3
              · rw [nE]; exact s.lt x (hsub x hx)
              · exact List.map_congr_left fun x _ => by unfold pair; rw [ee]
              · have hy : ys ≠ [] := hy
                have := s.tail hes
                rw [h1] at this
                show ys.getLast? = some (h.obj d).tail
                rw [← this]
                cases ys with
                | nil => exact absurd rfl hy
                | cons y ys => simp [List.getLast?_cons_cons]
            · rw [eobj, if_pos rfl]; intro h5
              have h5 : (h.obj d).big = true := h5
              rw [hb] at h5; cases h5
          · intro d' h5; rw [eobj, if_neg h5]
          · intro x hx; exact .inl (hsub x hx)
          · intro t h5; cases h5
        · rw [if_neg hfirst]
          have hx0 : xs ≠ [] := by
            intro h5; subst h5
            have h6 : (h.obj d).data = m := sg1
            exact hfirst (by rw [h6]; exact sg2.symm)
          obtain ⟨p, hp⟩ : ∃ p, xs.getLast? = some p := by
            cases h5 : xs.getLast? with
            | none => rw [List.getLast?_eq_none_iff] at h5; exact absurd h5 hx0
            | some p => exact ⟨p, rfl⟩
          rw [hp, Option.getD_some]
          obtain ⟨as, has⟩ := List.getLast?_eq_some_iff.1 hp
          have hpm : p ∈ (F d).elems := hsub p (by rw [has]; simp)
          have hpa : p ∉ as := by
            have := (List.nodup_append.1 nd).1
            rw [has, List.nodup_append] at this
            exact fun h => this.2.2 p h p (by simp) rfl
          have hpy : p ∉ ys := by
            rw [List.nodup_append] at nd
            exact fun h => nd.2.2 p (by rw [has]; simp) p (List.mem_cons_of_mem _ h) rfl
          -- both remaining cases do the same
          obtain ⟨h', hh', eobj, eelem, nO, nE, nH, eh⟩ : ∃ h', (if (h.elem e).next = 0 then
                ((h.setObj d { h.obj d with len := (h.obj d).len - 1 }).setObj d { { h.obj d with len := (h.obj d).len - 1 } with tail := p }).setElem p
                  { ((h.setObj d { h.obj d with len := (h.obj d).len - 1 }).setObj d { { h.obj d with len := (h.obj d).len - 1 } with tail := p }).elem p with next := 0 }
              else (h.setObj d { h.obj d with len := (h.obj d).len - 1 }).setElem p { h.elem p with next := (h.elem e).next }) = h' ∧
              (∀ d', h'.obj d' = if d' = d then { h.obj d with len := (h.obj d).len - 1, tail := if (h.elem e).next = 0 then p else (h.obj d).tail } else h.obj d') ∧
              (∀ x, h'.elem x = if x = p then { h.elem p with next := (h.elem e).next } else h.elem x) ∧
              h'.nObjs = h.nObjs ∧ h'.nElems = h.nElems ∧ h'.nHashes = h.nHashes ∧ h'.hash = h.hash := by
            by_cases h5 : (h.elem e).next = 0
            · rw [if_pos h5]
              refine ⟨_, rfl, ?_, ?_, rfl, rfl, rfl, rfl⟩
              · intro d'
                show (if d' = d then _ else if d' = d then _ else _ : Obj) = _
                rw [if_pos h5]
                by_cases h6 : d' = d
                · rw [if_pos h6, if_pos h6]
                · rw [if_neg h6, if_neg h6, if_neg h6]
              · intro x
                rw [h5]; rfl
            · rw [if_neg h5]
              refine ⟨_, rfl, ?_, ?_, rfl, rfl, rfl, rfl⟩
              · intro d'
                rw [if_neg h5]; rfl
              · intro x; rfl
          have hpairs : (xs ++ ys).map (pair h') = (xs ++ ys).map (pair h) := by
            apply List.map_congr_left
            intro x _
            simp only [pair, eelem]
            by_cases h5 : x = p
            · rw [if_pos h5, h5]
            · rw [if_neg h5]
          refine ⟨h', ⟨xs ++ ys, none⟩, (xs ++ ys).map (pair h), ?_, ?_, hview, nO, htab⟩
          · rw [← hh']
          apply good_update g d _ _ nO _ _ _ (by omega) (by intros; rw [eh]) (by omega) _ _ hd
          · constructor
            · rw [eobj, if_pos rfl]; simp [hlen]
            · exact ndk
            · rw [eobj, if_pos rfl]
              intro _
              refine ⟨rfl, ?_, nd', fun x hx => ?_, hpairs, fun _ => ?_⟩
              · show Seg h' (h.obj d).data (xs ++ ys) 0
                rw [has, List.append_assoc, seg_append]
                rw [has, seg_append] at sg1
                obtain ⟨m1, sa, sb⟩ := sg1
                refine ⟨m1, seg_congr h h' _ _ _ (fun x hx => ?_) sa, sb.1, ?_⟩
                · rw [eelem, if_neg (fun e => hpa (by rw [← e]; exact hx))]
                · rw [eelem, if_pos rfl]
                  refine seg_congr h h' _ _ _ (fun x hx => ?_) sg3
                  rw [eelem, if_neg (fun e => hpy (by rw [← e]; exact hx))]
              · rw [nE]; exact s.lt x (hsub x hx)
              · show (xs ++ ys).getLast? = some (if (h.elem e).next = 0 then p else (h.obj d).tail)
                have ht := s.tail hes
                rw [h1] at ht
                cases ys with
                | nil =>
                  have : (h.elem e).next = 0 := sg3
                  rw [if_pos this, List.append_nil]; exact hp
                | cons y ys =>
                  have hy : (h.elem e).next = y := sg3.1
                  have : y ≠ 0 := by have := (s.lt y (hsub y (by simp))).1; omega
                  rw [if_neg (by rw [hy]; exact this), ← ht]
                  simp [List.getLast?_append, List.getLast?_cons_cons]
            · rw [eobj, if_pos rfl]; intro h5
              have h5 : (h.obj d).big = true := h5
              rw [hb] at h5; cases h5
          · intro d' h5; rw [eobj, if_neg h5]
          · intro x _ hx
            rw [eelem, if_neg (fun e => hx (by rw [e]; exact hpm))]
          · intro x hx; exact .inl (hsub x hx)
          · intro t h5; cases h5

end Muon.Dict
