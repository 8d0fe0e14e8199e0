import Verif.Dlog.Lemmas
namespace Muon.Dlog
open Muon Muon.Dlog.Spec

theorem nodup_subset_length {α : Type} [DecidableEq α] : ∀ (a b : List α), a.Nodup → (∀ x ∈ a, x ∈ b) → a.length ≤ b.length := by
  intro a
  induction a with
  | nil => intro b _ _; simp
  | cons x a ih =>
    intro b hn hs
    rw [List.nodup_cons] at hn
    have := ih (b.erase x) hn.2 (fun y hy => by
      have hne : y ≠ x := by rintro rfl; exact hn.1 hy
      exact (List.mem_erase_of_ne hne).2 (hs y (by simp [hy])))
    have hx := hs x (by simp)
    rw [List.length_erase_of_mem hx] at this
    have := List.length_pos_of_mem hx
    rw [List.length_cons]; omega

theorem recordid_ids {w w' : W} {p : Bytes} {b : Bool} (hr : recordid w p = .ok (w', b)) :
    (w'.ids p).isSome ∧ (∀ q i, w.ids q = some i → w'.ids q = some i) ∧ (∀ q, (w'.ids q).isSome → (w.ids q).isSome ∨ q = p) ∧
      (b = false → w' = w) := by
  unfold recordid at hr
  cases hi : w.ids p with
  | some i =>
    rw [hi] at hr; cases hr
    exact ⟨by rw [hi]; rfl, fun _ _ h => h, fun _ h => Or.inl h, fun _ => rfl⟩
  | none =>
    rw [hi] at hr
    dsimp only at hr
    split at hr
    · cases hr
    · split at hr
      · cases hr
      · cases hr
        refine ⟨by simp, fun q i hq => ?_, fun q hq => ?_, by simp⟩
        · dsimp only; rw [if_neg]
          · exact hq
          · rintro rfl; rw [hi] at hq; cases hq
        · dsimp only at hq
          by_cases h : q = p
          · exact Or.inr h
          · rw [if_neg h] at hq; exact Or.inl hq

theorem recordids_ids (ps : List Bytes) : ∀ {w w' : W} {b : Bool} (_ : recordids w ps = .ok (w', b)),
    (∀ q i, w.ids q = some i → w'.ids q = some i) ∧ (∀ q, (w'.ids q).isSome → (w.ids q).isSome ∨ q ∈ ps) ∧ (b = false → w' = w) := by
  induction ps with
  | nil => intro w w' b hr; cases hr; exact ⟨fun _ _ h => h, fun _ h => Or.inl h, fun _ => rfl⟩
  | cons p ps ih =>
    intro w w' b hr
    unfold recordids at hr
    rw [Res.bind_eq_ok] at hr
    obtain ⟨⟨w1, b1⟩, hr1, hr⟩ := hr
    rw [Res.bind_eq_ok] at hr
    obtain ⟨⟨w2, b2⟩, hr2, hr⟩ := hr
    cases hr
    obtain ⟨_, a2, a3, a4⟩ := recordid_ids hr1
    obtain ⟨c2, c3, c4⟩ := ih hr2
    refine ⟨fun q i h => c2 q i (a2 q i h), fun q h => ?_, fun h => ?_⟩
    · rcases c3 q h with h | h
      · rcases a3 q h with h | h
        · exact Or.inl h
        · exact Or.inr (by simp [h])
      · exact Or.inr (by simp [h])
    · have hb : b1 = false ∧ b2 = false := by simpa using h
      rw [c4 hb.2, a4 hb.1]

theorem recorddeps_ids {w w' : W} {out : Bytes} {ds : List Bytes} {m : Int} (hr : recorddeps w out ds m = .ok w') : w'.ids = w.ids := by
  unfold recorddeps at hr
  dsimp only at hr
  split at hr
  · cases hr
  · cases hr; rfl

theorem record_ids {w w' : W} {out : Bytes} {ds : List Bytes} {m : Int} (hr : record w out ds m = .ok w') :
    (w'.ids out).isSome ∧ (∀ q i, w.ids q = some i → w'.ids q = some i) ∧ (∀ q, (w'.ids q).isSome → (w.ids q).isSome ∨ q = out ∨ q ∈ ds) := by
  unfold record at hr
  rw [Res.bind_eq_ok] at hr
  obtain ⟨⟨w1, b1⟩, hr1, hr⟩ := hr
  rw [Res.bind_eq_ok] at hr
  obtain ⟨⟨w2, b2⟩, hr2, hr⟩ := hr
  obtain ⟨a1, a2, a3, _⟩ := recordid_ids hr1
  obtain ⟨c2, c3, _⟩ := recordids_ids ds hr2
  rw [recorddeps_ids hr]
  refine ⟨?_, fun q i h => c2 q i (a2 q i h), fun q h => ?_⟩
  · obtain ⟨i, hi⟩ := Option.isSome_iff_exists.1 a1
    rw [c2 out i hi]; rfl
  · rcases c3 q h with h | h
    · rcases a3 q h with h | h
      · exact Or.inl h
      · exact Or.inr (Or.inl h)
    · exact Or.inr (Or.inr h)

/-- The record an entry is written as. -/
def toOp (e : Entry) : Op := ⟨e.node, e.deps, e.mtime⟩

/-- The records written for entries. -/
def ops (E : List Entry) : List Op := (E.filter fun e => e.deps ≠ []).map toOp

theorem ops_cons (e : Entry) (es : List Entry) : ops (e :: es) = if e.deps = [] then ops es else toOp e :: ops es := by
  unfold ops
  rw [List.filter_cons]
  by_cases h : e.deps = []
  · simp [h]
  · simp [h]

/-- A step of writing the entries again is `record`, and sets the element of the array. -/
theorem rewriteLoop_cons (s : Session) (e : Entry) (es : List Entry) (h : e.deps ≠ []) {s' : Session} (hs : rewriteLoop s (e :: es) = .ok s') :
    ∃ w i, record s.w e.node e.deps e.mtime = .ok w ∧ w.ids e.node = some i ∧
      rewriteLoop ⟨w, fun j => if j = i then some e else s.ents j, s.cap⟩ es = .ok s' := by
  unfold rewriteLoop at hs
  rw [if_neg h, Res.bind_eq_ok] at hs
  obtain ⟨⟨w1, b1⟩, hr1, hs⟩ := hs
  dsimp only at hs
  rw [Res.bind_eq_ok] at hs
  obtain ⟨⟨w2, b2⟩, hr2, hs⟩ := hs
  rw [Res.bind_eq_ok] at hs
  obtain ⟨w3, hr3, hs⟩ := hs
  dsimp only at hr3
  obtain ⟨i, hi⟩ := Option.isSome_iff_exists.1 (recordid_ids hr1).1
  refine ⟨w3, i, ?_, ?_, ?_⟩
  · unfold record
    rw [hr1, Res.ok_bind]
    dsimp only
    rw [hr2, Res.ok_bind]
    exact hr3
  · rw [recorddeps_ids hr3]; exact (recordids_ids _ hr2).1 _ _ hi
  · have : idOf w1 e.node = i := by unfold idOf; rw [hi]; rfl
    rw [this] at hs
    exact hs

/-- Writing the entries again. -/
theorem rewriteLoop_ok (nodes : List Bytes) (es : List Entry) : ∀ {s s' : Session} {F : List Entry} (_ : Inv s.w F)
    (_ : ∀ q, (s.w.ids q).isSome → q ∈ nodes)
    (_ : ∀ e ∈ es, Good (toOp e) ∧ e.node ∈ nodes ∧ ∀ d ∈ e.deps, d ∈ nodes) (_ : (es.map (·.node)).Nodup)
    (_ : rewriteLoop s es = .ok s'),
    writeAll s.w (ops es) = .ok s'.w ∧ s'.cap = s.cap ∧ (∃ F', Inv s'.w F') ∧ (∀ q, (s'.w.ids q).isSome → q ∈ nodes) ∧
      (∀ q i, s.w.ids q = some i → s'.w.ids q = some i) ∧
      (∀ i q, s.w.ids q = some i → q ∉ es.map (·.node) → s'.ents i = s.ents i) ∧
      (∀ e ∈ es, e.deps ≠ [] → ∃ i, s'.w.ids e.node = some i ∧ s'.ents i = some e) := by
  induction es with
  | nil =>
    intro s s' F h hn _ _ hs
    cases hs
    exact ⟨rfl, rfl, ⟨F, h⟩, hn, fun _ _ h => h, fun _ _ _ _ => rfl, by simp⟩
  | cons e es ih =>
    intro s s' F h hn hg hd hs
    rw [List.map_cons, List.nodup_cons] at hd
    obtain ⟨g1, g2, g3⟩ := hg e (by simp)
    by_cases he : e.deps = []
    · have hs' : rewriteLoop s es = .ok s' := by
        unfold rewriteLoop at hs; rwa [if_pos he] at hs
      obtain ⟨a1, a2, a3, a4, a5, a6, a7⟩ := ih h hn (fun e h => hg e (by simp [h])) hd.2 hs'
      refine ⟨by rw [ops_cons, if_pos he]; exact a1, a2, a3, a4, a5, fun i q hq hm => a6 i q hq (fun h => hm (by rw [List.map_cons]; exact List.mem_cons_of_mem _ h)), ?_⟩
      intro e' he' hd'
      rcases List.mem_cons.1 he' with rfl | he'
      · exact absurd he hd'
      · exact a7 e' he' hd'
    · obtain ⟨w, i, hr, hi, hl⟩ := rewriteLoop_cons s e es he hs
      obtain ⟨cs, F1, i1, _⟩ := record_inv (fun _ => true) h (o := toOp e) g1 hr
      obtain ⟨r1, r2, r3⟩ := record_ids hr
      have hn1 : ∀ q, (w.ids q).isSome → q ∈ nodes := by
        intro q hq
        rcases r3 q hq with h | h | h
        · exact hn q h
        · rw [h]; exact g2
        · exact g3 q h
      obtain ⟨a1, a2, a3, a4, a5, a6, a7⟩ := ih (s := ⟨w, fun j => if j = i then some e else s.ents j, s.cap⟩) i1 hn1
        (fun e h => hg e (by simp [h])) hd.2 hl
      refine ⟨?_, a2, a3, a4, fun q j hq => a5 q j (r2 q j hq), ?_, ?_⟩
      · rw [ops_cons, if_neg he]
        show record s.w _ _ _ >>= _ = _
        rw [show record s.w (toOp e).out (toOp e).deps (toOp e).mtime = .ok w from hr]
        exact a1
      · intro j q hq hm
        rw [List.map_cons, List.mem_cons, not_or] at hm
        have hj := r2 q j hq
        have := a6 j q hj hm.2
        rw [this]
        have hji : j ≠ i := by
          rintro rfl
          obtain ⟨x, hx, hxn⟩ := (i1.ids q j).1 hj
          obtain ⟨y, hy, hyn⟩ := (i1.ids e.node j).1 hi
          rw [hx] at hy; cases hy
          exact hm.1 (by rw [← hxn, hyn])
        simp [hji]
      · intro e' he' hd'
        rcases List.mem_cons.1 he' with rfl | he'
        · refine ⟨i, a5 _ _ hi, ?_⟩
          have := a6 i e'.node hi hd.1
          rw [this]; simp
        · exact a7 e' he' hd'

theorem capFor_ge (n : Nat) (hn : n < 2 ^ 31) : n ≤ capFor n 32 0 := by
  have key : ∀ f c, (if c = 0 then 512 else c) * 2 ^ f ≥ n → n ≤ capFor n f c ∨ f = 0 := by
    intro f
    induction f with
    | zero => intro c _; exact Or.inr rfl
    | succ f ih =>
      intro c hc
      unfold capFor
      by_cases h : n ≤ c
      · rw [if_pos h]; exact Or.inl h
      · rw [if_neg h]
        by_cases h0 : c = 0
        · subst h0
          rw [if_pos rfl] at hc ⊢
          rcases ih 1024 (by rw [if_neg (by decide)]; rw [Nat.pow_succ] at hc; omega) with h | h
          · exact Or.inl h
          · subst h
            simp [capFor]; omega
        · rw [if_neg h0] at hc ⊢
          rcases ih (c * 2) (by rw [if_neg (by omega)]; rw [Nat.pow_succ] at hc; rw [Nat.mul_assoc, Nat.mul_comm 2]; exact hc) with h | h
          · exact Or.inl h
          · subst h
            simp [capFor]; omega
  rcases key 32 0 (by rw [if_pos rfl]; omega) with h | h
  · exact h
  · cases h

theorem ops_latest (E : List Entry) (hn : (E.map (·.node)).Nodup) (p : Bytes) :
    latest (ops E) p = if (recovered E p).1 = [] then ([], 0) else recovered E p := by
  induction E with
  | nil => rfl
  | cons e es ih =>
    rw [List.map_cons, List.nodup_cons] at hn
    have hrec : recovered (e :: es) p = if e.node = p then (e.deps, e.mtime) else recovered es p := by
      unfold recovered
      rw [List.find?_cons]
      by_cases h : e.node = p
      · simp [h]
      · have : (e.node == p) = false := by simpa using h
        rw [this, if_neg h]
    have hnone : e.node = p → latest (ops es) p = ([], 0) := by
      rintro rfl
      unfold latest
      have : (ops es).reverse.find? (fun o => o.out == e.node) = none := by
        rw [List.find?_eq_none]
        intro o ho
        rw [List.mem_reverse] at ho
        obtain ⟨x, hx, rfl⟩ := List.mem_map.1 ho
        have hx := (List.mem_filter.1 hx).1
        intro hc
        exact hn.1 (List.mem_map.2 ⟨x, hx, by simpa [toOp] using hc⟩)
      rw [this]
    have hcons : ∀ (o : Op) (l : List Op), latest (o :: l) p = if (l.reverse.find? fun o => o.out == p) = none then (if o.out = p then (o.deps, o.mtime) else ([], 0)) else latest l p := by
      intro o l
      unfold latest
      rw [List.reverse_cons, List.find?_append]
      cases hf : l.reverse.find? fun o => o.out == p with
      | none =>
        simp only [Option.none_or, List.find?_cons, List.find?_nil, if_true]
        by_cases h : o.out = p
        · simp [h]
        · have : (o.out == p) = false := by simpa using h
          rw [this, if_neg h]
      | some x => simp
    rw [ops_cons, hrec]
    by_cases he : e.deps = []
    · rw [if_pos he]
      by_cases h : e.node = p
      · rw [if_pos h, hnone h]; simp [he]
      · rw [if_neg h]; exact ih hn.2
    · rw [if_neg he, hcons]
      by_cases h : e.node = p
      · have hf : ((ops es).reverse.find? fun o => o.out == p) = none := by
          rw [List.find?_eq_none]
          intro o ho
          rw [List.mem_reverse] at ho
          obtain ⟨x, hx, rfl⟩ := List.mem_map.1 ho
          have hx := (List.mem_filter.1 hx).1
          intro hc
          exact hn.1 (List.mem_map.2 ⟨x, hx, by rw [h]; simpa [toOp] using hc⟩)
        rw [if_pos hf, if_pos h, if_pos (show (toOp e).out = p from h)]
        simp [he, toOp]
      · rw [if_neg h]
        split
        · next hf =>
          rw [if_neg (show ¬(toOp e).out = p from h)]
          have : latest (ops es) p = ([], 0) := by unfold latest; rw [hf]
          rw [← ih hn.2, this]
        · exact ih hn.2

theorem recordid_total {w : W} {p : Bytes} (hp : (w.ids p).isSome ∨ (w.next < 2 ^ 31 - 1 ∧ (p.length + 7) / 4 * 4 + 4 < maxRecord)) :
    ∃ r, recordid w p = .ok r := by
  unfold recordid
  cases hi : w.ids p with
  | some i => exact ⟨_, rfl⟩
  | none =>
    rcases hp with hp | ⟨h1, h2⟩
    · rw [hi] at hp; cases hp
    · dsimp only
      rw [if_neg (by omega), if_neg (by omega)]
      exact ⟨_, rfl⟩

/-- The number of a node is below the number of nodes, which are all in a list without repetition. -/
theorem Inv.next_le {w F} (h : Inv w F) {nodes : List Bytes} (hn : ∀ q, (w.ids q).isSome → q ∈ nodes) : w.next ≤ nodes.length := by
  rw [← h.len]
  have := nodup_subset_length (F.map (·.node)) nodes h.good.nodup (fun x hx => by
    obtain ⟨e, he, rfl⟩ := List.mem_map.1 hx
    obtain ⟨i, hi⟩ := List.getElem?_of_mem he
    exact hn _ (by rw [(h.ids e.node i).2 ⟨e, hi, rfl⟩]; rfl))
  rwa [List.length_map] at this

theorem Inv.next_lt {w F} (h : Inv w F) {nodes : List Bytes} (hn : ∀ q, (w.ids q).isSome → q ∈ nodes) {p : Bytes} (hp : p ∈ nodes) (hi : w.ids p = none) :
    w.next < nodes.length := by
  rw [← h.len]
  have := nodup_subset_length (F.map (·.node)) (nodes.erase p) h.good.nodup (fun x hx => by
    obtain ⟨e, he, rfl⟩ := List.mem_map.1 hx
    obtain ⟨i, hei⟩ := List.getElem?_of_mem he
    have hs := (h.ids e.node i).2 ⟨e, hei, rfl⟩
    have hne : e.node ≠ p := by intro hc; rw [hc, hi] at hs; cases hs
    exact (List.mem_erase_of_ne hne).2 (hn _ (by rw [hs]; rfl)))
  rw [List.length_map, List.length_erase_of_mem hp] at this
  have := List.length_pos_of_mem hp
  omega

theorem recordids_total (nodes : List Bytes) (hc : nodes.length ≤ 2 ^ 31 - 1) (hl : ∀ q ∈ nodes, (q.length + 7) / 4 * 4 + 4 < maxRecord) (hgp : ∀ q ∈ nodes, GoodPath q)
    (ps : List Bytes) : ∀ {w : W} {F : List Entry} (_ : Inv w F) (_ : ∀ q, (w.ids q).isSome → q ∈ nodes) (_ : ∀ p ∈ ps, p ∈ nodes), ∃ r, recordids w ps = .ok r := by
  induction ps with
  | nil => intro w F _ _ _; exact ⟨_, rfl⟩
  | cons p ps ih =>
    intro w F h hn hp
    have hpn := hp p (by simp)
    obtain ⟨⟨w1, b1⟩, h1⟩ := recordid_total (w := w) (p := p) (by
      cases hi : w.ids p with
      | some i => exact Or.inl rfl
      | none => exact Or.inr ⟨by have := h.next_lt hn hpn hi; omega, hl p hpn⟩)
    obtain ⟨_, F1, i1, _⟩ := recordid_inv (fun _ => true) h (hgp p hpn) h1
    obtain ⟨r2, h2⟩ := ih i1 (fun q hq => by
      rcases (recordid_ids h1).2.2.1 q hq with h | h
      · exact hn q h
      · rw [h]; exact hpn) (fun p h => hp p (by simp [h]))
    refine ⟨(r2.1, b1 || r2.2), ?_⟩
    unfold recordids
    rw [h1, Res.ok_bind]
    dsimp only
    rw [h2, Res.ok_bind]

/-- Writing the entries again succeeds. -/
theorem rewriteLoop_total (nodes : List Bytes) (hc : nodes.length ≤ 2 ^ 31 - 1) (hl : ∀ q ∈ nodes, (q.length + 7) / 4 * 4 + 4 < maxRecord) (hgp : ∀ q ∈ nodes, GoodPath q)
    (es : List Entry) : ∀ {s : Session} {F : List Entry} (_ : Inv s.w F) (_ : ∀ q, (s.w.ids q).isSome → q ∈ nodes)
    (_ : ∀ e ∈ es, Good (toOp e) ∧ e.node ∈ nodes ∧ (∀ d ∈ e.deps, d ∈ nodes) ∧ 12 + e.deps.length * 4 + 4 < maxRecord),
    ∃ s', rewriteLoop s es = .ok s' := by
  induction es with
  | nil => intro s F _ _ _; exact ⟨_, rfl⟩
  | cons e es ih =>
    intro s F h hn hg
    unfold rewriteLoop
    by_cases he : e.deps = []
    · rw [if_pos he]
      exact ih h hn (fun e h => hg e (by simp [h]))
    · rw [if_neg he]
      obtain ⟨g1, g2, g3, g4⟩ := hg e (by simp)
      obtain ⟨⟨w2, b2⟩, hr2⟩ := recordids_total nodes hc hl hgp (e.node :: e.deps) h hn (by
        intro p hp
        rcases List.mem_cons.1 hp with rfl | hp
        · exact g2
        · exact g3 p hp)
      have hr2' := hr2
      unfold recordids at hr2'
      rw [Res.bind_eq_ok] at hr2'
      obtain ⟨⟨w1, b1⟩, h1, hr2'⟩ := hr2'
      dsimp only at hr2'
      rw [Res.bind_eq_ok] at hr2'
      obtain ⟨⟨w2', b2'⟩, h2, hr2'⟩ := hr2'
      obtain ⟨w3, h3⟩ : ∃ w3, recorddeps w2' e.node e.deps e.mtime = .ok w3 := by
        unfold recorddeps
        dsimp only
        rw [if_neg (by omega)]
        exact ⟨_, rfl⟩
      rw [h1, Res.ok_bind]
      dsimp only
      rw [h2, Res.ok_bind]
      dsimp only
      rw [h3, Res.ok_bind]
      have hr : record s.w e.node e.deps e.mtime = .ok w3 := by
        unfold record
        rw [h1, Res.ok_bind]
        dsimp only
        rw [h2, Res.ok_bind]
        exact h3
      obtain ⟨cs, F1, i1, _⟩ := record_inv (fun _ => true) h (o := toOp e) g1 hr
      obtain ⟨r1, r2, r3⟩ := record_ids hr
      exact ih (s := ⟨w3, _, s.cap⟩) i1 (fun q hq => by
        rcases r3 q hq with h | h | h
        · exact hn q h
        · rw [h]; exact g2
        · exact g3 q h) (fun e h => hg e (by simp [h]))

end Muon.Dlog
