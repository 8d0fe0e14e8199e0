import Verif.Args.Spec
import Verif.Tc.Props
/-
Binding of arguments: properties.
-/
namespace Muon.Args
open Muon Muon.Tc Muon.Args.Spec

theorem Out.bind_eq_ok {α β : Type} {x : Out α} {f : α → Out β} {b : β} :
    (x >>= f) = .ok b ↔ ∃ a, x = .ok a ∧ f a = .ok b := by
  cases x with
  | ok a => exact ⟨fun h => ⟨a, rfl, h⟩, fun ⟨a', e, h⟩ => by cases e; exact h⟩
  | error => exact ⟨fun h => (by cases h), fun ⟨a', e, h⟩ => (by cases e)⟩
  | disabled => exact ⟨fun h => (by cases h), fun ⟨a', e, h⟩ => (by cases e)⟩
  | bad => exact ⟨fun h => (by cases h), fun ⟨a', e, h⟩ => (by cases e)⟩

theorem Out.ok_bind {α β : Type} (a : α) (f : α → Out β) : (Out.ok a >>= f) = f a := rfl

section
variable {chk : V → Tag → Out V}

abbrev posArgs (l : List V) : List Arg := l.map fun v => (none, v)
abbrev kwArgs (l : List (Bytes × V)) : List Arg := l.map fun e => (some e.1, e.2)

/-- Arguments that do not begin with a positional one. -/
def NoPos : List Arg → Prop
  | (none, _) :: _ => False
  | _ => True

theorem globOne_iff (hlist : ∀ v t w, chk v (listify ||| t) = .ok w → ∃ l, w = .arr l) (t : Tag) (v : V) (c : List V) :
    globOne chk t v = .ok c ↔
      ((v.type ≠ 9 ∨ takesArrays t = true) ∧ ∃ w, chk v t = .ok w ∧ c = [w]) ∨
      (v.type = 9 ∧ takesArrays t = false ∧ chk v (listify ||| t) = .ok (.arr c)) := by
  unfold globOne
  by_cases h : v.type = 9 ∧ takesArrays t = false
  · rw [if_pos h, Out.bind_eq_ok]
    constructor
    · rintro ⟨w, hw, e⟩
      obtain ⟨l, rfl⟩ := hlist v t w hw
      cases e
      exact .inr ⟨h.1, h.2, hw⟩
    · rintro (⟨h', _⟩ | ⟨_, _, hw⟩)
      · rcases h' with h' | h'
        · exact absurd h.1 h'
        · rw [h.2] at h'; cases h'
      · exact ⟨_, hw, rfl⟩
  · rw [if_neg h, Out.bind_eq_ok]
    constructor
    · rintro ⟨w, hw, e⟩
      cases e
      refine .inl ⟨?_, w, hw, rfl⟩
      by_cases h9 : v.type = 9
      · right
        cases hb : takesArrays t with
        | true => rfl
        | false => exact absurd ⟨h9, hb⟩ h
      · exact .inl h9
    · rintro (⟨_, w, hw, rfl⟩ | ⟨h1, h2, _⟩)
      · exact ⟨w, hw, rfl⟩
      · exact absurd ⟨h1, h2⟩ h

theorem globLoop_iff (hlist : ∀ v t w, chk v (listify ||| t) = .ok w → ∃ l, w = .arr l) (t : Tag) :
    ∀ (args : List Arg) (c : List V) (rest : List Arg), globLoop chk t args = .ok (c, rest) ↔
      ∃ b, args = posArgs b ++ rest ∧ NoPos rest ∧ FitsRest chk t b c := by
  intro args
  induction args with
  | nil =>
    intro c rest
    rw [globLoop]
    · constructor
      · intro h; cases h; exact ⟨[], rfl, trivial, .nil⟩
      · rintro ⟨b, e, _, hf⟩
        have hb : b = [] := by cases b with | nil => rfl | cons x b => cases e
        subst hb
        cases hf
        cases e; rfl
    · intro v args h; cases h
  | cons a args ih =>
    intro c rest
    obtain ⟨k, v⟩ := a
    cases k with
    | some k =>
      rw [globLoop]
      · constructor
        · intro h; cases h; exact ⟨[], rfl, trivial, .nil⟩
        · rintro ⟨b, e, _, hf⟩
          have hb : b = [] := by cases b with | nil => rfl | cons x b => cases e
          subst hb
          cases hf
          simp at e; subst e; rfl
      · intro v args h; cases h
    | none =>
      rw [globLoop, Out.bind_eq_ok]
      constructor
      · rintro ⟨c1, h1, h2⟩
        obtain ⟨⟨c2, rest2⟩, h3, h4⟩ := Out.bind_eq_ok.mp h2
        cases h4
        obtain ⟨b, rfl, hn, hf⟩ := (ih _ _).mp h3
        refine ⟨v :: b, rfl, hn, ?_⟩
        rcases (globOne_iff hlist t v c1).mp h1 with ⟨h, w, hw, rfl⟩ | ⟨h, h', hw⟩
        · exact .one h hw hf
        · exact .many h h' hw hf
      · rintro ⟨b, e, hn, hf⟩
        cases b with
        | nil => simp at e; subst e; exact absurd hn (by simp [NoPos])
        | cons x b =>
          simp only [posArgs, List.map_cons, List.cons_append, List.cons.injEq, Prod.mk.injEq, true_and] at e
          obtain ⟨rfl, e⟩ := e
          cases hf with
          | @one _ w _ ws h hw hf =>
            refine ⟨[w], (globOne_iff hlist t v _).mpr (.inl ⟨h, w, hw, rfl⟩), ?_⟩
            rw [(ih ws rest).mpr ⟨b, e, hn, hf⟩]; rfl
          | @many _ l _ ws h h' hw hf =>
            refine ⟨l, (globOne_iff hlist t v _).mpr (.inr ⟨h, h', hw⟩), ?_⟩
            rw [(ih ws rest).mpr ⟨b, e, hn, hf⟩]; rfl

theorem posLoop_iff (ho : Bool) : ∀ (ts : List Tag), (∀ t ∈ ts, t &&& glob = 0) → ∀ (ts' : List Tag) (args : List Arg) (ws : List V) (rest : List Arg),
    posLoop chk ho (ts ++ ts') args = .ok (ws, rest) ↔
      ∃ a ws1 ws2 args', args = posArgs a ++ args' ∧ Fits chk ts a ws1 ∧ ws = ws1 ++ ws2 ∧ posLoop chk ho ts' args' = .ok (ws2, rest) := by
  intro ts
  induction ts with
  | nil =>
    intro _ ts' args ws rest
    constructor
    · intro h; exact ⟨[], [], ws, args, rfl, .nil, rfl, h⟩
    · rintro ⟨a, ws1, ws2, args', rfl, hf, rfl, h⟩
      cases hf
      exact h
  | cons t ts ih =>
    intro hg ts' args ws rest
    have hz : ¬ (t &&& glob ≠ 0) := by simp [hg t (by simp)]
    have ih := ih (fun t h => hg t (by simp [h]))
    rw [List.cons_append, posLoop.eq_def]
    dsimp only
    rw [if_neg hz]
    cases args with
    | nil =>
      constructor
      · intro h; cases h
      · rintro ⟨a, ws1, ws2, args', e, hf, _⟩
        cases hf
        cases e
    | cons x args =>
      obtain ⟨k, v⟩ := x
      cases k with
      | some k =>
        constructor
        · intro h; cases h
        · rintro ⟨a, ws1, ws2, args', e, hf, _⟩
          cases hf
          cases e
      | none =>
        dsimp only
        rw [Out.bind_eq_ok]
        constructor
        · rintro ⟨w, hw, h⟩
          obtain ⟨⟨ws3, rest3⟩, h3, h4⟩ := Out.bind_eq_ok.mp h
          cases h4
          obtain ⟨a, ws1, ws2, args', rfl, hf, rfl, hp⟩ := (ih ts' args ws3 _).mp h3
          exact ⟨v :: a, w :: ws1, ws2, args', rfl, .cons hw hf, rfl, hp⟩
        · rintro ⟨a, ws1, ws2, args', e, hf, rfl, hp⟩
          cases hf with
          | @cons _ v' w _ a ws1 hw hf =>
            simp only [posArgs, List.map_cons, List.cons_append, List.cons.injEq, Prod.mk.injEq, true_and] at e
            obtain ⟨rfl, e⟩ := e
            refine ⟨w, hw, ?_⟩
            rw [(ih ts' args (ws1 ++ ws2) rest).mpr ⟨a, ws1, ws2, args', e, hf, rfl, hp⟩]
            rfl

theorem optLoop_iff : ∀ (ts : List Tag) (args : List Arg) (ws : List V) (rest : List Arg),
    optLoop chk ts args = .ok (ws, rest) ↔
      ∃ b k, args = posArgs b ++ rest ∧ Fits chk (ts.take k) b ws ∧ (ts.length ≤ k ∨ NoPos rest) := by
  intro ts
  induction ts with
  | nil =>
    intro args ws rest
    rw [optLoop]
    · constructor
      · intro h; cases h; exact ⟨[], 0, rfl, .nil, .inl (by simp)⟩
      · rintro ⟨b, k, rfl, hf, _⟩
        rw [List.take_nil] at hf
        cases hf; rfl
    · intro _ _ _ _ h; cases h
  | cons t ts ih =>
    intro args ws rest
    have stop : NoPos args → (Out.ok (([], args) : List V × List Arg) = .ok (ws, rest) ↔
        ∃ b k, args = posArgs b ++ rest ∧ Fits chk ((t :: ts).take k) b ws ∧ ((t :: ts).length ≤ k ∨ NoPos rest)) := by
      intro hn
      constructor
      · intro h; cases h; exact ⟨[], 0, rfl, .nil, .inr hn⟩
      · rintro ⟨b, k, rfl, hf, _⟩
        cases b with
        | cons x b => exact absurd hn (by simp [NoPos])
        | nil =>
          cases hk : (t :: ts).take k with
          | nil => rw [hk] at hf; cases hf; rfl
          | cons y ys => rw [hk] at hf; cases hf
    cases args with
    | nil =>
      rw [optLoop]
      · exact stop trivial
      · intro _ _ _ _ _ h; cases h
    | cons x args =>
      obtain ⟨k, v⟩ := x
      cases k with
      | some k =>
        rw [optLoop]
        · exact stop trivial
        · intro _ _ _ _ _ h; cases h
      | none =>
        rw [optLoop, Out.bind_eq_ok]
        constructor
        · rintro ⟨w, hw, h⟩
          obtain ⟨⟨ws3, rest3⟩, h3, h4⟩ := Out.bind_eq_ok.mp h
          cases h4
          obtain ⟨b, k, rfl, hf, hk⟩ := (ih _ _ _).mp h3
          refine ⟨v :: b, k + 1, rfl, .cons hw hf, ?_⟩
          rcases hk with hk | hk
          · exact .inl (by simpa using hk)
          · exact .inr hk
        · rintro ⟨b, k, e, hf, hk⟩
          cases k with
          | zero =>
            rw [List.take_zero] at hf
            cases hf
            simp at e
            subst e
            rcases hk with hk | hk
            · simp at hk
            · exact absurd hk (by simp [NoPos])
          | succ k =>
            rw [List.take_succ_cons] at hf
            cases hf with
            | @cons _ v' w _ b ws hw hf =>
              simp only [posArgs, List.map_cons, List.cons_append, List.cons.injEq, Prod.mk.injEq, true_and] at e
              obtain ⟨rfl, e⟩ := e
              refine ⟨w, hw, ?_⟩
              rw [(ih args ws rest).mpr ⟨b, k, e, hf, by
                rcases hk with hk | hk
                · exact .inl (by simpa using hk)
                · exact .inr hk⟩]
              rfl

theorem optLoop_nil (args : List Arg) : optLoop chk [] args = .ok ([], args) := by
  rw [optLoop]
  intro _ _ _ _ h; cases h

/-! ### Keywords -/

/-- The state after some keywords were given. -/
structure KwInv (chk : V → Tag → Out V) (kws : List Kw) (g : List (Bytes × V)) (st : Kws) : Prop where
  nodup : (g.map (·.1)).Nodup
  declared : ∀ e ∈ g, ∃ d ∈ kws, d.key = e.1
  fst : st.map (·.1) = kws
  vals : ∀ d o, (d, o) ∈ st → match o with
    | none => ∀ v, (d.key, v) ∉ g
    | some w => ∃ v, (d.key, v) ∈ g ∧ chk v d.type = .ok w

theorem setKw_iff (k : Bytes) (v : V) : ∀ (st st' : Kws), (st.map (·.1.key)).Nodup →
    (setKw chk k v st = .ok st' ↔
      ∃ a d b w, st = a ++ (d, none) :: b ∧ d.key = k ∧ chk v d.type = .ok w ∧ st' = a ++ (d, some w) :: b) := by
  intro st
  induction st with
  | nil =>
    intro st' _
    rw [setKw]
    constructor
    · intro h; cases h
    · rintro ⟨a, d, b, w, e, _⟩
      cases a <;> cases e
  | cons x st ih =>
    obtain ⟨d, old⟩ := x
    intro st' hn
    rw [List.map_cons, List.nodup_cons] at hn
    rw [setKw]
    by_cases hk : k = d.key
    · rw [if_pos hk, Out.bind_eq_ok]
      constructor
      · rintro ⟨w, hw, h⟩
        cases old with
        | some o => cases h
        | none =>
          cases h
          exact ⟨[], d, st, w, rfl, hk.symm, hw, rfl⟩
      · rintro ⟨a, d', b, w, e, hd, hw, rfl⟩
        cases a with
        | nil =>
          cases e
          exact ⟨w, hw, rfl⟩
        | cons y a =>
          exfalso
          simp only [List.cons_append, List.cons.injEq] at e
          apply hn.1
          rw [e.2]
          simp [hd, hk]
    · rw [if_neg hk, Out.bind_eq_ok]
      constructor
      · rintro ⟨st1, h1, h2⟩
        cases h2
        obtain ⟨a, d', b, w, rfl, hd, hw, rfl⟩ := (ih st1 hn.2).mp h1
        exact ⟨(d, old) :: a, d', b, w, rfl, hd, hw, rfl⟩
      · rintro ⟨a, d', b, w, e, hd, hw, rfl⟩
        cases a with
        | nil =>
          cases e
          exact absurd hd.symm hk
        | cons y a =>
          simp only [List.cons_append, List.cons.injEq] at e
          obtain ⟨rfl, e⟩ := e
          refine ⟨a ++ (d', some w) :: b, (ih _ hn.2).mpr ⟨a, d', b, w, e, hd, hw, rfl⟩, rfl⟩

theorem kw_unique {kws : List Kw} (hn : (kws.map (·.key)).Nodup) {d d' : Kw} (h : d ∈ kws) (h' : d' ∈ kws) (e : d.key = d'.key) : d = d' := by
  induction kws with
  | nil => cases h
  | cons x kws ih =>
    rw [List.map_cons, List.nodup_cons] at hn
    rcases List.mem_cons.mp h with rfl | h2
    · rcases List.mem_cons.mp h' with rfl | h3
      · rfl
      · exact absurd (List.mem_map.mpr ⟨d', h3, e.symm⟩) hn.1
    · rcases List.mem_cons.mp h' with rfl | h3
      · exact absurd (List.mem_map.mpr ⟨d, h2, e⟩) hn.1
      · exact ih hn.2 h2 h3

theorem assoc_unique {G : List (Bytes × V)} (hnd : (G.map (·.1)).Nodup) {k : Bytes} {v1 v2 : V} (hv1 : (k, v1) ∈ G) (hv2 : (k, v2) ∈ G) : v1 = v2 := by
  induction G with
  | nil => cases hv1
  | cons z G ihG =>
    rw [List.map_cons, List.nodup_cons] at hnd
    rcases List.mem_cons.mp hv1 with rfl | hv3
    · rcases List.mem_cons.mp hv2 with h | hv4
      · cases h; rfl
      · exact absurd (List.mem_map.mpr ⟨_, hv4, rfl⟩) hnd.1
    · rcases List.mem_cons.mp hv2 with rfl | hv4
      · exact absurd (List.mem_map.mpr ⟨_, hv3, rfl⟩) hnd.1
      · exact ihG hnd.2 hv3 hv4

theorem kwInv_unique {kws : List Kw} {g : List (Bytes × V)} {st st' : Kws} (hi : KwInv chk kws g st) (hi' : KwInv chk kws g st') : st = st' := by
  apply List.ext_getElem?
  intro i
  have e1 : (st.map (·.1))[i]? = (st'.map (·.1))[i]? := by rw [hi'.fst, hi.fst]
  rw [List.getElem?_map, List.getElem?_map] at e1
  cases h1 : st[i]? with
  | none =>
    rw [h1] at e1
    cases h2 : st'[i]? with
    | none => rfl
    | some y => rw [h2] at e1; cases e1
  | some x =>
    rw [h1] at e1
    cases h2 : st'[i]? with
    | none => rw [h2] at e1; cases e1
    | some y =>
      rw [h2] at e1
      obtain ⟨xd, xo⟩ := x
      obtain ⟨yd, yo⟩ := y
      simp only [Option.map_some, Option.some.injEq] at e1
      subst e1
      have hx := hi.vals xd xo (List.mem_of_getElem? h1)
      have hy := hi'.vals xd yo (List.mem_of_getElem? h2)
      cases xo with
      | none =>
        cases yo with
        | none => rfl
        | some w2 => obtain ⟨v2, h, _⟩ := hy; exact absurd h (hx v2)
      | some w1 =>
        cases yo with
        | none => obtain ⟨v2, h, _⟩ := hx; exact absurd h (hy v2)
        | some w2 =>
          obtain ⟨v1, hv1, hw1⟩ := hx
          obtain ⟨v2, hv2, hw2⟩ := hy
          have := assoc_unique hi.nodup hv1 hv2
          subst this
          rw [hw1] at hw2; cases hw2; rfl

theorem setKw_inv {kws : List Kw} (hn : (kws.map (·.key)).Nodup) (k : Bytes) (v : V) {g : List (Bytes × V)} {st : Kws}
    (hi : KwInv chk kws g st) (st' : Kws) :
    setKw chk k v st = .ok st' ↔ KwInv chk kws (g ++ [(k, v)]) st' := by
  have hmap : st.map (·.1.key) = kws.map (·.key) := by rw [← hi.fst, List.map_map]; rfl
  have hns : (st.map (·.1.key)).Nodup := by rw [hmap]; exact hn
  rw [setKw_iff k v st st' hns]
  constructor
  · rintro ⟨a, d, b, w, e, rfl, hw, rfl⟩
    have hmem : (d, none) ∈ st := by rw [e]; simp
    have hnot := hi.vals d none hmem
    dsimp only at hnot
    refine ⟨?_, ?_, ?_, ?_⟩
    · rw [List.map_append, List.nodup_append]
      refine ⟨hi.nodup, by simp, ?_⟩
      intro x hx y hy hxy
      simp only [List.map_cons, List.map_nil, List.mem_singleton] at hy
      obtain ⟨⟨k', v'⟩, he, rfl⟩ := List.mem_map.mp hx
      subst hy
      dsimp only at hxy
      subst hxy
      exact hnot v' he
    · intro x hx
      rcases List.mem_append.mp hx with hx | hx
      · exact hi.declared x hx
      · simp only [List.mem_singleton] at hx
        subst hx
        exact ⟨d, by rw [← hi.fst, e]; simp, rfl⟩
    · rw [← hi.fst, e]; simp
    · intro d' o hd'
      have hor : (d', o) = (d, some w) ∨ ((d', o) ∈ st ∧ d'.key ≠ d.key) := by
        rw [e, List.map_append, List.map_cons, List.nodup_append, List.nodup_cons] at hns
        rcases List.mem_append.mp hd' with h | h
        · refine .inr ⟨by rw [e]; simp [h], fun hk => ?_⟩
          exact hns.2.2 d'.key (List.mem_map.mpr ⟨_, h, rfl⟩) d.key (by simp) hk
        · rcases List.mem_cons.mp h with h | h
          · exact .inl h
          · refine .inr ⟨by rw [e]; simp [h], fun hk => hns.2.1.1 (List.mem_map.mpr ⟨_, h, hk⟩)⟩
      rcases hor with h | ⟨h, hk⟩
      · cases h
        exact ⟨v, by simp, hw⟩
      · have := hi.vals d' o h
        cases o with
        | none =>
          intro v' hv'
          rcases List.mem_append.mp hv' with h | h
          · exact this v' h
          · simp only [List.mem_singleton, Prod.mk.injEq] at h
            exact hk h.1
        | some w' =>
          obtain ⟨v', h1, h2⟩ := this
          exact ⟨v', by simp [h1], h2⟩
  · intro hi'
    obtain ⟨d, hd, hdk⟩ := hi'.declared (k, v) (by simp)
    dsimp only at hdk
    subst hdk
    have hnd := hi'.nodup
    rw [List.map_append, List.nodup_append] at hnd
    have hnot : ∀ v', (d.key, v') ∉ g := fun v' h =>
      hnd.2.2 d.key (List.mem_map.mpr ⟨_, h, rfl⟩) d.key (by simp) rfl
    have hd2 : d ∈ st.map (·.1) := by rw [hi.fst]; exact hd
    obtain ⟨⟨d0, o⟩, hdo, rfl⟩ := List.mem_map.mp hd2
    dsimp only at hnot hd hdo hi' ⊢
    have ho : o = none := by
      cases o with
      | none => rfl
      | some w =>
        obtain ⟨v', h, _⟩ := hi.vals d0 _ hdo
        exact absurd h (hnot v')
    subst ho
    obtain ⟨a, b, rfl⟩ := List.append_of_mem hdo
    -- the entry in the new state
    have hd3 : d0 ∈ st'.map (·.1) := by rw [hi'.fst]; exact hd
    obtain ⟨⟨d1, o⟩, hdo', rfl⟩ := List.mem_map.mp hd3
    dsimp only at *
    have hv := hi'.vals d1 o hdo'
    cases o with
    | none => exact absurd (show (d1.key, v) ∈ g ++ [(d1.key, v)] by simp) (hv v)
    | some w =>
      obtain ⟨v', hv', hw⟩ := hv
      have : v' = v := by
        rcases List.mem_append.mp hv' with h | h
        · exact absurd h (hnot v')
        · simp only [List.mem_singleton, Prod.mk.injEq] at h
          exact h.2
      subst this
      refine ⟨a, d1, b, w, rfl, rfl, hw, ?_⟩
      have hnew : KwInv chk kws (g ++ [(d1.key, v')]) (a ++ (d1, some w) :: b) := by
        refine ⟨hi'.nodup, hi'.declared, by rw [← hi.fst]; simp, ?_⟩
        intro d' o hd'
        have hor : (d', o) = (d1, some w) ∨ ((d', o) ∈ a ++ (d1, none) :: b ∧ d'.key ≠ d1.key) := by
          rw [List.map_append, List.map_cons, List.nodup_append, List.nodup_cons] at hns
          rcases List.mem_append.mp hd' with h | h
          · refine .inr ⟨by simp [h], fun hk => ?_⟩
            exact hns.2.2 d'.key (List.mem_map.mpr ⟨_, h, rfl⟩) d1.key (by simp) hk
          · rcases List.mem_cons.mp h with h | h
            · exact .inl h
            · refine .inr ⟨by simp [h], fun hk => hns.2.1.1 (List.mem_map.mpr ⟨_, h, hk⟩)⟩
        rcases hor with h | ⟨h, hk⟩
        · cases h
          exact ⟨v', by simp, hw⟩
        · have := hi.vals d' o h
          cases o with
          | none =>
            intro v'' hv''
            rcases List.mem_append.mp hv'' with h | h
            · exact this v'' h
            · simp only [List.mem_singleton, Prod.mk.injEq] at h
              exact hk h.1
          | some w' =>
            obtain ⟨v'', h1, h2⟩ := this
            exact ⟨v'', by simp [h1], h2⟩
      exact kwInv_unique hi' hnew

/-- A state in which no more than one value was given for each keyword and so on extends to fewer keywords. -/
theorem KwInv.shrink {kws : List Kw} (hn : (kws.map (·.key)).Nodup) {g : List (Bytes × V)} {e : Bytes × V} {l : List (Bytes × V)} {st st' : Kws}
    (hi : KwInv chk kws g st) (h : KwInv chk kws (g ++ e :: l) st') : ∃ st1, KwInv chk kws (g ++ [e]) st1 := by
  obtain ⟨k, v⟩ := e
  obtain ⟨d, hd, hdk⟩ := h.declared (k, v) (by simp)
  dsimp only at hdk
  subst hdk
  have hd3 : d ∈ st'.map (·.1) := by rw [h.fst]; exact hd
  obtain ⟨⟨d1, o⟩, hdo, rfl⟩ := List.mem_map.mp hd3
  dsimp only at *
  have hnd := h.nodup
  rw [List.map_append, List.map_cons, List.nodup_append, List.nodup_cons] at hnd
  have hnot : ∀ v', (d1.key, v') ∉ g := fun v' h => hnd.2.2 d1.key (List.mem_map.mpr ⟨_, h, rfl⟩) d1.key (by simp) rfl
  have hv := h.vals d1 o hdo
  cases o with
  | none => exact absurd (show (d1.key, v) ∈ g ++ (d1.key, v) :: l by simp) (hv v)
  | some w =>
    obtain ⟨v', hv', hw⟩ := hv
    have : v' = v := by
      rcases List.mem_append.mp hv' with h | h
      · exact absurd h (hnot v')
      · rcases List.mem_cons.mp h with h | h
        · cases h; rfl
        · exact absurd (List.mem_map.mpr ⟨_, h, rfl⟩) hnd.2.1.1
    subst this
    refine ⟨st.map fun x => if x.1 = d1 then (d1, some w) else x, ?_, ?_, ?_, ?_⟩
    · rw [List.map_append, List.nodup_append]
      refine ⟨hnd.1, by simp, ?_⟩
      intro a ha b hb hab
      simp only [List.map_cons, List.map_nil, List.mem_singleton] at hb
      subst hb
      subst hab
      exact hnd.2.2 _ ha _ (by simp) rfl
    · intro x hx
      refine h.declared x ?_
      rcases List.mem_append.mp hx with hx | hx
      · simp [hx]
      · simp only [List.mem_singleton] at hx; subst hx; simp
    · rw [List.map_map]
      conv => rhs; rw [← hi.fst]
      apply List.map_congr_left
      intro x _
      show (if x.1 = d1 then (d1, some w) else x).1 = x.1
      split
      · next h => exact h.symm
      · rfl
    · intro d' o hd'
      obtain ⟨x, hx, e⟩ := List.mem_map.mp hd'
      by_cases hxd : x.1 = d1
      · rw [if_pos hxd] at e
        cases e
        exact ⟨v', by simp, hw⟩
      · rw [if_neg hxd] at e
        subst e
        have := hi.vals d' o hx
        cases o with
        | some w' =>
          obtain ⟨v2, h1, h2⟩ := this
          exact ⟨v2, by simp [h1], h2⟩
        | none =>
          intro v2 hv2
          rcases List.mem_append.mp hv2 with h' | h'
          · exact this v2 h'
          · simp only [List.mem_singleton, Prod.mk.injEq] at h'
            refine hxd (kw_unique hn ?_ hd h'.1)
            rw [← hi.fst]
            exact List.mem_map.mpr ⟨_, hx, rfl⟩

theorem KwInv.shrinks {kws : List Kw} (hn : (kws.map (·.key)).Nodup) {l' : List (Bytes × V)} {st' : Kws} :
    ∀ (l g : List (Bytes × V)) (st : Kws), KwInv chk kws g st → KwInv chk kws (g ++ l ++ l') st' → ∃ st1, KwInv chk kws (g ++ l) st1 := by
  intro l
  induction l with
  | nil => intro g st hi _; exact ⟨st, by simpa using hi⟩
  | cons e l ih =>
    intro g st hi h
    obtain ⟨st1, h1⟩ := KwInv.shrink hn hi (e := e) (l := l ++ l') (st' := st') (by simpa using h)
    obtain ⟨st2, h2⟩ := ih (g ++ [e]) st1 h1 (by simpa using h)
    exact ⟨st2, by simpa using h2⟩

theorem dictLoop_iff {kws : List Kw} (hn : (kws.map (·.key)).Nodup) (hz : ∀ d ∈ kws, 0 ∉ d.key) (st' : Kws) :
    ∀ (l g : List (Bytes × V)) (st : Kws), KwInv chk kws g st →
      (dictLoop chk l st = .ok st' ↔ KwInv chk kws (g ++ l) st') := by
  intro l
  induction l with
  | nil =>
    intro g st hi
    rw [dictLoop, List.append_nil]
    constructor
    · intro h; cases h; exact hi
    · intro h; rw [kwInv_unique hi h]
  | cons e l ih =>
    obtain ⟨k, v⟩ := e
    intro g st hi
    rw [dictLoop]
    constructor
    · intro h
      split at h
      · cases h
      · obtain ⟨st1, h1, h2⟩ := Out.bind_eq_ok.mp h
        have := (ih _ _ ((setKw_inv hn k v hi st1).mp h1)).mp h2
        simpa using this
    · intro h
      obtain ⟨d, hd, hk⟩ := h.declared (k, v) (by simp)
      dsimp only at hk
      rw [if_neg (by rw [← hk]; exact hz d hd)]
      obtain ⟨st1, h1⟩ := KwInv.shrink hn hi h
      rw [(setKw_inv hn k v hi st1).mpr h1]
      exact (ih _ _ h1).mpr (by simpa using h)

theorem typecheck_dict (v : V) (hv : v.type ≤ 32) :
    outOf (typecheck [] 1 v 10) v = if v.type = 10 ∨ v.type = 2 then .ok v else .error := by
  have key : ∀ t : Fin 33, check [] 1 (.obj t.val 0) (ofObjType t.val) (ofObjType 10) = .ok (decide (t.val = 10 ∨ t.val = 2)) := by decide +kernel
  have h1 : typecheck [] 1 v 10 = check [] 1 (.obj v.type 0) (ofObjType v.type) (ofObjType 10) := by
    unfold typecheck
    rw [if_pos (by decide)]
    rw [check, check]
    have : ofObjType 10 &&& complex = 0 := by decide
    have e : (10#64).toNat = 10 := by decide
    show (if ofObjType (10#64).toNat &&& complex = 0 then checkSimple _ (ofObjType (10#64).toNat) else _) = _
    rw [e, if_pos this, if_pos this]
  rw [h1, key ⟨v.type, by omega⟩]
  by_cases h : v.type = 10 ∨ v.type = 2
  · simp [h, outOf]
  · simp [h, outOf]

theorem given_append (a b : List (Bytes × V)) : given (a ++ b) = given a ++ given b := by
  induction a with
  | nil => rfl
  | cons x a ih => obtain ⟨k, v⟩ := x; rw [List.cons_append, given, given, ih, List.append_assoc]

theorem kwLoop_iff {kws : List Kw} (hn : (kws.map (·.key)).Nodup) (hz : ∀ d ∈ kws, 0 ∉ d.key) (st' : Kws) :
    ∀ (args : List Arg), (∀ a ∈ args, a.2.type ≤ 32 ∧ ∀ t id, a.2 = .obj t id → t ≠ 10) → ∀ (g : List (Bytes × V)) (st : Kws), KwInv chk kws g st →
      (kwLoop chk args st = .ok st' ↔ ∃ named, args = kwArgs named ∧ (∀ v, (kwargs, v) ∈ named → ∃ l, v = .dict l) ∧
        KwInv chk kws (g ++ given named) st') := by
  intro args
  induction args with
  | nil =>
    intro _ g st hi
    rw [kwLoop]
    constructor
    · intro h; cases h; exact ⟨[], rfl, by simp, by simpa [given] using hi⟩
    · rintro ⟨named, e, _, h⟩
      have : named = [] := by cases named with | nil => rfl | cons _ _ => cases e
      subst this
      rw [given, List.append_nil] at h
      rw [kwInv_unique hi h]
  | cons a args ih =>
    obtain ⟨k, v⟩ := a
    intro hty g st hi
    have ih := ih (fun a ha => hty a (by simp [ha]))
    have hv := hty (k, v) (by simp)
    cases k with
    | none =>
      rw [kwLoop]
      constructor
      · intro h; cases h
      · rintro ⟨named, e, _⟩
        cases named <;> cases e
    | some k =>
      rw [kwLoop, Out.bind_eq_ok]
      have first : ∀ st1, (if k = kwargs then
            outOf (typecheck [] 1 v 10) v >>= fun v => match v with
              | .dict l => dictLoop chk l st
              | _ => .bad
          else setKw chk k v st) = .ok st1 ↔ ((k = kwargs → ∃ l, v = .dict l) ∧ KwInv chk kws (g ++ given [(k, v)]) st1) := by
        intro st1
        by_cases hk : k = kwargs
        · subst hk
          rw [if_pos rfl, typecheck_dict v hv.1]
          simp only [given, if_true, List.append_nil, entries]
          cases v with
          | dict l =>
            rw [if_pos (.inl rfl), Out.ok_bind]
            dsimp only
            rw [dictLoop_iff hn hz st1 l g st hi]
            exact ⟨fun h => ⟨fun _ => ⟨l, rfl⟩, h⟩, fun h => h.2⟩
          | arr l =>
            constructor
            · intro h; cases h
            · rintro ⟨h, _⟩; obtain ⟨_, e⟩ := h trivial; cases e
          | obj t id =>
            constructor
            · intro h
              split at h <;> cases h
            · rintro ⟨h, _⟩; obtain ⟨_, e⟩ := h trivial; cases e
        · rw [if_neg hk, setKw_inv hn k v hi st1]
          simp [given, hk]
      constructor
      · rintro ⟨st1, h1, h2⟩
        obtain ⟨hd, hi1⟩ := (first st1).mp h1
        obtain ⟨named, rfl, hdict, h3⟩ := (ih _ _ hi1).mp h2
        refine ⟨(k, v) :: named, rfl, ?_, ?_⟩
        · intro v' hv'
          rcases List.mem_cons.mp hv' with h | h
          · cases h; exact hd rfl
          · exact hdict v' h
        · rw [show (k, v) :: named = [(k, v)] ++ named from rfl, given_append, ← List.append_assoc]
          exact h3
      · rintro ⟨named, e, hdict, h⟩
        cases named with
        | nil => cases e
        | cons x named =>
          obtain ⟨k', v'⟩ := x
          simp only [kwArgs, List.map_cons, List.cons.injEq, Prod.mk.injEq, Option.some.injEq] at e
          obtain ⟨⟨rfl, rfl⟩, rfl⟩ := e
          rw [show (k, v) :: named = [(k, v)] ++ named from rfl, given_append, ← List.append_assoc] at h
          obtain ⟨st1, h1⟩ := KwInv.shrinks hn _ _ _ hi h
          refine ⟨st1, (first st1).mpr ⟨fun hk => hdict v (by simp [hk]), h1⟩, ?_⟩
          exact (ih _ _ h1).mpr ⟨named, rfl, fun v' hv' => hdict v' (by simp [hv']), h⟩

theorem kwInv_init (kws : List Kw) : KwInv chk kws [] (kws.map fun d => (d, none)) := by
  refine ⟨by simp, by simp, by rw [List.map_map]; exact List.map_id _, ?_⟩
  intro d o h
  obtain ⟨d', _, e⟩ := List.mem_map.mp h
  cases e
  simp

theorem noPos_kwArgs (named : List (Bytes × V)) : NoPos (kwArgs named) := by
  cases named <;> trivial

/-- The keyword part of `bind`. -/
def bindKw (chk : V → Tag → Out V) (kws : Option (List Kw)) (rest : List Arg) : Out Kws :=
  match kws with
  | none => if rest = [] then .ok [] else .error
  | some kws =>
    kwLoop chk rest (kws.map fun d => (d, none)) >>= fun st =>
    if st.any (fun e => e.1.required && e.2.isNone) then .error else .ok st

theorem bind_eq (p : Params) (args : List Arg) : bind chk p args =
    (posLoop chk (p.opt ≠ []) p.pos args >>= fun r => optLoop chk p.opt r.2 >>= fun s =>
      bindKw chk p.kws s.2 >>= fun st => .ok ⟨r.1, s.1, st⟩) := by
  unfold bind bindKw
  congr 1
  funext r
  congr 1
  funext s
  cases p.kws with
  | none =>
    dsimp only
    by_cases h : s.2 = []
    · rw [if_pos h, if_pos h]; rfl
    · rw [if_neg h, if_neg h]; rfl
  | some kws =>
    dsimp only
    cases kwLoop chk s.2 (kws.map fun d => (d, none)) with
    | ok st =>
      rw [Out.ok_bind, Out.ok_bind]
      by_cases h : st.any (fun e => e.1.required && e.2.isNone) = true
      · rw [if_pos h, if_pos h]; rfl
      · rw [if_neg h, if_neg h]; rfl
    | error => rfl
    | disabled => rfl
    | bad => rfl

theorem bindKw_iff (d : Decl) (hd : d.Wf) (rest : List Arg) (hv : ∀ a ∈ rest, Tc.Spec.Wf a.2) (st : Kws) :
    bindKw chk d.kws rest = .ok st ↔ ∃ named, rest = kwArgs named ∧
      match d.kws with
      | none => named = [] ∧ st = []
      | some kws => FitsKw chk kws named st := by
  unfold bindKw
  cases hk : d.kws with
  | none =>
    dsimp only
    by_cases h : rest = []
    · rw [if_pos h]
      constructor
      · intro e; cases e; exact ⟨[], h, rfl, rfl⟩
      · rintro ⟨_, _, _, rfl⟩; rfl
    · rw [if_neg h]
      constructor
      · intro e; cases e
      · rintro ⟨_, e, rfl, _⟩; exact absurd e h
  | some kws =>
    dsimp only
    obtain ⟨hn, hz⟩ := hd.names kws hk
    have hty : ∀ a ∈ rest, a.2.type ≤ 32 ∧ ∀ t id, a.2 = .obj t id → t ≠ 10 := by
      intro a ha
      refine ⟨wf_type (hv a ha), ?_⟩
      intro t id e
      have := hv a ha
      rw [e] at this
      unfold Tc.Spec.Wf at this
      rw [Tc.Spec.Each] at this
      exact this.2.2
    have hkw := fun st => kwLoop_iff (chk := chk) hn hz st rest hty [] _ (kwInv_init kws)
    rw [Out.bind_eq_ok]
    constructor
    · rintro ⟨st1, h1, h2⟩
      by_cases hr : st1.any (fun e => e.1.required && e.2.isNone) = true
      · rw [if_pos hr] at h2; cases h2
      · rw [if_neg hr] at h2
        cases h2
        obtain ⟨named, e, hdict, hi⟩ := (hkw st).mp h1
        rw [List.nil_append] at hi
        refine ⟨named, e, hdict, hi.nodup, hi.declared, hi.fst, ?_⟩
        intro d' o hm
        have hvv := hi.vals d' o hm
        cases o with
        | some w => exact hvv
        | none =>
          refine ⟨?_, hvv⟩
          cases hreq : d'.required with
          | false => rfl
          | true =>
            exfalso
            apply hr
            rw [List.any_eq_true]
            exact ⟨_, hm, by simp [hreq]⟩
    · rintro ⟨named, e, hdict, h1, h2, h3, h4⟩
      refine ⟨st, (hkw st).mpr ⟨named, e, hdict, h1, h2, h3, ?_⟩, ?_⟩
      · intro d' o hm
        have := h4 d' o hm
        cases o with
        | some w => exact this
        | none => exact this.2
      · rw [if_neg]
        intro hr
        rw [List.any_eq_true] at hr
        obtain ⟨⟨d', o⟩, hm, hb⟩ := hr
        have := h4 d' o hm
        cases o with
        | some w => simp at hb
        | none => simp [this.1] at hb

theorem bind_iff_gen (hlist : ∀ v t w, chk v (listify ||| t) = .ok w → ∃ l, w = .arr l) (d : Decl) (hd : d.Wf) (args : List Arg)
    (hv : ∀ a ∈ args, Tc.Spec.Wf a.2) (r : Bound) : bind chk d.params args = .ok r ↔ Accepts chk d args r := by
  have hgz : ∀ t : Tag, t.getLsbD 61 = false → t &&& glob = 0 := by
    intro t ht
    by_cases h : t &&& glob = 0
    · exact h
    · rw [BitVec.and_comm] at h
      have := (and_twoPow_ne t 61 (by omega)).mp h
      rw [ht] at this; cases this
  rw [bind_eq, Out.bind_eq_ok]
  unfold Accepts FitsPos
  cases hr : d.rest with
  | none =>
    have hp : d.params.pos = d.required ++ [] := by simp [Decl.params, hr]
    have ho : d.params.opt = d.optional := rfl
    have hkk : d.params.kws = d.kws := rfl
    rw [hp, ho, hkk]
    dsimp only
    constructor
    · rintro ⟨⟨ws, rest1⟩, h1, h2⟩
      obtain ⟨a, ws1, ws2, args', rfl, hf, rfl, hp2⟩ := (posLoop_iff _ d.required (fun t ht => hgz t (hd.required t ht)) [] args ws rest1).mp h1
      rw [posLoop] at hp2
      cases hp2
      obtain ⟨⟨os, rest2⟩, h3, h4⟩ := Out.bind_eq_ok.mp h2
      obtain ⟨st, h5, h6⟩ := Out.bind_eq_ok.mp h4
      cases h6
      obtain ⟨b, k, e, hf2, _⟩ := (optLoop_iff _ _ _ _).mp h3
      dsimp only at e h5
      subst e
      obtain ⟨named, rfl, hkw⟩ := (bindKw_iff d hd rest2 (fun x hx => hv x (by simp [hx])) st).mp h5
      refine ⟨a ++ b, named, by simp, ⟨a, b, k, rfl, by simpa using hf, hf2⟩, hkw⟩
    · rintro ⟨pos, named, rfl, ⟨a, b, k, rfl, hf, hf2⟩, hkw⟩
      refine ⟨(r.pos, posArgs b ++ kwArgs named), (posLoop_iff _ d.required (fun t ht => hgz t (hd.required t ht)) [] _ _ _).mpr
        ⟨a, r.pos, [], _, by simp, hf, by simp, rfl⟩, ?_⟩
      rw [(optLoop_iff d.optional (posArgs b ++ kwArgs named) r.opt (kwArgs named)).mpr ⟨b, k, rfl, hf2, .inr (noPos_kwArgs named)⟩, Out.ok_bind,
        (bindKw_iff d hd (kwArgs named) (fun x hx => hv x (by simp only [List.mem_append]; exact .inr hx)) r.kws).mpr ⟨named, rfl, hkw⟩]
      rfl
  | some t =>
    obtain ⟨ht1, ht2, hopt⟩ := hd.rest t hr
    have hp : d.params.pos = d.required ++ [t ||| glob] := by simp [Decl.params, hr]
    have ho : d.params.opt = [] := hopt
    have hkk : d.params.kws = d.kws := rfl
    have hg1 : (t ||| glob) &&& glob ≠ 0 := by
      rw [BitVec.and_comm]
      refine (and_twoPow_ne _ 61 (by omega)).mpr ?_
      rw [BitVec.getLsbD_or]
      have : glob.getLsbD 61 = true := by decide
      rw [this]; simp
    have hg2 : (t ||| glob) &&& ~~~glob = t := by
      apply BitVec.eq_of_getLsbD_eq
      intro i hi
      rw [BitVec.getLsbD_and, BitVec.getLsbD_or]
      by_cases h61 : i = 61
      · subst h61
        have : (~~~glob).getLsbD 61 = false := by decide
        rw [this, ht1]; simp
      · have a : ∀ i : Fin 64, i.val ≠ 61 → glob.getLsbD i.val = false ∧ (~~~glob).getLsbD i.val = true := by decide +kernel
        rw [(a ⟨i, hi⟩ h61).1, (a ⟨i, hi⟩ h61).2]; simp
    have hg3 : (t ||| glob) &&& listify = 0 := by
      by_cases h : (t ||| glob) &&& listify = 0
      · exact h
      · rw [BitVec.and_comm] at h
        have := (and_twoPow_ne _ 62 (by omega)).mp h
        rw [BitVec.getLsbD_or, ht2] at this
        have hh : glob.getLsbD 62 = false := by decide
        rw [hh] at this; cases this
    have hone : ∀ args', posLoop chk (decide (([] : List Tag) ≠ [])) [t ||| glob] args' = (globLoop chk t args' >>= fun r => .ok ([.arr r.1], r.2)) := by
      intro args'
      rw [posLoop.eq_def]
      dsimp only
      rw [if_pos hg1, if_neg (by simp [hg3]), hg2]
    rw [hp, ho, hkk]
    dsimp only
    constructor
    · rintro ⟨⟨ws, rest1⟩, h1, h2⟩
      obtain ⟨a, ws1, ws2, args', rfl, hf, rfl, hp2⟩ := (posLoop_iff _ d.required (fun t ht => hgz t (hd.required t ht)) _ args ws rest1).mp h1
      rw [hone] at hp2
      obtain ⟨⟨c, rest⟩, hg, e⟩ := Out.bind_eq_ok.mp hp2
      cases e
      obtain ⟨b, rfl, _, hfr⟩ := (globLoop_iff hlist t _ _ _).mp hg
      rw [optLoop_nil, Out.ok_bind] at h2
      obtain ⟨st, h5, h6⟩ := Out.bind_eq_ok.mp h2
      cases h6
      obtain ⟨named, e, hkw⟩ := (bindKw_iff d hd _ (fun x hx => hv x (by simp [hx])) st).mp h5
      dsimp only at e
      subst e
      exact ⟨a ++ b, named, by simp, ⟨a, b, ws1, c, rfl, hf, hfr, rfl, rfl⟩, hkw⟩
    · rintro ⟨pos, named, rfl, ⟨a, b, ws, c, rfl, hf, hfr, hrp, hro⟩, hkw⟩
      refine ⟨(r.pos, kwArgs named), (posLoop_iff _ d.required (fun t ht => hgz t (hd.required t ht)) _ _ _ _).mpr
        ⟨a, ws, [.arr c], posArgs b ++ kwArgs named, by simp, hf, hrp, ?_⟩, ?_⟩
      · rw [hone, (globLoop_iff hlist t _ c (kwArgs named)).mpr ⟨b, rfl, noPos_kwArgs named, hfr⟩]
        rfl
      · rw [optLoop_nil, Out.ok_bind,
          (bindKw_iff d hd (kwArgs named) (fun x hx => hv x (by simp only [List.mem_append]; exact .inr hx)) r.kws).mpr ⟨named, rfl, hkw⟩,
          Out.ok_bind, ← hro]

end

/-- **C71**: a call is accepted exactly if its positional arguments come first, they fit the parameters, every keyword is
declared and given once, directly or in `kwargs`, and required ones are given; the function then gets for each parameter
what was given for it. What fits a type, and what it becomes, is said by C43. -/
theorem bind_iff (ti : Infos) (n : Nat) (immune : Bool) (d : Decl) (hd : d.Wf) (args : List Arg) (hv : ∀ a ∈ args, Tc.Spec.Wf a.2)
    (r : Bound) : bind (checkArg ti n immune) d.params args = .ok r ↔ Accepts (checkArg ti n immune) d args r := by
  refine bind_iff_gen ?_ d hd args hv r
  intro v t w h
  unfold checkArg at h
  split at h
  · cases h
  · have hl : (listify ||| t) &&& listify ≠ 0 := by
      rw [BitVec.and_comm]
      refine (and_twoPow_ne _ 62 (by omega)).mpr ?_
      rw [BitVec.getLsbD_or]
      have : listify.getLsbD 62 = true := by decide
      rw [this]; rfl
    rw [if_pos hl] at h
    generalize every _ _ = e at h
    unfold outOf at h
    split at h <;> cases h
    exact ⟨_, rfl⟩

/-! ### Disablers and aborts -/

/-- The kind of an outcome. -/
def code {α : Type} : Out α → Nat
  | .ok _ => 0
  | .error => 1
  | .disabled => 2
  | .bad => 3

theorem code_bind {α β : Type} {x : Out α} {f : α → Out β} {c : Nat} (h : code (x >>= f) = c) (_hc : 2 ≤ c) :
    code x = c ∨ ∃ a, x = .ok a ∧ code (f a) = c := by
  cases x with
  | ok a => exact .inr ⟨a, rfl, h⟩
  | error => exact .inl h
  | disabled => exact .inl h
  | bad => exact .inl h

/-- The values in a call: the arguments and what is in dictionaries passed as `kwargs`. -/
def Among (v : V) (args : List Arg) : Prop :=
  (∃ k, (k, v) ∈ args) ∨ ∃ l k, (some kwargs, V.dict l) ∈ args ∧ (k, v) ∈ l

section
variable {chk : V → Tag → Out V}

theorem globLoop_code {c : Nat} (hc : 2 ≤ c) (t : Tag) (args : List Arg) (h : code (globLoop chk t args) = c) :
    ∃ k v t', (k, v) ∈ args ∧ code (chk v t') = c := by
  induction args with
  | nil =>
    rw [globLoop] at h
    · simp only [code] at h; omega
    · intro _ _ h; cases h
  | cons a args ih =>
    obtain ⟨k, v⟩ := a
    cases k with
    | some k =>
      rw [globLoop] at h
      · simp only [code] at h; omega
      · intro _ _ h; cases h
    | none =>
      rw [globLoop] at h
      rcases code_bind h hc with h | ⟨_, _, h⟩
      · unfold globOne at h
        split at h
        · rcases code_bind h hc with h | ⟨_, _, h⟩
          · exact ⟨none, v, _, by simp, h⟩
          · simp only [code] at h; omega
        · rcases code_bind h hc with h | ⟨_, _, h⟩
          · exact ⟨none, v, _, by simp, h⟩
          · simp only [code] at h; omega
      · rcases code_bind h hc with h | ⟨_, _, h⟩
        · obtain ⟨k, v', t', hm, h⟩ := ih h
          exact ⟨k, v', t', by simp [hm], h⟩
        · simp only [code] at h; omega

theorem posLoop_code {c : Nat} (hc : 2 ≤ c) (ho : Bool) (ts' : List Tag)
    (hts' : ts' = [] ∨ ∃ t, ts' = [t] ∧ ho = false ∧ t &&& listify = 0) :
    ∀ (ts : List Tag), (∀ t ∈ ts, t &&& glob = 0) → ∀ args, code (posLoop chk ho (ts ++ ts') args) = c →
    ∃ k v t', (k, v) ∈ args ∧ code (chk v t') = c := by
  intro ts
  have cons : ∀ t (us : List Tag), t &&& glob = 0 → (∀ args, code (posLoop chk ho us args) = c → ∃ k v t', (k, v) ∈ args ∧ code (chk v t') = c) →
      ∀ args, code (posLoop chk ho (t :: us) args) = c → ∃ k v t', (k, v) ∈ args ∧ code (chk v t') = c := by
    intro t us ht ih args h
    rw [posLoop.eq_def] at h
    dsimp only at h
    rw [if_neg (by simp [ht])] at h
    cases args with
    | nil => simp only [code] at h; omega
    | cons a args =>
      obtain ⟨k, v⟩ := a
      cases k with
      | some k => simp only [code] at h; omega
      | none =>
        dsimp only at h
        rcases code_bind h hc with h | ⟨_, _, h⟩
        · exact ⟨none, v, t, by simp, h⟩
        · rcases code_bind h hc with h | ⟨_, _, h⟩
          · obtain ⟨k, v', t', hm, h⟩ := ih args h
            exact ⟨k, v', t', by simp [hm], h⟩
          · simp only [code] at h; omega
  induction ts with
  | nil =>
    intro _ args h
    rcases hts' with rfl | ⟨t, rfl, rfl, hl⟩
    · rw [List.append_nil, posLoop] at h; simp only [code] at h; omega
    · rw [List.nil_append] at h
      by_cases hg : t &&& glob = 0
      · refine cons t [] hg ?_ args h
        intro args h
        rw [posLoop] at h; simp only [code] at h; omega
      · rw [posLoop.eq_def] at h
        dsimp only at h
        rw [if_pos hg, if_neg (by simp [hl])] at h
        rcases code_bind h hc with h | ⟨_, _, h⟩
        · exact globLoop_code hc _ args h
        · simp only [code] at h; omega
  | cons t ts ih =>
    intro hg args h
    rw [List.cons_append] at h
    exact cons t _ (hg t (by simp)) (ih fun t h => hg t (by simp [h])) args h

theorem optLoop_code {c : Nat} (hc : 2 ≤ c) : ∀ (ts : List Tag) (args : List Arg), code (optLoop chk ts args) = c →
    ∃ k v t', (k, v) ∈ args ∧ code (chk v t') = c := by
  intro ts
  induction ts with
  | nil => intro args h; rw [optLoop_nil] at h; simp only [code] at h; omega
  | cons t ts ih =>
    intro args h
    unfold optLoop at h
    split at h
    · next heq =>
      cases heq
      rcases code_bind h hc with h | ⟨_, _, h⟩
      · exact ⟨none, _, _, by simp, h⟩
      · rcases code_bind h hc with h | ⟨_, _, h⟩
        · obtain ⟨k, v', t', hm, h⟩ := ih _ h
          exact ⟨k, v', t', by simp [hm], h⟩
        · simp only [code] at h; omega
    · simp only [code] at h; omega

theorem setKw_code {c : Nat} (hc : 2 ≤ c) (k : Bytes) (v : V) : ∀ st, code (setKw chk k v st) = c → ∃ t', code (chk v t') = c := by
  intro st
  induction st with
  | nil => intro h; rw [setKw] at h; simp only [code] at h; omega
  | cons x st ih =>
    obtain ⟨d, old⟩ := x
    intro h
    rw [setKw] at h
    split at h
    · rcases code_bind h hc with h | ⟨_, _, h⟩
      · exact ⟨_, h⟩
      · split at h <;> simp only [code] at h <;> omega
    · rcases code_bind h hc with h | ⟨_, _, h⟩
      · exact ih h
      · simp only [code] at h; omega

theorem dictLoop_code {c : Nat} (hc : 2 ≤ c) : ∀ (l : List (Bytes × V)) st, code (dictLoop chk l st) = c →
    (c = 3 ∧ ∃ k v, (k, v) ∈ l ∧ 0 ∈ k) ∨ ∃ k v t', (k, v) ∈ l ∧ code (chk v t') = c := by
  intro l
  induction l with
  | nil => intro st h; rw [dictLoop] at h; simp only [code] at h; omega
  | cons e l ih =>
    obtain ⟨k, v⟩ := e
    intro st h
    rw [dictLoop] at h
    split at h
    · next hz => simp only [code] at h; exact .inl ⟨h.symm, k, v, by simp, hz⟩
    · rcases code_bind h hc with h | ⟨_, _, h⟩
      · obtain ⟨t', h⟩ := setKw_code hc _ _ _ h
        exact .inr ⟨k, v, t', by simp, h⟩
      · rcases ih _ h with ⟨h1, k, v, h2, h3⟩ | ⟨k, v, t', h1, h2⟩
        · exact .inl ⟨h1, k, v, by simp [h2], h3⟩
        · exact .inr ⟨k, v, t', by simp [h1], h2⟩

theorem kwLoop_code {c : Nat} (hc : 2 ≤ c) : ∀ (args : List Arg), (∀ a ∈ args, Tc.Spec.Wf a.2) → ∀ st, code (kwLoop chk args st) = c →
    (c = 3 ∧ ((∃ id, (some kwargs, V.obj 2 id) ∈ args) ∨ ∃ l k v, (some kwargs, V.dict l) ∈ args ∧ (k, v) ∈ l ∧ 0 ∈ k)) ∨
    ∃ v t', Among v args ∧ code (chk v t') = c := by
  intro args
  induction args with
  | nil => intro _ st h; rw [kwLoop] at h; simp only [code] at h; omega
  | cons a args ih =>
    obtain ⟨k, v⟩ := a
    intro hv st h
    cases k with
    | none => rw [kwLoop] at h; simp only [code] at h; omega
    | some k =>
      rw [kwLoop] at h
      rcases code_bind h hc with h0 | ⟨_, _, h0⟩
      · clear h
        have h := h0
        clear h0
        by_cases hk : k = kwargs
        · rw [if_pos hk] at h
          subst hk
          have hvw := hv (some kwargs, v) (by simp)
          rw [typecheck_dict v (wf_type hvw)] at h
          split at h
          · next ht =>
            rw [Out.ok_bind] at h
            cases v with
            | dict l =>
              dsimp only at h
              rcases dictLoop_code hc l _ h with ⟨h1, k, v, h2, h3⟩ | ⟨k, v, t', h1, h2⟩
              · exact .inl ⟨h1, .inr ⟨l, k, v, by simp, h2, h3⟩⟩
              · exact .inr ⟨v, t', .inr ⟨l, k, by simp, h1⟩, h2⟩
            | arr l => rcases ht with ht | ht <;> cases ht
            | obj t id =>
              unfold Tc.Spec.Wf at hvw
              rw [Tc.Spec.Each] at hvw
              rcases ht with ht | ht
              · exact absurd ht hvw.2.2
              · simp only [type_obj] at ht
                subst ht
                simp only [code] at h
                exact .inl ⟨h.symm, .inl ⟨id, by simp⟩⟩
          · have h' : 1 = c := h
            omega
        · rw [if_neg hk] at h
          obtain ⟨t', h⟩ := setKw_code hc _ _ _ h
          exact .inr ⟨v, t', .inl ⟨some k, by simp⟩, h⟩
      · rcases ih (fun a ha => hv a (by simp [ha])) _ h0 with ⟨h1, h2⟩ | ⟨v', t', h1, h2⟩
        · refine .inl ⟨h1, ?_⟩
          rcases h2 with ⟨id, h2⟩ | ⟨l, k, v, h2, h3⟩
          · exact .inl ⟨id, by simp [h2]⟩
          · exact .inr ⟨l, k, v, by simp [h2], h3⟩
        · refine .inr ⟨v', t', ?_, h2⟩
          rcases h1 with ⟨k, h1⟩ | ⟨l, k, h1, h3⟩
          · exact .inl ⟨k, by simp [h1]⟩
          · exact .inr ⟨l, k, by simp [h1], h3⟩

theorem optLoop_suffix : ∀ (ts : List Tag) (args : List Arg) r, optLoop chk ts args = .ok r → ∀ a ∈ r.2, a ∈ args := by
  intro ts args r h a ha
  obtain ⟨b, k, e, _⟩ := (optLoop_iff ts args r.1 r.2).mp h
  rw [e]; simp [ha]

theorem globLoop_suffix (t : Tag) : ∀ (args : List Arg) r, globLoop chk t args = .ok r → ∀ a ∈ r.2, a ∈ args := by
  intro args
  induction args with
  | nil =>
    intro r h a ha
    rw [globLoop] at h
    · cases h; exact ha
    · intro _ _ h; cases h
  | cons x args ih =>
    obtain ⟨k, v⟩ := x
    intro r h a ha
    cases k with
    | some k =>
      rw [globLoop] at h
      · cases h; exact ha
      · intro _ _ h; cases h
    | none =>
      rw [globLoop] at h
      obtain ⟨c, _, h⟩ := Out.bind_eq_ok.mp h
      obtain ⟨r', h1, h2⟩ := Out.bind_eq_ok.mp h
      cases h2
      simp [ih _ h1 a ha]

theorem posLoop_suffix (ho : Bool) : ∀ (ts : List Tag) (args : List Arg) r, posLoop chk ho ts args = .ok r → ∀ a ∈ r.2, a ∈ args := by
  intro ts
  induction ts with
  | nil => intro args r h a ha; rw [posLoop] at h; cases h; exact ha
  | cons t ts ih =>
    intro args r h a ha
    rw [posLoop.eq_def] at h
    dsimp only at h
    split at h
    · split at h
      · cases h
      · obtain ⟨r', h1, h2⟩ := Out.bind_eq_ok.mp h
        cases h2
        exact globLoop_suffix _ _ _ h1 a ha
    · split at h
      · cases h
      · cases h
      · obtain ⟨w, _, h⟩ := Out.bind_eq_ok.mp h
        obtain ⟨r', h1, h2⟩ := Out.bind_eq_ok.mp h
        cases h2
        simp [ih _ _ h1 a ha]

theorem bind_code {c : Nat} (hc : 2 ≤ c) (d : Decl) (hd : d.Wf) (args : List Arg) (hv : ∀ a ∈ args, Tc.Spec.Wf a.2)
    (h : code (bind chk d.params args) = c) :
    (c = 3 ∧ ((∃ id, (some kwargs, V.obj 2 id) ∈ args) ∨ ∃ l k v, (some kwargs, V.dict l) ∈ args ∧ (k, v) ∈ l ∧ 0 ∈ k)) ∨
    ∃ v t', Among v args ∧ code (chk v t') = c := by
  have hgz : ∀ t : Tag, t.getLsbD 61 = false → t &&& glob = 0 := by
    intro t ht
    by_cases h : t &&& glob = 0
    · exact h
    · rw [BitVec.and_comm] at h
      have := (and_twoPow_ne t 61 (by omega)).mp h
      rw [ht] at this; cases this
  rw [bind_eq] at h
  rcases code_bind h hc with h | ⟨r, hr, h⟩
  · obtain ⟨k, v, t', h1, h2⟩ := posLoop_code hc _ _ (by
      cases hrest : d.rest with
      | none => exact .inl rfl
      | some t =>
        obtain ⟨ht1, ht2, ho⟩ := hd.rest t hrest
        refine .inr ⟨t ||| glob, rfl, by simp [Decl.params, ho], ?_⟩
        by_cases h : (t ||| glob) &&& listify = 0
        · exact h
        · rw [BitVec.and_comm] at h
          have := (and_twoPow_ne _ 62 (by omega)).mp h
          rw [BitVec.getLsbD_or, ht2] at this
          have hh : glob.getLsbD 62 = false := by decide
          rw [hh] at this; cases this) d.required (fun t ht => hgz t (hd.required t ht)) args h
    exact .inr ⟨v, t', .inl ⟨k, h1⟩, h2⟩
  · have sub1 := posLoop_suffix _ _ _ _ hr
    rcases code_bind h hc with h | ⟨s, hs, h⟩
    · obtain ⟨k, v, t', h1, h2⟩ := optLoop_code hc _ _ h
      exact .inr ⟨v, t', .inl ⟨k, sub1 _ h1⟩, h2⟩
    · have sub2 := optLoop_suffix _ _ _ hs
      rcases code_bind h hc with h | ⟨_, _, h⟩
      · unfold bindKw at h
        split at h
        · split at h <;> simp only [code] at h <;> omega
        · rcases code_bind h hc with h | ⟨_, _, h⟩
          · rcases kwLoop_code hc s.2 (fun a ha => hv a (sub1 _ (sub2 _ ha))) _ h with ⟨h1, h2⟩ | ⟨v', t', h1, h2⟩
            · refine .inl ⟨h1, ?_⟩
              rcases h2 with ⟨id, h2⟩ | ⟨l, k, v, h2, h3⟩
              · exact .inl ⟨id, sub1 _ (sub2 _ h2)⟩
              · exact .inr ⟨l, k, v, sub1 _ (sub2 _ h2), h3⟩
            · refine .inr ⟨v', t', ?_, h2⟩
              rcases h1 with ⟨k, h1⟩ | ⟨l, k, h1, h3⟩
              · exact .inl ⟨k, sub1 _ (sub2 _ h1)⟩
              · exact .inr ⟨l, k, sub1 _ (sub2 _ h1), h3⟩
          · split at h <;> simp only [code] at h <;> omega
      · simp only [code] at h; omega

end

/-- **C71**: a call gives a disabler only if the function is not immune and there is a disabler among the arguments, in the
arrays in them, or in a dictionary passed as `kwargs`. -/
theorem bind_disabled (ti : Infos) (n : Nat) (immune : Bool) (d : Decl) (hd : d.Wf) (args : List Arg) (hv : ∀ a ∈ args, Tc.Spec.Wf a.2)
    (h : bind (checkArg ti n immune) d.params args = .disabled) :
    immune = false ∧ ∃ v, Among v args ∧ ∃ x ∈ listOf v, x.type = 2 := by
  rcases bind_code (c := 2) (by omega) d hd args hv (by rw [h]; rfl) with ⟨h, _⟩ | ⟨v, t', h1, h2⟩
  · omega
  · unfold checkArg at h2
    split at h2
    · next hb =>
      rw [Bool.and_eq_true, List.any_eq_true] at hb
      obtain ⟨e1, x, hx, ht⟩ := hb
      exact ⟨by simpa using e1, v, h1, x, hx, by simpa using ht⟩
    · exfalso
      split at h2
      · generalize every _ _ = e at h2
        unfold outOf at h2
        split at h2 <;> simp only [code] at h2 <;> omega
      · dsimp only at h2
        generalize typecheck _ _ _ _ = e at h2
        unfold outOf at h2
        split at h2 <;> simp only [code] at h2 <;> omega

/-- **C71**: binding the arguments does not abort, unless the type check of a value does (C43), a disabler is passed as
`kwargs`, or a keyword in a dictionary passed as `kwargs` has a NUL byte. -/
theorem bind_no_abort_partial (ti : Infos) (n : Nat) (immune : Bool) (d : Decl) (hd : d.Wf) (args : List Arg) (hv : ∀ a ∈ args, Tc.Spec.Wf a.2)
    (htc : ∀ v t, Among v args → checkArg ti n immune v t ≠ .bad)
    (hdis : ∀ id, (some kwargs, V.obj 2 id) ∉ args) (hnul : ∀ l k v, (some kwargs, V.dict l) ∈ args → (k, v) ∈ l → 0 ∉ k) :
    bind (checkArg ti n immune) d.params args ≠ .bad := by
  intro h
  rcases bind_code (c := 3) (by omega) d hd args hv (by rw [h]; rfl) with ⟨_, ⟨id, h⟩ | ⟨l, k, v, h1, h2, h3⟩⟩ | ⟨v, t', h1, h2⟩
  · exact hdis id h
  · exact hnul l k v h1 h2 h3
  · refine htc v t' h1 ?_
    revert h2
    cases checkArg ti n immune v t' <;> intro h2 <;> first | rfl | (simp only [code] at h2; omega)

/-- A call with `kwargs: disabler()` aborts muon, although a disabler among the arguments should give a disabler. -/
theorem bind_disabler_counterexample : ∃ d args, Decl.Wf d ∧ (∀ a ∈ args, Tc.Spec.Wf a.2) ∧
    ∀ ti n, bind (checkArg ti n false) d.params args = .bad := by
  refine ⟨⟨[], none, [], some []⟩, [(some kwargs, .obj 2 0)], ⟨by simp, by simp, ?_⟩, ?_, ?_⟩
  · intro l h; cases h; simp
  · simp [Tc.Spec.Wf, Tc.Spec.Each]
  · intro ti n
    have : outOf (typecheck [] 1 (V.obj 2 0) 10) (V.obj 2 0) = .ok (V.obj 2 0) := by rw [typecheck_dict _ (by decide)]; rfl
    have hk : kwLoop (checkArg ti n false) [(some kwargs, .obj 2 0)] [] = .bad := by
      rw [kwLoop, if_pos rfl, this]; rfl
    rw [bind_eq]
    change (bindKw (checkArg ti n false) (some []) [(some kwargs, .obj 2 0)] >>= fun st => Out.ok (⟨[], [], st⟩ : Bound)) = .bad
    unfold bindKw
    dsimp only
    rw [List.map_nil, hk]
    rfl

/-! The hypotheses hold for `f(str, ints..., k: str, q: str)` with `f('a', [1, 2], 3, kwargs: {'k': 'b'})`. -/
def exDecl : Decl := ⟨[ofObjType 8], some (ofObjType 7), [], some [⟨[107], ofObjType 8, true⟩, ⟨[113], ofObjType 8, false⟩]⟩

theorem exWf : exDecl.Wf := by
  refine ⟨?_, ?_, ?_⟩
  · intro t h; rcases List.mem_singleton.mp h with rfl; decide
  · intro t h; cases h; decide
  · intro l h; cases h; decide

example : bind (checkArg [] 5 false) exDecl.params
    [(none, .obj 8 1), (none, .arr [.obj 7 1, .obj 7 2]), (none, .obj 7 3), (some kwargs, .dict [([107], .obj 8 4)])] =
    .ok ⟨[.obj 8 1, .arr [.obj 7 1, .obj 7 2, .obj 7 3]], [],
      [(⟨[107], ofObjType 8, true⟩, some (.obj 8 4)), (⟨[113], ofObjType 8, false⟩, none)]⟩ := by rfl

end Muon.Args
