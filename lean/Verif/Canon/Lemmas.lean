import Verif.Canon.Model
import Verif.Path.Comps
namespace Muon.Canon
open Muon
open _root_.Muon.Path.Spec (pieces comps isAbs dotdot sepJoin render cancel canon)
open _root_.Muon.Path (kept kept_append cancelStep Comp rest_cases)

theorem get_mid (a b : Bytes) (i : Nat) : (a ++ b)[a.length + i]? = b[i]? := by
  rw [List.getElem?_append_right (by omega)]; congr 1; omega

theorem get_mid0 (a : Bytes) (c : UInt8) (b : Bytes) : (a ++ c :: b)[a.length]? = some c := by
  have := get_mid a (c :: b) 0
  simp

/-- Moving one byte down. -/
theorem write_one (out junk : Bytes) (c : UInt8) (t : Bytes) :
    ∃ junk', write (out ++ junk ++ c :: t) out.length c = some ((out ++ [c]) ++ junk' ++ t) ∧ junk'.length = junk.length := by
  unfold write
  rw [if_pos (by simp; omega)]
  cases junk with
  | nil => exact ⟨[], by simp, rfl⟩
  | cons j js =>
    refine ⟨js ++ [c], ?_, by simp⟩
    simp

/-- A part of a path that `component` copies. -/
def Part (x : Bytes) : Prop := 47 ∉ x ∧ 0 ∉ x

theorem copy_spec : ∀ (x out junk : Bytes) (c : UInt8) (t : Bytes) (f : Nat), Part x → (c = 47 ∨ c = 0) → x.length < f →
    ∃ junk', copy f (out ++ junk ++ (x ++ c :: t)) (out.length + junk.length) out.length =
      some ((out ++ x) ++ junk' ++ c :: t, out.length + junk.length + x.length, out.length + x.length) ∧ junk'.length = junk.length := by
  intro x
  induction x with
  | nil =>
    intro out junk c t f _ hc hf
    cases f with
    | zero => simp at hf
    | succ f =>
      refine ⟨junk, ?_, rfl⟩
      unfold copy
      rw [← List.length_append, List.nil_append, get_mid0]
      dsimp only
      rw [if_neg (by rcases hc with rfl | rfl <;> simp)]
      simp
  | cons y x ih =>
    intro out junk c t f hp hc hf
    cases f with
    | zero => simp at hf
    | succ f =>
      obtain ⟨h47, h0⟩ := hp
      simp only [List.mem_cons, not_or] at h47 h0
      unfold copy
      rw [← List.length_append, List.cons_append, get_mid0]
      dsimp only
      rw [if_pos ⟨fun e => h47.1 e.symm, fun e => h0.1 e.symm⟩]
      obtain ⟨j', hw, hl⟩ := write_one out junk y (x ++ c :: t)
      rw [hw]
      dsimp only
      obtain ⟨j2, h2, hl2⟩ := ih (out ++ [y]) j' c t f ⟨h47.2, h0.2⟩ hc (by simp at hf; omega)
      refine ⟨j2, ?_, by omega⟩
      rw [List.length_append, List.length_singleton, hl] at h2
      rw [List.length_append, show out.length + junk.length + 1 = out.length + 1 + junk.length by omega, h2]
      simp only [List.length_cons, List.append_assoc, List.singleton_append]
      congr 3 <;> omega

theorem component_spec (x out junk : Bytes) (c : UInt8) (t : Bytes) (f n : Nat) (hp : Part x) (hc : c = 47 ∨ c = 0) (hf : x.length < f) :
    (n = maxComponents ∧ component f (out ++ junk ++ (x ++ c :: t)) (out.length + junk.length) out.length n = .error) ∨
    ∃ junk', component f (out ++ junk ++ (x ++ c :: t)) (out.length + junk.length) out.length n =
      .ok ((out ++ x ++ [c]) ++ junk' ++ t, out.length + junk.length + x.length + 1, out.length + x.length + 1) ∧ junk'.length = junk.length ∧ n ≠ maxComponents := by
  unfold component
  by_cases hn : n = maxComponents
  · left; exact ⟨hn, if_pos hn⟩
  · right
    rw [if_neg hn]
    obtain ⟨j, h1, hl⟩ := copy_spec x out junk c t f hp hc hf
    rw [h1]
    dsimp only
    rw [show out.length + junk.length + x.length = ((out ++ x) ++ j).length by simp; omega, get_mid0]
    dsimp only
    rw [show out.length + x.length = (out ++ x).length by simp]
    obtain ⟨j2, h2, hl2⟩ := write_one (out ++ x) j c t
    rw [h2]
    exact ⟨j2, rfl, by omega, hn⟩

theorem keepUp_spec (out junk : Bytes) (c : UInt8) (t : Bytes) :
    ∃ junk', keepUp (out ++ junk ++ (46 :: 46 :: c :: t)) (out.length + junk.length) out.length =
      some ((out ++ [46, 46, c]) ++ junk' ++ t) ∧ junk'.length = junk.length := by
  unfold keepUp
  rw [← List.length_append, get_mid0]
  simp only [Option.bind_eq_bind, Option.bind_some]
  obtain ⟨j1, h1, l1⟩ := write_one out junk 46 (46 :: c :: t)
  rw [h1]
  simp only [Option.bind_some]
  have e1 : (out ++ junk).length + 1 = ((out ++ [46]) ++ j1).length := by simp; omega
  rw [e1, get_mid0]
  simp only [Option.bind_some]
  obtain ⟨j2, h2, l2⟩ := write_one (out ++ [46]) j1 46 (c :: t)
  rw [show out.length + 1 = (out ++ [46]).length by simp, h2]
  simp only [Option.bind_some]
  have e2 : (out ++ junk).length + 2 = ((out ++ [46] ++ [46]) ++ j2).length := by simp; omega
  rw [e2, get_mid0]
  simp only [Option.bind_some]
  obtain ⟨j3, h3, l3⟩ := write_one (out ++ [46] ++ [46]) j2 c t
  rw [show out.length + 2 = (out ++ [46] ++ [46]).length by simp, h3]
  exact ⟨j3, by simp, by omega⟩

/-- How a path goes on after `s`. `mem` has the rest of the path and NUL there. -/
theorem kind_spec (pre rest : Bytes) (hr : rest ≠ []) (h0 : 0 ∉ rest) :
    ∃ x t, rest = x ++ t ∧ 47 ∉ x ∧ (t = [] ∨ ∃ r, t = 47 :: r) ∧
      kind (pre ++ (rest ++ [0])) pre.length = some (if x = [] then .slash else if x = [46] then .dot else if x = dotdot then .up else .comp) := by
  have key : ∃ x t, rest = x ++ t ∧ 47 ∉ x ∧ (t = [] ∨ ∃ r, t = 47 :: r) := by
    rcases rest_cases rest with h | ⟨x, r, h, hx⟩
    · exact ⟨rest, [], by simp, h, .inl rfl⟩
    · exact ⟨x, 47 :: r, h, hx, .inr ⟨r, rfl⟩⟩
  obtain ⟨x, t, rfl, hx, ht⟩ := key
  refine ⟨x, t, rfl, hx, ht, ?_⟩
  have hx0 : 0 ∉ x := fun h => h0 (by simp [h])
  have hterm : ∃ c u, t ++ [0] = c :: u ∧ (c = 47 ∨ c = 0) := by
    rcases ht with rfl | ⟨r, rfl⟩
    · exact ⟨0, [], rfl, .inr rfl⟩
    · exact ⟨47, r ++ [0], rfl, .inl rfl⟩
  obtain ⟨c, u, hcu, hc⟩ := hterm
  unfold kind
  have g : ∀ i, (pre ++ (x ++ t ++ [0]))[pre.length + i]? = (x ++ c :: u)[i]? := by
    intro i; rw [get_mid, List.append_assoc, hcu]
  have g0 := g 0
  rw [Nat.add_zero] at g0
  rw [g0, g 1, g 2]
  cases x with
  | nil =>
    rcases ht with rfl | ⟨r, rfl⟩
    · exact absurd rfl hr
    · simp only [List.cons_append, List.cons.injEq] at hcu
      simp [← hcu.1]
  | cons a x =>
    simp only [List.mem_cons, not_or] at hx hx0
    have ha47 : a ≠ 47 := fun e => hx.1 e.symm
    have ha0 : a ≠ 0 := fun e => hx0.1 e.symm
    simp only [List.cons_append, List.getElem?_cons_zero, Option.bind_eq_bind, Option.bind_some, if_neg ha47, reduceCtorEq, if_false]
    by_cases ha : a = 46
    · subst ha
      rw [if_pos rfl]
      cases x with
      | nil =>
        simp only [List.nil_append, List.getElem?_cons_succ, List.getElem?_cons_zero, Option.bind_some]
        rw [if_pos (by rcases hc with h | h <;> simp [h])]
        rfl
      | cons b x =>
        simp only [List.mem_cons, not_or] at hx hx0
        have hb47 : b ≠ 47 := fun e => hx.2.1 e.symm
        have hb0 : b ≠ 0 := fun e => hx0.2.1 e.symm
        simp only [List.cons_append, List.getElem?_cons_succ, List.getElem?_cons_zero, Option.bind_some]
        rw [if_neg (by simp [hb47, hb0]), if_neg (show ¬ (46 :: b :: x = [46]) by simp)]
        by_cases hb : b = 46
        · subst hb
          rw [if_pos rfl]
          cases x with
          | nil =>
            simp only [List.nil_append, List.getElem?_cons_zero, Option.bind_some]
            rw [if_neg (by rcases hc with h | h <;> simp [h]), if_pos (show ([46, 46] : Bytes) = dotdot from rfl)]
            rfl
          | cons d x =>
            simp only [List.mem_cons, not_or] at hx hx0
            have hd47 : d ≠ 47 := fun e => hx.2.2.1 e.symm
            have hd0 : d ≠ 0 := fun e => hx0.2.2.1 e.symm
            simp only [List.cons_append, List.getElem?_cons_zero, Option.bind_some]
            rw [if_pos ⟨hd47, hd0⟩, if_neg (by simp [dotdot])]
            rfl
        · rw [if_neg hb, if_neg (by simp [dotdot, hb])]
          rfl
    · rw [if_neg ha, if_neg (by simp [ha]), if_neg (by simp [dotdot, ha])]
      rfl

/-- Offsets of the components that can be removed. `ns`: last one first. -/
def offs (abs : Bool) (dd : List Bytes) : List Bytes → List Nat
  | [] => []
  | _ :: ns => (kept abs (dd ++ ns.reverse)).length :: offs abs dd ns

theorem offs_length (abs : Bool) (dd ns : List Bytes) : (offs abs dd ns).length = ns.length := by
  induction ns with
  | nil => rfl
  | cons x ns ih => simp [offs, ih]

/-- Components other than `..`. -/
def names (cs : List Bytes) : List Bytes := cs.filter (fun c => c ≠ dotdot)

theorem names_append (a b : List Bytes) : names (a ++ b) = names a ++ names b := by simp [names]

theorem names_cons_dd (b : List Bytes) : names (dotdot :: b) = names b := by simp [names]

theorem names_cons {x : Bytes} (h : x ≠ dotdot) (b : List Bytes) : names (x :: b) = x :: names b := by simp [names, h]

theorem names_dd {dd : List Bytes} (h : ∀ c ∈ dd, c = dotdot) : names dd = [] := by
  unfold names
  rw [List.filter_eq_nil_iff]
  intro c hc; simp [h c hc]

theorem names_nn {nn : List Bytes} (h : ∀ c ∈ nn, c ≠ dotdot) : names nn = nn := by
  unfold names
  rw [List.filter_eq_self]
  intro c hc; simp [h c hc]

/-- The result of the loop. -/
def Done (abs : Bool) (len : Nat) (A : List Bytes) (r : Res (Bytes × Nat)) : Prop :=
  ∃ out junk, r = .ok (out ++ junk, out.length) ∧ out.dropLast = (kept abs A).dropLast ∧ out.length = (kept abs A).length ∧
    (out ++ junk).length = len ∧ (names A).length ≤ maxComponents

theorem loop_exit {stop f : Nat} {mem : Bytes} {s d : Nat} {comp : List Nat} (h : stop ≤ s) : loop stop (f + 1) mem s d comp = .ok (mem, d) := by
  unfold loop
  rw [if_neg (by omega)]

theorem comps_part {x t : Bytes} (hx : 47 ∉ x) (ht : t = [] ∨ ∃ r, t = 47 :: r) :
    comps (x ++ t) = (if x = [] ∨ x = [46] then [] else [x]) ++ comps (t.drop 1) := by
  rcases ht with rfl | ⟨r, rfl⟩
  · unfold comps
    rw [List.append_nil, Path.pieces_noSlash x hx]
    by_cases h : x = [] ∨ x = [46]
    · rcases h with rfl | rfl <;> decide
    · rw [if_neg h]
      rw [not_or] at h
      simp [h.1, h.2, pieces]
  · unfold comps
    rw [Path.pieces_slash x r hx, List.drop_one, List.tail_cons, List.filter_cons]
    by_cases h : x = [] ∨ x = [46]
    · rw [if_pos h, if_neg (by rcases h with rfl | rfl <;> simp)]; rfl
    · rw [if_neg h]
      rw [not_or] at h
      rw [if_pos (by simp [h.1, h.2])]; rfl

theorem cancelStep_name (acc : List Bytes) {x : Bytes} (h : x ≠ dotdot) : cancelStep acc x = acc ++ [x] := by
  unfold cancelStep; rw [if_neg (fun hh => h hh.1)]

theorem cancelStep_pop (acc : List Bytes) {x : Bytes} (h : x ≠ dotdot) : cancelStep (acc ++ [x]) dotdot = acc := by
  unfold cancelStep
  rw [if_pos ⟨rfl, by simp, by simpa using h⟩]
  simp

theorem cancelStep_up (dd : List Bytes) (h : ∀ c ∈ dd, c = dotdot) : cancelStep dd dotdot = dd ++ [dotdot] := by
  unfold cancelStep
  rw [if_neg]
  rintro ⟨_, h1, h2⟩
  rcases List.eq_nil_or_concat dd with e | ⟨l, y, e⟩
  · exact h1 e
  · apply h2
    rw [List.concat_eq_append] at e
    have := h y (by rw [e]; simp)
    rw [e, this]; simp

/-- Either too many components, or the loop ends as it should. -/
def Goal (abs : Bool) (A : List Bytes) (over len stop f : Nat) (mem : Bytes) (s d : Nat) (comp : List Nat) : Prop :=
  (maxComponents < over ∧ loop stop f mem s d comp = .error) ∨ Done abs len A (loop stop f mem s d comp)

theorem Goal.congr {abs : Bool} {A A' : List Bytes} {over over' len len' stop stop' f s s' d d' : Nat} {mem mem' : Bytes} {comp comp' : List Nat}
    (h : Goal abs A' over' len' stop' f mem' s' d' comp') (h1 : A = A') (h2 : over' ≤ over) (h3 : len = len') (h4 : stop = stop')
    (h5 : mem = mem') (h6 : s = s') (h7 : d = d') (h8 : comp = comp') : Goal abs A over len stop f mem s d comp := by
  subst h1 h3 h4 h5 h6 h7 h8
  rcases h with ⟨h, h'⟩ | h
  · exact .inl ⟨by omega, h'⟩
  · exact .inr h

theorem Goal.exit {abs : Bool} {A : List Bytes} {over len stop f s : Nat} {comp : List Nat} {mem : Bytes} {d : Nat} (out junk : Bytes) (hs : stop ≤ s)
    (hf : 0 < f) (hm : mem = out ++ junk) (hd : d = out.length)
    (h1 : out.dropLast = (kept abs A).dropLast) (h2 : out.length = (kept abs A).length) (h3 : (out ++ junk).length = len)
    (h4 : (names A).length ≤ maxComponents) :
    Goal abs A over len stop f mem s d comp := by
  obtain ⟨g, rfl⟩ : ∃ g, f = g + 1 := ⟨f - 1, by omega⟩
  right
  rw [loop_exit hs]
  exact ⟨out, junk, by rw [hm, hd], h1, h2, h3, h4⟩

theorem loop_spec (abs : Bool) : ∀ (n f : Nat) (dd ns : List Bytes) (junk rest : Bytes), rest.length ≤ n → n + 1 < f →
    (∀ c ∈ dd, c = dotdot) → (∀ c ∈ ns, c ≠ dotdot) → ns.length ≤ maxComponents → 0 ∉ rest →
    ∀ out, out = kept abs (dd ++ ns.reverse) →
    Goal abs ((comps rest).foldl cancelStep (dd ++ ns.reverse)) (ns.length + (names (comps rest)).length) (out.length + junk.length + rest.length + 1)
      (out.length + junk.length + rest.length) f (out ++ junk ++ (rest ++ [0])) (out.length + junk.length) out.length (offs abs dd ns) := by
  intro n
  induction n with
  | zero =>
    intro f dd ns junk rest hn hf hdd hns hm h0 out hout
    have hnl : (names (dd ++ ns.reverse)).length = ns.length := by
      rw [names_append, names_dd hdd, List.nil_append, names_nn (fun c hc => hns c (List.mem_reverse.1 hc)), List.length_reverse]
    have : rest = [] := by cases rest with | nil => rfl | cons _ _ => simp at hn
    subst this
    exact Goal.exit out (junk ++ [0]) (by simp) (by omega) (by simp) rfl (by rw [hout]; simp [comps, pieces]) (by rw [hout]; simp [comps, pieces])
      (by simp; omega) (by simp only [comps, pieces]; simpa [hnl] using hm)
  | succ n ih =>
    intro f dd ns junk rest hn hf hdd hns hm h0 out hout
    have hnl : (names (dd ++ ns.reverse)).length = ns.length := by
      rw [names_append, names_dd hdd, List.nil_append, names_nn (fun c hc => hns c (List.mem_reverse.1 hc)), List.length_reverse]
    by_cases hr : rest = []
    · subst hr
      exact Goal.exit out (junk ++ [0]) (by simp) (by omega) (by simp) rfl (by rw [hout]; simp [comps, pieces]) (by rw [hout]; simp [comps, pieces])
        (by simp; omega) (by simp only [comps, pieces]; simpa [hnl] using hm)
    · obtain ⟨f, rfl⟩ : ∃ g, f = g + 1 := ⟨f - 1, by omega⟩
      have hlen : 0 < rest.length := List.length_pos_iff.2 hr
      obtain ⟨x, t, rfl, hx, ht, hk⟩ := kind_spec (out ++ junk) rest hr h0
      unfold Goal loop
      rw [if_pos (by omega)]
      rw [List.length_append] at hk
      rw [hk]
      have hx0 : 0 ∉ x := fun h => h0 (by simp [h])
      have ht0 : 0 ∉ t := fun h => h0 (by simp [h])
      rw [comps_part hx ht]
      by_cases he : x = []
      · -- a slash
        subst he
        rcases ht with rfl | ⟨r, rfl⟩
        · exact absurd rfl hr
        · rw [if_pos rfl]
          dsimp only
          exact Goal.congr (ih f dd ns (junk ++ [47]) r (by simp at hn; omega) (by omega) hdd hns hm (fun h => ht0 (by simp [h])) out hout)
            (by simp) (by simp) (by simp; omega) (by simp; omega) (by simp) (by simp; omega) rfl rfl
      · rw [if_neg he]
        by_cases hd : x = [46]
        · -- `.`
          subst hd
          rw [if_pos rfl, if_pos (Or.inr rfl)]
          dsimp only
          rcases ht with rfl | ⟨r, rfl⟩
          · exact Goal.exit out (junk ++ [46, 0]) (by simp) (by omega) (by simp) rfl (by rw [hout]; simp [comps, pieces])
              (by rw [hout]; simp [comps, pieces]) (by simp; omega) (by have e : comps ([] : Bytes) = [] := by decide
                                                                        rw [List.drop_nil, e]; simpa [hnl] using hm)
          · exact Goal.congr (ih f dd ns (junk ++ [46, 47]) r (by simp at hn; omega) (by omega) hdd hns hm (fun h => ht0 (by simp [h])) out hout)
              (by simp) (by simp) (by simp; omega) (by simp; omega) (by simp) (by simp; omega) rfl rfl
        · rw [if_neg hd]
          have hterm : ∃ c u, t ++ [0] = c :: u ∧ (c = 47 ∨ c = 0) ∧ ((t = [] ∧ c = 0 ∧ u = []) ∨ ∃ r, t = 47 :: r ∧ c = 47 ∧ u = r ++ [0]) := by
            rcases ht with rfl | ⟨r, rfl⟩
            · exact ⟨0, [], rfl, .inr rfl, .inl ⟨rfl, rfl, rfl⟩⟩
            · exact ⟨47, r ++ [0], rfl, .inl rfl, .inr ⟨r, rfl, rfl, rfl⟩⟩
          obtain ⟨c, u, hcu, hc, hcase⟩ := hterm
          rw [if_neg (show ¬ (x = [] ∨ x = [46]) by simp [he, hd])]
          have hc0 : comps [] = [] := by simp [comps, pieces]
          by_cases hup : x = dotdot
          · -- `..`
            subst hup
            have hdl : dotdot.length = 2 := rfl
            rw [if_pos rfl]
            dsimp only
            simp only [List.singleton_append, List.foldl_cons]
            cases ns with
            | nil =>
              simp only [offs, List.reverse_nil, List.append_nil] at hout ⊢
              obtain ⟨j, hkp, hj⟩ := keepUp_spec out junk c u
              have e1 : out ++ junk ++ (dotdot ++ t ++ [0]) = out ++ junk ++ (46 :: 46 :: c :: u) := by
                rw [List.append_assoc dotdot, hcu]; rfl
              rw [e1, hkp, cancelStep_up dd hdd]
              dsimp only
              rcases hcase with ⟨rfl, rfl, rfl⟩ | ⟨r, rfl, rfl, rfl⟩
              · refine Goal.exit (out ++ [46, 46, 0]) j (by simp [hdl]) (by omega) (by simp) (by simp) ?_ ?_ (by simp [hdl]; omega)
                  (by rw [List.drop_nil, hc0]; show (names (dd ++ [dotdot])).length ≤ _; rw [names_append, names_dd hdd, names_cons_dd]; simp [names])
                · rw [List.drop_nil, hc0, hout]
                  show _ = (kept abs (dd ++ [dotdot])).dropLast
                  rw [kept_append, show ([46, 46, 0] : Bytes) = dotdot ++ [0] from rfl, ← List.append_assoc, List.dropLast_concat, List.dropLast_concat]
                · rw [List.drop_nil, hc0, hout]
                  show _ = (kept abs (dd ++ [dotdot])).length
                  rw [kept_append]; simp [hdl]
              · exact Goal.congr (ih f (dd ++ [dotdot]) [] j r (by simp [hdl] at hn; omega) (by omega)
                  (by intro c hc; exact (List.mem_append.1 hc).elim (hdd c) (fun h => by simpa using h)) (by simp) (by simp)
                  (fun h => ht0 (by simp [h])) (out ++ [46, 46, 47])
                  (by rw [hout, List.reverse_nil, List.append_nil, kept_append, List.append_assoc]; rfl))
                  (by simp) (by rw [names_cons_dd]; simp) (by simp [hdl]; omega) (by simp [hdl]; omega) (by simp) (by simp; omega) (by simp) rfl
            | cons y ns =>
              simp only [offs, List.reverse_cons]
              have hy : y ≠ dotdot := hns y (by simp)
              rw [← List.append_assoc dd, cancelStep_pop _ hy]
              rw [List.reverse_cons, ← List.append_assoc, kept_append] at hout
              have hol : out.length = (kept abs (dd ++ ns.reverse)).length + y.length + 1 := by rw [hout]; simp; omega
              rcases hcase with ⟨rfl, rfl, rfl⟩ | ⟨r, rfl, rfl, rfl⟩
              · refine Goal.exit (kept abs (dd ++ ns.reverse)) (y ++ [47] ++ junk ++ [46, 46, 0]) (by simp [hdl]) (by omega)
                  (by rw [hout]; simp [dotdot]) rfl ?_ ?_ (by simp [hdl]; omega) ?_
                rotate_left 2
                · rw [List.drop_nil, hc0]
                  show (names (dd ++ ns.reverse)).length ≤ _
                  rw [List.reverse_cons, ← List.append_assoc, names_append, List.length_append] at hnl
                  simp only [List.length_cons] at hnl hm
                  omega
                · rw [List.drop_nil, hc0]; rfl
                · rw [List.drop_nil, hc0]; rfl
              · exact Goal.congr (ih f dd ns (y ++ [47] ++ junk ++ [46, 46, 47]) r (by simp [hdl] at hn; omega) (by omega) hdd
                  (fun c hc => hns c (by simp [hc])) (by simp at hm; omega) (fun h => ht0 (by simp [h])) _ rfl)
                  rfl (by rw [names_cons_dd]; simp) (by simp [hdl]; omega) (by simp [hdl]; omega) (by rw [hout]; simp [dotdot]) (by simp; omega) rfl rfl
          · -- a name
            rw [if_neg hup]
            dsimp only
            simp only [List.singleton_append, List.foldl_cons]
            rw [cancelStep_name _ hup, offs_length]
            have e1 : out ++ junk ++ (x ++ t ++ [0]) = out ++ junk ++ (x ++ c :: u) := by rw [List.append_assoc x, hcu]
            rw [e1]
            have hxl : 0 < x.length := List.length_pos_iff.2 he
            rcases component_spec x out junk c u f ns.length ⟨hx, hx0⟩ hc (by simp at hn; omega) with ⟨h1, h2⟩ | ⟨j, h2, hj, hlt⟩
            · left
              rw [h2]
              refine ⟨?_, rfl⟩
              rw [names_cons hup, List.length_cons]; omega
            · rw [h2]
              dsimp only
              have hout' : out ++ x ++ [47] = kept abs (dd ++ (x :: ns).reverse) := by
                rw [List.reverse_cons, ← List.append_assoc, kept_append, ← hout]
              rcases hcase with ⟨rfl, rfl, rfl⟩ | ⟨r, rfl, rfl, rfl⟩
              · refine Goal.exit (out ++ x ++ [0]) j (by simp) (by omega) (by simp) (by simp; omega) ?_ ?_ (by simp; omega)
                  (by rw [List.drop_nil, hc0]; show (names (dd ++ ns.reverse ++ [x])).length ≤ _; rw [names_append, names_cons hup, List.length_append, hnl]; simp [names]; omega)
                · rw [List.drop_nil, hc0]
                  show _ = (kept abs (dd ++ ns.reverse ++ [x])).dropLast
                  rw [kept_append, ← hout, List.dropLast_concat, List.dropLast_concat]
                · rw [List.drop_nil, hc0]
                  show _ = (kept abs (dd ++ ns.reverse ++ [x])).length
                  rw [kept_append, ← hout]; simp
              · exact Goal.congr (ih f dd (x :: ns) j r (by simp at hn; omega) (by omega) hdd
                  (by intro c hc; exact (List.mem_cons.1 hc).elim (fun h => h ▸ hup) (hns c)) (by simp; omega) (fun h => ht0 (by simp [h])) _ hout')
                  (by simp) (by rw [names_cons hup]; simp; omega) (by simp; omega) (by simp; omega) (by simp) (by simp; omega) (by simp; omega)
                  (by simp only [offs]; rw [hout])

theorem finish_spec {abs : Bool} {A : List Bytes} {out junk : Bytes} (h1 : out.dropLast = (kept abs A).dropLast) (h2 : out.length = (kept abs A).length)
    (hl : 2 ≤ (out ++ junk).length) : finish (out ++ junk) out.length = .ok (if abs = true ∧ A = [] then [] else render abs A) := by
  unfold finish
  by_cases hz : out.length = 0
  · rw [if_pos hz]
    have hA : abs = false ∧ A = [] := by
      rw [hz] at h2
      have := List.eq_nil_of_length_eq_zero h2.symm
      unfold Path.kept at this
      cases abs
      · refine ⟨rfl, ?_⟩
        cases A with
        | nil => rfl
        | cons c A => simp at this
      · simp at this
    obtain ⟨rfl, rfl⟩ := hA
    have hout : out = [] := List.eq_nil_of_length_eq_zero hz
    subst hout
    simp only [List.nil_append] at hl ⊢
    obtain ⟨a, b, t, rfl⟩ : ∃ a b t, junk = a :: b :: t := by
      cases junk with
      | nil => simp at hl
      | cons a junk => cases junk with
        | nil => simp at hl
        | cons b t => exact ⟨a, b, t, rfl⟩
    simp [write, render]
  · rw [if_neg hz]
    unfold write
    rw [if_pos (by simp; omega)]
    dsimp only
    congr 1
    have e : ((out ++ junk).set (out.length - 1) 0).take (out.length - 1) = out.dropLast := by
      rw [List.take_set_of_le (by omega), List.take_append_of_le_length (by omega), List.dropLast_eq_take]
    rw [e, h1]
    by_cases hA : A = []
    · subst hA
      rw [(Path.kept_render abs []).2]
      cases abs
      · exfalso; apply hz; rw [h2, (Path.kept_render false []).2]; rfl
      · simp
    · rw [(Path.kept_render abs A).1 hA, List.dropLast_concat, if_neg (fun h => hA h.2)]

theorem canonpath_spec (p : Bytes) (hp : p ≠ []) (h0 : 0 ∉ p) :
    (maxComponents < (names (comps p)).length ∧ canonpath p = .error) ∨
    canonpath p = .ok (if isAbs p = true ∧ cancel (comps p) = [] then [] else canon true p) ∧ (names (cancel (comps p))).length ≤ maxComponents := by
  unfold canonpath
  rw [if_neg (by simpa using hp)]
  dsimp only
  have hcanon : canon true p = render (isAbs p) (cancel (comps p)) := by
    unfold Path.Spec.canon; rw [if_neg hp]; rfl
  rw [hcanon]
  have main : ∀ (abs : Bool) (rest : Bytes), p = kept abs [] ++ rest →
      (maxComponents < (names (comps p)).length ∧ (loop p.length (p.length + 2) (p ++ [0]) (kept abs []).length (kept abs []).length [] >>= fun r => finish r.1 r.2) = .error) ∨
      (loop p.length (p.length + 2) (p ++ [0]) (kept abs []).length (kept abs []).length [] >>= fun r => finish r.1 r.2) =
        .ok (if abs = true ∧ cancel (comps p) = [] then [] else render abs (cancel (comps p))) ∧ (names (cancel (comps p))).length ≤ maxComponents := by
    intro abs rest hpe
    have hcomps : comps p = comps rest := by
      rw [hpe]
      cases abs
      · rfl
      · exact Path.comps_slash rest
    have hlen : p.length = (kept abs []).length + rest.length := by
      have := congrArg List.length hpe
      rw [List.length_append] at this
      exact this
    have hpos := List.length_pos_iff.2 hp
    have := Goal.congr (A := (comps p).foldl cancelStep []) (over := (names (comps p)).length) (len := p.length + 1) (stop := p.length)
      (mem := p ++ [0]) (s := (kept abs []).length) (d := (kept abs []).length) (comp := [])
      (loop_spec abs p.length (p.length + 2) [] [] [] rest (by omega) (by omega) (by simp) (by simp) (by simp)
      (fun h => h0 (by rw [hpe]; simp [h])) _ rfl) (by rw [hcomps]; rfl) (by rw [hcomps]; simp) (by simp; omega) (by simp; omega)
      (by rw [List.append_nil, ← List.append_assoc]; exact congrArg (· ++ [0]) hpe) (by simp) (by simp) rfl
    rcases this with ⟨h1, h2⟩ | ⟨out, junk, h1, h2, h3, h4, h5⟩
    · left
      rw [h2]
      exact ⟨h1, rfl⟩
    · right
      rw [h1, Res.ok_bind]
      exact ⟨finish_spec h2 h3 (by omega), h5⟩
  cases hb : isAbs p with
  | true =>
    have hh : p.head? = some 47 := by unfold Path.Spec.isAbs at hb; simpa using hb
    rw [if_pos hh]
    cases p with
    | nil => exact absurd rfl hp
    | cons c r =>
      simp only [List.head?_cons, Option.some.injEq] at hh
      subst hh
      exact main true r (by simp [Path.kept])
  | false =>
    have hh : p.head? ≠ some 47 := by unfold Path.Spec.isAbs at hb; simpa using hb
    rw [if_neg hh]
    exact main false p (by simp [Path.kept])

end Muon.Canon
