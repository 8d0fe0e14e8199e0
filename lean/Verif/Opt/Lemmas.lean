import Verif.Opt.Spec
namespace Muon.Opt
open Muon Muon.Opt.Spec

/-! ### Parsing -/

theorem parseLoop_val (s : Bytes) (st : PSt) (h : st.readingKey = false) : parseLoop s st = some { st with cur := st.cur ++ s } := by
  induction s generalizing st with
  | nil => unfold parseLoop; simp
  | cons c s ih =>
    unfold parseLoop
    rw [if_neg (by simp [h]), if_neg (by simp [h]), ih _ (by simp [h])]
    simp

/-- In the key, up to a separator. -/
theorem parseLoop_key (k r : Bytes) (st : PSt) (hr : st.readingKey = true) (h1 : 58 ∉ k) (h2 : 61 ∉ k) :
    parseLoop (k ++ r) st = parseLoop r { st with cur := st.cur ++ k } := by
  induction k generalizing st with
  | nil => simp
  | cons c k ih =>
    have c1 : c ≠ 58 := fun h => h1 (by simp [h])
    have c2 : c ≠ 61 := fun h => h2 (by simp [h])
    rw [List.cons_append]
    rw [show parseLoop (c :: (k ++ r)) st = parseLoop (k ++ r) { st with cur := st.cur ++ [c] } from by
      rw [parseLoop, if_neg (by simp [c1]), if_neg (by simp [c2])]]
    rw [ih { st with cur := st.cur ++ [c] } hr (fun h => h1 (by simp [h])) (fun h => h2 (by simp [h]))]
    simp

/-- A string up to the first `:` or `=`. -/
theorem split_sep (s : Bytes) : (58 ∉ s ∧ 61 ∉ s) ∨ ∃ k c r, s = k ++ c :: r ∧ 58 ∉ k ∧ 61 ∉ k ∧ (c = 58 ∨ c = 61) := by
  induction s with
  | nil => left; simp
  | cons c s ih =>
    by_cases h : c = 58 ∨ c = 61
    · right; exact ⟨[], c, s, rfl, by simp, by simp, h⟩
    · have c1 : c ≠ 58 := fun e => h (.inl e)
      have c2 : c ≠ 61 := fun e => h (.inr e)
      rcases ih with ⟨a, b⟩ | ⟨k, d, r, rfl, a, b, e⟩
      · left; simp [a, b, Ne.symm c1, Ne.symm c2]
      · right; exact ⟨c :: k, d, r, rfl, by simp [a, Ne.symm c1], by simp [b, Ne.symm c2], e⟩

theorem parseLoop_eq (r : Bytes) (st : PSt) (hr : st.readingKey = true) :
    parseLoop (61 :: r) st = some ⟨st.sub, st.cur, r, false⟩ := by
  rw [parseLoop, if_neg (by simp), if_pos (by simp [hr]), parseLoop_val _ _ rfl]
  simp

theorem parseLoop_colon (r : Bytes) (st : PSt) (hr : st.readingKey = true) :
    parseLoop (58 :: r) st = if st.sub.isSome then none else parseLoop r { st with sub := some st.cur, cur := [] } := by
  rw [parseLoop, if_pos (by simp [hr])]

/-- What is left after the subproject. -/
theorem parseLoop_rest (s : Bytes) (st : PSt) (hr : st.readingKey = true) (hs : st.sub.isSome = true) (hc : st.cur = []) (hk : st.key = []) :
    (∃ k v, s = k ++ 61 :: v ∧ 58 ∉ k ∧ 61 ∉ k ∧ parseLoop s st = some ⟨st.sub, k, v, false⟩) ∨
    ((∀ k v, s = k ++ 61 :: v → 58 ∈ k) ∧ (parseLoop s st = none ∨ ∃ st', parseLoop s st = some st' ∧ st'.key = [])) := by
  rcases split_sep s with ⟨a, b⟩ | ⟨k, c, r, rfl, a, b, rfl | rfl⟩
  · right
    refine ⟨?_, .inr ?_⟩
    · rintro k v rfl; simp at b
    · have := parseLoop_key s [] st hr a b
      rw [List.append_nil] at this
      rw [this, parseLoop]
      exact ⟨_, rfl, hk⟩
  · right
    refine ⟨?_, .inl ?_⟩
    · intro k' v h
      have h' : k' ++ 61 :: v = k ++ 58 :: r := h.symm
      rcases List.append_eq_append_iff.1 h' with ⟨m, e1, e2⟩ | ⟨m, e1, e2⟩
      · cases m with
        | nil => simp at e2
        | cons x m => rw [e1] at b; simp only [List.cons_append, List.cons.injEq] at e2; rw [← e2.1] at b; simp at b
      · cases m with
        | nil => simp at e2
        | cons x m => simp only [List.cons_append, List.cons.injEq] at e2; rw [e1, ← e2.1]; simp
    · rw [parseLoop_key k _ st hr a b, parseLoop_colon r { st with cur := st.cur ++ k } hr, if_pos hs]
  · left
    refine ⟨k, r, rfl, a, b, ?_⟩
    rw [parseLoop_key k _ st hr a b, parseLoop_eq r { st with cur := st.cur ++ k } hr]
    simp [hc]

/-! ### Setting an option -/

/-- The parts of an option that do not change. -/
def Same (o o' : Opt) : Prop := o'.name = o.name ∧ o'.ty = o.ty ∧ o'.choices = o.choices ∧ o'.min = o.min ∧ o'.max = o.max ∧ o'.dep = o.dep

/-- The value an assignment gives to an option which is not deprecated to another name; `none`: it fails. -/
def acceptV (ev : Bytes → Option OV) (o : Opt) (v : OV) (coerce : Bool) : Res (Option OV) :=
  let fin : OV → Res (Option OV) := fun v => match typecheckOpt o.ty v with
    | none => .ok none
    | some v => validate o v >>= fun b => .ok (if b then some v else none)
  if coerce then
    match v with
    | .str s =>
      let early := if o.ty = .array then coerceArray ev s else none
      if o.ty = .array ∧ early = none then .ok none
      else coerceWith o early s >>= fun c => match c with
        | some v => fin v
        | none => .ok none
    | _ => .bad
  else fin v

theorem acceptV_same {ev : Bytes → Option OV} {o o' : Opt} (h : Same o o') (v : OV) (c : Bool) : acceptV ev o' v c = acceptV ev o v c := by
  obtain ⟨n, t, v1, ch, mi, ma, s, d⟩ := o
  obtain ⟨n', t', v1', ch', mi', ma', s', d'⟩ := o'
  obtain ⟨h1, h2, h3, h4, h5, h6⟩ := h
  simp only at h1 h2 h3 h4 h5 h6
  subst h1 h2 h3 h4 h5 h6
  rfl

theorem upd_get (w : W) (i : Nat) (f : Opt → Opt) (j : Nat) : (w.upd i f).opts[j]? = if i = j then (w.opts[j]?).map f else w.opts[j]? := by
  unfold W.upd
  rw [List.getElem?_modify]
  by_cases h : i = j <;> simp [h]

/-- What setting an option does. -/
structure Step (ev : Bytes → Option OV) (w : W) (i : Nat) (v : OV) (src : Nat) (c : Bool) (b : Bool) (w' : W) (o o' : Opt) : Prop where
  old : w.opts[i]? = some o
  new : w'.opts[i]? = some o'
  frame : ∀ j, j ≠ i → w'.opts[j]? = w.opts[j]?
  same : Same o o'
  low : o.source > src → o' = o ∧ b = true
  high : o.source ≤ src → o'.source = src ∧ (b = true → acceptV ev o v c = .ok (some o'.val)) ∧ (b = false → o'.val = o.val ∧ acceptV ev o v c = .ok none)

theorem store_step {w : W} {i : Nat} {o o1 : Opt} {v : OV} {b : Bool} {w' : W} (h1 : w.opts[i]? = some o1) (h : store w i o v = .ok (b, w')) :
    (∀ j, j ≠ i → w'.opts[j]? = w.opts[j]?) ∧ ((b = false ∧ w' = w ∧ (typecheckOpt o.ty v = none ∨ ∃ v', typecheckOpt o.ty v = some v' ∧ validate o v' = .ok false)) ∨
      (b = true ∧ ∃ v', typecheckOpt o.ty v = some v' ∧ validate o v' = .ok true ∧ w'.opts[i]? = some { o1 with val := v' })) := by
  unfold store at h
  cases ht : typecheckOpt o.ty v with
  | none => rw [ht] at h; cases h; exact ⟨fun _ _ => rfl, .inl ⟨rfl, rfl, .inl rfl⟩⟩
  | some v' =>
    rw [ht] at h
    dsimp only at h
    cases hv : validate o v' with
    | ok x =>
      rw [hv, Res.ok_bind] at h
      cases x with
      | false => cases h; exact ⟨fun _ _ => rfl, .inl ⟨rfl, rfl, .inr ⟨v', rfl, hv⟩⟩⟩
      | true =>
        cases h
        refine ⟨fun j hj => by rw [upd_get, if_neg (Ne.symm hj)], .inr ⟨rfl, v', rfl, hv, ?_⟩⟩
        rw [upd_get, if_pos rfl, h1]; rfl
    | error => rw [hv] at h; cases h
    | bad => rw [hv] at h; cases h

theorem renameTo_none (set : W → Nat → Res (Bool × W)) (proj : Option Bytes) (w : W) (s : Bytes) (d : Option Dep) (h : ∀ n, d ≠ some (.rename n)) :
    renameTo set proj w s d = .ok w := by
  cases d with
  | none => rfl
  | some d =>
    cases d with
    | rename n => exact absurd rfl (h n)
    | _ => rfl

theorem setOption_step {ev : Bytes → Option OV} {proj : Option Bytes} {f : Nat} {w : W} {i : Nat} {v : OV} {src : Nat} {c : Bool} {b : Bool} {w' : W}
    (hn : ∀ o, w.opts[i]? = some o → ∀ n, o.dep ≠ some (.rename n)) (h : setOption ev proj (f + 1) w i v src c = .ok (b, w')) :
    ∃ o o', Step ev w i v src c b w' o o' := by
  unfold setOption at h
  cases ho : w.opts[i]? with
  | none => rw [ho] at h; cases h
  | some o =>
    rw [ho] at h
    dsimp only at h
    have hdep := hn o ho
    by_cases hs : o.source > src
    · rw [if_pos hs] at h
      cases h
      exact ⟨o, o, ho, ho, fun _ _ => rfl, ⟨rfl, rfl, rfl, rfl, rfl, rfl⟩, fun _ => ⟨rfl, rfl⟩, fun h => absurd hs (by omega)⟩
    · rw [if_neg hs] at h
      have hw1 : (w.upd i fun o => { o with source := src }).opts[i]? = some { o with source := src } := by rw [upd_get, if_pos rfl, ho]; rfl
      have hfr : ∀ j, j ≠ i → (w.upd i fun o => { o with source := src }).opts[j]? = w.opts[j]? := fun j hj => by rw [upd_get, if_neg (Ne.symm hj)]
      -- failing before the value is checked
      have hfail : ∀ (b : Bool) (w' : W), Res.ok (false, w.upd i fun o => { o with source := src }) = .ok (b, w') → acceptV ev o v c = .ok none →
          ∃ o o', Step ev w i v src c b w' o o' := by
        intro b w' h ha
        cases h
        exact ⟨o, { o with source := src }, ho, hw1, hfr, ⟨rfl, rfl, rfl, rfl, rfl, rfl⟩, fun h => absurd h hs, fun _ => ⟨rfl, (fun h => by cases h), fun _ => ⟨rfl, ha⟩⟩⟩
      have hstore : ∀ v', store (w.upd i fun o => { o with source := src }) i o v' = .ok (b, w') →
          (∀ r, (match typecheckOpt o.ty v' with
            | none => Res.ok none
            | some v => validate o v >>= fun b => .ok (if b then some v else none)) = r → acceptV ev o v c = r) →
          ∃ o o', Step ev w i v src c b w' o o' := by
        intro v' h ha
        obtain ⟨fr, hcase⟩ := store_step hw1 h
        rcases hcase with ⟨rfl, rfl, hz⟩ | ⟨rfl, v'', ht, hv, hg⟩
        · refine hfail false _ rfl (ha _ ?_)
          rcases hz with hz | ⟨v'', hz, hz'⟩
          · rw [hz]
          · rw [hz]; dsimp only; rw [hz']; rfl
        · refine ⟨o, _, ho, hg, fun j hj => by rw [fr j hj, hfr j hj], ⟨rfl, rfl, rfl, rfl, rfl, rfl⟩, fun h => absurd h hs, fun _ => ⟨rfl, fun _ => ha _ ?_, (fun h => by cases h)⟩⟩
          rw [ht]; dsimp only; rw [hv]; rfl
      by_cases hc : c = true
      · rw [if_pos hc] at h
        cases v with
        | str s =>
          dsimp only at h
          have hacc : acceptV ev o (.str s) c = (if o.ty = .array ∧ (if o.ty = .array then coerceArray ev s else none) = none then .ok none
              else coerceWith o (if o.ty = .array then coerceArray ev s else none) s >>= fun c => match c with
                | some v => (match typecheckOpt o.ty v with
                  | none => .ok none
                  | some v => validate o v >>= fun b => .ok (if b then some v else none))
                | none => .ok none) := by unfold acceptV; rw [if_pos hc]
          generalize hearly : (if o.ty = .array then coerceArray ev s else none) = early at h hacc
          by_cases he : o.ty = .array ∧ early = none
          · rw [if_pos he] at h
            rw [if_pos he] at hacc
            exact hfail b w' h hacc
          · rw [if_neg he] at h
            rw [if_neg he] at hacc
            rw [renameTo_none _ _ _ _ _ hdep, Res.ok_bind] at h
            cases hcw : coerceWith o early s with
            | ok r =>
              rw [hcw, Res.ok_bind] at h hacc
              cases r with
              | none => exact hfail b w' h hacc
              | some v' => exact hstore v' h (fun r hr => by rw [hacc]; exact hr)
            | error => rw [hcw] at h; cases h
            | bad => rw [hcw] at h; cases h
        | _ => cases h
      · rw [if_neg hc] at h
        refine hstore v h (fun r hr => ?_)
        unfold acceptV
        rw [if_neg hc]
        exact hr

end Muon.Opt
