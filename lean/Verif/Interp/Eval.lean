import Verif.Interp.Sim
/-
Expressions: the interpreter computes the value the specification gives.
-/
namespace Muon.Interp
open Muon Val
open _root_.Muon.Val.Spec (valOf Holds Same)

theorem Sim.map_left {α β γ : Type} {r : Spec.Res α} {x : Nat → Out β} {g : α → γ} {Q : γ → β → Prop} (h : Sim r x (fun a b => Q (g a) b)) : Sim (r >>= fun a => pure (g a)) x Q := by
  cases r with
  | ok a => exact h
  | error => exact h
  | bad => exact h
  | unclear => trivial

section
variable {O : Nat → Prop} {own : List Bytes} {env : Bytes → Option Nat} {σ : Bytes → Option Val}

/-- The position an index stands for. -/
theorem element_sim {α β : Type} (l : List α) (vs : List β) (hlen : l.length = vs.length) (n : Int) (X : Nat → Out (Nat × S)) (g : α → Out (Nat × S)) (Q : β → Nat × S → Prop)
    (X1 : boundscheck l.length n = none → X = fun _ => .error) (X2 : ∀ k, boundscheck l.length n = some k → k < 0 → X = fun _ => .bad)
    (X3 : ∀ k x, boundscheck l.length n = some k → ¬ k < 0 → l[k.toNat]? = some x → X = fun _ => g x)
    (H : ∀ (k : Nat) x v, l[k]? = some x → vs[k]? = some v → Sim (.ok v) (fun _ => g x) Q) :
    Sim (Spec.element vs n) X Q := by
  unfold boundscheck at X1 X2 X3
  unfold Spec.element
  rw [hlen] at X1 X2 X3
  dsimp only at *
  generalize (if n < 0 then n + (vs.length : Int) else n) = k at *
  by_cases h0 : k < 0
  · rw [if_pos h0, X2 k (if_pos (by omega)) h0]
    exact Sim.bad
  · rw [if_neg h0]
    by_cases h1 : k < vs.length
    · have hk : k.toNat < vs.length := by omega
      have hk' : k.toNat < l.length := by omega
      rw [X3 k _ (if_pos h1) h0 (List.getElem?_eq_getElem hk')]
      simp only [List.getElem?_eq_getElem hk]
      exact H k.toNat _ _ (List.getElem?_eq_getElem hk') (List.getElem?_eq_getElem hk)
    · have hk : vs[k.toNat]? = none := List.getElem?_eq_none (by omega)
      rw [X1 (if_neg h1)]
      simp only [hk]
      exact Sim.error

theorem index_sim {s : S} (c : Ctx O own env σ s.heap) (m : List Bytes) {a i : Nat} {v w : Val} (ha : a < s.heap.next)
    (hv : Holds s.heap a v) (hw : Holds s.heap i w) : Sim (Spec.index v w) (fun _ => indexObj s a i) (fun u q => Post O own env σ m s (u, s.out) q) := by
  unfold Spec.index indexObj
  by_cases hd : Spec.isDis v = true
  · have e := (isDis_iff c.good hv).1 hd
    rw [if_pos hd]
    simp only [if_pos e]
    subst e
    have : v = .other 1 1 := by
      have H := holds_iff.1 hv
      rw [c.good.dis] at H
      exact H
    subst this
    exact Sim.ok (dis_post c m)
  · have e : ¬ a = disablerId := fun e => hd ((isDis_iff c.good hv).2 e)
    rw [if_neg hd]
    simp only [if_neg e]
    have hkid := c.good.kids a ha
    have kid : ∀ x u, x ∈ kids (s.heap.obj a) → Holds s.heap x u → Post O own env σ m s (u, s.out) (x, s) := fun x u hx hu =>
      { ctx := c, ext := Ext.refl _, out := rfl, lt := (hkid x hx).1, holds := hu, may := fun h => absurd h (hkid x hx).2 }
    have H := holds_iff.1 hv
    have di : Spec.isDis w = true ↔ i = disablerId := isDis_iff c.good hw
    cases ho : s.heap.obj a <;> rw [ho] at H kid <;> dsimp only at H
    case arr l =>
      obtain ⟨vs, rfl, H⟩ := H
      dsimp only
      by_cases hdw : Spec.isDis w = true
      · rw [if_pos hdw]; simp only [if_pos (di.1 hdw)]; exact Sim.bad
      · rw [if_neg hdw]; simp only [if_neg fun e => hdw (di.2 e)]
        rcases isNum hw with ⟨n, hp, rfl⟩ | ⟨hp, hne⟩
        · simp only [hp]
          refine element_sim l vs (holdsL_length H) n _ (fun x => .ok (x, s)) _ (fun h => by funext _; simp only [h]) (fun k h h0 => by funext _; simp only [h, if_pos h0]) (fun k x h h0 hx => by funext _; simp only [h, if_neg h0, hx]) ?_
          intro k x u hx hu
          obtain ⟨u', hu', hh⟩ := holdsL_get H k x hx
          rw [hu] at hu'
          cases hu'
          exact Sim.ok (kid x u (List.mem_of_getElem? hx) hh)
        · cases hp' : s.heap.obj i <;> first | exact absurd hp' (hp _) | skip
          all_goals cases w <;> first | exact Sim.error | exact absurd rfl (hne _)
    case dict l =>
      obtain ⟨vs, rfl, _, H⟩ := H
      dsimp only
      by_cases hdw : Spec.isDis w = true
      · rw [if_pos hdw]; simp only [if_pos (di.1 hdw)]; exact Sim.bad
      · rw [if_neg hdw]; simp only [if_neg fun e => hdw (di.2 e)]
        rcases isStr hw with ⟨n, hp, rfl⟩ | ⟨hp, hne⟩
        · simp only [hp]
          have := holdsD_lookup (k := n) H
          cases h1 : l.lookup n <;> cases h2 : vs.lookup n <;> rw [h1, h2] at this <;> simp only at this ⊢
          · exact Sim.error
          · exact Sim.ok (kid _ _ (List.mem_map_of_mem (f := Prod.snd) (lookup_mem h1)) this)
        · cases hp' : s.heap.obj i <;> first | exact absurd hp' (hp _) | skip
          all_goals cases w <;> first | exact Sim.error | exact absurd rfl (hne _)
    case str t =>
      subst H
      dsimp only
      by_cases hdw : Spec.isDis w = true
      · rw [if_pos hdw]; simp only [if_pos (di.1 hdw)]; exact Sim.bad
      · rw [if_neg hdw]; simp only [if_neg fun e => hdw (di.2 e)]
        rcases isNum hw with ⟨n, hp, rfl⟩ | ⟨hp, hne⟩
        · simp only [hp]
          refine Sim.map_left (g := fun ch => Val.str [ch]) (element_sim t t rfl n _ (fun ch => mk s (.str [ch])) _ (fun h => by funext _; simp only [h]) (fun k h h0 => by funext _; simp only [h, if_pos h0]) (fun k x h h0 hx => by funext _; simp only [h, if_neg h0, hx]) ?_)
          intro k x u hx hu
          rw [hx] at hu
          cases hu
          exact Sim.ok (str_post c _ m)
        · cases hp' : s.heap.obj i <;> first | exact absurd hp' (hp _) | skip
          all_goals cases w <;> first | exact Sim.error | exact absurd rfl (hne _)
    all_goals
      subst H
      exact Sim.error

theorem flatDis_eq {h : Heap} (g : Good O h) : ∀ (f i : Nat) (v : Val), valOf h f i = some v → flatDis h f i = some (Spec.hasDis v) := by
  intro f
  induction f with
  | zero => intro i v hv; cases hv
  | succ f ih =>
    intro i v hv
    have H := holds_iff.1 ⟨f + 1, hv⟩
    rw [flatDis]
    by_cases e : i = disablerId
    · rw [if_pos e]
      subst e
      rw [g.dis] at H
      dsimp only at H
      subst H
      rw [Spec.hasDis]
      rfl
    · rw [if_neg e]
      cases ho : h.obj i <;> rw [ho] at H <;> dsimp only at H ⊢
      case arr l =>
        unfold valOf at hv
        rw [ho] at hv
        dsimp only at hv
        cases hm : l.mapM (valOf h f) with
        | none => rw [hm] at hv; cases hv
        | some vs =>
          rw [hm] at hv
          cases hv
          rw [Spec.hasDis]
          clear H ho
          induction l generalizing vs with
          | nil => rw [List.mapM_nil] at hm; cases hm; rw [List.anyM, Spec.hasDisList]; rfl
          | cons x l ihl =>
            obtain ⟨u, us, rfl, h1, h2⟩ := mapM_cons_some.1 hm
            rw [List.anyM, ih x u h1, Spec.hasDisList]
            cases hu : Spec.hasDis u
            · exact ihl us h2
            · rfl
      case dict l => obtain ⟨vs, rfl, _⟩ := H; rw [Spec.hasDis] <;> simp
      case other t =>
        subst H
        rw [Spec.hasDis]
        have : (i == 1) = false := beq_eq_false_iff_ne.2 e
        rw [this]
      all_goals subst H; rw [Spec.hasDis] <;> simp

theorem message_sim {s : S} (c : Ctx O own env σ s.heap) (m : List Bytes) {i : Nat} {v : Val} (hv : Holds s.heap i v) :
    Sim (Spec.message v s.out) (fun f => messageObj f s i) (Post O own env σ m s) := by
  have hd : Sim (.ok (Spec.hasDis v)) (fun f => Out.get (flatDis s.heap f i)) (fun a b => a = b) := by
    obtain ⟨F, hF⟩ := hv
    exact get_sim ⟨F, fun f hf => flatDis_eq c.good f i v (valOf_mono hf hF)⟩
  have hval : Sim (.ok v) (fun f => Out.get (valOf s.heap f i)) (fun a b => a = b) := by
    obtain ⟨F, hF⟩ := hv
    exact get_sim ⟨F, fun f hf => valOf_mono hf hF⟩
  have : Spec.message v s.out = (Spec.Res.ok (Spec.hasDis v) >>= fun d => if d then .ok (.other 1 1, s.out) else
      match v with
      | .str _ | .bool _ | .num _ | .arr _ | .dict _ => Spec.Res.ok v >>= fun v => .ok (.other 0 0, s.out ++ [v])
      | _ => .error) := by
    unfold Spec.message
    show _ = (if Spec.hasDis v = true then _ else _)
    split
    · rfl
    · cases v <;> rfl
  rw [this]
  refine Sim.bind hd ?_
  rintro d _ rfl
  cases d
  · simp only [Bool.false_eq_true, if_false]
    have H := holds_iff.1 hv
    have fin : ∀ a b : Val, a = b → Sim (.ok ((.other 0 0 : Val), s.out ++ [a])) (fun _ => Out.ok (nullId, { s with out := s.out ++ [b] })) (Post O own env σ m s) := by
      rintro a _ rfl
      have hno : ¬ O nullId := fun hO => by
        have := (c.owned _ hO).2
        rw [c.good.void] at this
        exact this.elim
      exact Sim.ok { ctx := c, ext := Ext.refl _, out := rfl, lt := Nat.lt_of_lt_of_le (show 0 < 2 by decide) c.good.two, holds := holds_iff.2 (by rw [c.good.void]; rfl), may := fun hO => absurd hO hno }
    cases ho : s.heap.obj i <;> rw [ho] at H <;> dsimp only at H
    case bool => subst H; exact Sim.bind hval fin
    case num => subst H; exact Sim.bind hval fin
    case str => subst H; exact Sim.bind hval fin
    case arr => obtain ⟨vs, rfl, _⟩ := H; exact Sim.bind hval fin
    case dict => obtain ⟨vs, rfl, _⟩ := H; exact Sim.bind hval fin
    all_goals subst H; exact Sim.error
  · simp only [if_true]
    exact Sim.ok (dis_post c m)

/-- What holds after evaluating the elements of a literal. -/
structure PostL (O : Nat → Prop) (own : List Bytes) (env : Bytes → Option Nat) (σ : Bytes → Option Val) (s : S) (p : List Val × List Val) (q : List Nat × S) : Prop where
  ctx : Ctx O own env σ q.2.heap
  ext : Ext s.heap q.2.heap
  out : q.2.out = p.2
  kids : ∀ k ∈ q.1, k < q.2.heap.next ∧ ¬ O k
  holds : HoldsL q.2.heap q.1 p.1

/-- Entries of a dictionary literal. -/
structure Entries (O : Nat → Prop) (h : Heap) (l : List (Bytes × Nat)) (vs : List (Bytes × Val)) : Prop where
  nodup : (l.map Prod.fst).Nodup
  kids : ∀ k ∈ l.map Prod.snd, k < h.next ∧ ¬ O k
  holds : HoldsD h l vs

theorem Entries.ext {h h' : Heap} {l : List (Bytes × Nat)} {vs : List (Bytes × Val)} (E : Entries O h l vs) (g : Good O h) (e : Ext h h') : Entries O h' l vs where
  nodup := E.nodup
  kids k hk := ⟨Nat.lt_of_lt_of_le (E.kids k hk).1 e.1, (E.kids k hk).2⟩
  holds := holdsD_mono (fun p hp _ hv => g.holds e (E.kids p.2 (List.mem_map_of_mem (f := Prod.snd) hp)).1 hv) E.holds

mutual
theorem eval_sim (e : Expr) (s : S) (c : Ctx O own env σ s.heap) (hf : e.aliasFree own) :
    Sim (Spec.eval own σ e s.out) (fun f => eval f env e s) (Post O own env σ e.mayBe s) := by
  cases e with
  | num n => simp only [Spec.eval, eval, mk]; exact Sim.ok (num_post c n _)
  | str n => simp only [Spec.eval, eval, mk]; exact Sim.ok (str_post c n _)
  | bool n => simp only [Spec.eval, eval, mk]; exact Sim.ok (bool_post c n _)
  | var x =>
    simp only [Spec.eval, eval]
    have := c.vars x
    cases h1 : env x <;> cases h2 : σ x <;> rw [h1, h2] at this <;> simp only at this ⊢
    · exact Sim.error
    · exact Sim.ok { ctx := c, ext := Ext.refl _, out := rfl, lt := this.1, holds := this.2.1, may := fun h => ⟨x, by simp [Expr.mayBe], this.2.2 h, h1⟩ }
  | arr l =>
    simp only [Expr.aliasFree] at hf
    simp only [Spec.eval, eval]
    refine Sim.bind (args_sim l s c hf) ?_
    rintro ⟨vs, out⟩ ⟨is, s'⟩ P
    obtain ⟨c', e', rfl, hk, hh⟩ := P
    dsimp only at *
    refine Sim.ok ((mk_post c' (o := .arr is) hk (holds_iff.2 ?_) _).trans e' fun _ h => h)
    rw [alloc_new]
    exact ⟨vs, rfl, holdsL_mono (fun k hk' v hv => c'.good.holds (ext_alloc _ _) (hk k hk').1 hv) hh⟩
  | dict l =>
    simp only [Expr.aliasFree] at hf
    simp only [Spec.eval, eval]
    refine Sim.bind (kvs_sim l s [] [] c ⟨List.nodup_nil, by simp, trivial⟩ hf) ?_
    rintro ⟨vs, out⟩ ⟨is, s'⟩ ⟨c', e', ho, E⟩
    dsimp only at *
    subst ho
    refine Sim.ok ((mk_post c' (o := .dict is) E.kids (holds_iff.2 ?_) _).trans e' fun _ h => h)
    rw [alloc_new]
    exact ⟨vs, rfl, E.nodup, holdsD_mono (fun p hp v hv => c'.good.holds (ext_alloc _ _) (E.kids p.2 (List.mem_map_of_mem (f := Prod.snd) hp)).1 hv) E.holds⟩
  | neg e =>
    simp only [Expr.aliasFree] at hf
    simp only [Spec.eval, eval]
    refine Sim.bind (eval_sim e s c hf) ?_
    rintro ⟨v, out⟩ ⟨i, s'⟩ ⟨c', e', rfl, hi, hv, _⟩
    dsimp only at *
    by_cases hd : Spec.isDis v = true
    · have e := (isDis_iff c'.good hv).1 hd
      rw [if_pos hd]
      simp only [if_pos e]
      subst e
      have : v = .other 1 1 := by
        have H := holds_iff.1 hv
        rw [c'.good.dis] at H
        exact H
      subst this
      exact Sim.ok ((dis_post c' _).trans e' fun _ h => h)
    · rw [if_neg hd]
      simp only [if_neg fun e => hd ((isDis_iff c'.good hv).2 e)]
      rcases isNum hv with ⟨n, hp, rfl⟩ | ⟨hp, hne⟩
      · simp only [hp]
        refine Sim.bind (number_sim _) ?_
        rintro a _ rfl
        exact Sim.ok ((num_post c' _ _).trans e' fun _ h => h)
      · cases hp' : s'.heap.obj i <;> first | exact absurd hp' (hp _) | skip
        all_goals cases v <;> first | exact Sim.error | exact absurd rfl (hne _)
  | arith op a b =>
    simp only [Expr.aliasFree] at hf
    simp only [Spec.eval, eval]
    refine Sim.bind (eval_sim a s c hf.1) ?_
    rintro ⟨v, out⟩ ⟨i, s1⟩ ⟨c1, e1, rfl, hi, hv, _⟩
    refine Sim.bind (eval_sim b s1 c1 hf.2) ?_
    rintro ⟨w, out⟩ ⟨j, s2⟩ ⟨c2, e2, rfl, hj, hw, hm⟩
    dsimp only at *
    have hv2 := c1.good.holds e2 hi hv
    have d1 := isDis_iff c2.good hv2
    have d2 := isDis_iff c2.good hw
    by_cases hd : i = disablerId ∨ j = disablerId
    · simp only [if_pos hd]
      rw [if_pos (by rw [Bool.or_eq_true]; exact hd.imp d1.2 d2.2)]
      exact Sim.ok ((dis_post c2 _).trans (e1.trans e2) fun _ h => h)
    · simp only [if_neg hd]
      rw [if_neg (by rw [Bool.or_eq_true]; exact fun h => hd (h.imp d1.1 d2.1))]
      refine Sim.bind (arith_sim c2 op (b.mayBe.any own.contains) (Expr.arith op a b).mayBe (Nat.lt_of_lt_of_le hi e2.1) hj hv2 hw ?_) ?_
      · intro hO
        obtain ⟨x, hx, hx', _⟩ := hm hO
        exact List.any_eq_true.2 ⟨x, hx, by simpa using hx'⟩
      · rintro u ⟨r, h⟩ P
        exact Sim.ok (P.trans (e1.trans e2) fun _ h => h)
  | cmp op a b =>
    simp only [Expr.aliasFree] at hf
    simp only [Spec.eval, eval]
    refine Sim.bind (eval_sim a s c hf.1) ?_
    rintro ⟨v, out⟩ ⟨i, s1⟩ ⟨c1, e1, rfl, hi, hv, _⟩
    refine Sim.bind (eval_sim b s1 c1 hf.2) ?_
    rintro ⟨w, out⟩ ⟨j, s2⟩ ⟨c2, e2, rfl, hj, hw, hm⟩
    dsimp only at *
    have hv2 := c1.good.holds e2 hi hv
    have d1 := isDis_iff c2.good hv2
    have d2 := isDis_iff c2.good hw
    by_cases hd : i = disablerId ∨ j = disablerId
    · simp only [if_pos hd]
      rw [if_pos (by rw [Bool.or_eq_true]; exact hd.imp d1.2 d2.2)]
      exact Sim.ok ((dis_post c2 _).trans (e1.trans e2) fun _ h => h)
    · simp only [if_neg hd]
      rw [if_neg (by rw [Bool.or_eq_true]; exact fun h => hd (h.imp d1.1 d2.1))]
      refine Sim.bind (cmp_sim op hv2 hw) ?_
      rintro r _ rfl
      exact Sim.ok ((bool_post c2 _ _).trans (e1.trans e2) fun _ h => h)
  | not e =>
    simp only [Expr.aliasFree] at hf
    simp only [Spec.eval, eval]
    refine Sim.bind (eval_sim e s c hf) ?_
    rintro ⟨v, out⟩ ⟨i, s'⟩ ⟨c', e', rfl, hi, hv, _⟩
    refine Sim.bind (cond_sim c'.good hv) ?_
    rintro (_ | b) _ rfl
    · exact Sim.ok ((dis_post c' _).trans e' fun _ h => h)
    · exact Sim.ok ((bool_post c' _ _).trans e' fun _ h => h)
  | and a b =>
    simp only [Expr.aliasFree] at hf
    simp only [Spec.eval, eval]
    refine Sim.bind (eval_sim a s c hf.1) ?_
    rintro ⟨v, out⟩ ⟨i, s'⟩ ⟨c', e', rfl, hi, hv, _⟩
    refine Sim.bind (cond_sim c'.good hv) ?_
    rintro (_ | _ | _) _ rfl
    · exact Sim.ok ((dis_post c' _).trans e' fun _ h => h)
    · exact Sim.ok ((bool_post c' _ _).trans e' fun _ h => h)
    · refine Sim.bind (eval_sim b s' c' hf.2) ?_
      rintro ⟨w, out⟩ ⟨j, s2⟩ ⟨c2, e2, rfl, hj, hw, _⟩
      refine Sim.bind (cond_sim c2.good hw) ?_
      rintro (_ | r) _ rfl
      · exact Sim.ok ((dis_post c2 _).trans (e'.trans e2) fun _ h => h)
      · exact Sim.ok ((bool_post c2 _ _).trans (e'.trans e2) fun _ h => h)
  | or a b =>
    simp only [Expr.aliasFree] at hf
    simp only [Spec.eval, eval]
    refine Sim.bind (eval_sim a s c hf.1) ?_
    rintro ⟨v, out⟩ ⟨i, s'⟩ ⟨c', e', rfl, hi, hv, _⟩
    refine Sim.bind (cond_sim c'.good hv) ?_
    rintro (_ | _ | _) _ rfl
    · exact Sim.ok ((dis_post c' _).trans e' fun _ h => h)
    · refine Sim.bind (eval_sim b s' c' hf.2) ?_
      rintro ⟨w, out⟩ ⟨j, s2⟩ ⟨c2, e2, rfl, hj, hw, _⟩
      refine Sim.bind (cond_sim c2.good hw) ?_
      rintro (_ | r) _ rfl
      · exact Sim.ok ((dis_post c2 _).trans (e'.trans e2) fun _ h => h)
      · exact Sim.ok ((bool_post c2 _ _).trans (e'.trans e2) fun _ h => h)
    · exact Sim.ok ((bool_post c' _ _).trans e' fun _ h => h)
  | ternary d a b =>
    simp only [Expr.aliasFree] at hf
    simp only [Spec.eval, eval]
    refine Sim.bind (eval_sim d s c hf.1) ?_
    rintro ⟨v, out⟩ ⟨i, s'⟩ ⟨c', e', rfl, hi, hv, _⟩
    refine Sim.bind (cond_sim c'.good hv) ?_
    rintro (_ | _ | _) _ rfl
    · exact Sim.ok ((dis_post c' _).trans e' fun _ h => h)
    · exact (eval_sim b s' c' hf.2.2).mono fun p q h => h.trans e' fun x hx => by rw [Expr.mayBe]; exact List.mem_append.2 (Or.inr hx)
    · exact (eval_sim a s' c' hf.2.1).mono fun p q h => h.trans e' fun x hx => by rw [Expr.mayBe]; exact List.mem_append.2 (Or.inl hx)
  | index a b =>
    simp only [Expr.aliasFree] at hf
    simp only [Spec.eval, eval]
    refine Sim.bind (eval_sim a s c hf.1) ?_
    rintro ⟨v, out⟩ ⟨i, s1⟩ ⟨c1, e1, rfl, hi, hv, _⟩
    refine Sim.bind (eval_sim b s1 c1 hf.2) ?_
    rintro ⟨w, out⟩ ⟨j, s2⟩ ⟨c2, e2, rfl, hj, hw, hm⟩
    dsimp only at *
    exact Sim.map_left ((index_sim c2 _ (Nat.lt_of_lt_of_le hi e2.1) (c1.good.holds e2 hi hv) hw).mono fun p q h => h.trans (e1.trans e2) fun _ h => h)
  | message e =>
    simp only [Expr.aliasFree] at hf
    simp only [Spec.eval, eval]
    refine Sim.bind (eval_sim e s c hf) ?_
    rintro ⟨v, out⟩ ⟨i, s'⟩ ⟨c', e', rfl, hi, hv, _⟩
    exact (message_sim c' _ hv).mono fun p q h => h.trans e' fun _ h => h
  | disabler => simp only [Spec.eval, eval]; exact Sim.ok (dis_post c _)
  | isDisabler e =>
    simp only [Expr.aliasFree] at hf
    simp only [Spec.eval, eval]
    refine Sim.bind (eval_sim e s c hf) ?_
    rintro ⟨v, out⟩ ⟨i, s'⟩ ⟨c', e', rfl, hi, hv, _⟩
    dsimp only at *
    by_cases h0 : Spec.isVoid v = true
    · rw [if_pos h0]
      simp only [if_pos ((isVoid_iff c'.good hv).1 h0)]
      exact Sim.error
    · rw [if_neg h0]
      simp only [if_neg fun e => h0 ((isVoid_iff c'.good hv).2 e)]
      have : Spec.isDis v = (i == disablerId) := by
        rw [Bool.eq_iff_iff, isDis_iff c'.good hv, beq_iff_eq]
      rw [this]
      exact Sim.ok ((bool_post c' _ _).trans e' fun _ h => h)
theorem args_sim (l : Args) (s : S) (c : Ctx O own env σ s.heap) (hf : l.aliasFree own) :
    Sim (Spec.evalArgs own σ l s.out) (fun f => evalArgs f env l s) (PostL O own env σ s) := by
  cases l with
  | nil => simp only [Spec.evalArgs, evalArgs]; exact Sim.ok ⟨c, Ext.refl _, rfl, by simp, trivial⟩
  | cons e l =>
    simp only [Args.aliasFree] at hf
    simp only [Spec.evalArgs, evalArgs]
    refine Sim.bind (eval_sim e s c hf.1) ?_
    rintro ⟨v, out⟩ ⟨i, s1⟩ ⟨c1, e1, rfl, hi, hv, hm⟩
    refine Sim.bind (args_sim l s1 c1 hf.2.2) ?_
    rintro ⟨vs, out⟩ ⟨is, s2⟩ ⟨c2, e2, rfl, hk, hh⟩
    dsimp only at *
    refine Sim.ok ⟨c2, e1.trans e2, rfl, ?_, c1.good.holds e2 hi hv, hh⟩
    intro k hk'
    rcases List.mem_cons.1 hk' with rfl | h
    · exact ⟨Nat.lt_of_lt_of_le hi e2.1, fun hO => by obtain ⟨x, hx, hx', _⟩ := hm hO; exact hf.2.1 x hx hx'⟩
    · exact hk k h
theorem kvs_sim (l : Kvs) (s : S) (acc : List (Bytes × Nat)) (vacc : List (Bytes × Val)) (c : Ctx O own env σ s.heap) (E : Entries O s.heap acc vacc) (hf : l.aliasFree own) :
    Sim (Spec.evalKvs own σ l vacc s.out) (fun f => evalKvs f env l acc s)
      (fun p q => Ctx O own env σ q.2.heap ∧ Ext s.heap q.2.heap ∧ q.2.out = p.2 ∧ Entries O q.2.heap q.1 p.1) := by
  cases l with
  | nil => simp only [Spec.evalKvs, evalKvs]; exact Sim.ok ⟨c, Ext.refl _, rfl, E⟩
  | cons k e l =>
    simp only [Kvs.aliasFree] at hf
    simp only [Spec.evalKvs, evalKvs]
    refine Sim.bind (eval_sim k s c hf.1) ?_
    rintro ⟨v, out⟩ ⟨i, s1⟩ ⟨c1, e1, rfl, hi, hv, _⟩
    dsimp only at *
    by_cases hd : Spec.isDis v = true
    · rw [if_pos hd]
      simp only [if_pos ((isDis_iff c1.good hv).1 hd)]
      refine Sim.bind (eval_sim e s1 c1 hf.2.1) ?_
      intro _ _ _
      exact Sim.bad
    · rw [if_neg hd]
      simp only [if_neg fun e => hd ((isDis_iff c1.good hv).2 e)]
      rcases isStr hv with ⟨n, hp, rfl⟩ | ⟨hp, hne⟩
      · simp only [hp]
        refine Sim.bind (eval_sim e s1 c1 hf.2.1) ?_
        rintro ⟨w, out⟩ ⟨j, s2⟩ ⟨c2, e2, rfl, hj, hw, hm⟩
        dsimp only at *
        have E2 := (E.ext c.good e1).ext c1.good e2
        have hs : (acc.lookup n).isSome = (vacc.lookup n).isSome := by
          have := holdsD_lookup (k := n) E.holds
          cases h1 : acc.lookup n <;> cases h2 : vacc.lookup n <;> rw [h1, h2] at this <;> first | rfl | exact this.elim
        rw [hs]
        by_cases hin : (vacc.lookup n).isSome = true
        · simp only [if_pos hin]; exact Sim.error
        · simp only [if_neg hin]
          have hnot : n ∉ acc.map Prod.fst := by
            rw [← lookup_none, ← Option.not_isSome_iff_eq_none, hs]
            exact hin
          refine (kvs_sim l s2 _ _ c2 ⟨?_, ?_, ?_⟩ hf.2.2.2).mono ?_
          · rw [List.map_append]
            exact List.nodup_append.2 ⟨E2.nodup, by simp, by simpa using fun a b hab e => hnot (by rw [← e]; exact List.mem_map_of_mem (f := Prod.fst) hab)⟩
          · intro x hx
            rw [List.map_append] at hx
            rcases List.mem_append.1 hx with h | h
            · exact E2.kids x h
            · simp only [List.map_cons, List.map_nil, List.mem_singleton] at h
              subst h
              exact ⟨hj, fun hO => by obtain ⟨x, hx, hx', _⟩ := hm hO; exact hf.2.2.1 x hx hx'⟩
          · exact holdsD_append E2.holds ⟨rfl, hw, trivial⟩
          · rintro p q ⟨a1, a2, a3, a4⟩
            exact ⟨a1, (e1.trans e2).trans a2, a3, a4⟩
      · cases hp' : s1.heap.obj i <;> first | exact absurd hp' (hp _) | skip
        all_goals cases v <;> first | exact Sim.error | exact absurd rfl (hne _)
end

end
end Muon.Interp
