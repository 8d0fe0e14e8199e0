import Verif.Interp.Eval
/-
Programs: the interpreter computes the effect the specification gives.
-/
namespace Muon.Interp
open Muon Val
open _root_.Muon.Val.Spec (valOf Holds Same)

/-- The arrays and dictionaries of the variables `M`. -/
def Owned (M : List Bytes) (env : Bytes → Option Nat) (h : Heap) (c : Nat) : Prop := ∃ x ∈ M, env x = some c ∧ isCont (h.obj c)

/-- The state of the interpreter and the store of the specification agree. -/
structure Rel (M : List Bytes) (st : St) (σ : Spec.Store) : Prop where
  ctx : Ctx (Owned M st.env st.s.heap) M st.env σ.env st.s.heap
  uniq : ∀ x ∈ M, ∀ y c, st.env x = some c → isCont (st.s.heap.obj c) → st.env y = some c → y = x
  out : st.s.out = σ.out

/-- What a program that extends the variables `T` leaves as it was. -/
structure Frame (M T : List Bytes) (st st' : St) : Prop where
  next : st.s.heap.next ≤ st'.s.heap.next
  obj : ∀ i < st.s.heap.next, ¬ Owned T st.env st.s.heap i → st'.s.heap.obj i = st.s.heap.obj i
  env : ∀ x ∈ M, ∀ i < st.s.heap.next, st'.env x = some i → isCont (st'.s.heap.obj i) → st.env x = some i ∧ isCont (st.s.heap.obj i)

theorem Frame.refl (M T : List Bytes) (st : St) : Frame M T st st := ⟨Nat.le_refl _, fun _ _ _ => rfl, fun _ _ _ _ h h' => ⟨h, h'⟩⟩

theorem Frame.owned {M T T' : List Bytes} {st st' : St} (F : Frame M T st st') (hT : ∀ x ∈ T', x ∈ M) {i : Nat} (hi : i < st.s.heap.next) (hO : ¬ Owned T' st.env st.s.heap i) :
    ¬ Owned T' st'.env st'.s.heap i := by
  rintro ⟨x, hx, h1, h2⟩
  obtain ⟨h3, h4⟩ := F.env x (hT x hx) i hi h1 h2
  exact hO ⟨x, hx, h3, h4⟩

theorem Owned.mono {T T' : List Bytes} (hT : ∀ x ∈ T, x ∈ T') {env : Bytes → Option Nat} {h : Heap} {i : Nat} : Owned T env h i → Owned T' env h i := by
  rintro ⟨x, hx, h⟩
  exact ⟨x, hT x hx, h⟩

theorem Frame.mono {M T T' : List Bytes} {st st' : St} (F : Frame M T st st') (hT : ∀ x ∈ T, x ∈ T') : Frame M T' st st' :=
  { F with obj := fun i hi hO => F.obj i hi fun h => hO (h.mono hT) }

theorem Frame.trans {M T : List Bytes} {a b c : St} (hT : ∀ x ∈ T, x ∈ M) (F : Frame M T a b) (G : Frame M T b c) : Frame M T a c where
  next := Nat.le_trans F.next G.next
  obj i hi hO := by rw [G.obj i (Nat.lt_of_lt_of_le hi F.next) (F.owned hT hi hO), F.obj i hi hO]
  env x hx i hi h1 h2 := by
    obtain ⟨h3, h4⟩ := G.env x hx i (Nat.lt_of_lt_of_le hi F.next) h1 h2
    exact F.env x hx i hi h3 h4

theorem Ctx.var {O : Nat → Prop} {own : List Bytes} {env : Bytes → Option Nat} {σ : Bytes → Option Val} {h : Heap} (c : Ctx O own env σ h) {x : Bytes} {i : Nat} (hx : env x = some i) :
    ∃ v, σ x = some v ∧ i < h.next ∧ Holds h i v ∧ (O i → x ∈ own) := by
  have := c.vars x
  rw [hx] at this
  cases h2 : σ x <;> rw [h2] at this <;> simp only at this
  exact ⟨_, rfl, this⟩

theorem owned_ext {M : List Bytes} {env : Bytes → Option Nat} {h h' : Heap} (henv : ∀ x i, env x = some i → i < h.next) (e : Ext h h') : Owned M env h' = Owned M env h := by
  funext c
  refine propext ⟨?_, ?_⟩ <;> rintro ⟨x, hx, h1, h2⟩ <;> refine ⟨x, hx, h1, ?_⟩
  · rwa [e.2 c (henv x c h1)] at h2
  · rwa [e.2 c (henv x c h1)]

/-- After evaluating an expression. -/
theorem Rel.post {M : List Bytes} {st : St} {σ : Spec.Store} (R : Rel M st σ) {m : List Bytes} {v : Val} {out : List Val} {i : Nat} {s' : S}
    (P : Post (Owned M st.env st.s.heap) M st.env σ.env m st.s (v, out) (i, s')) :
    Rel M { st with s := s' } { σ with out } where
  ctx := by
    have := P.ctx
    rwa [← owned_ext (fun x i h => by obtain ⟨_, _, h, _⟩ := R.ctx.var h; exact h) P.ext] at this
  uniq x hx y c h1 h2 h3 := by
    obtain ⟨_, _, hlt, _⟩ := R.ctx.var h1
    have h2 : isCont (s'.heap.obj c) := h2
    rw [P.ext.2 c hlt] at h2
    exact R.uniq x hx y c h1 h2 h3
  out := P.out

theorem Frame.ext {M : List Bytes} {st : St} (T : List Bytes) {s' : S} (e : Ext st.s.heap s'.heap) : Frame M T st { st with s := s' } where
  next := e.1
  obj i hi _ := e.2 i hi
  env x hx i hi h1 h2 := by
    have h2 : isCont (s'.heap.obj i) := h2
    rw [e.2 i hi] at h2
    exact ⟨h1, h2⟩

theorem Good.anti {O O' : Nat → Prop} {h : Heap} (g : Good O h) (hO : ∀ i, O' i → O i) : Good O' h :=
  { g with kids := fun i hi k hk => ⟨(g.kids i hi k hk).1, fun h => (g.kids i hi k hk).2 (hO k h)⟩ }

/-- Binding a variable to an existing object, which is not one of the objects `+=` may change. -/
theorem Rel.bindOld {M : List Bytes} {st : St} {σ : Spec.Store} (R : Rel M st σ) {x : Bytes} {i : Nat} {v : Val} (hi : i < st.s.heap.next) (hv : Holds st.s.heap i v)
    (H : isCont (st.s.heap.obj i) → x ∉ M ∧ ¬ Owned M st.env st.s.heap i) (T : List Bytes) :
    Rel M { st with env := bindVar st.env x i } (σ.bind x v) ∧ Frame M T st { st with env := bindVar st.env x i } := by
  have old : ∀ y ∈ M, ∀ c, bindVar st.env x i y = some c → isCont (st.s.heap.obj c) → y ≠ x ∧ st.env y = some c := by
    intro y hy c h1 h2
    unfold bindVar at h1
    by_cases e : y = x
    · rw [if_pos e] at h1
      cases h1
      exact absurd (e ▸ hy) (H h2).1
    · rw [if_neg e] at h1
      exact ⟨e, h1⟩
  have hO : ∀ c, Owned M (bindVar st.env x i) st.s.heap c → Owned M st.env st.s.heap c := by
    rintro c ⟨y, hy, h1, h2⟩
    exact ⟨y, hy, (old y hy c h1 h2).2, h2⟩
  have hu : ∀ y ∈ M, ∀ z c, bindVar st.env x i y = some c → isCont (st.s.heap.obj c) → bindVar st.env x i z = some c → z = y := by
    intro y hy z c h1 h2 h3
    have h1' := (old y hy c h1 h2).2
    unfold bindVar at h3
    by_cases e : z = x
    · rw [if_pos e] at h3
      cases h3
      exact absurd ⟨y, hy, h1', h2⟩ (H h2).2
    · rw [if_neg e] at h3
      exact R.uniq y hy z c h1' h2 h3
  refine ⟨{ ctx := { good := R.ctx.good.anti hO, owned := fun c hc => R.ctx.owned c (hO c hc), vars := ?_ }, uniq := hu, out := R.out }, ⟨Nat.le_refl _, fun _ _ _ => rfl, fun y hy c _ h1 h2 => ⟨(old y hy c h1 h2).2, h2⟩⟩⟩
  intro y
  show match bindVar st.env x i y, (if y = x then some v else σ.env y) with
    | some i, some v => _
    | none, none => True
    | _, _ => False
  unfold bindVar
  by_cases e : y = x
  · rw [if_pos e, if_pos e]
    refine ⟨hi, hv, ?_⟩
    rintro ⟨z, hz, h1, h2⟩
    have : y = z := hu z hz y i h1 h2 (by unfold bindVar; rw [if_pos e])
    exact this ▸ hz
  · rw [if_neg e, if_neg e]
    have := R.ctx.vars y
    cases h1 : st.env y <;> cases h2 : σ.env y <;> rw [h1, h2] at this <;> simp only at this ⊢
    refine ⟨this.1, this.2.1, ?_⟩
    intro h
    exact this.2.2 (hO _ h)

/-- Binding a variable to a new array or dictionary. -/
theorem Rel.bindNew {M : List Bytes} {st : St} {σ : Spec.Store} (R : Rel M st σ) (x : Bytes) {o : Obj} {v : Val}
    (hk : ∀ k ∈ kids o, k < st.s.heap.next ∧ ¬ Owned M st.env st.s.heap k) (hv : Holds (Heap.alloc st.s.heap o) st.s.heap.next v) (T : List Bytes) :
    let st' : St := { st with s := { st.s with heap := Heap.alloc st.s.heap o }, env := bindVar st.env x st.s.heap.next }
    Rel M st' (σ.bind x v) ∧ Frame M T st st' := by
  intro st'
  have e := ext_alloc st.s.heap o
  have henv : ∀ y c, st.env y = some c → c < st.s.heap.next := fun y c h => by obtain ⟨_, _, h, _⟩ := R.ctx.var h; exact h
  have split : ∀ y c, bindVar st.env x st.s.heap.next y = some c → (y = x ∧ c = st.s.heap.next) ∨ (y ≠ x ∧ st.env y = some c ∧ c < st.s.heap.next) := by
    intro y c h
    unfold bindVar at h
    by_cases ey : y = x
    · rw [if_pos ey] at h; cases h; exact Or.inl ⟨ey, rfl⟩
    · rw [if_neg ey] at h; exact Or.inr ⟨ey, h, henv y c h⟩
  have hO : ∀ c, Owned M st'.env st'.s.heap c → c = st.s.heap.next ∨ Owned M st.env st.s.heap c := by
    rintro c ⟨y, hy, h1, h2⟩
    rcases split y c h1 with ⟨_, rfl⟩ | ⟨_, h, hlt⟩
    · exact Or.inl rfl
    · have h2 : isCont ((Heap.alloc st.s.heap o).obj c) := h2
      rw [e.2 c hlt] at h2
      exact Or.inr ⟨y, hy, h, h2⟩
  have g := R.ctx.good.alloc hk
  have hu : ∀ y ∈ M, ∀ z c, st'.env y = some c → isCont (st'.s.heap.obj c) → st'.env z = some c → z = y := by
    intro y hy z c h1 h2 h3
    rcases split y c h1 with ⟨rfl, rfl⟩ | ⟨_, h, hlt⟩ <;> rcases split z _ h3 with ⟨ez, ec⟩ | ⟨_, h', hlt'⟩
    · exact ez
    · exact absurd hlt' (Nat.lt_irrefl _)
    · exact absurd (ec ▸ hlt) (Nat.lt_irrefl _)
    · have h2 : isCont ((Heap.alloc st.s.heap o).obj c) := h2
      rw [e.2 c hlt] at h2
      exact R.uniq y hy z c h h2 h'
  refine ⟨{ ctx := { good := { g with kids := ?_ }, owned := ?_, vars := ?_ }, uniq := hu, out := R.out }, ⟨e.1, fun i hi _ => e.2 i hi, ?_⟩⟩
  · intro i hi k hk'
    have hlt : k < st.s.heap.next := by
      by_cases ei : i = st.s.heap.next
      · subst ei
        have hk' : k ∈ kids ((Heap.alloc st.s.heap o).obj st.s.heap.next) := hk'
        rw [alloc_new] at hk'
        exact (hk k hk').1
      · have hi' : i < st.s.heap.next := by
          have : i < st.s.heap.next + 1 := hi
          omega
        have hk' : k ∈ kids ((Heap.alloc st.s.heap o).obj i) := hk'
        rw [e.2 i hi'] at hk'
        exact (R.ctx.good.kids i hi' k hk').1
    refine ⟨Nat.lt_succ_of_lt hlt, fun h => ?_⟩
    rcases hO k h with h | h
    · omega
    · exact (g.kids i hi k hk').2 h
  · rintro c ⟨y, hy, h1, h2⟩
    refine ⟨?_, h2⟩
    rcases split y c h1 with ⟨_, rfl⟩ | ⟨_, _, hlt⟩
    · exact Nat.lt_succ_self _
    · exact Nat.lt_succ_of_lt hlt
  · intro y
    show match bindVar st.env x st.s.heap.next y, (if y = x then some v else σ.env y) with
      | some i, some v => _
      | none, none => True
      | _, _ => False
    have hown : ∀ i, bindVar st.env x st.s.heap.next y = some i → Owned M st'.env st'.s.heap i → y ∈ M := by
      rintro i hy ⟨z, hz, h1, h2⟩
      have : y = z := hu z hz y i h1 h2 hy
      exact this ▸ hz
    unfold bindVar at hown ⊢
    by_cases ey : y = x
    · rw [if_pos ey] at hown ⊢
      rw [if_pos ey]
      exact ⟨Nat.lt_succ_self _, hv, hown _ rfl⟩
    · rw [if_neg ey] at hown ⊢
      rw [if_neg ey]
      have := R.ctx.vars y
      cases h1 : st.env y <;> cases h2 : σ.env y <;> rw [h1, h2] at this <;> simp only at this ⊢
      exact ⟨Nat.lt_succ_of_lt this.1, R.ctx.good.holds e this.1 this.2.1, hown _ h1⟩
  · intro y hy i hi h1 h2
    rcases split y i h1 with ⟨_, rfl⟩ | ⟨_, h, hlt⟩
    · exact absurd hi (Nat.lt_irrefl _)
    · have h2 : isCont ((Heap.alloc st.s.heap o).obj i) := h2
      rw [e.2 i hlt] at h2
      exact ⟨h, h2⟩

/-- The value of an array or dictionary with the given elements. -/
def HoldsO (h : Heap) (o : Obj) (v : Val) : Prop :=
  match o with
  | .arr l => ∃ vs, v = .arr vs ∧ HoldsL h l vs
  | .dict l => ∃ vs, v = .dict vs ∧ (l.map Prod.fst).Nodup ∧ HoldsD h l vs
  | _ => False

/-- `+=` on an array or dictionary. -/
theorem plus_sim {O : Nat → Prop} {own : List Bytes} {env : Bytes → Option Nat} {σ : Bytes → Option Val} {s : S} (c : Ctx O own env σ s.heap) (keep : Bool) {i j : Nat} {v w : Val}
    (hi : i < s.heap.next) (hj : j < s.heap.next) (hv : Holds s.heap i v) (hw : Holds s.heap j w) (hk : O j → keep = true) (hc : isCont (s.heap.obj i)) :
    Sim (Spec.arith .add keep v w) (fun _ => arithObj s.heap .add true i j)
      (fun u q => ∃ o, q = (i, Heap.set s.heap i o) ∧ isCont o ∧ (∀ k ∈ kids o, k < s.heap.next ∧ ¬ O k) ∧ HoldsO s.heap o u) := by
  have H := holds_iff.1 hv
  have K := holds_iff.1 hw
  have gi := c.good.kids i hi
  have gj := c.good.kids j hj
  cases ho : s.heap.obj i <;> rw [ho] at H gi hc <;> dsimp only at H
  case arr l =>
    obtain ⟨vs, rfl, H⟩ := H
    have key : ∀ (l' : List Nat) (ws : List Val), (∀ k ∈ l', k < s.heap.next ∧ ¬ O k) → HoldsL s.heap l' ws →
        ∃ o, (i, Heap.set s.heap i (.arr (l ++ l'))) = (i, Heap.set s.heap i o) ∧ isCont o ∧ (∀ k ∈ kids o, k < s.heap.next ∧ ¬ O k) ∧ HoldsO s.heap o (.arr (vs ++ ws)) := by
      intro l' ws hl hws
      refine ⟨_, rfl, trivial, ?_, _, rfl, holdsL_append H hws⟩
      intro k hk
      rcases List.mem_append.1 hk with h | h
      · exact gi k h
      · exact hl k h
    have push : ¬ O j → ∃ o, (i, Heap.set s.heap i (.arr (l ++ [j]))) = (i, Heap.set s.heap i o) ∧ isCont o ∧ (∀ k ∈ kids o, k < s.heap.next ∧ ¬ O k) ∧ HoldsO s.heap o (.arr (vs ++ [w])) :=
      fun hO => key [j] [w] (by simpa using ⟨hj, hO⟩) ⟨hw, trivial⟩
    have notO : ¬ isCont (s.heap.obj j) → ¬ O j := fun h hO => h (c.owned j hO).2
    cases hp : s.heap.obj j <;> rw [hp] at K gj <;> dsimp only at K
    case arr r =>
      obtain ⟨ws, rfl, K⟩ := K
      simp only [arithObj, ho, hp, Spec.arith]
      exact Sim.ok (key r ws gj K)
    case dict r =>
      obtain ⟨ws, rfl, _, K⟩ := K
      simp only [arithObj, ho, hp, Spec.arith]
      split
      · trivial
      · next hk' => exact Sim.ok (push fun h => hk' (hk h))
    all_goals
      subst K
      simp only [arithObj, ho, hp, Spec.arith]
      exact Sim.ok (push (notO (by rw [hp]; exact id)))
  case dict l =>
    obtain ⟨vs, rfl, hn, H⟩ := H
    cases hp : s.heap.obj j <;> rw [hp] at K gj <;> dsimp only at K
    case dict r =>
      obtain ⟨ws, rfl, hn', K⟩ := K
      simp only [arithObj, ho, hp, Spec.arith]
      refine Sim.ok ⟨.dict (dictMerge l r), rfl, trivial, ?_, ?_⟩
      · intro k hk
        rw [dictMerge_eq l r hn hn'] at hk
        rcases merge_vals hk with h | h
        · exact gi k h
        · exact gj k h
      · rw [dictMerge_eq l r hn hn']
        exact ⟨_, rfl, merge_keys_nodup hn hn', holdsD_merge H K⟩
    case arr l => obtain ⟨_, rfl, _⟩ := K; simp only [arithObj, ho, hp, Spec.arith]; exact Sim.error
    all_goals subst K; simp only [arithObj, ho, hp, Spec.arith]; exact Sim.error
  all_goals exact hc.elim

theorem plus_same {h : Heap} {i j : Nat} (hc : ¬ isCont (h.obj i)) : arithObj h .add true i j = arithObj h .add false i j := by
  unfold arithObj
  cases ho : h.obj i <;> rw [ho] at hc <;> first | rfl | exact absurd trivial hc

/-- Changing an object of a variable. -/
theorem Rel.setOwned {M : List Bytes} {st : St} {σ : Spec.Store} (R : Rel M st σ) {x : Bytes} (hx : x ∈ M) {c : Nat} (hc : st.env x = some c) (hcont : isCont (st.s.heap.obj c))
    {o : Obj} (ho : isCont o) (hk : ∀ k ∈ kids o, k < st.s.heap.next ∧ ¬ Owned M st.env st.s.heap k) {v : Val} (hv : HoldsO st.s.heap o v) {T : List Bytes} (hxT : x ∈ T) :
    let st' : St := { st with s := { st.s with heap := Heap.set st.s.heap c o }, env := bindVar st.env x c }
    Rel M st' (σ.bind x v) ∧ Frame M T st st' := by
  intro st'
  have henv : st'.env = st.env := by
    funext y
    show (if y = x then some c else st.env y) = _
    by_cases e : y = x
    · rw [if_pos e, e, hc]
    · rw [if_neg e]
  have hobj : ∀ i, i ≠ c → st'.s.heap.obj i = st.s.heap.obj i := fun i hi => if_neg hi
  have hobjc : st'.s.heap.obj c = o := if_pos rfl
  have hcontIff : ∀ i, isCont (st'.s.heap.obj i) ↔ isCont (st.s.heap.obj i) := by
    intro i
    by_cases e : i = c
    · rw [e, hobjc]; exact ⟨fun _ => hcont, fun _ => ho⟩
    · rw [hobj i e]
  have hO : Owned M st'.env st'.s.heap = Owned M st.env st.s.heap := by
    funext i
    unfold Owned
    rw [henv]
    exact propext ⟨fun ⟨y, hy, h1, h2⟩ => ⟨y, hy, h1, (hcontIff i).1 h2⟩, fun ⟨y, hy, h1, h2⟩ => ⟨y, hy, h1, (hcontIff i).2 h2⟩⟩
  have hOc : Owned M st.env st.s.heap c := ⟨x, hx, hc, hcont⟩
  obtain ⟨_, _, hcn, _, _⟩ := R.ctx.var hc
  have lift : ∀ i w, i < st.s.heap.next → i ≠ c → Holds st.s.heap i w → Holds st'.s.heap i w := by
    intro i w hi hne hw
    refine holds_congr (fun i => i < st.s.heap.next ∧ i ≠ c) ?_ ⟨hi, hne⟩ hw
    rintro j ⟨hj, hjc⟩
    refine ⟨hobj j hjc, fun k hk => ⟨(R.ctx.good.kids j hj k hk).1, ?_⟩⟩
    rintro rfl
    exact (R.ctx.good.kids j hj _ hk).2 hOc
  have hne : ∀ k, ¬ Owned M st.env st.s.heap k → k ≠ c := by rintro k h rfl; exact h hOc
  have hvc : Holds st'.s.heap c v := by
    refine holds_iff.2 ?_
    rw [hobjc]
    cases o <;> first | exact ho.elim | skip
    · obtain ⟨vs, rfl, H⟩ := hv
      exact ⟨vs, rfl, holdsL_mono (fun k hk' w hw => lift k w (hk k hk').1 (hne k (hk k hk').2) hw) H⟩
    · obtain ⟨vs, rfl, hn, H⟩ := hv
      refine ⟨vs, rfl, hn, holdsD_mono (fun p hp w hw => ?_) H⟩
      have := hk p.2 (List.mem_map_of_mem (f := Prod.snd) hp)
      exact lift p.2 w this.1 (hne _ this.2) hw
  have two : ∀ i, i < 2 → (∀ l, st.s.heap.obj i = .other l → i ≠ c) := by
    rintro i _ l h rfl
    rw [h] at hcont
    exact hcont
  refine ⟨{ ctx := { good := ⟨R.ctx.good.two, ?_, ?_, ?_⟩, owned := ?_, vars := ?_ }, uniq := ?_, out := R.out }, ⟨Nat.le_refl _, ?_, ?_⟩⟩
  · rw [hobj _ (two nullId (by decide) _ R.ctx.good.void)]; exact R.ctx.good.void
  · rw [hobj _ (two disablerId (by decide) _ R.ctx.good.dis)]; exact R.ctx.good.dis
  · rw [hO]
    intro i hi k hk'
    by_cases e : i = c
    · rw [e, hobjc] at hk'; exact hk k hk'
    · rw [hobj i e] at hk'; exact R.ctx.good.kids i hi k hk'
  · rw [hO]
    intro i hi
    exact ⟨(R.ctx.owned i hi).1, (hcontIff i).2 (R.ctx.owned i hi).2⟩
  · rw [hO, henv]
    intro y
    show match st.env y, (if y = x then some v else σ.env y) with
      | some i, some v => _
      | none, none => True
      | _, _ => False
    by_cases e : y = x
    · rw [if_pos e, e, hc]
      exact ⟨hcn, hvc, fun _ => hx⟩
    · rw [if_neg e]
      have := R.ctx.vars y
      cases h1 : st.env y <;> cases h2 : σ.env y <;> rw [h1, h2] at this <;> simp only at this ⊢
      refine ⟨this.1, lift _ _ this.1 ?_ this.2.1, this.2.2⟩
      rintro rfl
      exact e (R.uniq x hx y _ hc hcont h1)
  · rw [henv]
    intro y hy z d h1 h2 h3
    exact R.uniq y hy z d h1 ((hcontIff d).1 h2) h3
  · intro i _ h
    refine hobj i ?_
    rintro rfl
    exact h ⟨x, hxT, hc, hcont⟩
  · rw [henv]
    intro y _ i _ h1 h2
    exact ⟨h1, (hcontIff i).1 h2⟩

theorem Spec.Res.assoc {α β γ : Type} (x : Spec.Res α) (f : α → Spec.Res β) (g : β → Spec.Res γ) : (x >>= f) >>= g = x >>= fun a => f a >>= g := by
  cases x <;> rfl

theorem Sim.and_ok {α β : Type} {r : Spec.Res α} {x : Nat → Out β} {P : α → β → Prop} (h : Sim r x P) : Sim r x (fun a b => P a b ∧ r = .ok a) := by
  cases r with
  | ok a => obtain ⟨b, F, hF, hP⟩ := h; exact ⟨b, F, hF, hP, rfl⟩
  | error => exact h
  | bad => exact h
  | unclear => trivial

theorem arith_other {h h' : Heap} {i r : Nat} {v w u : Val} {keep : Bool} (hc : ¬ isCont (h.obj i)) (hv : Holds h i v) (hu : Holds h' r u) (e : Spec.arith .add keep v w = .ok u) :
    ¬ isCont (h'.obj r) := by
  have H := holds_iff.1 hv
  have K := holds_iff.1 hu
  intro hr
  have hu' : (∃ l, u = .arr l) ∨ ∃ l, u = .dict l := by
    cases ho : h'.obj r <;> rw [ho] at K hr <;> first | exact hr.elim | skip
    · obtain ⟨vs, rfl, _⟩ := K; exact Or.inl ⟨_, rfl⟩
    · obtain ⟨vs, rfl, _⟩ := K; exact Or.inr ⟨_, rfl⟩
  have hv' : (∀ l, v ≠ .arr l) ∧ ∀ l, v ≠ .dict l := by
    cases ho : h.obj i <;> rw [ho] at H hc <;> first | exact absurd trivial hc | (subst H; simp)
  cases v with
  | arr l => exact hv'.1 l rfl
  | dict l => exact hv'.2 l rfl
  | str s =>
    cases w with
    | str t => cases e; rcases hu' with ⟨_, h⟩ | ⟨_, h⟩ <;> cases h
    | _ => cases e
  | num m =>
    cases w with
    | num n =>
      have e : (Spec.arithNum .add m n >>= fun r => pure (Val.num r)) = .ok u := e
      cases hn : Spec.arithNum .add m n <;> rw [hn] at e <;> cases e
      rcases hu' with ⟨_, h⟩ | ⟨_, h⟩ <;> cases h
    | _ => cases e
  | _ => cases e

def ctlOf : Spec.End → Ctl
  | .normal => .norm
  | .brk => .breaking
  | .cont => .continuing

/-- What holds after a program. -/
def Done (M T : List Bytes) (st : St) (r : Spec.End × Spec.Store) (st' : St) : Prop := Rel M st' r.2 ∧ st'.ctl = ctlOf r.1 ∧ Frame M T st st'

theorem Sim.congr {α β : Type} {r : Spec.Res α} {x y : Nat → Out β} {P : α → β → Prop} (F : Nat) (h : ∀ f ≥ F, x f = y f) (H : Sim r y P) : Sim r x P := by
  cases r with
  | ok a => obtain ⟨b, G, hG, hP⟩ := H; exact ⟨b, max F G, fun f hf => by rw [h f (by omega)]; exact hG f (by omega), hP⟩
  | error => obtain ⟨G, hG⟩ := H; exact ⟨max F G, fun f hf => by rw [h f (by omega)]; exact hG f (by omega)⟩
  | bad => obtain ⟨G, hG⟩ := H; exact ⟨max F G, fun f hf => by rw [h f (by omega)]; exact hG f (by omega)⟩
  | unclear => trivial

/-- Values of objects that no variable of `M` has survive a program. -/
theorem Frame.holds {M T : List Bytes} {st st' : St} {σ : Spec.Store} (R : Rel M st σ) (F : Frame M T st st') (hT : ∀ x ∈ T, x ∈ M) {i : Nat} {v : Val} (hi : i < st.s.heap.next)
    (hO : ¬ Owned M st.env st.s.heap i) (hv : Holds st.s.heap i v) : Holds st'.s.heap i v := by
  refine holds_congr (fun i => i < st.s.heap.next ∧ ¬ Owned M st.env st.s.heap i) ?_ ⟨hi, hO⟩ hv
  rintro j ⟨hj, hjO⟩
  exact ⟨F.obj j hj fun h => hjO (h.mono hT), fun k hk => R.ctx.good.kids j hj k hk⟩

theorem Rel.ctl {M : List Bytes} {st : St} {σ : Spec.Store} (R : Rel M st σ) (c : Ctl) : Rel M { st with ctl := c } σ := ⟨R.ctx, R.uniq, R.out⟩
theorem Frame.ctl {M T : List Bytes} {st st' : St} (F : Frame M T st st') (c : Ctl) : Frame M T st { st' with ctl := c } := ⟨F.next, F.obj, F.env⟩

theorem loopArr_sim {M : List Bytes} {b : Stmt} {x : Bytes} {a : Nat} {l : List Nat} (hx : x ∉ M) (hT : ∀ y ∈ b.targets, y ∈ M)
    (body : ∀ st σ, Rel M st σ → st.ctl = .norm → Sim (Spec.run M b σ) (fun f => exec f b st) (Done M b.targets st)) :
    ∀ (vs : List Val) (k d : Nat) (st : St) (σ : Spec.Store), Rel M st σ → st.ctl = .norm → a < st.s.heap.next → st.s.heap.obj a = .arr l → ¬ Owned b.targets st.env st.s.heap a →
      HoldsL st.s.heap (l.drop k) vs →
      Sim (Spec.forEach (fun v σ => Spec.run M b (σ.bind x v)) vs σ) (fun f => loopArr (exec f b) false x a (f - d) k st) (Done M b.targets st) := by
  intro vs
  induction vs with
  | nil =>
    intro k d st σ R hc ha ho hO hl
    refine Sim.congr (d + 1) (y := fun _ => .ok st) (fun f hf => ?_) (Sim.ok ⟨R, hc, Frame.refl _ _ _⟩)
    obtain ⟨g, hg⟩ : ∃ g, f - d = g + 1 := ⟨f - d - 1, by omega⟩
    have : l[k]? = none := by
      have := holdsL_length hl
      rw [List.length_drop] at this
      exact List.getElem?_eq_none (by simp at this; omega)
    simp only [hg, loopArr, ho, this]
  | cons v vs ih =>
    intro k d st σ R hc ha ho hO hl
    have hk : k < l.length := by
      have := holdsL_length hl
      rw [List.length_drop] at this
      simp at this
      omega
    rw [List.drop_eq_getElem_cons hk] at hl
    obtain ⟨hv, hl⟩ := hl
    have hkid := R.ctx.good.kids a ha
    rw [ho] at hkid
    have h0 := hkid l[k] (List.getElem_mem hk)
    obtain ⟨R1, F1⟩ := R.bindOld (x := x) h0.1 hv (fun _ => ⟨hx, h0.2⟩) b.targets
    refine Sim.congr (d + 1) (y := fun f => exec f b { st with env := bindVar st.env x l[k] } >>= fun st2 => if (afterBody st2).1 then loopArr (exec f b) false x a (f - (d + 1)) (k + 1) (afterBody st2).2 else .ok (afterBody st2).2) (fun f hf => ?_) ?_
    · obtain ⟨g, hg⟩ : ∃ g, f - d = g + 1 := ⟨f - d - 1, by omega⟩
      have hg' : f - (d + 1) = g := by omega
      simp only [hg, hg', loopArr, ho, List.getElem?_eq_getElem hk, Bool.false_eq_true, if_false]
      rfl
    · unfold Spec.forEach
      refine Sim.bind (body _ _ R1 hc) ?_
      rintro ⟨e, σ'⟩ st2 ⟨R2, hc2, F2⟩
      have F := F1.trans hT F2
      have step : Sim (Spec.forEach (fun v σ => Spec.run M b (σ.bind x v)) vs σ') (fun f => loopArr (exec f b) false x a (f - (d + 1)) (k + 1) { st2 with ctl := .norm }) (Done M b.targets st) := by
        refine (ih (k + 1) (d + 1) { st2 with ctl := .norm } σ' (R2.ctl _) rfl (Nat.lt_of_lt_of_le ha F.next) ?_ (F.owned hT ha hO) ?_).mono ?_
        · exact (F.obj a ha hO).trans ho
        · exact holdsL_mono (fun i hi w hw => F.holds R hT (hkid i (List.mem_of_mem_drop hi)).1 (hkid i (List.mem_of_mem_drop hi)).2 hw) hl
        · rintro r st3 ⟨R3, hc3, F3⟩
          exact ⟨R3, hc3, (F.ctl .norm).trans hT F3⟩
      cases e with
      | normal =>
        have : (afterBody st2) = (true, { st2 with ctl := .norm }) := by
          unfold afterBody
          rw [hc2]
          obtain ⟨s, env, ctl⟩ := st2
          cases hc2
          rfl
        simp only [this, if_true]
        exact step
      | brk =>
        have : (afterBody st2) = (false, { st2 with ctl := .norm }) := by
          unfold afterBody
          rw [hc2]
          rfl
        simp only [this, Bool.false_eq_true, if_false]
        exact Sim.ok ⟨R2.ctl _, rfl, F.ctl _⟩
      | cont =>
        have : (afterBody st2) = (true, { st2 with ctl := .norm }) := by
          unfold afterBody
          rw [hc2]
          rfl
        simp only [this, if_true]
        exact step

theorem loopDict_sim {M : List Bytes} {b : Stmt} {y x : Bytes} {a : Nat} {l : List (Bytes × Nat)} (hx : x ∉ M) (hT : ∀ y ∈ b.targets, y ∈ M)
    (body : ∀ st σ, Rel M st σ → st.ctl = .norm → Sim (Spec.run M b σ) (fun f => exec f b st) (Done M b.targets st)) :
    ∀ (vs : List (Bytes × Val)) (k d : Nat) (st : St) (σ : Spec.Store), Rel M st σ → st.ctl = .norm → a < st.s.heap.next → st.s.heap.obj a = .dict l → ¬ Owned b.targets st.env st.s.heap a →
      HoldsD st.s.heap (l.drop k) vs →
      Sim (Spec.forEach (fun p σ => Spec.run M b ((σ.bind y (.str p.1)).bind x p.2)) vs σ) (fun f => loopDict (exec f b) false y x a (f - d) k st) (Done M b.targets st) := by
  intro vs
  induction vs with
  | nil =>
    intro k d st σ R hc ha ho hO hl
    refine Sim.congr (d + 1) (y := fun _ => .ok st) (fun f hf => ?_) (Sim.ok ⟨R, hc, Frame.refl _ _ _⟩)
    obtain ⟨g, hg⟩ : ∃ g, f - d = g + 1 := ⟨f - d - 1, by omega⟩
    have : l[k]? = none := by
      cases hd : l.drop k with
      | nil => exact List.getElem?_eq_none (List.drop_eq_nil_iff.1 hd)
      | cons => rw [hd] at hl; exact hl.elim
    simp only [hg, loopDict, ho, this]
  | cons v vs ih =>
    intro k d st σ R hc ha ho hO hl
    have hk : k < l.length := by
      refine Nat.lt_of_not_le fun h => ?_
      rw [List.drop_eq_nil_of_le h] at hl
      exact hl.elim
    rw [List.drop_eq_getElem_cons hk] at hl
    obtain ⟨key, w⟩ := v
    generalize he : l[k] = q at hl
    obtain ⟨kk, i⟩ := q
    obtain ⟨rfl, hv, hl⟩ := hl
    have hkid := R.ctx.good.kids a ha
    rw [ho] at hkid
    have hkid : ∀ p ∈ l, p.2 < st.s.heap.next ∧ ¬ Owned M st.env st.s.heap p.2 := fun p hp => hkid p.2 (List.mem_map_of_mem (f := Prod.snd) hp)
    have h0 := hkid (kk, i) (he ▸ List.getElem_mem hk)
    have P := str_post R.ctx kk []
    have R0 : Rel M { st with s := { st.s with heap := Heap.alloc st.s.heap (.str kk) } } { σ with out := st.s.out } := R.post P
    have F0 : Frame M b.targets st { st with s := { st.s with heap := Heap.alloc st.s.heap (.str kk) } } := Frame.ext _ P.ext
    have hi0 : i < (Heap.alloc st.s.heap (.str kk)).next := Nat.lt_succ_of_lt h0.1
    obtain ⟨R1, F1⟩ := R0.bindOld (x := y) P.lt P.holds (fun h => by
      have h : isCont ((Heap.alloc st.s.heap (.str kk)).obj st.s.heap.next) := h
      rw [alloc_new] at h
      exact h.elim) b.targets
    have F01 := F0.trans hT F1
    obtain ⟨R2, F2⟩ := R1.bindOld (x := x) hi0 (F01.holds R hT h0.1 h0.2 hv) (fun _ => ⟨hx, F01.owned (fun _ h => h) h0.1 h0.2⟩) b.targets
    have F02 := F01.trans hT F2
    have hout : { σ with out := st.s.out } = σ := by rw [R.out]
    rw [hout] at R2
    refine Sim.congr (d + 1) (y := fun f => exec f b { st with s := { st.s with heap := Heap.alloc st.s.heap (.str kk) }, env := bindVar (bindVar st.env y st.s.heap.next) x i } >>= fun st2 => if (afterBody st2).1 then loopDict (exec f b) false y x a (f - (d + 1)) (k + 1) (afterBody st2).2 else .ok (afterBody st2).2) (fun f hf => ?_) ?_
    · obtain ⟨g, hg⟩ : ∃ g, f - d = g + 1 := ⟨f - d - 1, by omega⟩
      have hg' : f - (d + 1) = g := by omega
      simp only [hg, hg', loopDict, ho, List.getElem?_eq_getElem hk, he, Bool.false_eq_true, if_false]
      rfl
    · unfold Spec.forEach
      refine Sim.bind (body _ _ R2 hc) ?_
      rintro ⟨e, σ'⟩ st2 ⟨R2, hc2, F2⟩
      have F := F02.trans hT F2
      have step : Sim (Spec.forEach (fun p σ => Spec.run M b ((σ.bind y (.str p.1)).bind x p.2)) vs σ') (fun f => loopDict (exec f b) false y x a (f - (d + 1)) (k + 1) { st2 with ctl := .norm }) (Done M b.targets st) := by
        refine (ih (k + 1) (d + 1) { st2 with ctl := .norm } σ' (R2.ctl _) rfl (Nat.lt_of_lt_of_le ha F.next) ?_ (F.owned hT ha hO) ?_).mono ?_
        · exact (F.obj a ha hO).trans ho
        · exact holdsD_mono (fun p hp w hw => F.holds R hT (hkid p (List.mem_of_mem_drop hp)).1 (hkid p (List.mem_of_mem_drop hp)).2 hw) hl
        · rintro r st3 ⟨R3, hc3, F3⟩
          exact ⟨R3, hc3, (F.ctl .norm).trans hT F3⟩
      cases e with
      | normal =>
        have : (afterBody st2) = (true, { st2 with ctl := .norm }) := by
          unfold afterBody
          rw [hc2]
          obtain ⟨s, env, ctl⟩ := st2
          cases hc2
          rfl
        simp only [this, if_true]
        exact step
      | brk =>
        have : (afterBody st2) = (false, { st2 with ctl := .norm }) := by
          unfold afterBody
          rw [hc2]
          rfl
        simp only [this, Bool.false_eq_true, if_false]
        exact Sim.ok ⟨R2.ctl _, rfl, F.ctl _⟩
      | cont =>
        have : (afterBody st2) = (true, { st2 with ctl := .norm }) := by
          unfold afterBody
          rw [hc2]
          rfl
        simp only [this, if_true]
        exact step

theorem dup_cont {s : S} {i : Nat} (h : isCont (s.heap.obj i)) : dupObj s i = (s.heap.next, { s with heap := Heap.alloc s.heap (s.heap.obj i) }) := by
  unfold dupObj
  cases ho : s.heap.obj i <;> rw [ho] at h <;> first | rfl | exact h.elim

theorem dup_other {s : S} {i : Nat} (h : ¬ isCont (s.heap.obj i)) : dupObj s i = (i, s) := by
  unfold dupObj
  cases ho : s.heap.obj i <;> rw [ho] at h <;> first | rfl | exact absurd trivial h

/-- The interpreter does what the specification says. -/
theorem exec_sim {M : List Bytes} (p : Stmt) : ∀ (st : St) (σ : Spec.Store), Rel M st σ → st.ctl = .norm → p.aliasFree M → (∀ x ∈ p.targets, x ∈ M) →
    Sim (Spec.run M p σ) (fun f => exec f p st) (Done M p.targets st) := by
  induction p with
  | skip =>
    intro st σ R hc hf hT
    unfold exec
    have hif : ∀ {α : Type} (a b : α), (if st.ctl ≠ .norm then a else b) = b := fun a b => if_neg (by rw [hc]; simp)
    simp only [hif, Spec.run]
    exact Sim.ok ⟨R, hc, Frame.refl _ _ _⟩
  | brk =>
    intro st σ R hc hf hT
    unfold exec
    have hif : ∀ {α : Type} (a b : α), (if st.ctl ≠ .norm then a else b) = b := fun a b => if_neg (by rw [hc]; simp)
    simp only [hif, Spec.run]
    exact Sim.ok ⟨R.ctl _, rfl, (Frame.refl _ _ _).ctl _⟩
  | cont =>
    intro st σ R hc hf hT
    unfold exec
    have hif : ∀ {α : Type} (a b : α), (if st.ctl ≠ .norm then a else b) = b := fun a b => if_neg (by rw [hc]; simp)
    simp only [hif, Spec.run]
    exact Sim.ok ⟨R.ctl _, rfl, (Frame.refl _ _ _).ctl _⟩
  | expr e =>
    intro st σ R hc hf hT
    unfold exec
    have hif : ∀ {α : Type} (a b : α), (if st.ctl ≠ .norm then a else b) = b := fun a b => if_neg (by rw [hc]; simp)
    simp only [hif, Spec.run]
    rw [← R.out]
    refine Sim.bind (eval_sim e st.s R.ctx hf) ?_
    rintro ⟨v, out⟩ ⟨i, s'⟩ P
    exact Sim.ok ⟨R.post P, hc, Frame.ext _ P.ext⟩
  | assign x e =>
    intro st σ R hc hf hT
    unfold exec
    have hif : ∀ {α : Type} (a b : α), (if st.ctl ≠ .norm then a else b) = b := fun a b => if_neg (by rw [hc]; simp)
    simp only [hif, Spec.run]
    rw [← R.out]
    refine Sim.bind (eval_sim e st.s R.ctx hf) ?_
    rintro ⟨v, out⟩ ⟨i, s'⟩ P
    have R' := R.post P
    have F : Frame M [] st { st with s := s' } := Frame.ext _ P.ext
    dsimp only
    by_cases hcont : isCont (s'.heap.obj i)
    · simp only [dup_cont hcont]
      have hv : Spec.isVoid v = false := by
        rw [← Bool.not_eq_true, isVoid_iff P.ctx.good P.holds]
        rintro rfl
        rw [P.ctx.good.void] at hcont
        exact hcont
      have hn : ¬ s'.heap.next = nullId := by
        have := P.ctx.good.two
        dsimp only at this
        show ¬ s'.heap.next = 0
        omega
      rw [hv]
      simp only [if_neg hn, Bool.false_eq_true, if_false]
      have hk := R'.ctx.good.kids i P.lt
      obtain ⟨R2, F2⟩ := R'.bindNew x (o := s'.heap.obj i) (v := v) hk (by
        have H := holds_iff.1 P.holds
        refine holds_iff.2 ?_
        rw [alloc_new]
        dsimp only at H hk ⊢
        cases ho : s'.heap.obj i <;> rw [ho] at H hcont hk <;> first | exact hcont.elim | skip
        · obtain ⟨vs, rfl, H⟩ := H
          exact ⟨vs, rfl, holdsL_mono (fun k hk' w hw => P.ctx.good.holds (ext_alloc _ _) (hk k hk').1 hw) H⟩
        · obtain ⟨vs, rfl, hn, H⟩ := H
          exact ⟨vs, rfl, hn, holdsD_mono (fun q hq w hw => P.ctx.good.holds (ext_alloc _ _) (hk q.2 (List.mem_map_of_mem (f := Prod.snd) hq)).1 hw) H⟩) []
      exact Sim.ok ⟨R2, hc, F.trans (by simp [Stmt.targets]) F2⟩
    · simp only [dup_other hcont]
      by_cases h0 : Spec.isVoid v = true
      · rw [if_pos h0]
        simp only [if_pos ((isVoid_iff P.ctx.good P.holds).1 h0)]
        exact Sim.error
      · rw [if_neg h0]
        simp only [if_neg fun e => h0 ((isVoid_iff P.ctx.good P.holds).2 e)]
        obtain ⟨R2, F2⟩ := R'.bindOld (x := x) P.lt P.holds (fun h => absurd h hcont) []
        exact Sim.ok ⟨R2, hc, F.trans (by simp [Stmt.targets]) F2⟩
  | setVar x e =>
    intro st σ R hc hf hT
    unfold exec
    have hif : ∀ {α : Type} (a b : α), (if st.ctl ≠ .norm then a else b) = b := fun a b => if_neg (by rw [hc]; simp)
    simp only [hif, Spec.run]
    rw [← R.out]
    refine Sim.bind (eval_sim e st.s R.ctx hf.2.1) ?_
    rintro ⟨v, out⟩ ⟨i, s'⟩ P
    have R' := R.post P
    have F : Frame M [] st { st with s := s' } := Frame.ext _ P.ext
    dsimp only
    by_cases h0 : Spec.isVoid v = true
    · rw [if_pos h0]
      simp only [if_pos ((isVoid_iff P.ctx.good P.holds).1 h0)]
      exact Sim.error
    · rw [if_neg h0]
      simp only [if_neg fun e => h0 ((isVoid_iff P.ctx.good P.holds).2 e)]
      obtain ⟨R2, F2⟩ := R'.bindOld (x := x) P.lt P.holds (fun _ => ⟨hf.1, fun hO => by
        have : Owned M st.env st.s.heap i := by
          have e := owned_ext (M := M) (env := st.env) (fun y j h => by obtain ⟨_, _, h, _⟩ := R.ctx.var h; exact h) P.ext
          dsimp only at e hO
          rwa [e] at hO
        obtain ⟨y, hy, hy', _⟩ := P.may this
        exact hf.2.2 y hy hy'⟩) []
      exact Sim.ok ⟨R2, hc, F.trans (by simp [Stmt.targets]) F2⟩
  | plus x e =>
    intro st σ R hc hf hT
    have hx : x ∈ M := hT x (by simp [Stmt.targets])
    unfold exec
    have hif : ∀ {α : Type} (a b : α), (if st.ctl ≠ .norm then a else b) = b := fun a b => if_neg (by rw [hc]; simp)
    simp only [hif, Spec.run]
    rw [← R.out]
    have hvar := R.ctx.vars x
    simp only [Spec.eval, eval]
    cases h1 : st.env x <;> cases h2 : σ.env x <;> rw [h1, h2] at hvar <;> simp only at hvar ⊢
    · exact Sim.error
    · next c v =>
      have hf : e.aliasFree M := hf
      show Sim ((Spec.eval M σ.env e st.s.out >>= fun p => if (Spec.isDis v || Spec.isDis p.1) = true then pure (.other 1 1, p.2) else Spec.arith .add (e.mayBe.any M.contains) v p.1 >>= fun u => pure (u, p.2)) >>= _) _ _
      rw [Spec.Res.assoc]
      simp only [Out.ok_bind]
      refine Sim.bind (eval_sim e st.s R.ctx hf) ?_
      rintro ⟨w, out⟩ ⟨j, s'⟩ P
      have R' := R.post P
      have F : Frame M [x] st { st with s := s' } := Frame.ext _ P.ext
      have hi := Nat.lt_of_lt_of_le hvar.1 P.ext.1
      have hv := R.ctx.good.holds P.ext hvar.1 hvar.2.1
      have d1 := isDis_iff P.ctx.good hv
      have d2 := isDis_iff P.ctx.good P.holds
      have hxT : ∀ y ∈ [x], y ∈ M := hT
      dsimp only at hi hv d1 d2 ⊢
      by_cases hd : c = disablerId ∨ j = disablerId
      · simp only [if_pos hd]
        rw [if_pos (by rw [Bool.or_eq_true]; exact hd.imp d1.2 d2.2)]
        have Pd := dis_post R'.ctx []
        obtain ⟨R2, F2⟩ := R'.bindOld (x := x) Pd.lt Pd.holds (fun h => by
          have h : isCont (s'.heap.obj disablerId) := h
          rw [P.ctx.good.dis] at h
          exact h.elim) [x]
        exact Sim.ok ⟨R2, hc, F.trans hxT F2⟩
      · simp only [if_neg hd]
        rw [if_neg (by rw [Bool.or_eq_true]; exact fun h => hd (h.imp d1.1 d2.1)), Spec.Res.assoc]
        have hkeep : Owned M st.env st.s.heap j → e.mayBe.any M.contains = true := by
          intro hO
          obtain ⟨y, hy, hy', _⟩ := P.may hO
          exact List.any_eq_true.2 ⟨y, hy, by simpa using hy'⟩
        have hOw : Owned M st.env s'.heap = Owned M st.env st.s.heap := owned_ext (M := M) (env := st.env) (fun y j h => by obtain ⟨_, _, h, _⟩ := R.ctx.var h; exact h) P.ext
        by_cases hcont : isCont (s'.heap.obj c)
        · refine Sim.bind (plus_sim P.ctx _ hi P.lt hv P.holds hkeep hcont) ?_
          rintro u q ⟨o, rfl, ho, hk, hu⟩
          obtain ⟨R2, F2⟩ := R'.setOwned hx h1 hcont ho (by
            dsimp only
            rw [hOw]
            exact hk) hu (T := [x]) (by simp)
          exact Sim.ok ⟨R2, hc, F.trans hxT F2⟩
        · simp only [plus_same hcont]
          refine Sim.bind (arith_sim P.ctx .add _ [] hi P.lt hv P.holds hkeep).and_ok ?_
          rintro u ⟨r, h⟩ ⟨Q, hu⟩
          have R3 := R.post (m := []) { Q with ext := P.ext.trans Q.ext }
          have F3 : Frame M [x] st { st with s := { s' with heap := h } } := Frame.ext _ (P.ext.trans Q.ext)
          obtain ⟨R2, F2⟩ := R3.bindOld (x := x) Q.lt Q.holds (fun hcu => absurd hcu (arith_other hcont hv Q.holds hu)) [x]
          have hout : s'.out = out := P.out
          subst hout
          exact Sim.ok ⟨R2, hc, F3.trans hxT F2⟩
  | seq a b iha ihb =>
    intro st σ R hc hf hT
    have hTa : ∀ x ∈ a.targets, x ∈ M := fun x hx => hT x (List.mem_append.2 (Or.inl hx))
    have hTb : ∀ x ∈ b.targets, x ∈ M := fun x hx => hT x (List.mem_append.2 (Or.inr hx))
    unfold exec
    have hif : ∀ {α : Type} (a b : α), (if st.ctl ≠ .norm then a else b) = b := fun a b => if_neg (by rw [hc]; simp)
    simp only [hif, Spec.run]
    refine Sim.bind (iha st σ R hc hf.1 hTa) ?_
    rintro ⟨e, σ'⟩ st' ⟨R', hc', F⟩
    have F := F.mono (T' := (Stmt.seq a b).targets) (fun x hx => List.mem_append.2 (Or.inl hx))
    cases e with
    | normal =>
      refine (ihb st' σ' R' hc' hf.2 hTb).mono ?_
      rintro r st2 ⟨R2, hc2, F2⟩
      exact ⟨R2, hc2, F.trans hT (F2.mono (fun x hx => List.mem_append.2 (Or.inr hx)))⟩
    | brk =>
      refine Sim.congr 0 (y := fun _ => .ok st') (fun f _ => ?_) (Sim.ok ⟨R', hc', F⟩)
      unfold exec
      rw [if_pos (by rw [hc']; exact fun h => by cases h)]
    | cont =>
      refine Sim.congr 0 (y := fun _ => .ok st') (fun f _ => ?_) (Sim.ok ⟨R', hc', F⟩)
      unfold exec
      rw [if_pos (by rw [hc']; exact fun h => by cases h)]
  | ite c a b iha ihb =>
    intro st σ R hc hf hT
    have hTa : ∀ x ∈ a.targets, x ∈ M := fun x hx => hT x (List.mem_append.2 (Or.inl hx))
    have hTb : ∀ x ∈ b.targets, x ∈ M := fun x hx => hT x (List.mem_append.2 (Or.inr hx))
    unfold exec
    have hif : ∀ {α : Type} (a b : α), (if st.ctl ≠ .norm then a else b) = b := fun a b => if_neg (by rw [hc]; simp)
    simp only [hif, Spec.run]
    rw [← R.out]
    refine Sim.bind (eval_sim c st.s R.ctx hf.1) ?_
    rintro ⟨v, out⟩ ⟨i, s'⟩ P
    have R' := R.post P
    have F : Frame M (Stmt.ite c a b).targets st { st with s := s' } := Frame.ext _ P.ext
    refine Sim.bind (cond_sim P.ctx.good P.holds) ?_
    rintro (_ | _ | _) _ rfl
    · exact Sim.ok ⟨R', hc, F⟩
    · refine (ihb _ _ R' hc hf.2.2 hTb).mono ?_
      rintro r st2 ⟨R2, hc2, F2⟩
      exact ⟨R2, hc2, F.trans hT (F2.mono (fun x hx => List.mem_append.2 (Or.inr hx)))⟩
    · refine (iha _ _ R' hc hf.2.1 hTa).mono ?_
      rintro r st2 ⟨R2, hc2, F2⟩
      exact ⟨R2, hc2, F.trans hT (F2.mono (fun x hx => List.mem_append.2 (Or.inl hx)))⟩
  | foreach x e b ih =>
    intro st σ R hc hf hT
    obtain ⟨hx, he, hfr, hb, hf'⟩ := hf
    have hb' : b.isSkip = false := by cases b <;> first | rfl | exact absurd rfl hb
    unfold exec
    have hif : ∀ {α : Type} (a b : α), (if st.ctl ≠ .norm then a else b) = b := fun a b => if_neg (by rw [hc]; simp)
    simp only [hif, Spec.run, hb']
    rw [← R.out]
    refine Sim.bind (eval_sim e st.s R.ctx he) ?_
    rintro ⟨v, out⟩ ⟨i, s'⟩ P
    have R' := R.post P
    have F : Frame M b.targets st { st with s := s' } := Frame.ext _ P.ext
    have H := holds_iff.1 P.holds
    dsimp only at H ⊢
    cases ho : s'.heap.obj i <;> rw [ho] at H <;> dsimp only at H
    case arr l =>
      obtain ⟨vs, rfl, H⟩ := H
      refine (loopArr_sim (b := b) (a := i) (l := l) hx hT (fun st σ R hc => ih st σ R hc hf' hT) vs 0 0 { st with s := s' } { σ with out } R' hc P.lt ho ?_ H).mono ?_
      · rintro ⟨y, hy, h1, h2⟩
        have hyM := hT y hy
        have hO : Owned M st.env st.s.heap i := by
          have e := owned_ext (M := M) (env := st.env) (fun y j h => by obtain ⟨_, _, h, _⟩ := R.ctx.var h; exact h) P.ext
          rw [← e]
          exact ⟨y, hyM, h1, h2⟩
        obtain ⟨z, hz, hz', hzi⟩ := P.may hO
        have : z = y := R'.uniq y hyM z i h1 h2 hzi
        exact hfr z hz (this ▸ hy)
      · rintro r st2 ⟨R2, hc2, F2⟩
        exact ⟨R2, hc2, F.trans hT F2⟩
    case dict => obtain ⟨vs, rfl, _⟩ := H; exact Sim.error
    all_goals subst H; exact Sim.error
  | foreachKV y x e b ih =>
    intro st σ R hc hf hT
    obtain ⟨hy, hx, he, hfr, hb, hf'⟩ := hf
    have hb' : b.isSkip = false := by cases b <;> first | rfl | exact absurd rfl hb
    unfold exec
    have hif : ∀ {α : Type} (a b : α), (if st.ctl ≠ .norm then a else b) = b := fun a b => if_neg (by rw [hc]; simp)
    simp only [hif, Spec.run, hb']
    rw [← R.out]
    refine Sim.bind (eval_sim e st.s R.ctx he) ?_
    rintro ⟨v, out⟩ ⟨i, s'⟩ P
    have R' := R.post P
    have F : Frame M b.targets st { st with s := s' } := Frame.ext _ P.ext
    have H := holds_iff.1 P.holds
    dsimp only at H ⊢
    cases ho : s'.heap.obj i <;> rw [ho] at H <;> dsimp only at H
    case dict l =>
      obtain ⟨vs, rfl, _, H⟩ := H
      refine (loopDict_sim (b := b) (a := i) (l := l) hx hT (fun st σ R hc => ih st σ R hc hf' hT) vs 0 0 { st with s := s' } { σ with out } R' hc P.lt ho ?_ H).mono ?_
      · rintro ⟨y, hy, h1, h2⟩
        have hyM := hT y hy
        have hO : Owned M st.env st.s.heap i := by
          have e := owned_ext (M := M) (env := st.env) (fun y j h => by obtain ⟨_, _, h, _⟩ := R.ctx.var h; exact h) P.ext
          rw [← e]
          exact ⟨y, hyM, h1, h2⟩
        obtain ⟨z, hz, hz', hzi⟩ := P.may hO
        have : z = y := R'.uniq y hyM z i h1 h2 hzi
        exact hfr z hz (this ▸ hy)
      · rintro r st2 ⟨R2, hc2, F2⟩
        exact ⟨R2, hc2, F.trans hT F2⟩
    case arr => obtain ⟨vs, rfl, _⟩ := H; exact Sim.error
    all_goals subst H; exact Sim.error

end Muon.Interp
