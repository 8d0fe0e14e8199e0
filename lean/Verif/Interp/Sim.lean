import Verif.Interp.Lemmas
/-
Expressions: the interpreter computes the value the specification gives.
-/
namespace Muon.Interp
open Muon Val
open _root_.Muon.Val.Spec (valOf Holds Same)

/-- With enough fuel, `x` has the outcome `r`. -/
def Sim {α β : Type} (r : Spec.Res α) (x : Nat → Out β) (P : α → β → Prop) : Prop :=
  match r with
  | .ok a => ∃ b F, (∀ f ≥ F, x f = .ok b) ∧ P a b
  | .error => ∃ F, ∀ f ≥ F, x f = .error
  | .bad => ∃ F, ∀ f ≥ F, x f = .bad
  | .unclear => True

theorem Sim.bind {α β γ δ : Type} {r : Spec.Res α} {x : Nat → Out β} {P : α → β → Prop} {k : α → Spec.Res γ} {y : Nat → β → Out δ} {Q : γ → δ → Prop}
    (h : Sim r x P) (hk : ∀ a b, P a b → Sim (k a) (fun f => y f b) Q) : Sim (r >>= k) (fun f => x f >>= y f) Q := by
  cases r with
  | ok a =>
    obtain ⟨b, F, hF, hP⟩ := h
    have := hk a b hP
    show Sim (k a) _ Q
    cases hka : k a with
    | ok c =>
      rw [hka] at this
      obtain ⟨d, G, hG, hQ⟩ := this
      exact ⟨d, max F G, fun f hf => by show (x f >>= y f) = _; rw [hF f (by omega)]; exact hG f (by omega), hQ⟩
    | error =>
      rw [hka] at this
      obtain ⟨G, hG⟩ := this
      exact ⟨max F G, fun f hf => by show (x f >>= y f) = _; rw [hF f (by omega)]; exact hG f (by omega)⟩
    | bad =>
      rw [hka] at this
      obtain ⟨G, hG⟩ := this
      exact ⟨max F G, fun f hf => by show (x f >>= y f) = _; rw [hF f (by omega)]; exact hG f (by omega)⟩
    | unclear => trivial
  | error =>
    obtain ⟨F, hF⟩ := h
    exact ⟨F, fun f hf => by show (x f >>= y f) = _; rw [hF f hf]; rfl⟩
  | bad =>
    obtain ⟨F, hF⟩ := h
    exact ⟨F, fun f hf => by show (x f >>= y f) = _; rw [hF f hf]; rfl⟩
  | unclear => trivial

theorem Sim.ok {α β : Type} {a : α} {b : β} {P : α → β → Prop} (h : P a b) : Sim (.ok a) (fun _ => .ok b) P := ⟨b, 0, fun _ _ => rfl, h⟩
theorem Sim.error {α β : Type} {P : α → β → Prop} : Sim (α := α) .error (fun _ => (.error : Out β)) P := ⟨0, fun _ _ => rfl⟩
theorem Sim.bad {α β : Type} {P : α → β → Prop} : Sim (α := α) .bad (fun _ => (.bad : Out β)) P := ⟨0, fun _ _ => rfl⟩

theorem Sim.mono {α β : Type} {r : Spec.Res α} {x : Nat → Out β} {P Q : α → β → Prop} (h : Sim r x P) (hPQ : ∀ a b, P a b → Q a b) : Sim r x Q := by
  cases r with
  | ok a => obtain ⟨b, F, hF, hP⟩ := h; exact ⟨b, F, hF, hPQ a b hP⟩
  | error => exact h
  | bad => exact h
  | unclear => trivial

/-- The heap after evaluating something: new objects only. -/
def Ext (h h' : Heap) : Prop := h.next ≤ h'.next ∧ ∀ i < h.next, h'.obj i = h.obj i

theorem Ext.refl (h : Heap) : Ext h h := ⟨Nat.le_refl _, fun _ _ => rfl⟩
theorem Ext.trans {a b c : Heap} (h : Ext a b) (h' : Ext b c) : Ext a c :=
  ⟨Nat.le_trans h.1 h'.1, fun i hi => by rw [h'.2 i (Nat.lt_of_lt_of_le hi h.1), h.2 i hi]⟩

/-- Well-formed heaps in which no object refers to one of `O`. -/
structure Good (O : Nat → Prop) (h : Heap) : Prop where
  two : 2 ≤ h.next
  void : h.obj nullId = .other 0
  dis : h.obj disablerId = .other 1
  kids : ∀ i < h.next, ∀ k ∈ kids (h.obj i), k < h.next ∧ ¬ O k

/-- The variables `env` have the values `σ`; the objects `O` are arrays and dictionaries of variables of `own`. -/
structure Ctx (O : Nat → Prop) (own : List Bytes) (env : Bytes → Option Nat) (σ : Bytes → Option Val) (h : Heap) : Prop where
  good : Good O h
  owned : ∀ i, O i → i < h.next ∧ isCont (h.obj i)
  vars : ∀ x, match env x, σ x with
    | some i, some v => i < h.next ∧ Holds h i v ∧ (O i → x ∈ own)
    | none, none => True
    | _, _ => False

theorem Good.holds {O : Nat → Prop} {h h' : Heap} (g : Good O h) (e : Ext h h') {i : Nat} {v : Val} (hi : i < h.next) (hv : Holds h i v) : Holds h' i v :=
  holds_congr (· < h.next) (fun j hj => ⟨e.2 j hj, fun k hk => (g.kids j hj k hk).1⟩) hi hv

theorem Ctx.ext {O : Nat → Prop} {own : List Bytes} {env : Bytes → Option Nat} {σ : Bytes → Option Val} {h h' : Heap} (c : Ctx O own env σ h) (e : Ext h h') (g : Good O h') :
    Ctx O own env σ h' where
  good := g
  owned i hi := by
    obtain ⟨h1, h2⟩ := c.owned i hi
    exact ⟨Nat.lt_of_lt_of_le h1 e.1, by rw [e.2 i h1]; exact h2⟩
  vars x := by
    have := c.vars x
    cases h1 : env x <;> cases h2 : σ x <;> rw [h1, h2] at this <;> dsimp only at this ⊢
    obtain ⟨a, b, d⟩ := this
    exact ⟨Nat.lt_of_lt_of_le a e.1, c.good.holds e a b, d⟩

theorem ext_alloc (h : Heap) (o : Obj) : Ext h (Heap.alloc h o) :=
  ⟨Nat.le_succ _, fun i hi => by show (if i = h.next then o else h.obj i) = _; rw [if_neg (by omega)]⟩

theorem alloc_new (h : Heap) (o : Obj) : (Heap.alloc h o).obj h.next = o := if_pos rfl

theorem Good.alloc {O : Nat → Prop} {h : Heap} (g : Good O h) {o : Obj} (ho : ∀ k ∈ Interp.kids o, k < h.next ∧ ¬ O k) : Good O (Heap.alloc h o) where
  two := Nat.le_succ_of_le g.two
  void := by rw [(ext_alloc h o).2 _ (Nat.lt_of_lt_of_le (by decide) g.two)]; exact g.void
  dis := by rw [(ext_alloc h o).2 _ (Nat.lt_of_lt_of_le (by decide) g.two)]; exact g.dis
  kids i hi k hk := by
    by_cases e : i = h.next
    · subst e
      rw [alloc_new] at hk
      exact ⟨Nat.lt_succ_of_lt (ho k hk).1, (ho k hk).2⟩
    · have hi' : i < h.next := by
        have : i < h.next + 1 := hi
        omega
      rw [(ext_alloc h o).2 i hi'] at hk
      exact ⟨Nat.lt_succ_of_lt (g.kids i hi' k hk).1, (g.kids i hi' k hk).2⟩

/-- What holds after evaluating an expression. -/
structure Post (O : Nat → Prop) (own : List Bytes) (env : Bytes → Option Nat) (σ : Bytes → Option Val) (m : List Bytes) (s : S) (p : Val × List Val) (q : Nat × S) : Prop where
  ctx : Ctx O own env σ q.2.heap
  ext : Ext s.heap q.2.heap
  out : q.2.out = p.2
  lt : q.1 < q.2.heap.next
  holds : Holds q.2.heap q.1 p.1
  may : O q.1 → ∃ x ∈ m, x ∈ own ∧ env x = some q.1

section
variable {O : Nat → Prop} {own : List Bytes} {env : Bytes → Option Nat} {σ : Bytes → Option Val}

theorem Post.trans {m m' : List Bytes} {s s' : S} {p : Val × List Val} {q : Nat × S} (e : Ext s.heap s'.heap) (h : Post O own env σ m s' p q) (hm : ∀ x ∈ m, x ∈ m') : Post O own env σ m' s p q :=
  { h with ext := e.trans h.ext, may := fun ho => by obtain ⟨x, hx, hx'⟩ := h.may ho; exact ⟨x, hm x hx, hx'⟩ }

/-- A new object. -/
theorem mk_post {s : S} (c : Ctx O own env σ s.heap) {o : Obj} {v : Val} (ho : ∀ k ∈ kids o, k < s.heap.next ∧ ¬ O k)
    (hv : Holds (Heap.alloc s.heap o) s.heap.next v) (m : List Bytes) : Post O own env σ m s (v, s.out) (s.heap.next, { s with heap := Heap.alloc s.heap o }) where
  ctx := c.ext (ext_alloc _ _) (c.good.alloc ho)
  ext := ext_alloc _ _
  out := rfl
  lt := Nat.lt_succ_self _
  holds := hv
  may hO := absurd (c.owned _ hO).1 (Nat.lt_irrefl _)

theorem holds_num (h : Heap) (n : Int) : Holds (Heap.alloc h (.num n)) h.next (.num n) := holds_iff.2 (by rw [alloc_new])
theorem holds_str (h : Heap) (n : Bytes) : Holds (Heap.alloc h (.str n)) h.next (.str n) := holds_iff.2 (by rw [alloc_new])
theorem holds_bool (h : Heap) (n : Bool) : Holds (Heap.alloc h (.bool n)) h.next (.bool n) := holds_iff.2 (by rw [alloc_new])

theorem num_post {s : S} (c : Ctx O own env σ s.heap) (n : Int) (m : List Bytes) : Post O own env σ m s (.num n, s.out) (s.heap.next, { s with heap := Heap.alloc s.heap (.num n) }) :=
  mk_post c (by simp [kids]) (holds_num _ _) m
theorem str_post {s : S} (c : Ctx O own env σ s.heap) (n : Bytes) (m : List Bytes) : Post O own env σ m s (.str n, s.out) (s.heap.next, { s with heap := Heap.alloc s.heap (.str n) }) :=
  mk_post c (by simp [kids]) (holds_str _ _) m
theorem bool_post {s : S} (c : Ctx O own env σ s.heap) (n : Bool) (m : List Bytes) : Post O own env σ m s (.bool n, s.out) (s.heap.next, { s with heap := Heap.alloc s.heap (.bool n) }) :=
  mk_post c (by simp [kids]) (holds_bool _ _) m

/-- The disabler. -/
theorem dis_post {s : S} (c : Ctx O own env σ s.heap) (m : List Bytes) : Post O own env σ m s (.other 1 1, s.out) (disablerId, s) where
  ctx := c
  ext := Ext.refl _
  out := rfl
  lt := Nat.lt_of_lt_of_le (show 1 < 2 by decide) c.good.two
  holds := holds_iff.2 (by rw [c.good.dis]; rfl)
  may hO := by
    have := (c.owned _ hO).2
    rw [c.good.dis] at this
    exact this.elim

theorem isDis_iff {h : Heap} (g : Good O h) {i : Nat} {v : Val} (hv : Holds h i v) : Spec.isDis v = true ↔ i = disablerId := by
  have H := holds_iff.1 hv
  constructor
  · intro hd
    cases v with
    | other t j =>
      have hj : j = 1 := by simpa [Spec.isDis] using hd
      subst hj
      cases ho : h.obj i <;> rw [ho] at H <;> simp at H
      exact H.2.symm
    | _ => cases hd
  · rintro rfl
    rw [g.dis] at H
    dsimp only at H
    subst H
    rfl

theorem isVoid_iff {h : Heap} (g : Good O h) {i : Nat} {v : Val} (hv : Holds h i v) : Spec.isVoid v = true ↔ i = nullId := by
  have H := holds_iff.1 hv
  constructor
  · intro hd
    cases v with
    | other t j =>
      have hj : j = 0 := by simpa [Spec.isVoid] using hd
      subst hj
      cases ho : h.obj i <;> rw [ho] at H <;> simp at H
      exact H.2.symm
    | _ => cases hd
  · rintro rfl
    rw [g.void] at H
    dsimp only at H
    subst H
    rfl

theorem cond_sim {h : Heap} (g : Good O h) {i : Nat} {v : Val} (hv : Holds h i v) : Sim (Spec.cond v) (fun _ => cond h i) (fun a b => a = b) := by
  unfold Spec.cond cond
  by_cases hd : Spec.isDis v = true
  · rw [if_pos hd, if_pos ((isDis_iff g hv).1 hd)]
    exact Sim.ok rfl
  · rw [if_neg hd]
    have : ¬ i = disablerId := fun e => hd ((isDis_iff g hv).2 e)
    simp only [if_neg this]
    have H := holds_iff.1 hv
    cases ho : h.obj i <;> rw [ho] at H <;> simp only at H ⊢
    case bool b => subst H; exact Sim.ok rfl
    case arr l => obtain ⟨vs, rfl, _⟩ := H; exact Sim.error
    case dict l => obtain ⟨vs, rfl, _⟩ := H; exact Sim.error
    all_goals subst H; exact Sim.error

theorem fits_iff (n : Int) : fits n = true ↔ -2 ^ 63 ≤ n ∧ n < 2 ^ 63 := by
  simp only [fits, Bool.and_eq_true, decide_eq_true_eq]
  omega

theorem number_sim (n : Int) : Sim (Spec.number n) (fun _ => int64 n) (fun a b => a = b) := by
  unfold Spec.number int64
  by_cases h : -2 ^ 63 ≤ n ∧ n < 2 ^ 63
  · rw [if_pos h]
    simp only [(fits_iff n).2 h, if_true]
    exact Sim.ok rfl
  · rw [if_neg h]
    have : ¬ fits n = true := fun e => h ((fits_iff n).1 e)
    simp only [this]
    exact Sim.bad

theorem numArith_sim (op : Arith) (m n : Int) : Sim (Spec.arithNum op m n) (fun _ => numArith op m n) (fun a b => a = b) := by
  cases op <;> unfold Spec.arithNum numArith <;> dsimp only
  · exact number_sim _
  · split
    · exact Sim.error
    · exact number_sim _
  · exact number_sim _
  · split
    · exact Sim.error
    · by_cases h : -2 ^ 63 ≤ m.tdiv n ∧ m.tdiv n < 2 ^ 63
      · rw [if_pos h]
        simp only [(fits_iff _).2 h, if_true]
        exact Sim.ok rfl
      · rw [if_neg h]
        have : ¬ fits (m.tdiv n) = true := fun e => h ((fits_iff _).1 e)
        simp only [this]
        exact Sim.bad
  · exact number_sim _

/-- `arithObj` without `+=`. -/
theorem arith_sim {s : S} (c : Ctx O own env σ s.heap) (op : Arith) (keep : Bool) (m : List Bytes) {i j : Nat} {v w : Val} (hi : i < s.heap.next) (hj : j < s.heap.next)
    (hv : Holds s.heap i v) (hw : Holds s.heap j w) (hk : O j → keep = true) :
    Sim (Spec.arith op keep v w) (fun _ => arithObj s.heap op false i j) (fun u q => Post O own env σ m s (u, s.out) (q.1, { s with heap := q.2 })) := by
  have H := holds_iff.1 hv
  have K := holds_iff.1 hw
  have gi := c.good.kids i hi
  have gj := c.good.kids j hj
  cases ho : s.heap.obj i <;> rw [ho] at H gi <;> dsimp only at H
  case str a =>
    subst H
    cases hp : s.heap.obj j <;> rw [hp] at K <;> dsimp only at K
    case str b =>
      subst K
      cases op <;> simp only [arithObj, ho, hp, Spec.arith] <;> first | exact Sim.error | skip
      · exact Sim.ok (str_post c _ m)
      · split
        · exact Sim.error
        · exact Sim.ok (str_post c _ m)
    case arr l => obtain ⟨_, rfl, _⟩ := K; simp only [arithObj, ho, hp, Spec.arith]; exact Sim.error
    case dict l => obtain ⟨_, rfl, _⟩ := K; simp only [arithObj, ho, hp, Spec.arith]; exact Sim.error
    all_goals subst K; simp only [arithObj, ho, hp, Spec.arith]; exact Sim.error
  case num a =>
    subst H
    cases hp : s.heap.obj j <;> rw [hp] at K <;> dsimp only at K
    case num b =>
      subst K
      simp only [arithObj, ho, hp, Spec.arith]
      refine Sim.bind (numArith_sim op a b) ?_
      rintro x y rfl
      exact Sim.ok (num_post c _ m)
    case arr l => obtain ⟨_, rfl, _⟩ := K; simp only [arithObj, ho, hp, Spec.arith]; exact Sim.error
    case dict l => obtain ⟨_, rfl, _⟩ := K; simp only [arithObj, ho, hp, Spec.arith]; exact Sim.error
    all_goals subst K; simp only [arithObj, ho, hp, Spec.arith]; exact Sim.error
  case arr l =>
    obtain ⟨vs, rfl, H⟩ := H
    cases op
    case add =>
      have key : ∀ (l' : List Nat) (ws : List Val), (∀ k ∈ l', k < s.heap.next ∧ ¬ O k) → HoldsL s.heap l' ws →
          Post O own env σ m s (.arr (vs ++ ws), s.out) (s.heap.next, { s with heap := Heap.alloc s.heap (.arr (l ++ l')) }) := by
        intro l' ws hl hws
        have hkids : ∀ k ∈ kids (.arr (l ++ l')), k < s.heap.next ∧ ¬ O k := by
          intro k hk
          rcases List.mem_append.1 hk with h | h
          · exact gi k h
          · exact hl k h
        refine mk_post c hkids (holds_iff.2 ?_) m
        rw [alloc_new]
        exact ⟨_, rfl, holdsL_mono (fun k hk v hv => c.good.holds (ext_alloc _ _) (hkids k hk).1 hv) (holdsL_append H hws)⟩
      have push : s.heap.obj j = s.heap.obj j → ¬ O j → Post O own env σ m s (.arr (vs ++ [w]), s.out) (s.heap.next, { s with heap := Heap.alloc s.heap (.arr (l ++ [j])) }) := by
        intro _ hO
        exact key [j] [w] (by simpa using ⟨hj, hO⟩) ⟨hw, trivial⟩
      have notO : (∀ l, s.heap.obj j ≠ .arr l) → (∀ l, s.heap.obj j ≠ .dict l) → ¬ O j := by
        intro h1 h2 hO
        have := (c.owned j hO).2
        cases hp : s.heap.obj j <;> rw [hp] at this h1 h2 <;> first | exact h1 _ rfl | exact h2 _ rfl | exact this
      cases hp : s.heap.obj j <;> rw [hp] at K gj <;> dsimp only at K
      case arr r =>
        obtain ⟨ws, rfl, K⟩ := K
        simp only [arithObj, ho, hp, Spec.arith]
        exact Sim.ok (key r ws gj K)
      case dict r =>
        obtain ⟨ws, rfl, _, K⟩ := K
        simp only [arithObj, ho, hp, Spec.arith]
        split
        · trivial
        · next hk' => exact Sim.ok (push rfl fun h => hk' (hk h))
      all_goals
        subst K
        simp only [arithObj, ho, hp, Spec.arith]
        exact Sim.ok (push rfl (notO (by rw [hp]; simp) (by rw [hp]; simp)))
    all_goals simp only [arithObj, ho, Spec.arith]; exact Sim.error
  case dict l =>
    obtain ⟨vs, rfl, hn, H⟩ := H
    cases hp : s.heap.obj j <;> rw [hp] at K gj <;> dsimp only at K
    case dict r =>
      obtain ⟨ws, rfl, hn', K⟩ := K
      cases op <;> simp only [arithObj, ho, hp, Spec.arith] <;> first | exact Sim.error | skip
      have hkids : ∀ k ∈ kids (.dict (dictMerge l r)), k < s.heap.next ∧ ¬ O k := by
        intro k hk
        rw [dictMerge_eq l r hn hn'] at hk
        rcases merge_vals hk with h | h
        · exact gi k h
        · exact gj k h
      refine Sim.ok (mk_post c hkids (holds_iff.2 ?_) m)
      rw [alloc_new, dictMerge_eq l r hn hn']
      refine ⟨_, rfl, merge_keys_nodup hn hn', holdsD_mono (fun p hp' v hv => c.good.holds (ext_alloc _ _) ?_ hv) (holdsD_merge H K)⟩
      exact (hkids p.2 (by rw [dictMerge_eq l r hn hn']; exact List.mem_map_of_mem (f := Prod.snd) hp')).1
    case arr l => obtain ⟨_, rfl, _⟩ := K; simp only [arithObj, ho, hp, Spec.arith]; exact Sim.error
    all_goals subst K; simp only [arithObj, ho, hp, Spec.arith]; exact Sim.error
  all_goals
    subst H
    simp only [arithObj, ho, Spec.arith]
    exact Sim.error

theorem contains_iff (l : Bytes) : ∀ r, contains l r = true ↔ l <:+: r
  | [] => by simp [contains]
  | c :: r => by
    rw [contains, Bool.or_eq_true, contains_iff l r, List.isPrefixOf_iff_prefix, List.infix_cons_iff]

theorem get_sim {α : Type} {x : Nat → Option α} {a : α} (h : ∃ F, ∀ f ≥ F, x f = some a) : Sim (.ok a) (fun f => Out.get (x f)) (fun a b => a = b) := by
  obtain ⟨F, hF⟩ := h
  exact ⟨a, F, fun f hf => by show Out.get (x f) = _; rw [hF f hf]; rfl, rfl⟩

open Classical in
theorem equal_sim {h : Heap} {i j : Nat} {v w : Val} (hv : Holds h i v) (hw : Holds h j w) :
    Sim (.ok (decide (Same v w))) (fun f => Out.get (equal h f i j)) (fun a b => a = b) := by
  obtain ⟨r, hF, hr⟩ := equal_values h i j v w hv hw
  have : decide (Same v w) = r := by rw [Bool.eq_iff_iff, decide_eq_true_eq, hr]
  rw [this]
  exact get_sim hF

theorem map_sim {r : Spec.Res Bool} {x : Nat → Out Bool} (h : Sim r x (fun a b => a = b)) : Sim (do pure (!(← r))) (fun f => (!·) <$> x f) (fun a b => a = b) := by
  have : (fun f => (!·) <$> x f) = fun f => x f >>= fun b => pure (!b) := by
    funext f
    rfl
  rw [this]
  exact Sim.bind h fun a b e => by subst e; exact Sim.ok rfl

open Classical in
theorem in_sim {h : Heap} {i j : Nat} {v w : Val} (hv : Holds h i v) (hw : Holds h j w) : Sim (Spec.isIn v w) (fun f => inObj f h i j) (fun a b => a = b) := by
  have H := holds_iff.1 hv
  have K := holds_iff.1 hw
  have str : (∃ t, h.obj i = .str t ∧ v = .str t) ∨ ((∀ t, h.obj i ≠ .str t) ∧ ∀ t, v ≠ .str t) := by
    cases ho : h.obj i <;> rw [ho] at H <;> dsimp only at H
    case str t => exact Or.inl ⟨t, rfl, H⟩
    case arr l => obtain ⟨_, rfl, _⟩ := H; exact Or.inr ⟨by simp, by simp⟩
    case dict l => obtain ⟨_, rfl, _⟩ := H; exact Or.inr ⟨by simp, by simp⟩
    all_goals subst H; exact Or.inr ⟨by simp, by simp⟩
  cases hp : h.obj j <;> rw [hp] at K <;> dsimp only at K
  case arr l =>
    obtain ⟨ws, rfl, K⟩ := K
    obtain ⟨r, hF, hr⟩ := in_array h i j l v ws hp hv hw
    simp only [Spec.isIn, inObj, hp]
    have : decide (∃ u ∈ ws, Same v u) = r := by rw [Bool.eq_iff_iff, decide_eq_true_eq, hr]
    rw [this]
    exact get_sim hF
  case dict l =>
    obtain ⟨ws, rfl, _, K⟩ := K
    rcases str with ⟨t, ho, rfl⟩ | ⟨ho, hne⟩
    · simp only [Spec.isIn, inObj, hp, ho]
      refine Sim.ok ?_
      rw [Bool.eq_iff_iff, decide_eq_true_eq, ← holdsD_keys K, Option.isSome_iff_ne_none, Ne, lookup_none, Classical.not_not]
    · have e1 : Spec.isIn v (.dict ws) = .error := by
        cases v <;> first | rfl | exact absurd rfl (hne _)
      have e2 : ∀ f, inObj f h i j = .error := by
        intro f
        unfold inObj
        rw [hp]
        dsimp only
        cases ho' : h.obj i <;> first | rfl | exact absurd ho' (ho _)
      rw [e1]
      exact ⟨0, fun f _ => e2 f⟩
  case str r =>
    subst K
    rcases str with ⟨t, ho, rfl⟩ | ⟨ho, hne⟩
    · simp only [Spec.isIn, inObj, hp, ho]
      refine Sim.ok ?_
      rw [Bool.eq_iff_iff, decide_eq_true_eq, contains_iff]
    · have e1 : Spec.isIn v (.str r) = .error := by
        cases v <;> first | rfl | exact absurd rfl (hne _)
      have e2 : ∀ f, inObj f h i j = .error := by
        intro f
        unfold inObj
        rw [hp]
        dsimp only
        cases ho' : h.obj i <;> first | rfl | exact absurd ho' (ho _)
      rw [e1]
      exact ⟨0, fun f _ => e2 f⟩
  all_goals
    subst K
    simp only [Spec.isIn, inObj, hp]
    exact Sim.error

theorem isNum {h : Heap} {i : Nat} {v : Val} (hv : Holds h i v) : (∃ t, h.obj i = .num t ∧ v = .num t) ∨ ((∀ t, h.obj i ≠ .num t) ∧ ∀ t, v ≠ .num t) := by
  have H := holds_iff.1 hv
  cases ho : h.obj i <;> rw [ho] at H <;> dsimp only at H
  case num t => exact Or.inl ⟨t, rfl, H⟩
  case arr l => obtain ⟨_, rfl, _⟩ := H; exact Or.inr ⟨by simp, by simp⟩
  case dict l => obtain ⟨_, rfl, _⟩ := H; exact Or.inr ⟨by simp, by simp⟩
  all_goals subst H; exact Or.inr ⟨by simp, by simp⟩

theorem isStr {h : Heap} {i : Nat} {v : Val} (hv : Holds h i v) : (∃ t, h.obj i = .str t ∧ v = .str t) ∨ ((∀ t, h.obj i ≠ .str t) ∧ ∀ t, v ≠ .str t) := by
  have H := holds_iff.1 hv
  cases ho : h.obj i <;> rw [ho] at H <;> dsimp only at H
  case str t => exact Or.inl ⟨t, rfl, H⟩
  case arr l => obtain ⟨_, rfl, _⟩ := H; exact Or.inr ⟨by simp, by simp⟩
  case dict l => obtain ⟨_, rfl, _⟩ := H; exact Or.inr ⟨by simp, by simp⟩
  all_goals subst H; exact Or.inr ⟨by simp, by simp⟩

theorem cmp_sim {h : Heap} (op : Cmp) {i j : Nat} {v w : Val} (hv : Holds h i v) (hw : Holds h j w) : Sim (Spec.cmp op v w) (fun f => cmpObj f h op i j) (fun a b => a = b) := by
  cases op
  case eq => exact equal_sim hv hw
  case ne =>
    have := map_sim (equal_sim hv hw)
    refine cast ?_ this
    congr 1
    simp only [Spec.cmp]
    show Spec.Res.ok _ = Spec.Res.ok _
    congr 1
    by_cases e : Same v w <;> simp [e]
  case isin => exact in_sim hv hw
  case notin => exact map_sim (in_sim hv hw)
  all_goals
    unfold Spec.cmp cmpObj
    dsimp only
    rcases isNum hv with ⟨m, ho, rfl⟩ | ⟨ho, hne⟩
    · rcases isNum hw with ⟨n, hp, rfl⟩ | ⟨hp, hne⟩
      · simp only [ho, hp]
        exact Sim.ok rfl
      · rw [ho]
        cases hp' : h.obj j <;> first | exact absurd hp' (hp _) | skip
        all_goals cases w <;> first | exact Sim.error | exact absurd rfl (hne _)
    · cases ho' : h.obj i <;> first | exact absurd ho' (ho _) | skip
      all_goals cases v <;> first | exact Sim.error | exact absurd rfl (hne _)

end
end Muon.Interp
