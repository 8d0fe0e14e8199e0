import Verif.Interp.Exec
/-
Properties of programs: C27, C28, C29, C30, C58, C68.
-/
namespace Muon.Interp
open Muon Val
open _root_.Muon.Val.Spec (valOf Holds Same)

/-- The state at the start of a program: no variables, no output; the objects 0 and 1 are the absence of a value and the disabler
(`workspace_init_bare`, src/lang/workspace.c). -/
def start : St :=
  { s := { heap := { obj := fun i => if i = 1 then .other 1 else .other 0, next := 2 }, out := [] }, env := fun _ => none, ctl := .norm }

/-- The store at the start. -/
def Spec.start : Spec.Store := { env := fun _ => none, out := [] }

/-- The variables of the state have exactly the values of the store, and the output is the same. -/
def Agrees (st : St) (σ : Spec.Store) : Prop :=
  st.s.out = σ.out ∧ ∀ x, match σ.env x with
    | some v => ∃ i, st.env x = some i ∧ Holds st.s.heap i v
    | none => st.env x = none

theorem start_rel (M : List Bytes) : Rel M start Spec.start where
  ctx :=
    { good := ⟨Nat.le_refl _, rfl, rfl, by
        intro i hi k hk
        have : start.s.heap.obj i = .other 1 ∨ start.s.heap.obj i = .other 0 := by
          show (if i = 1 then _ else _) = _ ∨ (if i = 1 then _ else _) = _
          by_cases h : i = 1
          · rw [if_pos h]; exact Or.inl rfl
          · rw [if_neg h]; exact Or.inr rfl
        rcases this with h | h <;> rw [h] at hk <;> cases hk⟩
      owned := by rintro i ⟨x, _, h, _⟩; cases h
      vars := fun _ => trivial }
  uniq := by intro x _ y c h; cases h
  out := rfl

theorem Rel.agrees {M : List Bytes} {st : St} {σ : Spec.Store} (R : Rel M st σ) : Agrees st σ := by
  refine ⟨R.out, fun x => ?_⟩
  have := R.ctx.vars x
  cases h1 : st.env x <;> cases h2 : σ.env x <;> rw [h1, h2] at this <;> simp only at this ⊢
  exact ⟨_, rfl, this.2.1⟩

/-- C28, C29, C30, C58, the refinement: a program without aliasing of the variables it extends with `+=` ends, and its output, its
variables and whether it fails are as the specification, in which variables have values and not objects, says. -/
theorem program_partial (p : Stmt) (hp : p.aliasFree p.targets) :
    match Spec.run p.targets p Spec.start with
    | .ok (e, σ) => ∃ st F, (∀ f ≥ F, exec f p start = .ok st) ∧ Agrees st σ ∧ st.ctl = ctlOf e
    | .error => ∃ F, ∀ f ≥ F, exec f p start = .error
    | .bad => ∃ F, ∀ f ≥ F, exec f p start = .bad
    | .unclear => True := by
  have H := exec_sim (M := p.targets) p start Spec.start (start_rel _) rfl hp fun _ h => h
  cases hr : Spec.run p.targets p Spec.start with
  | ok r =>
    obtain ⟨e, σ⟩ := r
    rw [hr] at H
    obtain ⟨st, F, hF, R, hc, _⟩ := H
    exact ⟨st, F, hF, R.agrees, hc⟩
  | error => rw [hr] at H; exact H
  | bad => rw [hr] at H; exact H
  | unclear => trivial

/-- The variables a program gives a value. -/
def Stmt.binds : Stmt → List Bytes
  | .assign x _ | .plus x _ | .setVar x _ => [x]
  | .seq a b | .ite _ a b => a.binds ++ b.binds
  | .foreach x _ b => x :: b.binds
  | .foreachKV k x _ b => k :: x :: b.binds
  | _ => []

theorem bind_ok {α β : Type} {x : Spec.Res α} {g : α → Spec.Res β} {r : β} (h : (x >>= g) = .ok r) : ∃ a, x = .ok a ∧ g a = .ok r := by
  cases x with
  | ok a => exact ⟨a, rfl, h⟩
  | error => cases h
  | bad => cases h
  | unclear => cases h

theorem bind_env {σ : Spec.Store} {x y : Bytes} {v : Val} (h : y ≠ x) : (σ.bind x v).env y = σ.env y := if_neg h

theorem forEach_keeps {α : Type} {body : α → Spec.Store → Spec.Res (Spec.End × Spec.Store)} {y : Bytes}
    (hb : ∀ v σ e σ', body v σ = .ok (e, σ') → σ'.env y = σ.env y) : ∀ (l : List α) σ e σ', Spec.forEach body l σ = .ok (e, σ') → σ'.env y = σ.env y
  | [], σ, e, σ', h => by cases h; rfl
  | v :: l, σ, e, σ', h => by
    obtain ⟨⟨e1, σ1⟩, h1, h2⟩ := bind_ok h
    have := hb v σ e1 σ1 h1
    cases e1 with
    | brk => cases h2; exact this
    | normal => exact (forEach_keeps hb l σ1 e σ' h2).trans this
    | cont => exact (forEach_keeps hb l σ1 e σ' h2).trans this

/-- In the specification a program changes no variable that it does not give a value. -/
theorem run_keeps {own : List Bytes} {y : Bytes} (p : Stmt) : y ∉ p.binds → ∀ σ e σ', Spec.run own p σ = .ok (e, σ') → σ'.env y = σ.env y := by
  induction p with
  | skip => intro _ σ e σ' h; cases h; rfl
  | brk => intro _ σ e σ' h; cases h; rfl
  | cont => intro _ σ e σ' h; cases h; rfl
  | expr e => intro _ σ e σ' h; obtain ⟨⟨v, out⟩, _, h⟩ := bind_ok h; cases h; rfl
  | assign x e =>
    intro hy σ e σ' h
    obtain ⟨⟨v, out⟩, _, h⟩ := bind_ok h
    dsimp only at h
    split at h
    · cases h
    · cases h; exact bind_env fun e => hy (by rw [e]; simp [Stmt.binds])
  | setVar x e =>
    intro hy σ e σ' h
    obtain ⟨⟨v, out⟩, _, h⟩ := bind_ok h
    dsimp only at h
    split at h
    · cases h
    · cases h; exact bind_env fun e => hy (by rw [e]; simp [Stmt.binds])
  | plus x e =>
    intro hy σ e σ' h
    obtain ⟨⟨v, out⟩, _, h⟩ := bind_ok h
    cases h
    exact bind_env fun e => hy (by rw [e]; simp [Stmt.binds])
  | seq a b iha ihb =>
    intro hy σ e σ' h
    have hy := fun h => hy (List.mem_append.2 h)
    obtain ⟨⟨e1, σ1⟩, h1, h⟩ := bind_ok h
    have := iha (fun h => hy (Or.inl h)) σ e1 σ1 h1
    cases e1 with
    | normal => exact (ihb (fun h => hy (Or.inr h)) σ1 e σ' h).trans this
    | brk => cases h; exact this
    | cont => cases h; exact this
  | ite c a b iha ihb =>
    intro hy σ e σ' h
    have hy := fun h => hy (List.mem_append.2 h)
    obtain ⟨⟨v, out⟩, _, h⟩ := bind_ok h
    obtain ⟨r, _, h⟩ := bind_ok h
    rcases r with _ | _ | _
    · cases h; rfl
    · exact ihb (fun h => hy (Or.inr h)) { σ with out } e σ' h
    · exact iha (fun h => hy (Or.inl h)) { σ with out } e σ' h
  | foreach x e b ih =>
    intro hy σ e σ' h
    obtain ⟨⟨v, out⟩, _, h⟩ := bind_ok h
    cases v with
    | arr vs =>
      refine forEach_keeps ?_ vs { σ with out } e σ' h
      intro v σ e σ' h
      exact (ih (fun h => hy (List.mem_cons_of_mem _ h)) _ e σ' h).trans (bind_env fun e => hy (by rw [e]; simp [Stmt.binds]))
    | _ => cases h
  | foreachKV k x e b ih =>
    intro hy σ e σ' h
    obtain ⟨⟨v, out⟩, _, h⟩ := bind_ok h
    cases v with
    | dict vs =>
      refine forEach_keeps ?_ vs { σ with out } e σ' h
      intro v σ e σ' h
      exact (ih (fun h => hy (List.mem_cons_of_mem _ (List.mem_cons_of_mem _ h))) _ e σ' h).trans
        ((bind_env fun e => hy (by rw [e]; simp [Stmt.binds])).trans (bind_env fun e => hy (by rw [e]; simp [Stmt.binds])))
    | _ => cases h

/-- C28: after `b = a` nothing that the program does with other variables, `a` included, changes the value of `b`. -/
theorem assign_copies_partial (p q : Stmt) (a b : Bytes) (whole : Stmt) (hw : whole = p.seq ((Stmt.assign b (.var a)).seq q)) (hfree : whole.aliasFree whole.targets)
    (hb : b ∉ q.binds) (σ : Spec.Store) (hrun : Spec.run whole.targets whole Spec.start = .ok (.normal, σ)) :
    ∃ F st1 st2 i j v, (∀ f ≥ F, exec f p start = .ok st1 ∧ exec f whole start = .ok st2) ∧
      st1.env a = some i ∧ Holds st1.s.heap i v ∧ st2.env b = some j ∧ Holds st2.s.heap j v := by
  have H := exec_sim (M := whole.targets) whole start Spec.start (start_rel _) rfl hfree fun _ h => h
  rw [hrun] at H
  obtain ⟨st2, F2, hF2, R2, _, _⟩ := H
  generalize hM : whole.targets = M at *
  subst hw
  obtain ⟨⟨e1, σ1⟩, h1, h2⟩ := bind_ok hrun
  have hne : e1 = .normal := by cases e1 <;> first | rfl | cases h2
  subst hne
  have K := exec_sim (M := M) p start Spec.start (start_rel _) rfl hfree.1 fun x hx => by rw [← hM]; exact List.mem_append.2 (Or.inl hx)
  rw [h1] at K
  obtain ⟨st1, F1, hF1, R1, _, _⟩ := K
  obtain ⟨⟨e2, σ2⟩, h3, h4⟩ := bind_ok h2
  have hne : e2 = .normal := by cases e2 <;> first | rfl | cases h4
  subst hne
  obtain ⟨⟨v, out⟩, h5, h6⟩ := bind_ok h3
  rw [Spec.eval] at h5
  cases hσ : σ1.env a with
  | none => rw [hσ] at h5; cases h5
  | some w =>
    rw [hσ] at h5
    cases h5
    dsimp only at h6
    split at h6
    · cases h6
    · cases h6
      have hq := run_keeps q hb _ _ _ h4
      have hb' : (Spec.Store.bind { σ1 with out := σ1.out } b v).env b = some v := if_pos rfl
      rw [hb'] at hq
      have A1 := R1.agrees.2 a
      have A2 := R2.agrees.2 b
      rw [hσ] at A1
      rw [hq] at A2
      obtain ⟨i, hi, hiv⟩ := A1
      obtain ⟨j, hj, hjv⟩ := A2
      exact ⟨max F1 F2, st1, st2, i, j, v, fun f hf => ⟨hF1 f (by omega), hF2 f (by omega)⟩, hi, hiv, hj, hjv⟩

/-- A name. -/
def nm (c : Char) : Bytes := [c.toNat.toUInt8]

def Args.of : List Expr → Args
  | [] => .nil
  | e :: l => .cons e (Args.of l)

def Stmt.block : List Stmt → Stmt
  | [] => .skip
  | p :: l => .seq p (Stmt.block l)

/-- What a program prints. -/
def output : Out St → Option (List Val)
  | .ok st => some st.s.out
  | _ => none

/- A program of the kind the theorems are about: `a = [1]; b = a; a += [2]; foreach x : a; if x > 1; break; endif; message(x); endforeach; message(b)`. -/
def sample : Stmt := .block [.assign (nm 'a') (.arr (.of [.num 1])), .assign (nm 'b') (.var (nm 'a')), .plus (nm 'a') (.arr (.of [.num 2])),
  .foreach (nm 'x') (.var (nm 'a')) (.block [.ite (.cmp .gt (.var (nm 'x')) (.num 1)) .brk .skip, .expr (.message (.var (nm 'x')))]), .expr (.message (.var (nm 'b')))]
example : sample.aliasFree sample.targets := by
  simp [sample, Stmt.block, Stmt.targets, Stmt.aliasFree, Expr.aliasFree, Args.of, Args.aliasFree, Expr.fresh, Expr.mayBe]
  decide
example : (match output (exec 10 sample start) with | some [.num 1, .arr [.num 1]] => true | _ => false) = true := by decide +kernel

/-- C28 is false in general: `a = [1]; b = [a]; a += [2]` changes the value of `b`. -/
theorem nested_alias_counterexample : output (exec 10 (.block [.assign (nm 'a') (.arr (.of [.num 1])), .assign (nm 'b') (.arr (.of [.var (nm 'a')])),
    .plus (nm 'a') (.arr (.of [.num 2])), .expr (.message (.var (nm 'b')))]) start) = some [.arr [.arr [.num 1, .num 2]]] := by with_unfolding_all rfl

/-- `a = [[1]]; foreach x : a; x += [2]; endforeach` changes the value of `a`. -/
theorem loop_alias_counterexample : output (exec 10 (.block [.assign (nm 'a') (.arr (.of [.arr (.of [.num 1])])),
    .foreach (nm 'x') (.var (nm 'a')) (.plus (nm 'x') (.arr (.of [.num 2]))), .expr (.message (.var (nm 'a')))]) start) = some [.arr [.arr [.num 1, .num 2]]] := by with_unfolding_all rfl

/-- `a = [1]; set_variable('b', a); a += [2]` changes the value of `b`. -/
theorem set_variable_alias_counterexample : output (exec 10 (.block [.assign (nm 'a') (.arr (.of [.num 1])), .setVar (nm 'b') (.var (nm 'a')),
    .plus (nm 'a') (.arr (.of [.num 2])), .expr (.message (.var (nm 'b')))]) start) = some [.arr [.num 1, .num 2]] := by with_unfolding_all rfl

/-- `a = [[1]]; b = a; foreach x : b; x += [2]; endforeach`: a copy of an array shares its elements. -/
theorem shallow_copy_counterexample : output (exec 10 (.block [.assign (nm 'a') (.arr (.of [.arr (.of [.num 1])])), .assign (nm 'b') (.var (nm 'a')),
    .foreach (nm 'x') (.var (nm 'b')) (.plus (nm 'x') (.arr (.of [.num 2]))), .expr (.message (.var (nm 'a')))]) start) = some [.arr [.arr [.num 1, .num 2]]] := by with_unfolding_all rfl

/-- The elements one after another, without regard to the object they come from. -/
def visit (body : St → Out St) (x : Bytes) : List Nat → St → Out St
  | [], st => .ok st
  | v :: vs, st => do
    let st ← body { st with env := bindVar st.env x v }
    match st.ctl with
    | .breaking => .ok { st with ctl := .norm }
    | _ => visit body x vs { st with ctl := .norm }

theorem loop_visits {body : St → Out St} {x : Bytes} {a : Nat} {l : List Nat} (hbody : ∀ st st', st.s.heap.obj a = .arr l → body st = .ok st' → st'.s.heap.obj a = .arr l) :
    ∀ (f k : Nat) (st : St), l.length < f + k → st.ctl = .norm → st.s.heap.obj a = .arr l → k ≤ l.length → loopArr body false x a f k st = visit body x (l.drop k) st := by
  intro f
  induction f with
  | zero => intro k st h _ _ hk; omega
  | succ f ih =>
    intro k st hf hc ho hk
    rw [loopArr, ho]
    dsimp only
    by_cases e : k = l.length
    · rw [List.getElem?_eq_none (by omega), List.drop_eq_nil_of_le (by omega)]
      rfl
    · have hlt : k < l.length := by omega
      rw [List.getElem?_eq_getElem hlt, List.drop_eq_getElem_cons hlt, visit]
      simp only [Bool.false_eq_true, if_false]
      cases hb : body { st with env := bindVar st.env x l[k] } with
      | ok st2 =>
        have ho2 := hbody { st with env := bindVar st.env x l[k] } st2 ho hb
        simp only [Out.ok_bind, afterBody]
        obtain ⟨s, env, ctl⟩ := st2
        cases ctl
        · exact ih (k + 1) _ (by omega) rfl ho2 hlt
        · rfl
        · exact ih (k + 1) _ (by omega) rfl ho2 hlt
      | error => rfl
      | bad => rfl
      | fuel => rfl

/-- C29 for all bodies that do not extend the array itself (whatever else they do): the body runs once for each of the elements, in order, up to
the first `break`; `continue` ends only the iteration. -/
theorem foreach_visits_partial (b : Stmt) (x : Bytes) (e : Expr) (st : St) (i : Nat) (s : S) (l : List Nat) (f : Nat) (hc : st.ctl = .norm) (hb : b ≠ .skip)
    (he : eval f st.env e st.s = .ok (i, s)) (ho : s.heap.obj i = .arr l) (hf : l.length < f)
    (hbody : ∀ st st', st.s.heap.obj i = .arr l → exec f b st = .ok st' → st'.s.heap.obj i = .arr l) :
    exec f (.foreach x e b) st = visit (exec f b) x l { st with s } := by
  have hs : b.isSkip = false := by cases b <;> first | rfl | exact absurd rfl hb
  unfold exec
  rw [if_neg (by rw [hc]; simp)]
  simp only [he, Out.ok_bind, ho, hs]
  exact loop_visits hbody f 0 { st with s } (by omega) hc ho (Nat.zero_le _)

/-- C29 is false in general: `a = [1]; foreach x : a; a += [1]; endforeach` does not end. -/
theorem foreach_endless_counterexample : ∀ f, exec f (.block [.assign (nm 'a') (.arr (.of [.num 1])), .foreach (nm 'x') (.var (nm 'a')) (.plus (nm 'a') (.num 1))]) start = .fuel := by
  have loop : ∀ (f g k i : Nat) (st : St) (l : List Nat), i ≠ disablerId → i < st.s.heap.next → 2 ≤ st.s.heap.next → st.ctl = .norm → st.env (nm 'a') = some i → st.s.heap.obj i = .arr l → k < l.length →
      loopArr (exec f (.plus (nm 'a') (.num 1))) false (nm 'x') i g k st = .fuel := by
    intro f g
    induction g with
    | zero => intros; rfl
    | succ g ih =>
      intro k i st l hi hlt h2 hc he ho hk
      rw [loopArr, ho]
      simp only [List.getElem?_eq_getElem hk, Bool.false_eq_true, if_false]
      have hbody : exec f (.plus (nm 'a') (.num 1)) { st with env := bindVar st.env (nm 'x') l[k] }
          = .ok { s := { st.s with heap := Heap.set (Heap.alloc st.s.heap (.num 1)) i (.arr (l ++ [st.s.heap.next])) }, env := bindVar (bindVar st.env (nm 'x') l[k]) (nm 'a') i, ctl := .norm } := by
        unfold exec
        rw [if_neg (by rw [hc]; simp)]
        have hv : bindVar st.env (nm 'x') l[k] (nm 'a') = some i := by
          show (if nm 'a' = nm 'x' then _ else _) = _
          rw [if_neg (by decide)]
          exact he
        have hd : ¬ (i = disablerId ∨ st.s.heap.next = disablerId) := by
          rintro (h | h)
          · exact hi h
          · have : disablerId = 1 := rfl
            omega
        have ho' : (Heap.alloc st.s.heap (.num 1)).obj i = .arr l := (if_neg (by omega)).trans ho
        have hn : (Heap.alloc st.s.heap (.num 1)).obj st.s.heap.next = .num 1 := if_pos rfl
        simp only [eval, hv, Out.ok_bind, mk, if_neg hd, arithObj, ho', hn, if_true, hc, Out.pure_eq]
      rw [hbody]
      simp only [Out.ok_bind, afterBody, if_true]
      refine ih (k + 1) i { s := { st.s with heap := Heap.set (Heap.alloc st.s.heap (.num 1)) i (.arr (l ++ [st.s.heap.next])) }, env := bindVar (bindVar st.env (nm 'x') l[k]) (nm 'a') i, ctl := .norm } (l ++ [st.s.heap.next]) hi (Nat.lt_succ_of_lt hlt) (Nat.le_succ_of_le h2) rfl (by simp [bindVar]) (if_pos rfl) (by simp; omega)
  intro f
  show exec f (Stmt.seq _ (.seq _ .skip)) start = .fuel
  unfold exec
  rw [if_neg (by decide)]
  have h1 : exec f (.assign (nm 'a') (.arr (.of [.num 1]))) start
      = .ok { s := { start.s with heap := Heap.alloc (Heap.alloc (Heap.alloc start.s.heap (.num 1)) (.arr [2])) (.arr [2]) }, env := bindVar start.env (nm 'a') 4, ctl := .norm } := by rfl
  simp only [h1, Out.ok_bind]
  have := loop f f 0 4 { s := { start.s with heap := Heap.alloc (Heap.alloc (Heap.alloc start.s.heap (.num 1)) (.arr [2])) (.arr [2]) }, env := bindVar start.env (nm 'a') 4, ctl := .norm }
    [2] (by decide) (by decide) (by decide) rfl rfl rfl (by decide)
  show (loopArr _ false (nm 'x') 4 f 0 _ >>= _) = _
  rw [this]
  rfl

/-- With an empty body, the loop stops after the first element: `foreach x : [1, 2]` leaves 1 in `x`. -/
theorem empty_body_counterexample : output (exec 10 (.block [.foreach (nm 'x') (.arr (.of [.num 1, .num 2])) .skip, .expr (.message (.var (nm 'x')))]) start) = some [.num 1] := by with_unfolding_all rfl

/-! C27 -/

theorem cond_bool {h : Heap} {i : Nat} {b : Bool} (hi : i ≠ disablerId) (hv : h.obj i = .bool b) : cond h i = .ok (some b) := by
  unfold cond
  rw [if_neg hi, hv]

/-- C27: if `a` is false, `a and b` is false, whatever `b` is, with no effect but that of `a`. -/
theorem and_skips_right (f : Nat) (env : Bytes → Option Nat) (a : Expr) (s s1 : S) (i : Nat) (h : eval f env a s = .ok (i, s1)) (hi : i ≠ disablerId) (hv : s1.heap.obj i = .bool false) :
    ∃ j s2, (∀ b, eval f env (.and a b) s = .ok (j, s2)) ∧ s2.heap.obj j = .bool false ∧ s2.out = s1.out ∧ ∀ k < s1.heap.next, s2.heap.obj k = s1.heap.obj k := by
  refine ⟨s1.heap.next, { s1 with heap := Heap.alloc s1.heap (.bool false) }, fun b => ?_, if_pos rfl, rfl, fun k hk => if_neg (by omega)⟩
  simp only [eval, h, Out.ok_bind, cond_bool hi hv, mk]

/-- C27: if `a` is true, `a or b` is true, whatever `b` is, with no effect but that of `a`. -/
theorem or_skips_right (f : Nat) (env : Bytes → Option Nat) (a : Expr) (s s1 : S) (i : Nat) (h : eval f env a s = .ok (i, s1)) (hi : i ≠ disablerId) (hv : s1.heap.obj i = .bool true) :
    ∃ j s2, (∀ b, eval f env (.or a b) s = .ok (j, s2)) ∧ s2.heap.obj j = .bool true ∧ s2.out = s1.out ∧ ∀ k < s1.heap.next, s2.heap.obj k = s1.heap.obj k := by
  refine ⟨s1.heap.next, { s1 with heap := Heap.alloc s1.heap (.bool true) }, fun b => ?_, if_pos rfl, rfl, fun k hk => if_neg (by omega)⟩
  simp only [eval, h, Out.ok_bind, cond_bool hi hv, mk]

/-- Otherwise the right operand decides: its effects, failure and truth are those of `a and b` (`a or b`). -/
theorem andor_takes_right (f : Nat) (env : Bytes → Option Nat) (a b : Expr) (s s1 s2 : S) (i j : Nat) (r : Bool) (h : eval f env a s = .ok (i, s1)) (hi : i ≠ disablerId)
    (h2 : eval f env b s1 = .ok (j, s2)) (hj : j ≠ disablerId) (hr : s2.heap.obj j = .bool r) :
    (s1.heap.obj i = .bool true → eval f env (.and a b) s = mk s2 (.bool r)) ∧ (s1.heap.obj i = .bool false → eval f env (.or a b) s = mk s2 (.bool r)) := by
  constructor <;> intro hv <;> simp only [eval, h, h2, Out.ok_bind, cond_bool hi hv, cond_bool hj hr]

/-- C27: only the chosen branch of a conditional expression is evaluated, after its condition. -/
theorem ternary_skips_branch (f : Nat) (env : Bytes → Option Nat) (c a b : Expr) (s s1 : S) (i : Nat) (h : eval f env c s = .ok (i, s1)) (hi : i ≠ disablerId) :
    (s1.heap.obj i = .bool true → eval f env (.ternary c a b) s = eval f env a s1) ∧ (s1.heap.obj i = .bool false → eval f env (.ternary c a b) s = eval f env b s1) := by
  constructor <;> intro hv <;> simp only [eval, h, Out.ok_bind, cond_bool hi hv]

/-- C27: only the chosen branch of `if` is run, after its condition. -/
theorem if_skips_branch (f : Nat) (c : Expr) (a b : Stmt) (st : St) (s1 : S) (i : Nat) (hc : st.ctl = .norm) (h : eval f st.env c st.s = .ok (i, s1)) (hi : i ≠ disablerId) :
    (s1.heap.obj i = .bool true → exec f (.ite c a b) st = exec f a { st with s := s1 }) ∧ (s1.heap.obj i = .bool false → exec f (.ite c a b) st = exec f b { st with s := s1 }) := by
  constructor <;> intro hv <;> rw [exec, if_neg (by rw [hc]; simp)] <;> simp only [h, Out.ok_bind, cond_bool hi hv]

/- `false and nonsense` does not fail although evaluating the variable does. -/
example : output (exec 5 (.expr (.message (.and (.bool false) (.var (nm 'z'))))) start) = some [.bool false] := by with_unfolding_all rfl
example : output (exec 5 (.expr (.var (nm 'z'))) start) = none := by with_unfolding_all rfl

/-! C30 -/

/-- `q` is the quotient of `m` and `n` rounded towards zero, `r` the remainder. -/
def Truncates (m n q r : Int) : Prop := m = n * q + r ∧ r.natAbs < n.natAbs ∧ (0 ≤ m → 0 ≤ r) ∧ (m ≤ 0 → r ≤ 0)

theorem truncates (m n : Int) (hn : n ≠ 0) : Truncates m n (m.tdiv n) (m.tmod n) := by
  refine ⟨(Int.mul_tdiv_add_tmod m n).symm, ?_, fun h => Int.tmod_nonneg n h, fun h => ?_⟩
  · have := Int.natAbs_tmod m n
    rw [this]
    exact Nat.mod_lt _ (by omega)
  · have := Int.tmod_nonneg n (a := -m) (by omega)
    rw [Int.neg_tmod] at this
    omega

theorem truncates_unique {m n q r q' r' : Int} (h : Truncates m n q r) (k : Truncates m n q' r') : q = q' ∧ r = r' := by
  obtain ⟨h1, h2, h3, h4⟩ := h
  obtain ⟨k1, k2, k3, k4⟩ := k
  have hq : q = q' := by
    have e : n * (q - q') = r' - r := by rw [Int.mul_sub]; omega
    have hlt : (r' - r).natAbs < n.natAbs := by
      rcases Int.le_total 0 m with h | h
      · have := h3 h; have := k3 h; omega
      · have := h4 h; have := k4 h; omega
    rw [← e, Int.natAbs_mul] at hlt
    have : (q - q').natAbs = 0 := by
      rcases Nat.eq_zero_or_pos (q - q').natAbs with h | h
      · exact h
      · have := Nat.le_mul_of_pos_right n.natAbs h
        omega
    omega
  subst hq
  exact ⟨rfl, by omega⟩

/-- A 64-bit number. -/
def Spec.Fits (x : Int) : Prop := -2 ^ 63 ≤ x ∧ x < 2 ^ 63

/-- C30 without overflow: sum, difference, product, truncated quotient and remainder are exact if they (for the remainder: the quotient) fit into 64 bits, and division by zero is a reported error. -/
theorem arithmetic_exact_partial (f : Nat) (env : Bytes → Option Nat) (a b : Expr) (s s1 s2 : S) (i j : Nat) (m n : Int)
    (ha : eval f env a s = .ok (i, s1)) (hb : eval f env b s1 = .ok (j, s2)) (hi : i ≠ disablerId) (hj : j ≠ disablerId) (hm : s2.heap.obj i = .num m) (hn : s2.heap.obj j = .num n) :
    let gives := fun op x => ∃ k s3, eval f env (.arith op a b) s = .ok (k, s3) ∧ s3.heap.obj k = .num x ∧ s3.out = s2.out
    (Spec.Fits (m + n) → gives .add (m + n)) ∧ (Spec.Fits (m - n) → gives .sub (m - n)) ∧ (Spec.Fits (m * n) → gives .mul (m * n)) ∧
    (∀ q r, Truncates m n q r → Spec.Fits q → gives .div q ∧ gives .mod r) ∧
    (n = 0 → eval f env (.arith .div a b) s = .error ∧ eval f env (.arith .mod a b) s = .error) := by
  intro gives
  have hd : ¬ (i = disablerId ∨ j = disablerId) := fun h => h.elim hi hj
  have fit : ∀ z : Int, Spec.Fits z → fits z = true := by
    intro z hz
    unfold Spec.Fits at hz
    unfold fits
    rw [Bool.and_eq_true, decide_eq_true_iff, decide_eq_true_iff]
    omega
  have main : ∀ op x, numArith op m n = .ok x → gives op x := fun op x h =>
    ⟨s2.heap.next, { s2 with heap := Heap.alloc s2.heap (.num x) }, by simp only [eval, ha, hb, Out.ok_bind, if_neg hd, arithObj, hm, hn, h, Out.pure_eq], if_pos rfl, rfl⟩
  refine ⟨fun h => main _ _ (if_pos (fit _ h)), fun h => main _ _ (if_pos (fit _ h)), fun h => main _ _ (if_pos (fit _ h)), fun q r ht h => ?_, fun h => ?_⟩
  · have h0 : n ≠ 0 := by
      have := ht.2.1
      omega
    obtain ⟨rfl, rfl⟩ := truncates_unique ht (truncates m n h0)
    refine ⟨main _ _ ?_, main _ _ ?_⟩ <;> unfold numArith <;> dsimp only <;> rw [if_neg h0] <;> exact if_pos (fit _ h)
  · subst h
    constructor <;> simp only [eval, ha, hb, Out.ok_bind, if_neg hd, arithObj, hm, hn, numArith, if_true, Out.error_bind]
example : output (exec 5 (.expr (.message (.arith .div (.num (-7)) (.num 2)))) start) = some [.num (-3)] := by with_unfolding_all rfl
example : output (exec 5 (.expr (.message (.arith .mod (.num (-7)) (.num 2)))) start) = some [.num (-1)] := by with_unfolding_all rfl
example : Truncates (-7) 2 (-3) (-1) := by unfold Truncates; decide

/-- A program that is undefined. -/
def undefined : Out St → Bool
  | .bad => true
  | _ => false

/-- C30 is false in general: `9223372036854775807 + 1`, `-9223372036854775807 - 2`, `4611686018427387904 * 2`, and the least number divided by `-1`,
its remainder and its negation are undefined. -/
theorem overflow_counterexample :
    let min : Expr := .arith .sub (.neg (.num 9223372036854775807)) (.num 1)
    (∀ e ∈ [Expr.arith .add (.num 9223372036854775807) (.num 1), .arith .sub min (.num 1), .arith .mul (.num 4611686018427387904) (.num 2),
      .arith .div min (.neg (.num 1)), .arith .mod min (.neg (.num 1)), .neg min], undefined (exec 5 (.expr e) start) = true) ∧
      undefined (exec 5 (.expr min) start) = false := by
  decide +kernel

/-! C58 -/

/-- C58: the operators on a disabler. `s1`: after evaluating it. -/
theorem disabler_propagates_partial (f : Nat) (env : Bytes → Option Nat) (d : Expr) (s s1 : S) (hd : eval f env d s = .ok (disablerId, s1)) :
    eval f env (.neg d) s = .ok (disablerId, s1) ∧
    eval f env (.not d) s = .ok (disablerId, s1) ∧
    (∀ b, eval f env (.and d b) s = .ok (disablerId, s1)) ∧
    (∀ b, eval f env (.or d b) s = .ok (disablerId, s1)) ∧
    (∀ a b, eval f env (.ternary d a b) s = .ok (disablerId, s1)) ∧
    (0 < f → eval f env (.message d) s = .ok (disablerId, s1)) ∧
    (∀ b j s2, eval f env b s1 = .ok (j, s2) → (∀ op, eval f env (.arith op d b) s = .ok (disablerId, s2)) ∧ (∀ op, eval f env (.cmp op d b) s = .ok (disablerId, s2)) ∧
      eval f env (.index d b) s = .ok (disablerId, s2)) ∧
    (∀ a i s0, eval f env a s0 = .ok (i, s) → (∀ op, eval f env (.arith op a d) s0 = .ok (disablerId, s1)) ∧ (∀ op, eval f env (.cmp op a d) s0 = .ok (disablerId, s1)) ∧
      (i ≠ disablerId → s.heap.obj i = .bool true → eval f env (.and a d) s0 = .ok (disablerId, s1)) ∧
      (i ≠ disablerId → s.heap.obj i = .bool false → eval f env (.or a d) s0 = .ok (disablerId, s1))) := by
  have hc : cond s1.heap disablerId = .ok none := if_pos rfl
  refine ⟨?_, ?_, ?_, ?_, ?_, ?_, ?_, ?_⟩
  · simp only [eval, hd, Out.ok_bind, if_true, Out.pure_eq]
  · simp only [eval, hd, Out.ok_bind, hc, Out.pure_eq]
  · intro b; simp only [eval, hd, Out.ok_bind, hc, Out.pure_eq]
  · intro b; simp only [eval, hd, Out.ok_bind, hc, Out.pure_eq]
  · intro a b; simp only [eval, hd, Out.ok_bind, hc, Out.pure_eq]
  · intro hf
    obtain ⟨g, rfl⟩ : ∃ g, f = g + 1 := ⟨f - 1, by omega⟩
    simp only [eval, hd, Out.ok_bind, messageObj, flatDis, if_true, Out.get, Out.pure_eq]
  · intro b j s2 hb
    refine ⟨fun op => ?_, fun op => ?_, ?_⟩ <;> simp only [eval, hd, hb, Out.ok_bind, true_or, if_true, Out.pure_eq, indexObj]
  · intro a i s0 ha
    refine ⟨fun op => ?_, fun op => ?_, fun hi hv => ?_, fun hi hv => ?_⟩
    · simp only [eval, ha, hd, Out.ok_bind, or_true, if_true, Out.pure_eq]
    · simp only [eval, ha, hd, Out.ok_bind, or_true, if_true, Out.pure_eq]
    · simp only [eval, ha, hd, Out.ok_bind, cond_bool hi hv, hc, Out.pure_eq]
    · simp only [eval, ha, hd, Out.ok_bind, cond_bool hi hv, hc, Out.pure_eq]

/-- C58: an `if` whose condition is a disabler runs no branch. -/
theorem disabler_if (f : Nat) (c : Expr) (a b : Stmt) (st : St) (s1 : S) (hc : st.ctl = .norm) (h : eval f st.env c st.s = .ok (disablerId, s1)) :
    exec f (.ite c a b) st = .ok { st with s := s1 } := by
  rw [exec, if_neg (by rw [hc]; simp)]
  simp only [h, Out.ok_bind, show cond s1.heap disablerId = .ok none from if_pos rfl, Out.pure_eq]

/-- C58: `is_disabler` observes it. -/
theorem is_disabler_observes (f : Nat) (env : Bytes → Option Nat) (d : Expr) (s s1 : S) (i : Nat) (hd : eval f env d s = .ok (i, s1)) (hi : i ≠ nullId) :
    ∃ j s2, eval f env (.isDisabler d) s = .ok (j, s2) ∧ s2.heap.obj j = .bool (i == disablerId) ∧ s2.out = s1.out := by
  exact ⟨s1.heap.next, { s1 with heap := Heap.alloc s1.heap (.bool (i == disablerId)) }, by simp only [eval, hd, Out.ok_bind, if_neg hi, mk], if_pos rfl, rfl⟩

example : eval 5 (fun _ => none) .disabler start.s = .ok (disablerId, start.s) := by with_unfolding_all rfl

/-- C58 is false in general: `[1][disabler()]`, `{'a': 1}[disabler()]` and `{disabler(): 1}` end muon. -/
theorem disabler_index_counterexample :
    (∀ e ∈ [Expr.index (.arr (.of [.num 1])) .disabler, .index (.dict (.cons (.str (nm 'a')) (.num 1) .nil)) .disabler, .dict (.cons .disabler (.num 1) .nil)],
      undefined (exec 5 (.expr e) start) = true) := by
  decide +kernel

/-! C68 -/

/-- C68 except for indices below minus the length: an index in bounds gives that element, counted from the end if it is negative, and an index beyond the end is an error. -/
theorem index_array_partial (f : Nat) (env : Bytes → Option Nat) (a e : Expr) (s s1 s2 : S) (i j : Nat) (l : List Nat) (n : Int)
    (ha : eval f env a s = .ok (i, s1)) (he : eval f env e s1 = .ok (j, s2)) (hi : i ≠ disablerId) (hj : j ≠ disablerId) (hl : s2.heap.obj i = .arr l) (hn : s2.heap.obj j = .num n) :
    (∀ (k : Nat) x, l[k]? = some x → n = k ∨ n = (k : Int) - l.length → eval f env (.index a e) s = .ok (x, s2)) ∧
    (l.length ≤ n → eval f env (.index a e) s = .error) := by
  constructor
  · intro k x hx hk
    have hlt : k < l.length := (List.getElem?_eq_some_iff.1 hx).1
    have hb : boundscheck l.length n = some (k : Int) := by
      unfold boundscheck
      dsimp only
      by_cases h0 : n < 0
      · rw [if_pos h0, if_pos (by omega)]; congr 1; omega
      · rw [if_neg h0, if_pos (by omega)]; congr 1; omega
    simp only [eval, ha, he, Out.ok_bind, indexObj, if_neg hi, if_neg hj, hl, hn, hb, if_neg (show ¬ (k : Int) < 0 by omega), Int.toNat_natCast, hx]
  · intro h
    have hb : boundscheck l.length n = none := by
      unfold boundscheck
      dsimp only
      rw [if_neg (show ¬ n < 0 by omega), if_neg (by omega)]
    simp only [eval, ha, he, Out.ok_bind, indexObj, if_neg hi, if_neg hj, hl, hn, hb]
example : output (exec 5 (.expr (.message (.index (.arr (.of [.num 5, .num 6])) (.neg (.num 2))))) start) = some [.num 5] := by with_unfolding_all rfl

/-- C68 is false in general: `[1][-2]` ends muon, and `'a'[-2]` reads memory before the string. -/
theorem negative_index_counterexample : ∀ e ∈ [Expr.index (.arr (.of [.num 1])) (.neg (.num 2)), .index (.str (nm 'a')) (.neg (.num 2))], undefined (exec 5 (.expr e) start) = true := by
  decide +kernel

end Muon.Interp
