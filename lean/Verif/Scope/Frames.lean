import Verif.Scope.Lemmas
import Verif.Scope.Spec
namespace Muon.Scope
open Muon Muon.Scope.Spec
open Muon.Interp (Out Ctl)

theorem leave_st {f : Fn} {old st r} (h : leave f old st = .ok r) :
    r.2.stacks = (st.on st.cur List.tail).stacks ∧ r.2.cur = old ∧ r.2.fns = st.fns ∧ r.1 = st.returned := by
  unfold leave at h
  split at h
  · cases h
  · rw [← Out.ok.inj h]; exact ⟨rfl, rfl, rfl, rfl⟩

/-- Functions remain, scope stacks remain and have the same size, the stack in use is the same. -/
def Bal (st st' : St) : Prop :=
  st'.cur = st.cur ∧ (∀ f ∈ st.fns, f ∈ st'.fns) ∧ st.stacks.length ≤ st'.stacks.length ∧
  ∀ i, i < st.stacks.length → (st'.stacks[i]?).map List.length = (st.stacks[i]?).map List.length

theorem Bal.rfl' (st : St) : Bal st st := ⟨rfl, fun _ h => h, Nat.le_refl _, fun _ _ => rfl⟩

theorem Bal.trans' {a b c : St} (h : Bal a b) (g : Bal b c) : Bal a c :=
  ⟨g.1.trans h.1, fun f hf => g.2.1 f (h.2.1 f hf), Nat.le_trans h.2.2.1 g.2.2.1,
    fun i hi => (g.2.2.2 i (Nat.lt_of_lt_of_le hi h.2.2.1)).trans (h.2.2.2 i hi)⟩

theorem Bal.on' (st : St) (i : Nat) (g : List Scope → List Scope) (hg : ∀ l, (g l).length = l.length) : Bal st (st.on i g) := by
  refine ⟨rfl, fun _ h => h, Nat.le_of_eq (on_length _ _ _).symm, fun k hk => ?_⟩
  by_cases e : i = k
  · subst e
    rw [on_eq, Option.map_map]
    congr 1
    exact funext hg
  · rw [on_ne _ _ e]

theorem closedTrue : Closed fun _ => True :=
  ⟨fun _ _ _ => ⟨trivial, trivial⟩, fun _ _ _ _ => ⟨trivial, trivial⟩, fun _ _ _ _ => trivial, fun _ _ _ _ _ _ => trivial⟩

theorem dup_get (st : St) {i : Nat} (hi : i < st.stacks.length) : (st.stacks ++ [st.here])[i]? = st.stacks[i]? :=
  List.getElem?_append_left hi

theorem balRel : Rel (fun _ => True) (fun _ => True) Bal Bal where
  refl := Bal.rfl'
  trans := fun _ _ _ h g => h.trans' g
  weak := fun _ _ h => h
  xtrans := fun _ _ _ h g => h.trans' g
  same := fun st st' h1 h2 h3 _ => ⟨trivial, h2, by rw [h3]; exact fun _ h => h, by rw [h1]; exact Nat.le_refl _, fun i _ => by rw [h1]⟩
  locals := fun st x v _ => ⟨trivial, Bal.on' _ _ _ (putLocal_length x v)⟩
  found := fun st x v _ _ _ => ⟨trivial, Bal.on' _ _ _ (putFound_length x v)⟩
  unset := fun st x _ _ => ⟨trivial, Bal.on' _ _ _ (delFound_length x)⟩
  dup := fun st _ => ⟨trivial, rfl, fun _ h => h, by simp, fun i hi => by rw [dup_get st hi]⟩
  define := fun st st' name pos ds any body _ _ _ _ => by
    refine ⟨trivial, ?_⟩
    have h : Bal st' { st' with fns := st'.fns ++ [⟨pos, ds, any, body, st.stacks.length⟩] } :=
      ⟨rfl, fun f hf => List.mem_append_left _ hf, Nat.le_refl _, fun _ _ => rfl⟩
    exact h.trans' (Bal.on' _ _ _ (putLocal_length _ _))
  body := fun _ _ _ _ => trivial
  mem := fun _ _ f h hf => h.2.1 f hf
  enter := fun _ _ _ _ _ _ => trivial
  leave := fun st st' f v k r _ hf _ hx h => by
    obtain ⟨e1, e2, e3, -⟩ := leave_st h
    obtain ⟨x1, x2, x3, x4⟩ := hx
    have x1 : st'.cur = f.stack := x1
    have x3 : st.stacks.length ≤ st'.stacks.length := by rw [St.enter] at x3; simpa [on_length] using x3
    refine ⟨trivial, e2, fun g hg => by rw [e3]; exact x2 g hg, by rw [e1, on_length]; exact x3, fun i hi => ?_⟩
    have x4 := x4 i (by rw [St.enter]; simpa [on_length] using hi)
    rw [e1, x1]
    by_cases e : f.stack = i
    · subst e
      rw [on_eq]
      have e4 : (st.enter f v k).stacks[f.stack]? = (st.stacks[f.stack]?).map (params f v k :: ·) := on_eq st _ _
      rw [e4] at x4
      cases ha : st.stacks[f.stack]? with
      | none => rw [List.getElem?_eq_none_iff] at ha; omega
      | some a =>
        cases hb : st'.stacks[f.stack]? with
        | none => rw [ha, hb] at x4; simp at x4
        | some b => rw [ha, hb] at x4; simp at x4; simp [x4]
    · rw [on_ne _ _ e]
      have e4 : (st.enter f v k).stacks[i]? = st.stacks[i]? := on_ne st _ e
      rw [x4, e4]

/-- Stack `j` remains. -/
def KeepsE (j : Nat) (st st' : St) : Prop := Bal st st' ∧ st'.stacks[j]? = st.stacks[j]?
def KeepsX (j : Nat) (st st' : St) : Prop := Bal st st' ∧ (st.cur ≠ j → st'.stacks[j]? = st.stacks[j]?)

theorem own_on {j : Nat} {st : St} (h : Own j st) (i g) : Own j (st.on i g) := ⟨by rw [on_length]; exact h.1, h.2⟩

theorem keepsRel (j : Nat) : Rel (fun _ => True) (Own j) (KeepsE j) (KeepsX j) where
  refl := fun st => ⟨Bal.rfl' st, rfl⟩
  trans := fun _ _ _ h g => ⟨h.1.trans' g.1, g.2.trans h.2⟩
  weak := fun _ _ h => ⟨h.1, fun _ => h.2⟩
  xtrans := fun _ _ _ h g => ⟨h.1.trans' g.1, fun hc => (g.2 (by rw [h.1.1]; exact hc)).trans (h.2 hc)⟩
  same := fun st st' h1 h2 h3 hi => ⟨⟨by rw [h1]; exact hi.1, by rw [h3]; exact hi.2⟩, (balRel.same st st' h1 h2 h3 trivial).2, by rw [h1]⟩
  locals := fun st x v hi => ⟨own_on hi _ _, (balRel.locals st x v trivial).2, fun hc => on_ne _ _ hc⟩
  found := fun st x v e _ hi => ⟨own_on hi _ _, (balRel.found st x v e trivial trivial).2, fun hc => on_ne _ _ hc⟩
  unset := fun st x _ hi => ⟨own_on hi _ _, (balRel.unset st x trivial trivial).2, fun hc => on_ne _ _ hc⟩
  dup := fun st hi => ⟨⟨by simp; exact Nat.lt_succ_of_lt hi.1, hi.2⟩, (balRel.dup st trivial).2, dup_get st hi.1⟩
  define := fun st st' name pos ds any body _ hi hi' he => by
    have ho : Own j { st' with fns := st'.fns ++ [⟨pos, ds, any, body, st.stacks.length⟩] } := by
      refine ⟨hi'.1, fun f hf => ?_⟩
      rcases List.mem_append.1 hf with hf | hf
      · exact hi'.2 f hf
      · rw [List.mem_singleton.1 hf]; exact Nat.ne_of_gt hi.1
    exact ⟨own_on ho _ _, (balRel.define st st' name pos ds any body trivial trivial trivial he.1).2, fun hc => on_ne _ _ hc⟩
  body := fun _ _ _ _ => trivial
  mem := fun _ _ f h hf => h.1.2.1 f hf
  enter := fun st f v k hi _ => own_on hi _ _
  leave := fun st st' f v k r hi hf hi' hx h => by
    obtain ⟨e1, e2, e3, -⟩ := leave_st h
    have hb := (balRel.leave st st' f v k r trivial hf trivial hx.1 h).2
    have hne : f.stack ≠ j := hi.2 f hf
    have x1 : st'.cur = f.stack := hx.1.1
    refine ⟨⟨by rw [e1, on_length]; exact hi'.1, by rw [e3]; exact hi'.2⟩, hb, ?_⟩
    rw [e1, x1, on_ne _ _ hne, hx.2 hne]
    exact on_ne st _ hne

/-- All stacks remain. -/
def AllE (st st' : St) : Prop := Bal st st' ∧ ∀ i, i < st.stacks.length → st'.stacks[i]? = st.stacks[i]?
def AllX (st st' : St) : Prop := Bal st st' ∧ ∀ i, i < st.stacks.length →
  (i ≠ st.cur → st'.stacks[i]? = st.stacks[i]?) ∧ (st'.stacks[i]?).map List.tail = (st.stacks[i]?).map List.tail

theorem closedQuiet : Closed Quiet := ⟨fun _ _ h => h, fun _ _ _ h => h, fun _ _ _ h => h, fun _ _ _ _ _ h => h⟩

theorem putLocal_tail (x v) (l : List Scope) : (putLocal x v l).tail = l.tail := by cases l <;> rfl

theorem allX_local (st : St) (x v) : AllX st (st.on st.cur (putLocal x v)) := by
  refine ⟨(balRel.locals st x v trivial).2, fun i hi => ⟨fun hc => on_ne _ _ (Ne.symm hc), ?_⟩⟩
  by_cases e : st.cur = i
  · subst e
    rw [on_eq, Option.map_map]
    congr 1
    exact funext (putLocal_tail x v)
  · rw [on_ne _ _ e]

theorem quietRel : Rel Quiet (fun st => ∀ f ∈ st.fns, Quiet f.body) AllE AllX where
  refl := fun st => ⟨Bal.rfl' st, fun _ _ => rfl⟩
  trans := fun _ _ _ h g => ⟨h.1.trans' g.1, fun i hi => (g.2 i (Nat.lt_of_lt_of_le hi h.1.2.2.1)).trans (h.2 i hi)⟩
  weak := fun _ _ h => ⟨h.1, fun i hi => ⟨fun _ => h.2 i hi, by rw [h.2 i hi]⟩⟩
  xtrans := fun _ _ _ h g => ⟨h.1.trans' g.1, fun i hi =>
    ⟨fun hc => ((g.2 i (Nat.lt_of_lt_of_le hi h.1.2.2.1)).1 (by rw [h.1.1]; exact hc)).trans ((h.2 i hi).1 hc),
     (g.2 i (Nat.lt_of_lt_of_le hi h.1.2.2.1)).2.trans (h.2 i hi).2⟩⟩
  same := fun st st' h1 h2 h3 hi => ⟨by rw [h3]; exact hi, (balRel.same st st' h1 h2 h3 trivial).2, fun _ _ => by rw [h1]⟩
  locals := fun st x v hi => ⟨hi, allX_local st x v⟩
  found := fun _ _ _ _ h => h.elim
  unset := fun _ _ h => h.elim
  dup := fun st hi => ⟨hi, (balRel.dup st trivial).2, fun i h => dup_get st h⟩
  define := fun st st' name pos ds any body hq _ hi' he => by
    refine ⟨fun f hf => ?_, ?_⟩
    · rcases List.mem_append.1 hf with hf | hf
      · exact hi' f hf
      · rw [List.mem_singleton.1 hf]; exact hq
    · have := allX_local { st' with fns := st'.fns ++ [⟨pos, ds, any, body, st.stacks.length⟩] } name (.fn st'.fns.length)
      exact ⟨(balRel.define st st' name pos ds any body trivial trivial trivial he.1).2, this.2⟩
  body := fun _ f h hf => h f hf
  mem := fun _ _ f h hf => h.1.2.1 f hf
  enter := fun st f v k hi _ => hi
  leave := fun st st' f v k r hi hf hi' hx h => by
    obtain ⟨e1, e2, e3, -⟩ := leave_st h
    have hb := (balRel.leave st st' f v k r trivial hf trivial hx.1 h).2
    have x1 : st'.cur = f.stack := hx.1.1
    refine ⟨by rw [e3]; exact hi', hb, fun i hi => ?_⟩
    obtain ⟨y1, y2⟩ := hx.2 i (by rw [St.enter]; simpa [on_length] using hi)
    rw [e1, x1]
    by_cases e : f.stack = i
    · subst e
      have e4 : (st.enter f v k).stacks[f.stack]? = (st.stacks[f.stack]?).map (params f v k :: ·) := on_eq st _ _
      rw [on_eq, y2, e4, Option.map_map]
      cases st.stacks[f.stack]? <;> rfl
    · rw [on_ne _ _ e, y1 (fun h => e h.symm)]
      exact on_ne st _ e

end Muon.Scope
