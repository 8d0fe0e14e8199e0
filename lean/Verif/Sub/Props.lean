import Verif.Sub.Spec
import Verif.Version.Props
/-
Subprojects (C101).
-/
namespace Muon.Sub
open Muon Spec

theorem extends_refl {σ : Type} (st : St σ) : Extends st st :=
  ⟨rfl, Nat.le_refl _, fun _ _ _ => rfl, fun p h => ⟨p, h, rfl, rfl, rfl, rfl⟩, fun _ _ h => h, fun n id h h' => by rw [h] at h'; cases h'⟩

theorem extends_project {σ : Type} {b c : St σ} (h : Extends b c) {id : Nat} {n : Bytes}
    (hp : ∃ p, b.projects[id]? = some p ∧ p.name = n ∧ p.notOk = false) : ∃ p, c.projects[id]? = some p ∧ p.name = n ∧ p.notOk = false := by
  obtain ⟨p, hp, h1, h2⟩ := hp
  by_cases e : id = b.cur
  · subst e
    obtain ⟨p', hp', e1, _, _, e4⟩ := h.own p hp
    exact ⟨p', hp', e1.trans h1, e4.trans h2⟩
  · refine ⟨p, ?_, h1, h2⟩
    rw [h.others id ?_ e, hp]
    have := (List.getElem?_eq_some_iff.1 hp).1
    exact this

theorem extends_trans {σ : Type} {a b c : St σ} (h : Extends a b) (h' : Extends b c) : Extends a c := by
  refine ⟨h'.cur.trans h.cur, Nat.le_trans h.length h'.length, ?_, ?_, fun n id hn => h'.known n id (h.known n id hn), ?_⟩
  · intro i hi hne
    rw [h'.others i (Nat.lt_of_lt_of_le hi h.length) (by rw [h.cur]; exact hne), h.others i hi hne]
  · intro p hp
    obtain ⟨p1, h1, e1, e2, e3, e4⟩ := h.own p hp
    obtain ⟨p2, h2, f1, f2, f3, f4⟩ := h'.own p1 (by rw [h.cur]; exact h1)
    rw [h.cur] at h2
    exact ⟨p2, h2, f1.trans e1, f2.trans e2, f3.trans e3, f4.trans e4⟩
  · intro n id hn hc
    cases hb : b.cache n with
    | none => exact ⟨Nat.le_trans h.length (h'.fresh n id hb hc).1, (h'.fresh n id hb hc).2⟩
    | some id' =>
      have := h'.known n id' hb
      rw [this] at hc
      cases hc
      obtain ⟨h1, h2⟩ := h.fresh n id hn hb
      exact ⟨h1, extends_project h' h2⟩

theorem extends_modify {σ : Type} (st : St σ) (f : Proj → Proj) (hf : ∀ p, (f p).name = p.name ∧ (f p).cwd = p.cwd ∧ (f p).build = p.build ∧ (f p).notOk = p.notOk) :
    Extends st (st.modify f) := by
  refine ⟨rfl, by simp [St.modify], ?_, ?_, fun _ _ h => h, fun n id h h' => by simp only [St.modify] at h'; rw [h] at h'; cases h'⟩
  · intro i _ hne
    simp only [St.modify, List.getElem?_modify, if_neg (Ne.symm hne)]
    simp
  · intro p hp
    refine ⟨f p, ?_, hf p⟩
    simp [St.modify, hp]

theorem ordered_new {σ : Type} {st : St σ} (ho : Ordered st) (n : Bytes) : st.cache n ≠ some st.projects.length := by
  intro h
  obtain ⟨p, hp, _⟩ := ho.cache n _ h
  simp at hp

theorem ordered_extends {σ : Type} {st st' : St σ} (ho : Ordered st) (h : Extends st st') : Ordered st' := by
  refine ⟨by rw [h.cur]; exact Nat.lt_of_lt_of_le ho.cur h.length, fun n id hc => ?_⟩
  cases hn : st.cache n with
  | none => exact (h.fresh n id hn hc).2
  | some id' =>
    have := h.known n id' hn
    rw [this] at hc; cases hc
    exact extends_project h (ho.cache n id hn)

theorem run_extends {σ : Type} (call : St σ → Call → Out σ Obj)
    (hcall : ∀ st c st' r, Ordered st → call st c = .ret st' r → Extends st st') (p : Prog) :
    ∀ st st' r, Ordered st → run call p st = .ret st' r → Extends st st' := by
  induction p with
  | stop ok => intro st st' r _ h; simp only [run] at h; cases h; exact extends_refl st
  | project v d k ih =>
    intro st st' r hl h
    unfold run at h
    have h1 : Extends st (st.modify fun p => { p with version := v, subprojects := d }) := extends_modify st _ (fun p => ⟨rfl, rfl, rfl, rfl⟩)
    exact extends_trans h1 (ih _ _ _ (ordered_extends hl h1) h)
  | set x v k ih =>
    intro st st' r hl h
    unfold run at h
    have h1 : Extends st (st.modify fun p => { p with vars := fun y => if y = x then some v else p.vars y }) := extends_modify st _ (fun p => ⟨rfl, rfl, rfl, rfl⟩)
    exact extends_trans h1 (ih _ _ _ (ordered_extends hl h1) h)
  | get x k ih => intro st st' r hl h; exact ih _ _ _ _ hl h
  | target t k ih =>
    intro st st' r hl h
    unfold run at h
    have h1 : Extends st (st.modify fun p => { p with targets := p.targets ++ [t] }) := extends_modify st _ (fun p => ⟨rfl, rfl, rfl, rfl⟩)
    exact extends_trans h1 (ih _ _ _ (ordered_extends hl h1) h)
  | sub c k ih =>
    intro st st' r hl h
    unfold run at h
    cases hc : call st c with
    | deep => rw [hc] at h; cases h
    | bad => rw [hc] at h; cases h
    | ret st1 o =>
      have h1 := hcall st c st1 o hl hc
      rw [hc] at h
      cases o with
      | none => cases h; exact h1
      | some o => exact extends_trans h1 (ih o _ _ _ (ordered_extends hl h1) h)
  | member o x k ih =>
    intro st st' r hl h
    unfold run at h
    cases o with
    | missing => cases h; exact extends_refl st
    | found id => exact ih _ _ _ _ hl h

/-- What a call of `subproject()` may do: all projects are as before. -/
structure Beside {σ : Type} (st st' : St σ) : Prop where
  ext : Extends st st'
  all : ∀ i, i < st.projects.length → st'.projects[i]? = st.projects[i]?

theorem beside_files {σ : Type} (st : St σ) (s : σ) : Beside st { st with files := s } :=
  ⟨⟨rfl, Nat.le_refl _, fun _ _ _ => rfl, fun p h => ⟨p, h, rfl, rfl, rfl, rfl⟩, fun _ _ h => h, fun n id h h' => by
    simp only [] at h'; rw [h] at h'; cases h'⟩, fun _ _ => rfl⟩

theorem beside_trans {σ : Type} {a b c : St σ} (h : Beside a b) (h' : Beside b c) : Beside a c :=
  ⟨extends_trans h.ext h'.ext, fun i hi => (h'.all i (Nat.lt_of_lt_of_le hi h.ext.length)).trans (h.all i hi)⟩

theorem beside_mk {σ : Type} {st st' : St σ} (hl : st.cur < st.projects.length) (hcur : st'.cur = st.cur) (hlen : st.projects.length ≤ st'.projects.length)
    (hall : ∀ i, i < st.projects.length → st'.projects[i]? = st.projects[i]?) (hk : ∀ n id, st.cache n = some id → st'.cache n = some id)
    (hf : ∀ n id, st.cache n = none → st'.cache n = some id → st.projects.length ≤ id ∧ ∃ p, st'.projects[id]? = some p ∧ p.name = n ∧ p.notOk = false) :
    Beside st st' := by
  refine ⟨⟨hcur, hlen, fun i hi _ => hall i hi, fun p hp => ⟨p, ?_, rfl, rfl, rfl, rfl⟩, hk, hf⟩, hall⟩
  rw [hall _ hl]; exact hp

/-- What the evaluation of a project adds: a project with this name and place. -/
theorem evalProject_spec {σ : Type} (E : Env σ) (ev : Prog → St σ → Out σ Unit)
    (hev : ∀ p st st' r, Ordered st → ev p st = .ret st' r → Extends st st')
    (st st' : St σ) (name cwd build : Bytes) (r : Option Unit) (ho : Ordered st) (h : evalProject E ev st name cwd build = .ret st' r) :
    (Beside st st' ∧ ∃ p, st'.projects[st.projects.length]? = some p ∧ p.name = name ∧ p.cwd = cwd ∧ p.build = build ∧ p.notOk = false) ∧
    ∀ n, st'.cache n ≠ some st.projects.length := by
  have hl := ho.cur
  have hlast : (st.projects ++ [({ name := name, cwd := cwd, build := build } : Proj)])[st.projects.length]? = some { name := name, cwd := cwd, build := build } := by
    simp
  have hall : ∀ i, i < st.projects.length → (st.projects ++ [({ name := name, cwd := cwd, build := build } : Proj)])[i]? = st.projects[i]? :=
    fun i hi => List.getElem?_append_left hi
  have hstop : ∀ s : St σ, s = { st with projects := st.projects ++ [{ name := name, cwd := cwd, build := build }] } →
      (Beside st s ∧ ∃ p, s.projects[st.projects.length]? = some p ∧ p.name = name ∧ p.cwd = cwd ∧ p.build = build ∧ p.notOk = false) ∧
      ∀ n, s.cache n ≠ some st.projects.length := by
    rintro s rfl
    exact ⟨⟨beside_mk hl rfl (by simp) hall (fun _ _ h => h) (fun n id h h' => by simp only [] at h'; rw [h] at h'; cases h'), _, hlast, rfl, rfl, rfl, rfl⟩,
      fun n => ordered_new ho n⟩
  unfold evalProject at h
  simp only [] at h
  split at h
  · cases h; exact hstop _ rfl
  · split at h
    · cases h; exact hstop _ rfl
    · rename_i content _
      cases hr : ev (E.prog content) { st with projects := st.projects ++ [{ name := name, cwd := cwd, build := build }], cur := st.projects.length } with
      | deep => rw [hr] at h; cases h
      | bad => rw [hr] at h; cases h
      | ret st2 r2 =>
        rw [hr] at h
        cases h
        have ho1 : Ordered ({ st with projects := st.projects ++ [{ name := name, cwd := cwd, build := build }], cur := st.projects.length } : St σ) :=
          ⟨by simp, fun n id hc => let ⟨p, hp, h1⟩ := ho.cache n id hc
            ⟨p, (hall id (List.getElem?_eq_some_iff.1 hp).1).trans hp, h1⟩⟩
        have hx := hev _ _ _ _ ho1 hr
        obtain ⟨p', hp', e1, e2, e3, e4⟩ := hx.own _ hlast
        refine ⟨⟨beside_mk hl rfl ?_ ?_ hx.known ?_, p', hp', e1, e2, e3, e4⟩, ?_⟩
        · have := hx.length; simp only [List.length_append, List.length_cons] at this; show st.projects.length ≤ st2.projects.length; omega
        · intro i hi
          exact (hx.others i (by simp; omega) (Nat.ne_of_lt hi)).trans (hall i hi)
        · intro n id hn hc
          obtain ⟨h1, h2⟩ := hx.fresh n id hn hc
          simp only [List.length_append, List.length_cons] at h1
          exact ⟨by omega, h2⟩
        · intro n hc
          simp only [] at hc
          cases hb : st.cache n with
          | none => have := (hx.fresh n _ hb hc).1; simp at this; omega
          | some id => rw [hx.known n id hb] at hc; exact ordered_new ho n (by rw [hb]; exact hc)

theorem notFound_spec {σ : Type} (st0 st st' : St σ) (id : Nat) (req : Req) (r : Option Obj) (h : notFound st id req = .ret st' r)
    (hl : st0.cur < st0.projects.length) (hid : id = st0.projects.length) (hb : Beside st0 st) (hnc : ∀ n, st.cache n ≠ some id) :
    Beside st0 st' ∧ (r = some .missing ∨ r = none) ∧ (r = none ↔ req = .required) ∧ ∀ p, st'.projects[id]? = some p → p.notOk = true := by
  unfold notFound at h
  simp only [] at h
  rw [if_neg (by omega)] at h
  cases h
  refine ⟨beside_mk hl hb.ext.cur (by simpa using hb.ext.length) ?_ hb.ext.known ?_, ?_, ?_, ?_⟩
  · intro i hi
    simp only [List.getElem?_modify, if_neg (show id ≠ i from by omega)]
    rw [← hb.all i hi]; simp
  · intro n i hn hc
    obtain ⟨h1, p, hp, h2, h3⟩ := hb.ext.fresh n i hn hc
    refine ⟨h1, ?_⟩
    have hne : id ≠ i := by
      intro e; subst e; exact hnc n hc
    exact ⟨p, by simp only [List.getElem?_modify, if_neg hne]; rw [hp]; rfl, h2, h3⟩
  · split
    · exact .inr rfl
    · exact .inl rfl
  · split <;> simp_all
  · intro p hp
    simp only [List.getElem?_modify, if_pos] at hp
    cases hq : st.projects[id]? with
    | none => rw [hq] at hp; cases hp
    | some q => rw [hq] at hp; cases hp; rfl

theorem finish_spec {σ : Type} (E : Env σ) (st0 st st' : St σ) (name build : Bytes) (id : Nat) (r : Option Obj) (h : finish E st name id build = .ret st' r)
    (hl : st0.cur < st0.projects.length) (hid : id = st0.projects.length) (hn : st0.cache name = none) (hb : Beside st0 st)
    (hp : ∃ p, st.projects[id]? = some p ∧ p.name = name ∧ p.notOk = false) :
    Beside st0 st' ∧ st'.projects = st.projects ∧ (∀ n, st'.cache n = if n = name then some id else st.cache n) ∧ (r = some (.found id) ∨ r = none) := by
  have key : ∀ s : St σ, s.cur = st.cur → s.projects = st.projects → (∀ n, s.cache n = if n = name then some id else st.cache n) →
      Beside st0 s := by
    intro s h1 h2 h3
    refine beside_mk hl (h1.trans hb.ext.cur) (by rw [h2]; exact hb.ext.length) (fun i hi => by rw [h2]; exact hb.all i hi) ?_ ?_
    · intro n i hni
      rw [h3, if_neg (by intro e; rw [e, hn] at hni; cases hni)]
      exact hb.ext.known n i hni
    · intro n i hni hc
      rw [h3] at hc
      by_cases e : n = name
      · rw [if_pos e] at hc; cases hc; rw [h2, e]; exact ⟨by omega, hp⟩
      · rw [if_neg e] at hc; rw [h2]; exact hb.ext.fresh n i hni hc
  unfold finish at h
  simp only [] at h
  split at h
  · generalize E.host.mkdir _ build = x at h
    obtain ⟨s, b⟩ := x
    cases b with
    | true => cases h; exact ⟨key _ rfl rfl (fun _ => rfl), rfl, fun _ => rfl, .inl rfl⟩
    | false => cases h; exact ⟨key _ rfl rfl (fun _ => rfl), rfl, fun _ => rfl, .inr rfl⟩
  · cases h; exact ⟨key _ rfl rfl (fun _ => rfl), rfl, fun _ => rfl, .inl rfl⟩

/-- What a call that has to evaluate the subproject leads to. -/
structure Fresh {σ : Type} (st : St σ) (c : Call) (st' : St σ) (r : Option Obj) : Prop where
  beside : Beside st st'
  found : ∀ id, r = some (.found id) → id = st.projects.length ∧ st'.cache c.name = some id ∧
    ∃ p, st'.projects[id]? = some p ∧ p.name = c.name ∧ p.notOk = false ∧
      ∀ vs, c.version = some vs → c.req = .required → vs ≠ [] ∧ ∀ v ∈ vs, Version.versionCompare1 p.version v = true
  required : c.req = .required → r ≠ some .missing
  missing : r = some .missing → ∀ p, st'.projects[st.projects.length]? = some p → p.notOk = true

theorem evaluate_spec {σ : Type} (E : Env σ) (ev : Prog → St σ → Out σ Unit)
    (hev : ∀ p st st' r, Ordered st → ev p st = .ret st' r → Extends st st')
    (st st' : St σ) (c : Call) (cwd build build0 : Bytes) (r : Option Obj) (ho : Ordered st) (hn : st.cache c.name = none)
    (h : evaluate E ev st c cwd build build0 = .ret st' r) : Fresh st c st' r := by
  unfold evaluate at h
  split at h
  · cases h
    refine ⟨beside_files st st.files, fun _ h => (by cases h), fun _ h => (by cases h), fun h => (by cases h)⟩
  · cases he : evalProject E ev st c.name cwd build with
    | deep => rw [he] at h; cases h
    | bad => rw [he] at h; cases h
    | ret st1 o =>
      rw [he] at h
      obtain ⟨⟨hb, p, hp, e1, e2, e3, e4⟩, hnc⟩ := evalProject_spec E ev hev st st1 c.name cwd build o ho he
      have hfail : notFound st1 st.projects.length c.req = .ret st' r → Fresh st c st' r := by
        intro h
        obtain ⟨h1, h2, h3, h4⟩ := notFound_spec st st1 st' _ c.req r h ho.cur rfl hb hnc
        refine ⟨h1, ?_, ?_, fun _ => h4⟩
        · intro id hid
          rcases h2 with h2 | h2 <;> rw [h2] at hid <;> cases hid
        · intro hr; rw [h3.2 hr]; simp
      cases o with
      | none => exact hfail h
      | some u =>
        simp only [] at h
        split at h
        · exact hfail h
        · rename_i href
          obtain ⟨h1, h2, h3, h4⟩ := finish_spec E st st1 st' c.name build0 _ r h ho.cur rfl hn hb ⟨p, hp, e1, e4⟩
          refine ⟨h1, ?_, ?_, ?_⟩
          · intro id hid
            rcases h4 with h4 | h4
            · rw [h4] at hid
              cases hid
              refine ⟨rfl, by rw [h3, if_pos rfl], p, by rw [h2]; exact hp, e1, e4, ?_⟩
              intro vs hvs hreq
              rw [hp] at href
              unfold refused at href
              rw [hvs, hreq] at href
              exact (Version.version_compare_all _ _).1 (by simpa using href)
            · rw [h4] at hid; cases hid
          · intro _ hm
            rcases h4 with h4 | h4 <;> rw [h4] at hm <;> cases hm
          · intro hm
            rcases h4 with h4 | h4 <;> rw [h4] at hm <;> cases hm

theorem fresh_spec {σ : Type} (E : Env σ) (ev : Prog → St σ → Out σ Unit)
    (hev : ∀ p st st' r, Ordered st → ev p st = .ret st' r → Extends st st')
    (st st' : St σ) (c : Call) (r : Option Obj) (ho : Ordered st) (hn : st.cache c.name = none) (h : fresh E ev st c = .ret st' r) :
    Fresh st c st' r := by
  have hnone : ∀ s : σ, ∀ p, ({ st with files := s } : St σ).projects[st.projects.length]? = some p → p.notOk = true := by
    intro s p hp; simp at hp
  unfold fresh at h
  split at h
  · rename_i hs
    cases h
    exact ⟨beside_files st st.files, fun _ h => (by cases h), fun h => (by rw [hs] at h; cases h), fun _ => hnone st.files⟩
  · cases hc : st.current with
    | none => rw [hc] at h; cases h
    | some p =>
      rw [hc] at h
      simp only [] at h
      have hprep : ∀ s, prepare E.host st.files (subDir p.cwd p.subprojects c.name) (subDir p.build p.subprojects c.name) (c.req = .required) E.download = .ok (s, .missing) →
          c.req ≠ .required := by
        intro s hm hreq
        have hnp : noProject true ≠ .missing := by decide
        have hcf : ∀ s a b, checkFile E.host s a b true ≠ .missing := by
          intro s a b; unfold checkFile; split
          · simp
          · exact hnp
        rw [hreq] at hm
        simp only [decide_true] at hm
        unfold prepare at hm
        split at hm
        · exact hcf _ _ _ (congrArg Prod.snd (Res.ok.inj hm))
        · split at hm
          · exact hnp (congrArg Prod.snd (Res.ok.inj hm))
          · obtain ⟨⟨s1, w⟩, _, h2⟩ := Res.bind_eq_ok.1 hm
            cases w with
            | none => exact hnp (congrArg Prod.snd (Res.ok.inj h2))
            | some w => exact hcf _ _ _ (congrArg Prod.snd (Res.ok.inj h2))
      cases hp : prepare E.host st.files (subDir p.cwd p.subprojects c.name) (subDir p.build p.subprojects c.name) (c.req = .required) E.download with
      | bad => rw [hp] at h; cases h
      | error => rw [hp] at h; cases h
      | ok x =>
        obtain ⟨s, x⟩ := x
        rw [hp] at h
        cases x with
        | fail =>
          cases h
          exact ⟨beside_files st s, fun _ h => (by cases h), fun _ h => (by cases h), fun h => (by cases h)⟩
        | missing =>
          cases h
          exact ⟨beside_files st s, fun _ h => (by cases h), fun h => absurd h (hprep s hp), fun _ => hnone s⟩
        | there cwd build =>
          have := evaluate_spec E ev hev { st with files := s } st' c cwd build _ r ⟨ho.cur, ho.cache⟩ hn h
          exact ⟨beside_trans (beside_files st s) this.beside, this.found, this.required, this.missing⟩

theorem subproject_extends {σ : Type} (E : Env σ) (ev : Prog → St σ → Out σ Unit)
    (hev : ∀ p st st' r, Ordered st → ev p st = .ret st' r → Extends st st')
    (st st' : St σ) (c : Call) (r : Option Obj) (ho : Ordered st) (h : subproject E ev st c = .ret st' r) : Beside st st' := by
  unfold subproject at h
  cases hc : st.cache c.name with
  | some id => rw [hc] at h; cases h; exact beside_files st st.files
  | none => rw [hc] at h; exact (fresh_spec E ev hev st st' c r ho hc h).beside

/-- Whatever a project file does, with subprojects in subprojects to any depth, and whether it fails or not: it ends with the project it
began with, leaves all other projects as they are, and keeps what is known of subprojects. -/
theorem eval_extends {σ : Type} (E : Env σ) (n : Nat) : ∀ (p : Prog) (st st' : St σ) (r : Option Unit), Ordered st → eval E n p st = .ret st' r →
    Extends st st' := by
  induction n with
  | zero => exact fun p => run_extends _ (fun _ _ _ _ _ h => by cases h) p
  | succ n ih => exact fun p => run_extends _ (fun st c st' r ho h => (subproject_extends E _ ih st st' c r ho h).ext) p

/-- The workspace stays in order. -/
theorem eval_ordered {σ : Type} (E : Env σ) (n : Nat) (p : Prog) (st st' : St σ) (r : Option Unit) (ho : Ordered st) (h : eval E n p st = .ret st' r) :
    Ordered st' := ordered_extends ho (eval_extends E n p st st' r ho h)

theorem start_ordered {σ : Type} (files : σ) (cwd build : Bytes) : Ordered (start files cwd build) :=
  ⟨by simp [start], fun n id h => by simp [start] at h⟩

/-- A call of `subproject()` changes no project that was there, the calling one included, even if it fails. -/
theorem isolated {σ : Type} (E : Env σ) (n : Nat) (st st' : St σ) (c : Call) (r : Option Obj) (ho : Ordered st)
    (h : subproject E (eval E n) st c = .ret st' r) : st'.cur = st.cur ∧ ∀ i, i < st.projects.length → st'.projects[i]? = st.projects[i]? :=
  let b := subproject_extends E _ (eval_extends E n) st st' c r ho h
  ⟨b.ext.cur, b.all⟩

/-- A subproject that was found is found again, the same and without being evaluated, whatever happens in between. -/
theorem same_again {σ : Type} (E : Env σ) (n m : Nat) (st st' st'' : St σ) (c c' : Call) (id : Nat) (p : Prog) (r : Option Unit) (ho : Ordered st)
    (h : subproject E (eval E n) st c = .ret st' (some (.found id))) (hp : eval E m p st' = .ret st'' r) (hn : c'.name = c.name) :
    subproject E (eval E n) st'' c' = .ret st'' (some (.found id)) := by
  have ho' := ordered_extends ho (subproject_extends E _ (eval_extends E n) st st' c _ ho h).ext
  have hk : st'.cache c.name = some id := by
    unfold subproject at h
    cases hc : st.cache c.name with
    | some i => rw [hc] at h; cases h; exact hc
    | none => rw [hc] at h; exact ((fresh_spec E _ (eval_extends E n) st st' c _ ho hc h).found id rfl).2.1
  have := (eval_extends E m p st' st'' r ho' hp).known c.name id hk
  unfold subproject
  rw [hn, this]

/-- And its variables are then still the same. -/
theorem same_variables {σ : Type} (E : Env σ) (n m : Nat) (st st' st'' : St σ) (c : Call) (id : Nat) (p : Prog) (r : Option Unit) (ho : Ordered st)
    (hc : st.cache c.name = none) (h : subproject E (eval E n) st c = .ret st' (some (.found id))) (hp : eval E m p st' = .ret st'' r) :
    st''.projects[id]? = st'.projects[id]? := by
  unfold subproject at h
  rw [hc] at h
  have hf := fresh_spec E _ (eval_extends E n) st st' c _ ho hc h
  obtain ⟨h1, _, q, hq, _⟩ := hf.found id rfl
  have := (eval_extends E m p st' st'' r (ordered_extends ho hf.beside.ext) hp).others id (List.getElem?_eq_some_iff.1 hq).1
  refine this ?_
  rw [hf.beside.ext.cur, h1]
  have := ho.cur
  omega

/-- A required subproject is found or there is an error; with `version`, a required one that is evaluated has that version. -/
theorem required_found {σ : Type} (E : Env σ) (n : Nat) (st st' : St σ) (c : Call) (o : Obj) (ho : Ordered st) (hr : c.req = .required)
    (h : subproject E (eval E n) st c = .ret st' (some o)) :
    ∃ id, o = .found id ∧ ∃ p, st'.projects[id]? = some p ∧ p.name = c.name ∧ p.notOk = false ∧
      (st.cache c.name = none → ∀ vs, c.version = some vs → vs ≠ [] ∧ ∀ v ∈ vs, Version.versionCompare1 p.version v = true) := by
  unfold subproject at h
  cases hc : st.cache c.name with
  | some i =>
    rw [hc] at h
    cases h
    obtain ⟨p, hp, h1, h2⟩ := ho.cache _ _ hc
    exact ⟨i, rfl, p, hp, h1, h2, fun h => (by cases h)⟩
  | none =>
    rw [hc] at h
    have hf := fresh_spec E _ (eval_extends E n) st st' c _ ho hc h
    cases o with
    | missing => exact absurd rfl (hf.required hr)
    | found id =>
      obtain ⟨_, _, p, hp, h1, h2, h3⟩ := hf.found id rfl
      exact ⟨id, rfl, p, hp, h1, h2, fun _ vs hvs => h3 vs hvs hr⟩

/-- A subproject that is not found adds at most one project at its place in the list, which is marked, so that nothing of it is built. -/
theorem missing_marked {σ : Type} (E : Env σ) (n : Nat) (st st' : St σ) (c : Call) (ho : Ordered st)
    (h : subproject E (eval E n) st c = .ret st' (some .missing)) :
    ∀ p, st'.projects[st.projects.length]? = some p → p.notOk = true := by
  unfold subproject at h
  cases hc : st.cache c.name with
  | some i => rw [hc] at h; cases h
  | none =>
    rw [hc] at h
    exact (fresh_spec E _ (eval_extends E n) st st' c _ ho hc h).missing rfl

/-- A disabled subproject that is not known is not looked for. -/
theorem skipped {σ : Type} (E : Env σ) (ev : Prog → St σ → Out σ Unit) (st : St σ) (c : Call) (hc : st.cache c.name = none) (hs : c.req = .skip) :
    subproject E ev st c = .ret st (some .missing) := by
  unfold subproject fresh
  rw [hc]
  simp only [if_pos hs]

end Muon.Sub
