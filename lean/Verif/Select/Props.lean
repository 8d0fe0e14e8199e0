import Verif.Select.Lemmas
import Verif.Str.Props
/-
C91: `muon test` runs exactly the tests that are asked for.
-/
namespace Muon.Select
open Muon

/-- The meaning of the arguments of `-s` and `-e` and of `exclude_suites`: exactly `project:name`, and `name` or `:name`
for the main project. -/
theorem designates (main : Bool) (proj name item : Bytes) :
    nameMatches item main proj name = true ↔ Spec.Designates main proj name item := nameMatches_iff main proj name item

example : Spec.Designates true (ascii "app") (ascii "quick") (ascii "quick") ∧
    Spec.Designates false (ascii "lib") (ascii "quick") (ascii "lib:quick") ∧
    ¬ Spec.Designates false (ascii "lib") (ascii "quick") (ascii "quick") := by
  refine ⟨.plain rfl (by decide), .qualified (by decide) (by decide), ?_⟩
  rw [← nameMatches_iff]; decide

theorem loadSetup_one (o : Opts) (p : Proj) :
    (∃ ex, loadSetup o [p] {} = .ok ⟨0, p.name, ex⟩ ∧ Spec.Excludes (Spec.Wanted o true p.name) (p.setups.getD []) ex) ∨
    ((∀ s ∈ p.setups.getD [], ¬ Spec.Wanted o true p.name s) ∧
      loadSetup o [p] {} = if o.setup.isSome then .error else .ok ⟨0, p.name, none⟩) := by
  cases hs : p.setups with
  | none => right; simp [loadSetup, hs]
  | some ss =>
    cases hf : findSetup o { projName := p.name } ss with
    | some s => left; exact ⟨s.exclude, by simp [loadSetup, hs, hf], findSetup_some o _ ss s hf⟩
    | none =>
      right
      refine ⟨findSetup_none o _ ss hf, ?_⟩
      simp [loadSetup, hs, hf]

/-- C91 when only the main project has tests: exactly the selected ones are run, in the order in which they were defined
(before sorting by priority), or listed under the name of the project. `ex` are the suites excluded by the first setup
that is asked for, if there is one; and if `-e` names no setup of the project it is an error. Missing: several projects,
see the other theorems and the counterexamples; tests without suite when a setup excludes suites; the patterns for
which wildcards do not work (C59). -/
theorem select_one_partial (o : Opts) (failed : Bytes → Bool) (p : Proj) (rest : List Proj) (hp : p.notOk = false)
    (hrest : ∀ q ∈ rest, q.tests = [])
    (hs : o.suites ≠ [] ∨ (∀ s ∈ p.setups.getD [], s.exclude = none) ∨ ∀ t ∈ p.tests, t.suites.isSome)
    (hw : ∀ n ∈ o.tests, ∀ t ∈ p.tests,
      Str.eqlGlob (splitColon n).2 t.name = true ↔ Str.Spec.Matches (splitColon n).2 t.name) :
    (o.setup.isSome ∧ p.tests ≠ [] ∧ (∀ s ∈ p.setups.getD [], ¬ Spec.Wanted o true p.name s) ∧
      testsRun o failed (p :: rest) = .error) ∨
    (∃ ex ts, (Spec.Excludes (Spec.Wanted o true p.name) (p.setups.getD []) ex ∨
        (∀ s ∈ p.setups.getD [], ¬ Spec.Wanted o true p.name s) ∧ o.setup = none ∧ ex = none) ∧
      Spec.Kept (Spec.Selected o ex true p.name) p.tests ts ∧ p.tests ≠ [] ∧
      testsRun o failed (p :: rest) = .ok (if ts = [] ∧ o.list = false then [] else [(p.name, p.name, ts)])) ∨
    p.tests = [] := by
  by_cases ht : p.tests = []
  · exact .inr (.inr ht)
  have hwr : written (p :: rest) = [p] := by
    have h1 : rest.filter (fun p => !p.notOk && !p.tests.isEmpty) = [] := by
      rw [List.filter_eq_nil_iff]; intro q hq; simp [hrest q hq]
    simp only [written]
    rw [List.filter_cons_of_pos (by simp [hp, ht]), h1]
  have run : ∀ ex, (o.suites ≠ [] ∨ ex = none ∨ ∀ t ∈ p.tests, t.suites.isSome) →
      ∃ ts, Spec.Kept (Spec.Selected o ex true p.name) p.tests ts ∧
        runProjects o failed [p] ⟨0, p.name, ex⟩ = .ok (if ts = [] ∧ o.list = false then [] else [(p.name, p.name, ts)]) := by
    intro ex hx
    have hsafe : ∀ t ∈ p.tests, o.suites ≠ [] ∨ (⟨0, p.name, ex⟩ : Ctx).exclude = none ∨ t.suites.isSome := by
      intro t h1; rcases hx with h | h | h
      · exact .inl h
      · exact .inr (.inl h)
      · exact .inr (.inr (h t h1))
    refine ⟨p.tests.filter (sel o ⟨0, p.name, ex⟩), ?_, ?_⟩
    · apply kept_filter
      intro t h1
      exact sel_iff o ⟨0, p.name, ex⟩ t (hsafe t h1) (fun n hn => hw n hn t h1)
    · simp only [runProjects]
      rw [gather_ok]
      · simp only [Res.bind]
        by_cases hl : o.list = true
        · simp [hl]
        · have hl : o.list = false := by simpa using hl
          by_cases he : p.tests.filter (sel o ⟨0, p.name, ex⟩) = []
          · simp [hl, he]
          · rw [hl]; simp only [Bool.false_eq_true, if_neg he, and_true, ite_self]
      · intro t h1 _ hb
        obtain ⟨b, h2, _⟩ := inSuite_spec o ⟨0, p.name, ex⟩ t (hsafe t h1)
        rw [h2] at hb; cases hb
  rcases loadSetup_one o p with ⟨ex, h1, h2⟩ | ⟨h1, h2⟩
  · right; left
    have hx : o.suites ≠ [] ∨ ex = none ∨ ∀ t ∈ p.tests, t.suites.isSome := by
      rcases hs with h | h | h
      · exact .inl h
      · obtain ⟨s, hm, _, e⟩ := h2.exists; rw [h s hm] at e; exact .inr (.inl e)
      · exact .inr (.inr h)
    obtain ⟨ts, h3, h4⟩ := run ex hx
    exact ⟨ex, ts, .inl h2, h3, ht, by simp only [testsRun, hwr, h1, Res.bind, h4]⟩
  · cases ho : o.setup with
    | some e =>
      left
      refine ⟨rfl, ht, h1, ?_⟩
      simp only [testsRun, hwr, h2, ho, Option.isSome_some, if_true, Res.bind]
    | none =>
      right; left
      obtain ⟨ts, h3, h4⟩ := run none (.inr (.inl rfl))
      exact ⟨none, ts, .inr ⟨h1, rfl, rfl⟩, h3, ht, by
        simp only [testsRun, hwr, h2, ho, Option.isSome_none, Bool.false_eq_true, if_false, Res.bind, h4]⟩

/-- The default setups of the projects: `loadSetup` without `-e`. -/
theorem loadSetup_default (o : Opts) (ho : o.setup = none) (ps : List Proj) (c : Ctx) :
    ∃ c', loadSetup o ps c = .ok c' ∧ c'.projI = 0 ∧
      (Spec.Excludes (fun s => s.isDefault = true) (ps.flatMap (fun p => p.setups.getD [])) c'.exclude ∨
        (∀ s ∈ ps.flatMap (fun p => p.setups.getD []), s.isDefault = false) ∧ c'.exclude = c.exclude) := by
  induction ps generalizing c with
  | nil => exact ⟨{ c with projI := 0 }, by simp [loadSetup, ho], rfl, .inr ⟨by simp, rfl⟩⟩
  | cons p ps ih =>
    cases hs : p.setups with
    | none =>
      obtain ⟨c', h1, h2, h3⟩ := ih { c with projName := p.name }
      refine ⟨c', by simp only [loadSetup, hs]; exact h1, h2, ?_⟩
      simpa [hs] using h3
    | some ss =>
      have W : ∀ m n s, Spec.Wanted o m n s ↔ s.isDefault = true := by intro m n s; simp [Spec.Wanted, ho]
      cases hf : findSetup o { c with projName := p.name } ss with
      | some s =>
        refine ⟨{ c with projName := p.name, exclude := s.exclude, projI := 0 }, by simp only [loadSetup, hs, hf], rfl, ?_⟩
        left
        have h := findSetup_some o _ ss s hf
        rw [List.flatMap_cons, hs, Option.getD_some]
        generalize ps.flatMap (fun p => p.setups.getD []) = more
        generalize s.exclude = ex at h
        clear hf hs
        show Spec.Excludes _ (ss ++ more) ex
        induction h with
        | here s l hw => exact .here _ _ ((W _ _ _).1 hw)
        | later s l ex hn _ ih2 => exact .later _ _ _ (fun h => hn ((W _ _ _).2 h)) ih2
      | none =>
        obtain ⟨c', h1, h2, h3⟩ := ih { c with projName := p.name, projI := c.projI + 1 }
        refine ⟨c', by simp only [loadSetup, hs, hf]; exact h1, h2, ?_⟩
        have hn := findSetup_none o _ ss hf
        have hn' : ∀ s ∈ ss, s.isDefault = false := by
          intro s h; have := hn s h; rw [W] at this; simpa using this
        rw [List.flatMap_cons, hs, Option.getD_some]
        rcases h3 with h3 | ⟨h3, h4⟩
        · left
          clear hn hf hs
          induction ss with
          | nil => exact h3
          | cons s ss ih2 =>
            exact .later _ _ _ (by rw [hn' s (List.mem_cons_self ..)]; simp) (ih2 (fun x hx => hn' x (List.mem_cons_of_mem _ hx)))
        · right
          refine ⟨?_, h4⟩
          intro s h
          rcases List.mem_append.1 h with h | h
          · exact hn' s h
          · exact h3 s h

/-- Without suites and exclusions the project's name only matters for names of tests of the form `project:pattern`. -/
theorem selected_plain (o : Opts) (m m' : Bool) (pn pn' : Bytes) (t : Test) (h1 : o.suites = []) (h2 : ∀ n ∈ o.tests, 58 ∉ n) :
    Spec.Selected o none m pn t ↔ Spec.Selected o none m' pn' t := by
  have : ∀ a b n, 58 ∉ n → Spec.Names a t.name n → Spec.Names b t.name n := by
    intro a b n hn h
    cases h with
    | plain _ h3 h4 => exact .plain _ h3 h4
    | qualified p q _ _ _ => simp at hn
  constructor <;>
  · rintro ⟨g1, g2, g3, g4⟩
    refine ⟨g1, fun h => absurd h1 h, fun _ s _ e he => by simp at he, fun h => ?_⟩
    obtain ⟨n, hn, h5⟩ := g4 h
    exact ⟨n, hn, this _ _ _ (h2 n hn) h5⟩

/-- C91 for any number of projects, if the names on the command line are not qualified with a project, no suites are
given and no setup excludes any: in each project exactly the selected tests are run. -/
theorem select_names_partial (o : Opts) (ps : List Proj) (ho : o.setup = none) (hl : o.list = false) (hsu : o.suites = [])
    (hn : ∀ n ∈ o.tests, 58 ∉ n) (hx : ∀ p ∈ ps, ∀ s ∈ p.setups.getD [], s.exclude = none)
    (hw : ∀ n ∈ o.tests, ∀ p ∈ ps, ∀ t ∈ p.tests, Str.eqlGlob n t.name = true ↔ Str.Spec.Matches n t.name) :
    ∃ r, testsRun o (fun _ => false) ps = .ok r ∧
      Spec.Each (fun m p => Spec.Selected o none m p.name) true (written ps) (r.map (fun x => (x.1, x.2.2))) := by
  obtain ⟨c, h1, _, h3⟩ := loadSetup_default o ho (written ps) {}
  have hw' : ∀ p ∈ written ps, p ∈ ps := fun p h => (List.mem_filter.1 h).1
  have hc : c.exclude = none := by
    rcases h3 with h | ⟨_, h⟩
    · obtain ⟨s, hs, _, e⟩ := h.exists
      obtain ⟨p, hp, hs⟩ := List.mem_flatMap.1 hs
      rw [e, hx p (hw' p hp) s hs]
    · exact h
  have main : ∀ (qs : List Proj), (∀ p ∈ qs, p ∈ ps) → ∀ (c : Ctx) (m : Bool), c.exclude = none →
      ∃ r, runProjects o (fun _ => false) qs c = .ok r ∧
        Spec.Each (fun m p => Spec.Selected o none m p.name) m qs (r.map (fun x => (x.1, x.2.2))) := by
    intro qs
    induction qs with
    | nil => intro _ c m _; exact ⟨[], rfl, .nil _⟩
    | cons p qs ih =>
      intro hq c m hc
      have hp := hq p (List.mem_cons_self ..)
      have ih := ih (fun x h => hq x (List.mem_cons_of_mem _ h))
      have hk : Spec.Kept (Spec.Selected o none m p.name) p.tests (p.tests.filter (sel o c)) := by
        apply kept_filter
        intro t ht
        have := sel_iff o c t (.inr (.inl hc)) (fun n h => by
          rw [splitColon_plain n (hn n h)]; exact hw n h p hp t ht)
        rw [this, hc]
        exact selected_plain o _ _ _ _ t hsu hn
      simp only [runProjects]
      rw [gather_ok o c p.tests (by
        intro t _ _ hb
        obtain ⟨b, h2, _⟩ := inSuite_spec o c t (.inr (.inl hc))
        rw [h2] at hb; cases hb)]
      simp only [Res.bind, hl, Bool.false_eq_true, if_false]
      by_cases he : p.tests.filter (sel o c) = []
      · rw [if_pos he]
        obtain ⟨r, h4, h5⟩ := ih c false hc
        exact ⟨r, h4, .none _ _ _ _ (by rw [he] at hk; exact hk) h5⟩
      · rw [if_neg he]
        obtain ⟨r, h4, h5⟩ := ih { c with projName := p.name, projI := c.projI + 1 } false hc
        rw [h4]
        exact ⟨_, rfl, .some _ _ _ _ _ hk he h5⟩
  obtain ⟨r, h4, h5⟩ := main (written ps) hw' c true hc
  exact ⟨r, by simp only [testsRun, h1, Res.bind, h4], h5⟩

/-- With unqualified suites and names the project's name does not matter. -/
theorem selected_unqual (o : Opts) (ex : Option (List Bytes)) (m : Bool) (pn pn' : Bytes) (t : Test)
    (h1 : ∀ s ∈ o.suites, 58 ∉ s) (h2 : ∀ n ∈ o.tests, 58 ∉ n) (h3 : ∀ e ∈ ex.getD [], 58 ∉ e) :
    Spec.Selected o ex m pn t → Spec.Selected o ex m pn' t := by
  have hd : ∀ a b s e, 58 ∉ e → Spec.Designates m a s e → Spec.Designates m b s e := by
    intro a b s e he h
    cases h with
    | qualified _ _ => simp at he
    | plain g1 g2 => exact .plain g1 g2
    | colon _ => simp at he
  have hnm : ∀ a b n, 58 ∉ n → Spec.Names a t.name n → Spec.Names b t.name n := by
    intro a b n hn h
    cases h with
    | plain _ h3 h4 => exact .plain _ h3 h4
    | qualified p q _ _ _ => simp at hn
  rintro ⟨g1, g2, g3, g4⟩
  refine ⟨g1, fun h => ?_, fun h s hs e he hc => g3 h s hs e he (hd _ _ _ _ (h3 e he) hc), fun h => ?_⟩
  · obtain ⟨s, hs, e, he, g⟩ := g2 h
    exact ⟨s, hs, e, he, hd _ _ _ _ (h1 e he) g⟩
  · obtain ⟨n, hn, g⟩ := g4 h
    exact ⟨n, hn, hnm _ _ _ (h2 n hn) g⟩

/-- C91 for any number of projects and unqualified suites, exclusions and names, if the main project has a test that is
selected: in each project exactly the selected tests are run. Missing: see the counterexamples. -/
theorem select_suites_partial (o : Opts) (p : Proj) (ps : List Proj) (ex : Option (List Bytes)) (ho : o.setup = none)
    (hl : o.list = false) (hp : p.notOk = false)
    (hsu : ∀ s ∈ o.suites, 58 ∉ s) (hn : ∀ n ∈ o.tests, 58 ∉ n) (hxu : ∀ e ∈ ex.getD [], 58 ∉ e)
    (hex : Spec.Excludes (fun s => s.isDefault = true) ((p :: ps).flatMap (fun q => if q.tests = [] ∨ q.notOk = true then [] else q.setups.getD [])) ex ∨
      (∀ q ∈ p :: ps, ∀ s ∈ q.setups.getD [], s.isDefault = false) ∧ ex = none)
    (hs : o.suites ≠ [] ∨ ex = none ∨ ∀ q ∈ p :: ps, ∀ t ∈ q.tests, t.suites.isSome)
    (hw : ∀ n ∈ o.tests, ∀ q ∈ p :: ps, ∀ t ∈ q.tests, Str.eqlGlob n t.name = true ↔ Str.Spec.Matches n t.name)
    (t0 : Test) (ht0 : t0 ∈ p.tests) (hsel : Spec.Selected o ex true p.name t0) :
    ∃ r, testsRun o (fun _ => false) (p :: ps) = .ok r ∧
      Spec.Each (fun m q => Spec.Selected o ex m q.name) true (written (p :: ps)) (r.map (fun x => (x.1, x.2.2))) := by
  have hpt : p.tests ≠ [] := List.ne_nil_of_mem ht0
  have hwr : written (p :: ps) = p :: written ps := by
    simp only [written]; rw [List.filter_cons_of_pos (by simp [hp, hpt])]
  have hfl : ∀ qs : List Proj, qs.flatMap (fun q => if q.tests = [] ∨ q.notOk = true then [] else q.setups.getD []) =
      (written qs).flatMap (fun p => p.setups.getD []) := by
    intro qs
    induction qs with
    | nil => rfl
    | cons q qs ih =>
      simp only [List.flatMap_cons, ih, written, List.filter_cons]
      by_cases h : q.tests = [] ∨ q.notOk = true
      · have : (!q.notOk && !q.tests.isEmpty) = false := by rcases h with h | h <;> simp [h]
        simp [h, this]
      · simp only [not_or, Bool.not_eq_true] at h
        simp [h]
  obtain ⟨c, h1, h2, h3⟩ := loadSetup_default o ho (written (p :: ps)) {}
  have hmem : ∀ q ∈ written (p :: ps), q ∈ p :: ps := fun q h => (List.mem_filter.1 h).1
  have hc : c.exclude = ex := by
    rcases hex with h | ⟨h, e⟩
    · rw [hfl] at h
      rcases h3 with h3 | ⟨h3, _⟩
      · exact h3.unique h
      · obtain ⟨s, hs, hw, _⟩ := h.exists
        rw [h3 s hs] at hw; cases hw
    · rcases h3 with h3 | ⟨_, h3⟩
      · obtain ⟨s, hs, hw, _⟩ := h3.exists
        obtain ⟨q, hq, hs⟩ := List.mem_flatMap.1 hs
        rw [h q (hmem q hq) s hs] at hw; cases hw
      · rw [h3, e]
  have hsafe : ∀ q ∈ p :: ps, ∀ t ∈ q.tests, o.suites ≠ [] ∨ ex = none ∨ t.suites.isSome := by
    intro q hq t ht; rcases hs with h | h | h
    · exact .inl h
    · exact .inr (.inl h)
    · exact .inr (.inr (h q hq t ht))
  have hk : ∀ q ∈ p :: ps, ∀ (c : Ctx) (m : Bool), c.exclude = ex → (c.projI == 0) = m →
      Spec.Kept (Spec.Selected o ex m q.name) q.tests (q.tests.filter (sel o c)) ∧
      gather o c q.tests = .ok (q.tests.filter (sel o c)) := by
    intro q hq c m hc hm
    constructor
    · apply kept_filter
      intro t ht
      have := sel_iff o c t (by rw [hc]; exact hsafe q hq t ht) (fun n h => by
        rw [splitColon_plain n (hn n h)]; exact hw n h q hq t ht)
      rw [this, hc, hm]
      exact ⟨selected_unqual o ex m _ _ t hsu hn hxu, selected_unqual o ex m _ _ t hsu hn hxu⟩
    · apply gather_ok
      intro t ht _ hb
      obtain ⟨b, h2, _⟩ := inSuite_spec o c t (by rw [hc]; exact hsafe q hq t ht)
      rw [h2] at hb; cases hb
  have main : ∀ (qs : List Proj), (∀ q ∈ qs, q ∈ p :: ps) → ∀ (c : Ctx), c.exclude = ex → c.projI ≠ 0 →
      ∃ r, runProjects o (fun _ => false) qs c = .ok r ∧
        Spec.Each (fun m q => Spec.Selected o ex m q.name) false qs (r.map (fun x => (x.1, x.2.2))) := by
    intro qs
    induction qs with
    | nil => intro _ c _ _; exact ⟨[], rfl, .nil _⟩
    | cons q qs ih =>
      intro hq c hc hi
      have ih := ih (fun x h => hq x (List.mem_cons_of_mem _ h))
      obtain ⟨g1, g2⟩ := hk q (hq q (List.mem_cons_self ..)) c false hc (by simpa using hi)
      simp only [runProjects, g2, Res.bind, hl, Bool.false_eq_true, if_false]
      by_cases he : q.tests.filter (sel o c) = []
      · rw [if_pos he]
        obtain ⟨r, h4, h5⟩ := ih c hc hi
        exact ⟨r, h4, .none _ _ _ _ (by rw [he] at g1; exact g1) h5⟩
      · rw [if_neg he]
        obtain ⟨r, h4, h5⟩ := ih { c with projName := q.name, projI := c.projI + 1 } hc (by simp)
        rw [h4]
        exact ⟨_, rfl, .some _ _ _ _ _ g1 he h5⟩
  obtain ⟨g1, g2⟩ := hk p (List.mem_cons_self ..) c true hc (by simp [h2])
  have hne : p.tests.filter (sel o c) ≠ [] := by
    have hm : t0 ∈ p.tests.filter (sel o c) := by
      rw [List.mem_filter]; refine ⟨ht0, ?_⟩
      rw [sel_iff o c t0 (by rw [hc]; exact hsafe p (List.mem_cons_self ..) t0 ht0) (fun n h => by
        rw [splitColon_plain n (hn n h)]; exact hw n h p (List.mem_cons_self ..) t0 ht0), hc, h2]
      exact selected_unqual o ex true _ _ t0 hsu hn hxu hsel
    exact List.ne_nil_of_mem hm
  rw [hwr] at h1 ⊢
  obtain ⟨r, h4, h5⟩ := main (written ps) (fun q h => List.mem_cons_of_mem _ (List.mem_filter.1 h).1)
    { c with projName := p.name, projI := c.projI + 1 } hc (by simp)
  refine ⟨(p.name, p.name, _) :: r, ?_, .some _ _ _ _ _ g1 hne h5⟩
  simp only [testsRun, hwr, h1, Res.bind, runProjects, g2, hl, Bool.false_eq_true, if_false, if_neg hne, h4]

/-- Whatever is run is a test of a project of the configuration, of the category asked for, and defined in this order. -/
theorem select_sound (o : Opts) (failed : Bytes → Bool) (ps : List Proj) (r : List (Bytes × Bytes × List Test))
    (h : testsRun o failed ps = .ok r) :
    ∀ x ∈ r, ∃ p ∈ ps, p.name = x.1 ∧ x.2.2.Sublist p.tests ∧ ∀ t ∈ x.2.2, t.benchmark = o.benchmark := by
  have hg : ∀ c ts r, gather o c ts = .ok r → r.Sublist ts ∧ ∀ t ∈ r, t.benchmark = o.benchmark := by
    intro c ts
    induction ts with
    | nil => intro r h; cases h; simp
    | cons t ts ih =>
      intro r h
      simp only [gather] at h
      split at h
      · obtain ⟨h1, h2⟩ := ih r h; exact ⟨h1.cons _, h2⟩
      · next hb =>
        obtain ⟨b, _, h⟩ := (Res.bind_eq_ok (x := inSuite o c t)).1 h
        obtain ⟨r', h1, h⟩ := (Res.bind_eq_ok (x := gather o c ts)).1 h
        obtain ⟨h2, h3⟩ := ih r' h1
        cases h
        split
        · exact ⟨h2.cons_cons _, by
            intro x hx; rcases List.mem_cons.1 hx with rfl | hx
            · simpa using hb
            · exact h3 x hx⟩
        · exact ⟨h2.cons _, h3⟩
  have hr : ∀ qs c r, runProjects o failed qs c = .ok r →
      ∀ x ∈ r, ∃ p ∈ qs, p.name = x.1 ∧ x.2.2.Sublist p.tests ∧ ∀ t ∈ x.2.2, t.benchmark = o.benchmark := by
    intro qs
    induction qs with
    | nil => intro c r h; cases h; simp
    | cons q qs ih =>
      intro c r h x hx
      simp only [runProjects] at h
      obtain ⟨ts, h1, h⟩ := (Res.bind_eq_ok (x := gather o c q.tests)).1 h
      obtain ⟨h2, h3⟩ := hg c _ ts h1
      have lift : (∃ p ∈ qs, p.name = x.1 ∧ x.2.2.Sublist p.tests ∧ ∀ t ∈ x.2.2, t.benchmark = o.benchmark) →
          ∃ p ∈ q :: qs, p.name = x.1 ∧ x.2.2.Sublist p.tests ∧ ∀ t ∈ x.2.2, t.benchmark = o.benchmark :=
        fun ⟨p, hp, g⟩ => ⟨p, List.mem_cons_of_mem _ hp, g⟩
      split at h
      · obtain ⟨r', h4, h⟩ := (Res.bind_eq_ok (x := runProjects o failed qs c)).1 h
        cases h
        rcases List.mem_cons.1 hx with rfl | hx
        · exact ⟨q, List.mem_cons_self .., rfl, h2, h3⟩
        · exact lift (ih c r' h4 x hx)
      · split at h
        · exact lift (ih c r h x hx)
        · split at h
          · cases h
            simp only [List.mem_singleton] at hx
            subst hx
            exact ⟨q, List.mem_cons_self .., rfl, h2, h3⟩
          · obtain ⟨r', h4, h⟩ := (Res.bind_eq_ok (x := runProjects o failed qs _)).1 h
            cases h
            rcases List.mem_cons.1 hx with rfl | hx
            · exact ⟨q, List.mem_cons_self .., rfl, h2, h3⟩
            · exact lift (ih _ r' h4 x hx)
  obtain ⟨c, _, h⟩ := (Res.bind_eq_ok (x := loadSetup o (written ps) {})).1 h
  intro x hx
  obtain ⟨p, hp, g⟩ := hr _ c r h x hx
  exact ⟨p, (List.mem_filter.1 hp).1, g⟩

/-- Up to 64 options `-s` are kept as they are. -/
theorem suites_kept (ss : List Bytes) (h : ss.length ≤ 64) : addSuites ss [] = .ok ss := by
  have : ∀ ss acc, acc.length + ss.length ≤ 64 → addSuites ss acc = .ok (acc ++ ss) := by
    intro ss
    induction ss with
    | nil => intro acc _; simp [addSuites]
    | cons s ss ih =>
      intro acc h
      simp only [List.length_cons] at h
      simp only [addSuites]
      rw [if_neg (by omega), if_neg (by omega), ih _ (by simp; omega)]
      simp
  simpa using this ss [] (by simpa using h)

/-! ### Examples and counterexamples -/

/-- A main project `app` and a subproject `lib`, each with a test `foo`. -/
def app : Proj := ⟨ascii "app", [⟨ascii "foo", some [ascii "slow"], false⟩, ⟨ascii "bar", some [ascii "quick"], false⟩], none, false⟩
def lib : Proj := ⟨ascii "lib", [⟨ascii "foo", some [ascii "quick"], false⟩, ⟨ascii "baz", some [ascii "all"], true⟩], none, false⟩

example : testsRun { suites := [ascii "quick"] } (fun _ => false) [app, lib] =
    .ok [(ascii "app", ascii "app", [⟨ascii "bar", some [ascii "quick"], false⟩])] := by decide +kernel

example : testsRun {} (fun _ => false) [app, lib] =
    .ok [(ascii "app", ascii "app", app.tests), (ascii "lib", ascii "lib", lib.tests.take 1)] := by decide +kernel

/-- The hypotheses of `select_suites_partial` are met by `-s quick`. -/
example : ∃ r, testsRun { suites := [ascii "quick"] } (fun _ => false) [app, lib] = .ok r ∧
    Spec.Each (fun m q => Spec.Selected { suites := [ascii "quick"] } none m q.name) true (written [app, lib])
      (r.map (fun x => (x.1, x.2.2))) :=
  select_suites_partial { suites := [ascii "quick"] } app [lib] none rfl rfl rfl (by decide) (by decide) (by simp)
    (.inr ⟨by simp [app, lib], rfl⟩) (.inl (by simp)) (by simp) ⟨ascii "bar", some [ascii "quick"], false⟩ (by decide)
    ⟨rfl, fun _ => ⟨ascii "quick", by simp, ascii "quick", by simp, .plain rfl (by decide)⟩, by simp, by simp⟩

/-- The hypotheses of `select_one_partial` and `select_names_partial` about wildcards are met by a literal name. -/
example : ∀ n ∈ [ascii "foo"], ∀ t ∈ app.tests,
    Str.eqlGlob (splitColon n).2 t.name = true ↔ Str.Spec.Matches (splitColon n).2 t.name := by
  intro n hn t ht
  simp only [List.mem_singleton] at hn
  subst hn
  refine (Str.glob_partial _ [] t.name ?_ (by decide) (by decide)).1
  rcases List.mem_cons.1 ht with rfl | ht
  · decide
  · simp only [List.mem_singleton] at ht; subst ht; decide

example : ∃ r, testsRun { tests := [ascii "foo"] } (fun _ => false) [app, lib] = .ok r ∧
    Spec.Each (fun m p => Spec.Selected { tests := [ascii "foo"] } none m p.name) true (written [app, lib])
      (r.map (fun x => (x.1, x.2.2))) := by
  refine select_names_partial _ _ rfl rfl rfl (by decide) (by simp [app, lib]) ?_
  intro n hn p hp t ht
  simp only [List.mem_singleton] at hn
  subst hn
  refine (Str.glob_partial _ [] t.name ?_ (by decide) (by decide)).1
  have key : ∀ p ∈ [app, lib], ∀ t ∈ p.tests, t.name ≠ [] := by decide
  exact key p hp t ht

/-- C91 is false in general: `muon test lib:foo` runs the test `foo` of the other project, and not that of `lib`; and
`muon test app:foo` runs nothing. -/
theorem qualified_counterexample :
    testsRun { tests := [ascii "lib:foo"] } (fun _ => false) [app, lib] =
      .ok [(ascii "app", ascii "app", [⟨ascii "foo", some [ascii "slow"], false⟩])] ∧
    testsRun { tests := [ascii "app:foo"] } (fun _ => false) [app, lib] = .ok [] := by
  constructor <;>
  simp [testsRun, written, app, lib, loadSetup, Res.bind, runProjects, gather, inSuite, inNames, splitColon, ascii, Str.eqlGlob,
    Str.globImpl, Str.globLoop, Str.at']

/-- C91 is false in general: `-s all`, which is a suite of the subproject only, and so designates nothing, runs the
benchmark of the subproject. -/
theorem main_counterexample :
    testsRun { suites := [ascii "all"], benchmark := true } (fun _ => false) [app, lib] =
      .ok [(ascii "lib", ascii "lib", [⟨ascii "baz", some [ascii "all"], true⟩])] ∧
    ¬ Spec.Designates false (ascii "lib") (ascii "all") (ascii "all") := by
  refine ⟨by decide +kernel, ?_⟩
  rw [← nameMatches_iff]; decide

/-- C91 is false in general: `-l` lists the tests of `app` under the name of `lib`. -/
theorem list_counterexample :
    testsRun { list := true } (fun _ => false) [app, lib] =
      .ok [(ascii "app", ascii "lib", app.tests), (ascii "lib", ascii "lib", lib.tests.take 1)] := by decide +kernel

/-- C91 is false in general: a setup that excludes suites makes `muon test` abort if a test has no suite. -/
theorem exclude_counterexample :
    testsRun {} (fun _ => false)
      [⟨ascii "app", [⟨ascii "foo", none, false⟩], some [⟨ascii "ci", some [ascii "slow"], true⟩], false⟩] = .bad := by
  decide +kernel

/-- C91 is false in general: a setup of the main project is unknown if all tests are in subprojects, and a setup of a
subproject passes for one of the main project. -/
theorem setup_counterexample :
    testsRun { setup := some (ascii "ci") } (fun _ => false)
      [⟨ascii "app", [], some [⟨ascii "ci", none, true⟩], false⟩, lib] = .error ∧
    testsRun { setup := some (ascii "ci") } (fun _ => false)
      [app, { lib with setups := some [⟨ascii "ci", some [ascii "quick"], false⟩] }] =
      .ok [(ascii "app", ascii "app", [⟨ascii "foo", some [ascii "slow"], false⟩]),
        (ascii "lib", ascii "lib", [⟨ascii "foo", some [ascii "quick"], false⟩])] := by
  constructor <;> decide +kernel

/-- C91 is false in general: the 65th `-s` is written outside the array of suites instead of being reported. -/
theorem suites_counterexample (ss : List Bytes) (h : 64 < ss.length) : addSuites ss [] = .bad := by
  have : ∀ ss acc, acc.length ≤ 64 → 64 < acc.length + ss.length → addSuites ss acc = .bad := by
    intro ss
    induction ss with
    | nil => intro acc h1 h2; simp at h2; omega
    | cons s ss ih =>
      intro acc h1 h2
      simp only [List.length_cons] at h2
      simp only [addSuites]
      rw [if_neg (by omega)]
      by_cases he : acc.length = 64
      · rw [if_pos he]
      · rw [if_neg he]; exact ih _ (by simp; omega) (by simp; omega)
  exact this ss [] (by simp) (by simpa using h)

end Muon.Select
