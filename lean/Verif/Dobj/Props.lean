import Verif.Dobj.Spec
/-
C114: reading from dependencies.
-/
namespace Muon.Dobj
open Muon
open Muon.Dobj.Spec

theorem asked_iff (kw pos : Option Bytes) (x : Bytes) : (if kw.isSome then kw else pos) = some x ↔ Asked kw pos x := by
  cases kw <;> simp [Asked]

theorem define_pairs {l : List Bytes} {ps : List (Bytes × Bytes)} (h : Pairs l ps) (hn : ∀ x ∈ l, 0 ∉ x) : ∀ (defs : List (Bytes × Bytes)), define l defs = .ok (defs ++ ps) := by
  induction h with
  | nil => intro defs; simp [define]
  | cons k v r ih =>
    intro defs
    rw [define, if_neg (by simp [hn k (by simp), hn v (by simp)]), ih (fun x hx => hn x (by simp [hx]))]
    simp

theorem pairs_unique {l : List Bytes} {ps : List (Bytes × Bytes)} (h : Pairs l ps) : ∀ {qs : List (Bytes × Bytes)}, Pairs l qs → ps = qs := by
  induction h with
  | nil => intro qs h; cases h; rfl
  | cons k v r ih => intro qs h; cases h with | cons _ _ r' => rw [ih r']

theorem lookup_iff : ∀ (vs : List (Bytes × Bytes)) (x v : Bytes), (vs.map (·.1)).Nodup → (vs.lookup x = some v ↔ (x, v) ∈ vs)
  | [], x, v, _ => by simp
  | (k, w) :: vs, x, v, h => by
    rw [List.map_cons, List.nodup_cons] at h
    rw [List.lookup_cons]
    by_cases e : x = k
    · subst e
      simp only [beq_self_eq_true, List.mem_cons, Prod.mk.injEq, true_and, Option.some.injEq]
      constructor
      · exact fun e => .inl e.symm
      · rintro (e | m)
        · exact e.symm
        · exact absurd (List.mem_map.2 ⟨_, m, rfl⟩) h.1
    · have : (x == k) = false := by simpa using e
      rw [this]
      simp only [List.mem_cons, Prod.mk.injEq, e, false_and, false_or]
      exact lookup_iff vs x v h.2

theorem given (pkg : Pkg) (d : Dep) (a : Args) (o : Option Bytes) (defs : List (Bytes × Bytes)) (ho : ∀ v, o = some v ↔ Has pkg d a v) (v : Bytes) :
    ((match o with
      | some v => (.ok (v, defs) : Res (Bytes × List (Bytes × Bytes)))
      | none => orDefault a.dflt >>= fun v => .ok (v, defs)) = .ok (v, defs)) ↔ Gives pkg d a v := by
  cases o with
  | some w =>
    have hw := (ho w).1 rfl
    constructor
    · intro e; cases e; exact .inl hw
    · rintro (h | ⟨h, _⟩)
      · cases (ho v).2 h; rfl
      · exact absurd hw (h w)
  | none =>
    have hn : ∀ w, ¬ Has pkg d a w := fun w h => by cases (ho w).2 h
    unfold Gives orDefault
    cases a.dflt with
    | none => exact ⟨fun e => (by cases e), fun h => h.elim (fun h => absurd h (hn v)) (fun h => (by cases h.2))⟩
    | some w => exact ⟨fun e => (by cases e; exact .inr ⟨hn, rfl⟩), fun h => h.elim (fun h => absurd h (hn v)) (fun h => (by cases h.2; rfl))⟩

/-- One call: its form. -/
theorem getVariable_eq (pkg : Pkg) (d : Dep) (a : Args) (hp : Proper d a) : ∃ (o : Option Bytes) (defs : List (Bytes × Bytes)), (∀ v, o = some v ↔ Has pkg d a v) ∧
    (a.defines = none → defs = []) ∧ getVariable pkg [] d a = match o with
      | some v => (.ok (v, defs) : Res (Bytes × List (Bytes × Bytes)))
      | none => orDefault a.dflt >>= fun v => .ok (v, defs) := by
  unfold getVariable
  dsimp only
  by_cases hk : d.kind = .pkgconf
  · rw [if_pos hk]
    obtain ⟨n, hn, hn0⟩ := hp.named hk
    obtain ⟨ps, hps, hd⟩ : ∃ ps, Pairs (a.defines.getD []) ps ∧ define (a.defines.getD []) [] = .ok ps := by
      cases hd : a.defines with
      | none => exact ⟨[], .nil, rfl⟩
      | some l =>
        obtain ⟨h0, ps, h⟩ := hp.defs l hd
        exact ⟨ps, h, by simpa using define_pairs h h0 []⟩
    rw [hd, Res.ok_bind]
    have hnone : a.defines = none → ps = [] := by
      intro e; rw [e] at hps; cases hps; rfl
    cases hx : (if a.pkgconfig.isSome then a.pkgconfig else a.pos) with
    | none =>
      refine ⟨none, ps, ?_, hnone, rfl⟩
      intro v
      refine ⟨fun e => (by cases e), fun h => ?_⟩
      cases h with
      | package _ _ q _ _ => rw [(asked_iff _ _ _).2 q] at hx; cases hx
      | own k => exact absurd hk k
    | some x =>
      have hq := (asked_iff _ _ _).1 hx
      have hx0 : 0 ∉ x := hp.clean x (hq.imp id (·.2))
      refine ⟨pkg ps n x, ps, ?_, hnone, ?_⟩
      · intro v
        refine ⟨fun e => .package hk hn hq hps e, fun h => ?_⟩
        cases h with
        | package _ hn' q hp' e =>
          rw [hn] at hn'; cases hn'
          rw [(asked_iff _ _ _).2 q] at hx; cases hx
          rw [pairs_unique hps hp']; exact e
        | own k => exact absurd hk k
      · have : pkgVar pkg ps d x = .ok (pkg ps n x) := by
          unfold pkgVar
          rw [if_neg (by simp [hk]), hn]
          exact if_neg (by simp [hn0, hx0])
        simp only [this, Res.ok_bind]
        cases pkg ps n x <;> rfl
  · rw [if_neg hk]
    have no : ∀ {v}, Has pkg d a v → ∃ vs x, d.vars = some vs ∧ Asked a.inside a.pos x ∧ (x, v) ∈ vs := by
      intro v h
      cases h with
      | package k => exact absurd k hk
      | own _ hv q h => exact ⟨_, _, hv, q, h⟩
    cases hv : d.vars with
    | none => exact ⟨none, [], fun v => ⟨fun e => (by cases e), fun h => (by obtain ⟨_, _, e, _⟩ := no h; rw [hv] at e; cases e)⟩, fun _ => rfl, rfl⟩
    | some vs =>
      cases hx : (if a.inside.isSome then a.inside else a.pos) with
      | none =>
        exact ⟨none, [], fun v => ⟨fun e => (by cases e), fun h => (by
          obtain ⟨_, _, _, q, _⟩ := no h
          rw [(asked_iff _ _ _).2 q] at hx; cases hx)⟩, fun _ => rfl, rfl⟩
      | some x =>
        refine ⟨vs.lookup x, [], ?_, fun _ => rfl, ?_⟩
        · intro v
          rw [lookup_iff vs x v (hp.keys vs hv)]
          refine ⟨fun m => .own hk hv ((asked_iff _ _ _).1 hx) m, fun h => ?_⟩
          obtain ⟨_, _, e, q, m⟩ := no h
          rw [hv] at e; cases e
          rw [(asked_iff _ _ _).2 q] at hx; cases hx
          exact m
        · dsimp only
          cases vs.lookup x <;> rfl

/-- C114: `get_variable()` gives the value that the dependency has for the variable, and the default exactly if it has none; otherwise it is an error. Missing: calls after one
with `pkgconfig_define:`, see `define_counterexample`. -/
theorem get_variable_partial (pkg : Pkg) (d : Dep) (a : Args) (hp : Proper d a) :
    (∀ v, (∃ defs, getVariable pkg [] d a = .ok (v, defs)) ↔ Gives pkg d a v) ∧ (getVariable pkg [] d a = .error ↔ ∀ v, ¬ Gives pkg d a v) := by
  obtain ⟨o, defs, ho, _, e⟩ := getVariable_eq pkg d a hp
  have g := given pkg d a o defs ho
  rw [← e] at g
  have only : ∀ v ds, getVariable pkg [] d a = .ok (v, ds) → ds = defs := by
    intro v ds h
    rw [e] at h
    cases o with
    | some w => cases h; rfl
    | none => unfold orDefault at h; cases hd : a.dflt <;> rw [hd] at h <;> cases h; rfl
  have key : ∀ v, (∃ ds, getVariable pkg [] d a = .ok (v, ds)) ↔ Gives pkg d a v := fun v =>
    ⟨fun ⟨ds, h⟩ => (g v).1 (by rw [h, only v ds h]), fun h => ⟨defs, (g v).2 h⟩⟩
  refine ⟨key, fun h v hv => ?_, fun h => ?_⟩
  · obtain ⟨ds, h'⟩ := (key v).2 hv
    rw [h] at h'; cases h'
  · rw [e]
    cases o with
    | some w => exact absurd (.inl ((ho w).1 rfl)) (h w)
    | none =>
      unfold orDefault
      cases hd : a.dflt with
      | none => rfl
      | some w => exact absurd (.inr ⟨fun x hx => (by cases (ho x).2 hx), hd⟩) (h w)

/-- C114: any number of calls without `pkgconfig_define:`, for any dependencies: each gives what it would give alone. -/
theorem reads_partial (pkg : Pkg) : ∀ (cs : List (Dep × Args)) (vs : List Bytes), (∀ c ∈ cs, Proper c.1 c.2 ∧ c.2.defines = none) →
    (reads pkg cs [] = .ok vs ↔ AllGive pkg cs vs)
  | [], vs, _ => ⟨fun h => (by cases h; exact .nil), fun h => (by cases h; rfl)⟩
  | c :: cs, vs, hp => by
    obtain ⟨hc, hd⟩ := hp c (by simp)
    obtain ⟨o, defs, ho, hn, e⟩ := getVariable_eq pkg c.1 c.2 hc
    have g := given pkg c.1 c.2 o defs ho
    rw [← e] at g
    cases hn hd
    have ih := fun vs => reads_partial pkg cs vs (fun x hx => hp x (by simp [hx]))
    have only : ∀ v ds, getVariable pkg [] c.1 c.2 = .ok (v, ds) → ds = [] := by
      intro v ds h
      rw [e] at h
      cases o with
      | some w => cases h; rfl
      | none => unfold orDefault at h; cases hd : c.2.dflt <;> rw [hd] at h <;> cases h; rfl
    rw [reads]
    constructor
    · intro h
      obtain ⟨⟨v, ds⟩, h1, h⟩ := Res.bind_eq_ok.1 h
      obtain ⟨ws, h2, h⟩ := Res.bind_eq_ok.1 h
      cases h
      cases only v ds h1
      exact .cons ((g v).1 h1) ((ih ws).1 h2)
    · intro h
      cases h with
      | cons h r => rw [(g _).2 h, Res.ok_bind, (ih _).2 r]; rfl

/-- C114: `get_pkgconfig_variable()`, before definitions. -/
theorem get_pkgconfig_variable (pkg : Pkg) (n ver x : Bytes) (dflt : Option Bytes) (hn : 0 ∉ n) (hx : 0 ∉ x) (v : Bytes) :
    getPkgVar pkg [] (fromPkgconf n ver) x dflt = .ok v ↔ pkg [] n x = some v ∨ pkg [] n x = none ∧ dflt = some v := by
  have : pkgVar pkg [] (fromPkgconf n ver) x = .ok (pkg [] n x) := by simp [pkgVar, fromPkgconf, hn, hx]
  unfold getPkgVar
  rw [this, Res.ok_bind]
  cases pkg [] n x <;> cases dflt <;> simp

/-- C114: what a build file sees of a dependency, for the ways of making one. Missing: the names of libraries and of dependencies that are not looked for. -/
theorem dependency_object_partial (n ver : Bytes) (vars : Option (List (Bytes × Bytes))) :
    (∀ d, d = fromPkgconf n ver → found d = true ∧ name d = some n ∧ version d = ver ∧ typeName d = ascii "pkgconfig") ∧
    (∀ d, d = fromDeclare n ver vars → found d = true ∧ name d = some (ascii "internal") ∧ version d = ver ∧ typeName d = ascii "internal") ∧
    (∀ d, d = fromNothing n → found d = false ∧ name d = some n ∧ version d = ascii "unknown" ∧ typeName d = ascii "not-found") ∧
    (∀ d, d = fromThreads → found d = true ∧ name d = some (ascii "threads") ∧ version d = ascii "unknown" ∧ typeName d = ascii "system") ∧
    (∀ d, d = fromLibrary true → found d = true ∧ typeName d = ascii "library") ∧
    (∀ d, d = fromLibrary false ∨ d = fromSkipped n → found d = false ∧ typeName d = ascii "not-found") := by
  refine ⟨?_, ?_, ?_, ?_, ?_, ?_⟩
  · rintro _ rfl; exact ⟨rfl, rfl, rfl, rfl⟩
  · rintro _ rfl; exact ⟨rfl, rfl, rfl, rfl⟩
  · rintro _ rfl; exact ⟨rfl, rfl, rfl, rfl⟩
  · rintro _ rfl; exact ⟨rfl, rfl, rfl, rfl⟩
  · rintro _ rfl; exact ⟨rfl, rfl⟩
  · rintro _ (rfl | rfl) <;> exact ⟨rfl, rfl⟩

/-- A package that has its prefix unless another one is defined. -/
def somePkg : Pkg := fun defs _ x => if x = ascii "prefix" then some ((defs.lookup x).getD (ascii "/usr")) else none

/-- Definitions of one call hold for all later calls, also for other packages. -/
theorem define_counterexample :
    reads somePkg [(fromPkgconf (ascii "a") [], { pos := some (ascii "prefix"), defines := some [ascii "prefix", ascii "/x"] }), (fromPkgconf (ascii "b") [], { pos := some (ascii "prefix") })] [] =
      .ok [ascii "/x", ascii "/x"] ∧ Has somePkg (fromPkgconf (ascii "b") []) { pos := some (ascii "prefix") } (ascii "/usr") :=
  ⟨by decide +kernel, .package (n := ascii "b") (x := ascii "prefix") (ps := []) rfl rfl (.inr ⟨rfl, rfl⟩) .nil (by decide +kernel)⟩

/-- A library has no name: what `name()` gives is not a string. -/
theorem library_name_counterexample (f : Bool) : name (fromLibrary f) = none := by cases f <;> rfl

/-- A dependency that is not looked for since its feature is disabled has the name of a declared one. -/
theorem skipped_name_counterexample (n : Bytes) : name (fromSkipped n) = some (ascii "internal") := rfl

example : Proper (fromPkgconf (ascii "a") []) { pos := some (ascii "prefix"), defines := some [ascii "prefix", ascii "/x"] } :=
  ⟨fun _ => ⟨ascii "a", rfl, by decide⟩, fun _ h => (by cases h), fun x h => (by rcases h with h | h <;> cases h; decide),
    fun _ h => (by cases h; exact ⟨by decide, _, .cons _ _ .nil⟩)⟩
example : reads somePkg [(fromPkgconf (ascii "a") [], { pkgconfig := some (ascii "prefix"), pos := some (ascii "q") }),
    (fromDeclare [] [] (some [(ascii "q", ascii "1")]), { pkgconfig := some (ascii "prefix"), pos := some (ascii "q") }),
    (fromNothing [], { pos := some (ascii "q"), dflt := some (ascii "d") })] [] = .ok [ascii "/usr", ascii "1", ascii "d"] := by decide +kernel

end Muon.Dobj
