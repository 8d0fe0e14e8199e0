import Verif.Import.Spec
/-
C116: importing modules.
-/
namespace Muon.Import
open Muon
open Muon.Import.Spec

theorem disjoint_names : ∀ n ∈ unimplemented, n ∉ implemented := by decide +kernel

theorem names_iff (n : Bytes) : n ∈ implemented ↔ n ∈ ["fs", "keyval", "pkgconfig", "python", "python3", "sourceset"].map ascii := by
  simp only [implemented, List.map_cons, List.map_nil, List.mem_cons, List.not_mem_nil, or_false]
  constructor <;> (rintro (h | h | h | h | h | h) <;> simp [h])

theorem usable_import (S : Scripts) (n : Bytes) (h : Usable S n) : ∃ m, moduleImport S n = (true, m) ∧ m.found = true ∧ m.impl = true ∧
    (∀ fs, S n = some (some fs) → m.exports = some fs) ∧ (S n = none → m.name = n ∧ m.exports = none) := by
  unfold moduleImport
  cases h with
  | script fs h => rw [h]; exact ⟨_, rfl, rfl, rfl, fun _ e => by cases e; rfl, fun e => by cases e⟩
  | own h m =>
    have : builtin n = some true := if_pos ((names_iff n).2 m)
    rw [h]
    dsimp only
    rw [this]
    exact ⟨_, rfl, rfl, rfl, (by intro _ e; cases e), fun _ => ⟨rfl, rfl⟩⟩

theorem unusable_import (S : Scripts) (n : Bytes) (h : ¬ Usable S n) : (moduleImport S n).2.found = false ∧ (moduleImport S n).2.impl = false ∧ (moduleImport S n).2.exports = none ∧
    ((moduleImport S n).1 = true ↔ OnlyName S n) := by
  unfold moduleImport OnlyName
  match hs : S n with
  | some (some fs) => exact absurd (.script fs hs) h
  | some none => exact ⟨rfl, rfl, rfl, by simp⟩
  | none =>
    have hi : n ∉ implemented := fun m => h (.own hs ((names_iff n).1 m))
    unfold builtin
    rw [if_neg hi]
    by_cases hu : n ∈ unimplemented
    · simp [hu]
    · simp [hu]

/-- C116: what `import()` does, for all names, requirements and scripts. Missing: modules that muon knows only by name if they are required, see `required_counterexample`. -/
theorem import_partial (af : Option Feature.State) (S : Scripts) (n : Bytes) (req : Option Feature.ReqVal) (dis : Option Bool) (r : Feature.Req)
    (hr : Feature.requirement af req = .ok r) (h0 : 0 ∉ n) (ho : r = .required → ¬ OnlyName S n) : Outcome S n r (dis.getD false) (importFn af S n req dis) := by
  unfold importFn
  rw [hr, Res.ok_bind, if_neg h0]
  by_cases hsk : r = .skip
  · subst hsk
    rw [if_pos rfl]
    cases hd : dis.getD false with
    | true => simp only [finish, hd]; exact .disabler (.inl rfl) rfl
    | false => simp only [finish, hd]; exact .absent _ (.inl rfl) rfl rfl rfl
  · rw [if_neg hsk]
    by_cases hu : Usable S n
    · obtain ⟨m, e, h1, h2, h3, h4⟩ := usable_import S n hu
      rw [e, if_pos rfl]
      have : finish r dis true m = .module_ m := by simp [finish, h2]
      rw [this]
      exact .found m hsk hu h1 h3 h4
    · obtain ⟨h1, h2, h3, h4⟩ := unusable_import S n hu
      cases r with
      | skip => exact absurd rfl hsk
      | required =>
        have : (moduleImport S n).1 = false := by
          cases e : (moduleImport S n).1 with
          | false => rfl
          | true => exact absurd (h4.1 e) (ho rfl)
        rw [this]
        exact .error rfl hu
      | auto =>
        have : (if (moduleImport S n).1 = true then (.ok (finish .auto dis true (moduleImport S n).2) : Res Val) else if Feature.Req.auto = .required then .error
            else .ok (finish .auto dis false (moduleImport S n).2)) = .ok (finish .auto dis false (moduleImport S n).2) := by
          cases (moduleImport S n).1 with
          | false => rfl
          | true => simp [finish, h2]
        rw [this]
        cases hd : dis.getD false with
        | true =>
          have : finish .auto dis false (moduleImport S n).2 = .disabler := by simp [finish, hd]
          rw [this]
          exact .disabler (.inr ⟨rfl, hu⟩) rfl
        | false =>
          have : finish .auto dis false (moduleImport S n).2 = .module_ (moduleImport S n).2 := by simp [finish, hd]
          rw [this]
          exact .absent _ (.inr ⟨rfl, hu⟩) rfl h1 h3

theorem unwanted_import (af : Option Feature.State) (S : Scripts) (n : Bytes) (req : Option Feature.ReqVal) (dis : Option Bool) (r : Feature.Req) (m : Mod)
    (hr : Feature.requirement af req = .ok r) (h0 : 0 ∉ n) (hi : importFn af S n req dis = .ok (.module_ m)) (hw : ¬ (r ≠ .skip ∧ Usable S n)) :
    m.found = false ∧ m.exports = none := by
  unfold importFn at hi
  rw [hr, Res.ok_bind, if_neg h0] at hi
  have fin : ∀ (b : Bool) (k : Mod), (.ok (finish r dis b k) : Res Val) = .ok (.module_ m) → m = k := by
    intro b k e
    have e := Res.ok.inj e
    unfold finish at e
    by_cases hc : (!(if (!k.impl && decide (r ≠ .required)) = true then false else b) && dis.getD false) = true
    · rw [if_pos hc] at e; cases e
    · rw [if_neg hc] at e; cases e; rfl
  by_cases hsk : r = .skip
  · rw [if_pos hsk] at hi; rw [fin _ _ hi]; exact ⟨rfl, rfl⟩
  · have hu : ¬ Usable S n := fun h => hw ⟨hsk, h⟩
    rw [if_neg hsk] at hi
    have := And.intro (unusable_import S n hu).1 (unusable_import S n hu).2.2.1
    split at hi
    · rw [fin _ _ hi]; exact this
    · split at hi
      · cases hi
      · rw [fin _ _ hi]; exact this

/-- C116: the methods of what was imported: of a module that cannot be used, or is not wanted, only `found()`; of one that is part of muon, its own and `found()`; of a script, those
that it gives. -/
theorem methods_of_import (af : Option Feature.State) (S : Scripts) (has : Bytes → Bytes → Bool) (n : Bytes) (req : Option Feature.ReqVal) (dis : Option Bool) (r : Feature.Req) (m : Mod)
    (hr : Feature.requirement af req = .ok r) (h0 : 0 ∉ n) (hi : importFn af S n req dis = .ok (.module_ m)) (f : Bytes) (hf : f ≠ ascii "found") (x : Fn) :
    method has m f = .ok x ↔ r ≠ .skip ∧ Usable S n ∧
      ((∃ fs, S n = some (some fs) ∧ f ∈ fs ∧ x = .script f) ∨ S n = none ∧ has n f = true ∧ x = .own n f) := by
  by_cases hw : r ≠ .skip ∧ Usable S n
  · obtain ⟨hsk, hu⟩ := hw
    have key := import_partial af S n req dis r hr h0 (fun _ ho => by
      cases hu with
      | script fs h => rw [ho.1] at h; cases h
      | own _ m => exact disjoint_names n ho.2 ((names_iff n).2 m))
    rw [hi] at key
    cases key with
    | absent _ h => rcases h with h | ⟨_, h⟩; exact absurd h hsk; exact absurd hu h
    | found _ _ _ hfd own nm =>
      simp only [hsk, hu, ne_eq, not_false_eq_true, true_and, method, hfd, Bool.not_true, Bool.false_and, Bool.false_eq_true, if_false]
      cases hu with
      | script fs h =>
        rw [own fs h, h]
        simp only [Option.some.injEq, reduceCtorEq, false_and, or_false]
        constructor
        · intro e
          split at e
          · rename_i hm; cases e; exact ⟨fs, rfl, hm, rfl⟩
          · cases e
        · rintro ⟨_, rfl, hm, rfl⟩
          exact if_pos hm
      | own h _ =>
        obtain ⟨e1, e2⟩ := nm h
        rw [e2, e1, h]
        simp only [hf, if_false, reduceCtorEq, false_and, exists_false, false_or, true_and]
        constructor
        · intro e
          split at e
          · rename_i hm; cases e; exact ⟨hm, rfl⟩
          · cases e
        · rintro ⟨hm, rfl⟩
          exact if_pos hm
  · have hm := (unwanted_import af S n req dis r m hr h0 hi hw).1
    have : method has m f = .error := by simp [method, hm, hf]
    rw [this]
    exact ⟨(by intro e; cases e), fun h => absurd ⟨h.1, h.2.1⟩ hw⟩

/-- C116: `found()` of what was imported says whether the module was wanted and can be used. Missing: scripts, see `script_found_counterexample`. -/
theorem found_of_import_partial (af : Option Feature.State) (S : Scripts) (has : Bytes → Bytes → Bool) (n : Bytes) (req : Option Feature.ReqVal) (dis : Option Bool) (r : Feature.Req) (m : Mod)
    (hr : Feature.requirement af req = .ok r) (h0 : 0 ∉ n) (hi : importFn af S n req dis = .ok (.module_ m)) (hs : r = .skip ∨ ∀ fs, S n ≠ some (some fs)) :
    method has m (ascii "found") = .ok .found ∧ (foundFn m = true ↔ r ≠ .skip ∧ Usable S n) := by
  by_cases hw : r ≠ .skip ∧ Usable S n
  · have hsn : S n = none := by
      rcases hs with h | h
      · exact absurd h hw.1
      · cases hw.2 with
        | script fs e => exact absurd e (h fs)
        | own e _ => exact e
    have key := import_partial af S n req dis r hr h0 (fun _ ho => by
      cases hw.2 with
      | script fs h => rw [ho.1] at h; cases h
      | own _ m => exact disjoint_names n ho.2 ((names_iff n).2 m))
    rw [hi] at key
    cases key with
    | absent _ h => rcases h with h | ⟨_, h⟩; exact absurd h hw.1; exact absurd hw.2 h
    | found _ _ _ hfd _ nm => exact ⟨by simp [method, (nm hsn).2], fun _ => hw, fun _ => hfd⟩
  · obtain ⟨h1, h2⟩ := unwanted_import af S n req dis r m hr h0 hi hw
    refine ⟨by simp [method, h2], fun e => ?_, fun h => absurd h hw⟩
    rw [foundFn, h1] at e
    cases e

/-- Without scripts. -/
def noScripts : Scripts := fun _ => none

/-- A required module that muon knows only by name is imported without an error. -/
theorem required_counterexample (S : Scripts) (n : Bytes) (dis : Option Bool) (h : OnlyName S n) : ∃ m, importFn none S n none dis = .ok (.module_ m) ∧ m.found = false ∧ ¬ Usable S n := by
  have hu : ¬ Usable S n := by
    rintro (⟨_, e⟩ | ⟨_, m⟩)
    · rw [h.1] at e; cases e
    · exact disjoint_names n h.2 ((names_iff n).2 m)
  obtain ⟨h1, h2, _, h4⟩ := unusable_import S n hu
  have h0 : 0 ∉ n := (by decide +kernel : ∀ n ∈ unimplemented, 0 ∉ n) n h.2
  refine ⟨_, ?_, h1, hu⟩
  unfold importFn
  rw [show Feature.requirement none none = .ok .required from rfl, Res.ok_bind, if_neg (by decide), if_neg h0, if_pos (h4.2 h)]
  simp [finish]

/-- `found()` is an error for a module that is a script, unless it gives a function of that name. -/
theorem script_found_counterexample (S : Scripts) (n : Bytes) (has : Bytes → Bytes → Bool) (fs : List Bytes) (h : S n = some (some fs)) (h0 : 0 ∉ n) (hf : ascii "found" ∉ fs) :
    ∃ m, importFn none S n none none = .ok (.module_ m) ∧ m.found = true ∧ method has m (ascii "found") = .error := by
  refine ⟨{ found := true, impl := true, exports := some fs }, ?_, rfl, ?_⟩
  · unfold importFn
    rw [show Feature.requirement none none = .ok .required from rfl, Res.ok_bind, if_neg (by decide), if_neg h0]
    simp [moduleImport, h, finish]
  · simp [method, hf]

example : Usable noScripts (ascii "python") ∧ OnlyName noScripts (ascii "gnome") := ⟨.own rfl (by decide +kernel), rfl, by decide +kernel⟩
example : importFn none noScripts (ascii "fs") none none = .ok (.module_ { name := ascii "fs", found := true, impl := true }) := by decide +kernel
example : importFn none noScripts (ascii "gnome") (some (.bool false)) (some true) = .ok .disabler := by decide +kernel
example : importFn none noScripts (ascii "nothing") none (some true) = .error := by decide +kernel
example : importFn none noScripts (ascii "gnome") (some (.bool false)) none = .ok (.module_ { name := ascii "gnome" }) := by decide +kernel
example : importFn none (fun _ => some (some [ascii "f"])) (ascii "_test") none none = .ok (.module_ { found := true, impl := true, exports := some [ascii "f"] }) := by decide +kernel

end Muon.Import
