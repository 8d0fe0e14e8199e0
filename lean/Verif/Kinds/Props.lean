import Verif.Kinds.Model
import Verif.Names.Props
/-
C95: kinds of targets, position independence, and the objects shared by the two targets of `both_libraries`.
-/
namespace Muon.Kinds
open Muon Names Path.Spec Names.Spec

namespace Spec

/-- The kinds of the targets a `library` is. -/
def libraryKinds : Default → List Kind
  | .static => [.static]
  | .shared => [.shared]
  | .both => [.static, .shared]

/-- Which targets a function makes, with its `target_type`. -/
inductive Makes (d : Default) : Fn → Option Bytes → List Kind → Prop
  | executable : Makes d .executable none [.executable]
  | static : Makes d .staticLibrary none [.static]
  | shared : Makes d .sharedLibrary none [.shared]
  | both : Makes d .bothLibraries none [.static, .shared]
  | library : Makes d .library none (libraryKinds d)
  | sharedModule : Makes d .sharedModule none [.sharedModule]
  | tExecutable : Makes d .buildTarget (some (ascii "executable")) [.executable]
  | tStatic : Makes d .buildTarget (some (ascii "static_library")) [.static]
  | tShared : Makes d .buildTarget (some (ascii "shared_library")) [.shared]
  | tBoth : Makes d .buildTarget (some (ascii "both_libraries")) [.static, .shared]
  | tLibrary : Makes d .buildTarget (some (ascii "library")) (libraryKinds d)
  | tModule : Makes d .buildTarget (some (ascii "shared_module")) [.sharedModule]

end Spec
open Spec

theorem libraryKinds_eq (d : Default) : defaultKinds d = libraryKinds d := by cases d <;> rfl

theorem kindsFor_iff (E : Env) (f : Fn) (kw : Kw) (ks : List Kind) : kindsFor E f kw = .ok ks ↔ Makes E.default f kw.targetType ks := by
  have e := libraryKinds_eq E.default
  constructor
  · intro h
    unfold kindsFor at h
    split at h
    · rename_i hf
      subst hf
      cases ht : kw.targetType with
      | none => rw [ht] at h; cases h
      | some s =>
        rw [ht] at h
        simp only [typeFromKw] at h
        split at h
        · rename_i hs; subst hs; cases h; exact .tExecutable
        split at h
        · rename_i hs; subst hs; cases h; exact .tShared
        split at h
        · rename_i hs; subst hs; cases h; exact .tModule
        split at h
        · rename_i hs; subst hs; cases h; exact .tStatic
        split at h
        · rename_i hs; subst hs; cases h; exact .tBoth
        split at h
        · rename_i hs; subst hs; cases h; rw [e]; exact .tLibrary
        · cases h
    · cases ht : kw.targetType with
      | some s => rw [ht] at h; cases h
      | none =>
        rw [ht] at h
        simp only [Option.isSome_none, Bool.false_eq_true, if_false] at h
        cases h
        cases f with
        | executable => exact .executable
        | staticLibrary => exact .static
        | sharedLibrary => exact .shared
        | bothLibraries => exact .both
        | library => simp only [typeOf]; rw [e]; exact .library
        | sharedModule => exact .sharedModule
        | buildTarget => contradiction
  · intro h
    unfold kindsFor
    generalize kw.targetType = tt at h
    cases h with
    | tLibrary =>
      simp only [if_true, typeFromKw]
      rw [if_neg (by decide +kernel), if_neg (by decide +kernel), if_neg (by decide +kernel), if_neg (by decide +kernel), if_neg (by decide +kernel), e]
    | library => simp [typeOf, e]
    | _ => first | rfl | (simp only [if_true, typeFromKw]; decide +kernel)

theorem create_ok {E : Env} {kw : Kw} {k : Kind} {ig : Bool} {srcs : List Bytes} {t : Tgt} (h : create E kw k ig srcs = .ok t) :
    t.kind = k ∧ t.dirs = E.dirs k ∧ picOf E k kw.pic = .ok t.pic ∧ pieOf E k kw.pie = .ok t.pie ∧
    t.src = dedup ((if ig then [] else srcs).filter (fun s => E.cls s = .compiled)) ∧
    t.objects = dedup (dedup (kw.objects.getD []) ++ kw.depObjects) ++ (if ig then [] else srcs).filter (fun s => E.cls s = .object) ∧
    t.linkWith = (if ig then [] else srcs).filter (fun s => E.cls s = .library) := by
  unfold create at h
  obtain ⟨pic, h1, h⟩ := (Res.bind_eq_ok (x := picOf E k kw.pic)).1 h
  obtain ⟨pie, h2, h⟩ := (Res.bind_eq_ok (x := pieOf E k kw.pie)).1 h
  simp only at h
  generalize (if ig = true then [] else srcs) = ss at h ⊢
  split at h
  · cases h
  · cases h
    exact ⟨rfl, rfl, h1, h2, rfl, rfl, rfl⟩

/-- What the two or one targets are. -/
theorem make_cases {E : Env} {kw : Kw} {srcs : List Bytes} {ks : List Kind} {ts : List Tgt} (h : makeAll E kw srcs ks = .ok ts) :
    (ks = [] ∧ ts = []) ∨ (∃ k t, ks = [k] ∧ ts = [t] ∧ create E kw k false srcs = .ok t) ∨
    (∃ k l r t u os, ks = k :: l :: r ∧ ts = [t, u] ∧ create E kw k false srcs = .ok t ∧ extractAll E t true = .ok os ∧
      create E { kw with objects := some (kw.objects.getD [] ++ os) } l true srcs = .ok u) := by
  match ks, h with
  | [], h => cases h; exact Or.inl ⟨rfl, rfl⟩
  | [k], h =>
    obtain ⟨t, h1, h⟩ := (Res.bind_eq_ok (x := create E kw k false srcs)).1 h
    cases h
    exact Or.inr (Or.inl ⟨k, t, rfl, rfl, h1⟩)
  | k :: l :: r, h =>
    obtain ⟨t, h1, h⟩ := (Res.bind_eq_ok (x := create E kw k false srcs)).1 h
    obtain ⟨os, h2, h⟩ := (Res.bind_eq_ok (x := extractAll E t true)).1 h
    obtain ⟨u, h3, h⟩ := (Res.bind_eq_ok (x := create E { kw with objects := some (kw.objects.getD [] ++ os) } l true srcs)).1 h
    cases h
    exact Or.inr (Or.inr ⟨k, l, r, t, u, os, rfl, rfl, h1, h2, h3⟩)

theorem common_ok {E : Env} {f : Fn} {kw : Kw} {srcs : List Bytes} {ts : List Tgt} (h : tgtCommon E f kw srcs = .ok ts) :
    ∃ ks, Makes E.default f kw.targetType ks ∧ makeAll E (withPic ks kw) srcs ks = .ok ts := by
  unfold tgtCommon at h
  obtain ⟨ks, h1, h⟩ := (Res.bind_eq_ok (x := kindsFor E f kw)).1 h
  split at h
  · cases h
  · exact ⟨ks, (kindsFor_iff E f kw ks).1 h1, h⟩

theorem makes_two {d : Default} {f : Fn} {tt : Option Bytes} {k l : Kind} {r : List Kind} (h : Makes d f tt (k :: l :: r)) : k = .static ∧ l = .shared ∧ r = [] := by
  generalize hks : k :: l :: r = ks at h
  cases h <;> first | (cases hks; done) | (cases hks; exact ⟨rfl, rfl, rfl⟩) | (cases d <;> first | (cases hks; done) | (cases hks; exact ⟨rfl, rfl, rfl⟩))

theorem makes_ne {d : Default} {f : Fn} {tt : Option Bytes} (h : Makes d f tt []) : False := by
  generalize hks : ([] : List Kind) = ks at h
  cases h <;> first | cases hks | (cases d <;> cases hks)

theorem withPic_rest (ks : List Kind) (kw : Kw) : (withPic ks kw).pie = kw.pie ∧ (withPic ks kw).objects = kw.objects ∧ (withPic ks kw).depObjects = kw.depObjects ∧
    ((withPic ks kw).pic = kw.pic ∨ ks = [.static, .shared] ∧ kw.pic = none ∧ (withPic ks kw).pic = some true) := by
  unfold withPic
  split
  · rename_i h; exact ⟨rfl, rfl, rfl, Or.inr ⟨h.1, h.2, rfl⟩⟩
  · exact ⟨rfl, rfl, rfl, Or.inl rfl⟩

/-- Each function makes the targets of the kinds it is for, in that order. -/
theorem kinds_made (E : Env) (f : Fn) (kw : Kw) (srcs : List Bytes) (ts : List Tgt) (h : tgtCommon E f kw srcs = .ok ts) :
    Makes E.default f kw.targetType (ts.map (·.kind)) := by
  obtain ⟨ks, hm, h⟩ := common_ok h
  rcases make_cases h with ⟨rfl, rfl⟩ | ⟨k, t, rfl, rfl, hc⟩ | ⟨k, l, r, t, u, os, rfl, rfl, hc, _, hu⟩
  · exact hm
  · simpa [(create_ok hc).1] using hm
  · obtain ⟨_, _, rfl⟩ := makes_two hm
    simpa [(create_ok hc).1, (create_ok hu).1] using hm

/-- Whatever goes into a shared library or module is position independent: if a call makes one, all targets it makes,
so also the static library whose objects it shares, are compiled as such, whatever the options and keywords are. -/
theorem shared_pic (E : Env) (f : Fn) (kw : Kw) (srcs : List Bytes) (ts : List Tgt) (h : tgtCommon E f kw srcs = .ok ts)
    (t : Tgt) (ht : t ∈ ts) (hk : t.kind = .shared ∨ t.kind = .sharedModule) : ∀ u ∈ ts, u.pic = true := by
  obtain ⟨ks, hm, h⟩ := common_ok h
  have sh : ∀ kw' k t', (k = Kind.shared ∨ k = .sharedModule) → picOf E k kw' = .ok t' → t' = true := by
    intro kw' k t' hk hp
    unfold picOf at hp
    cases kw' with
    | none => rcases hk with rfl | rfl <;> simpa using hp.symm
    | some p => cases p <;> rcases hk with rfl | rfl <;> simp at hp <;> first | exact hp | exact hp.symm
  rcases make_cases h with ⟨rfl, rfl⟩ | ⟨k, t', rfl, rfl, hc⟩ | ⟨k, l, r, t', u', os, rfl, rfl, hc, _, hu⟩
  · simp at ht
  · intro u hu
    simp at ht hu
    subst ht hu
    obtain ⟨c1, _, c3, _⟩ := create_ok hc
    exact sh _ _ _ (c1 ▸ hk) c3
  · obtain ⟨rfl, rfl, rfl⟩ := makes_two hm
    obtain ⟨c1, _, c3, _⟩ := create_ok hc
    obtain ⟨d1, _, d3, _⟩ := create_ok hu
    have hu' : u'.pic = true := sh _ _ _ (Or.inl rfl) d3
    have hpic : (withPic [.static, .shared] kw).pic = some true := by
      rcases (withPic_rest [.static, .shared] kw).2.2.2 with hp | hp
      · cases hkw : kw.pic with
        | none =>
          unfold withPic
          rw [hkw]; simp
        | some p =>
          rw [hp, hkw]
          cases p with
          | true => rfl
          | false =>
            simp only [hp, hkw, picOf] at d3
            simp at d3
      · exact hp.2.2
    have ht' : t'.pic = true := by
      rw [hpic] at c3
      simpa [picOf] using c3
    intro u hmem
    simp at hmem
    rcases hmem with rfl | rfl <;> assumption

/-- `pic` is respected, or refused; without it a static library by itself follows `b_staticpic`, and an executable is
not compiled as position independent code. -/
theorem pic_respected (E : Env) (f : Fn) (kw : Kw) (srcs : List Bytes) (ts : List Tgt) (h : tgtCommon E f kw srcs = .ok ts) :
    (∀ p, kw.pic = some p → ∀ t ∈ ts, t.pic = p) ∧
    (kw.pic = none → ∀ t, ts = [t] → (t.kind = .static → t.pic = E.staticpic) ∧ (t.kind = .executable → t.pic = false)) := by
  obtain ⟨ks, hm, h⟩ := common_ok h
  have so : ∀ p k r, picOf E k (some p) = .ok r → r = p := by
    intro p k r hp
    simp only [picOf] at hp
    split at hp
    · cases hp
    · cases hp; rfl
  constructor
  · intro p hp t ht
    have hw : (withPic ks kw).pic = some p := by
      rcases (withPic_rest ks kw).2.2.2 with e | e
      · rw [e, hp]
      · rw [hp] at e; cases e.2.1
    rcases make_cases h with ⟨rfl, rfl⟩ | ⟨k, t', rfl, rfl, hc⟩ | ⟨k, l, r, t', u', os, rfl, rfl, hc, _, hu⟩
    · simp at ht
    · simp at ht; subst ht
      have := (create_ok hc).2.2.1
      rw [hw] at this
      exact so _ _ _ this
    · have h1 := (create_ok hc).2.2.1
      have h2 := (create_ok hu).2.2.1
      simp only [hw] at h1 h2
      simp at ht
      rcases ht with rfl | rfl
      · exact so _ _ _ h1
      · exact so _ _ _ h2
  · intro hp t ht
    subst ht
    rcases make_cases h with ⟨_, h'⟩ | ⟨k, t', rfl, h', hc⟩ | ⟨k, l, r, t', u', os, _, h', _⟩
    · cases h'
    · cases h'
      obtain ⟨c1, _, c3, _⟩ := create_ok hc
      have hw : (withPic [k] kw).pic = none := by
        rcases (withPic_rest [k] kw).2.2.2 with e | e
        · rw [e, hp]
        · cases e.1
      rw [hw] at c3
      simp only [picOf] at c3
      constructor
      · intro hk
        rw [c1] at hk
        subst hk
        simpa using c3.symm
      · intro hk
        rw [c1] at hk
        subst hk
        simpa using c3.symm
    · cases h'

/-- Without the keyword `pie`, executables are position independent as `b_pie` says, and other targets are not made
so. (Missing: the keyword.) -/
theorem pie_partial (E : Env) (f : Fn) (kw : Kw) (srcs : List Bytes) (ts : List Tgt) (h : tgtCommon E f kw srcs = .ok ts) (t : Tgt) (ht : t ∈ ts) :
    t.pie = if t.kind = .executable then E.pieOpt else false := by
  obtain ⟨ks, hm, h⟩ := common_ok h
  have one : ∀ {kw' k ig t'}, create E kw' k ig srcs = .ok t' → t'.pie = if t'.kind = .executable then E.pieOpt else false := by
    intro kw' k ig t' hc
    obtain ⟨c1, _, _, c4, _⟩ := create_ok hc
    rw [c1]
    unfold pieOf at c4
    cases hp : kw'.pie with
    | none => rw [hp] at c4; exact (Res.ok.inj c4).symm
    | some p => rw [hp] at c4; cases c4
  rcases make_cases h with ⟨rfl, rfl⟩ | ⟨k, t', rfl, rfl, hc⟩ | ⟨k, l, r, t', u', os, rfl, rfl, hc, _, hu⟩
  · simp at ht
  · simp at ht; subst ht; exact one hc
  · simp at ht
    rcases ht with rfl | rfl
    · exact one hc
    · exact one hu

/-- The keyword `pie` aborts muon: for every executable with it. -/
theorem pie_counterexample (E : Env) (b : Bool) (srcs : List Bytes) : tgtCommon E .executable { pie := some b } srcs = .bad := by
  simp [tgtCommon, kindsFor, typeOf, Res.bind, kwValid, argtypeOf, withPic, makeAll, create, picOf, pieOf]

theorem mem_dedup (l : List Bytes) (v : Bytes) : v ∈ dedup l ↔ v ∈ l := by
  unfold dedup
  have : ∀ (l r : List Bytes), v ∈ l.foldl (fun r x => if x ∈ r then r else r ++ [x]) r ↔ v ∈ r ∨ v ∈ l := by
    intro l
    induction l with
    | nil => intro r; simp
    | cons a l ih =>
      intro r
      rw [List.foldl_cons, ih]
      split
      · rename_i ha
        constructor
        · rintro (h | h)
          · exact Or.inl h
          · exact Or.inr (by simp [h])
        · rintro (h | h)
          · exact Or.inl h
          · rcases List.mem_cons.1 h with rfl | h
            · exact Or.inl ha
            · exact Or.inr h
      · simp [or_assoc]
  simpa using this l []

/-- `extract_objects`: it succeeds only if all files given that are compiled are sources of the target, and gives the
object of each, in order. -/
theorem extract_objects (E : Env) (t : Tgt) (l os : List Bytes) (h : extract E t l = .ok os) :
    (∀ s ∈ l, E.cls s = .compiled → s ∈ t.src) ∧
    (l.filter fun s => E.cls s = .compiled).map (fun s => objectPath t.dirs E.root E.ext false s) = os.map Res.ok := by
  induction l generalizing os with
  | nil => cases h; simp
  | cons s l ih =>
    unfold extract at h
    split at h
    · rename_i hc
      obtain ⟨h1, h2⟩ := ih os h
      refine ⟨?_, by simpa [hc] using h2⟩
      intro x hx hxc
      rcases List.mem_cons.1 hx with rfl | hx
      · exact absurd hxc hc
      · exact h1 x hx hxc
    · rename_i hc
      have hc : E.cls s = .compiled := Classical.not_not.1 hc
      split at h
      · cases h
      · rename_i hs
        obtain ⟨o, ho, h⟩ := (Res.bind_eq_ok (x := objectPath t.dirs E.root E.ext false s)).1 h
        obtain ⟨os', hos, h⟩ := (Res.bind_eq_ok (x := extract E t l)).1 h
        cases h
        obtain ⟨h1, h2⟩ := ih os' hos
        refine ⟨?_, by simp [hc, ho, h2]⟩
        intro x hx hxc
        rcases List.mem_cons.1 hx with rfl | hx
        · exact Classical.not_not.1 hs
        · exact h1 x hx hxc

/-- `both_libraries`: the shared library has exactly the objects given by the keyword and by dependencies, the objects
of the compiled sources, as the static library makes them, and the objects among the sources; nothing is compiled for
it. -/
theorem both_objects (E : Env) (f : Fn) (kw : Kw) (srcs : List Bytes) (t u : Tgt) (h : tgtCommon E f kw srcs = .ok [t, u]) :
    t.kind = .static ∧ u.kind = .shared ∧ u.src = [] ∧
    ∀ o, o ∈ u.objects ↔ o ∈ kw.objects.getD [] ∨ o ∈ kw.depObjects ∨ (o ∈ srcs ∧ E.cls o = .object) ∨
      ∃ s ∈ srcs, E.cls s = .compiled ∧ objectPath (E.dirs .static) E.root E.ext false s = .ok o := by
  obtain ⟨ks, hm, h⟩ := common_ok h
  rcases make_cases h with ⟨_, h'⟩ | ⟨k, t', _, h', _⟩ | ⟨k, l, r, t', u', os, rfl, h', hc, hx, hu⟩
  · cases h'
  · cases h'
  cases h'
  obtain ⟨rfl, rfl, rfl⟩ := makes_two hm
  obtain ⟨c1, c2, _, _, c5, c6, _⟩ := create_ok hc
  obtain ⟨d1, d2, _, _, d5, d6, _⟩ := create_ok hu
  obtain ⟨_, w2, w3, _⟩ := withPic_rest [.static, .shared] kw
  refine ⟨c1, d1, by simpa [dedup] using d5, ?_⟩
  unfold extractAll at hx
  obtain ⟨eo, he, hx⟩ := (Res.bind_eq_ok (x := extract E t t.src)).1 hx
  simp only [if_true] at hx
  cases hx
  obtain ⟨e1, e2⟩ := extract_objects E t t.src eo he
  have hsrc : ∀ s, s ∈ t.src ↔ s ∈ srcs ∧ E.cls s = .compiled := by
    intro s
    rw [c5, mem_dedup]
    simp
  have heo : ∀ o, o ∈ eo ↔ ∃ s ∈ srcs, E.cls s = .compiled ∧ objectPath (E.dirs .static) E.root E.ext false s = .ok o := by
    intro o
    have : o ∈ eo ↔ Res.ok o ∈ eo.map Res.ok := by simp
    rw [this, ← e2, c2]
    simp only [List.mem_map, List.mem_filter, decide_eq_true_eq, hsrc]
    constructor
    · rintro ⟨s, ⟨⟨h1, h2⟩, _⟩, h3⟩; exact ⟨s, h1, h2, h3⟩
    · rintro ⟨s, h1, h2, h3⟩; exact ⟨s, ⟨⟨h1, h2⟩, h2⟩, h3⟩
  intro o
  rw [d6, ← heo]
  simp only [w2, w3, if_true, List.filter_nil, List.append_nil, mem_dedup, List.mem_append, Option.getD_some, c6, Bool.false_eq_true, if_false, List.mem_filter, decide_eq_true_eq]
  constructor
  · rintro ((h | h | (h | h) | h) | h)
    · exact Or.inl h
    · exact Or.inr (Or.inr (Or.inr h))
    · exact Or.inl h
    · exact Or.inr (Or.inl h)
    · exact Or.inr (Or.inr (Or.inl h))
    · exact Or.inr (Or.inl h)
  · rintro (h | h | h | h)
    · exact Or.inl (Or.inl h)
    · exact Or.inr h
    · exact Or.inl (Or.inr (Or.inr (Or.inr h)))
    · exact Or.inl (Or.inr (Or.inl h))

/-- Every object that the shared library takes from a source is made by a rule of the static library: the rule for that
source, whose output is named relative to the build root, denotes it. -/
theorem both_built (E : Env) (f : Fn) (kw : Kw) (srcs : List Bytes) (t u : Tgt) (h : tgtCommon E f kw srcs = .ok [t, u])
    (he : Ext E.ext) (hr : Place E.root) (hin : In E.root (E.dirs .static).priv) (hp : ∃ l c, comps (E.dirs .static).priv = l ++ [c ++ [46, 112]])
    (hs : ∀ s ∈ srcs, E.cls s = .compiled → Source (E.dirs .static) s) :
    ∀ s ∈ srcs, E.cls s = .compiled → ∃ o ∈ u.objects, s ∈ t.src ∧ ∃ r, objectPath t.dirs E.root E.ext true s = .ok r ∧ comps o = comps E.root ++ comps r := by
  intro s hmem hc
  obtain ⟨o, r, h1, h2, _, h3⟩ := object_relative (E.dirs .static) E.root E.ext s (hs s hmem hc) he hr hin hp
  refine ⟨o, ?_, ?_, r, ?_, h3⟩
  · exact ((both_objects E f kw srcs t u h).2.2.2 o).2 (Or.inr (Or.inr (Or.inr ⟨s, hmem, hc, h1⟩)))
  · obtain ⟨ks, hm, h⟩ := common_ok h
    rcases make_cases h with ⟨_, h'⟩ | ⟨k, t', _, h', _⟩ | ⟨k, l, r, t', u', os, rfl, h', hc', hx, hu⟩
    · cases h'
    · cases h'
    cases h'
    rw [(create_ok hc').2.2.2.2.1, mem_dedup]
    simp [hmem, hc]
  · obtain ⟨ks, hm, h⟩ := common_ok h
    rcases make_cases h with ⟨_, h'⟩ | ⟨k, t', _, h', _⟩ | ⟨k, l, r, t', u', os, rfl, h', hc', hx, hu⟩
    · cases h'
    · cases h'
    cases h'
    rw [(create_ok hc').2.1, (makes_two hm).1]
    exact h2

/-- A library among the sources of `both_libraries` is linked with the static library only. -/
theorem both_library_counterexample (E : Env) (f : Fn) (kw : Kw) (srcs : List Bytes) (t u : Tgt) (h : tgtCommon E f kw srcs = .ok [t, u]) :
    (∀ s ∈ srcs, E.cls s = .library → s ∈ t.linkWith) ∧ u.linkWith = [] := by
  obtain ⟨ks, hm, h⟩ := common_ok h
  rcases make_cases h with ⟨_, h'⟩ | ⟨k, t', _, h', _⟩ | ⟨k, l, r, t', u', os, rfl, h', hc', hx, hu⟩
  · cases h'
  · cases h'
  cases h'
  refine ⟨?_, by rw [(create_ok hu).2.2.2.2.2.2]; simp⟩
  intro s hs hc
  rw [(create_ok hc').2.2.2.2.2.2]
  simp [hs, hc]

/-- The functions that accept `version` and `soversion`; for them the keywords do not decide which targets are made. -/
theorem version_accepted (E : Env) (f : Fn) (kw : Kw) (srcs : List Bytes) :
    (f = .executable ∨ f = .staticLibrary ∨ f = .sharedModule → kw.version = true ∨ kw.soversion = true →
      ∀ ts, tgtCommon E f kw srcs ≠ .ok ts) ∧
    (f = .sharedLibrary ∨ f = .bothLibraries ∨ f = .library ∨ f = .buildTarget →
      tgtCommon E f kw srcs = tgtCommon E f { kw with version := false, soversion := false } srcs) := by
  refine ⟨?_, ?_⟩
  · intro hf hv ts h
    obtain ⟨ks, _, h⟩ := (Res.bind_eq_ok (x := kindsFor E f kw)).1 h
    have : kwValid kw (argtypeOf f) = false := by
      rcases hf with rfl | rfl | rfl <;> rcases hv with e | e <;> simp [kwValid, argtypeOf, e]
    rw [this] at h
    cases h
  · intro hf
    have e1 : kindsFor E f { kw with version := false, soversion := false } = kindsFor E f kw := rfl
    have e2 : kwValid { kw with version := false, soversion := false } (argtypeOf f) = kwValid kw (argtypeOf f) := by
      rcases hf with rfl | rfl | rfl | rfl <;> simp [kwValid, argtypeOf]
    have e3 : ∀ ks, makeAll E (withPic ks { kw with version := false, soversion := false }) srcs ks = makeAll E (withPic ks kw) srcs ks := by
      intro ks
      unfold withPic
      by_cases hk : ks = [.static, .shared] ∧ kw.pic = none
      · rw [if_pos hk, if_pos hk]
        rcases ks with _ | ⟨a, _ | ⟨b, l⟩⟩ <;> rfl
      · rw [if_neg hk, if_neg hk]
        rcases ks with _ | ⟨a, _ | ⟨b, l⟩⟩ <;> rfl
    simp only [tgtCommon, e1, e2, e3]

/-- `vs_module_defs` is refused by `executable` alone. -/
theorem defs_accepted (E : Env) (f : Fn) (kw : Kw) (srcs : List Bytes) :
    (kw.defs = true → ∀ ts, tgtCommon E .executable kw srcs ≠ .ok ts) ∧
    (f ≠ .executable → tgtCommon E f kw srcs = tgtCommon E f { kw with defs := false } srcs) := by
  refine ⟨?_, ?_⟩
  · intro hv ts h
    obtain ⟨ks, _, h⟩ := (Res.bind_eq_ok (x := kindsFor E .executable kw)).1 h
    have : kwValid kw (argtypeOf .executable) = false := by simp [kwValid, argtypeOf, hv]
    rw [this] at h
    cases h
  · intro hf
    have e1 : kindsFor E f { kw with defs := false } = kindsFor E f kw := rfl
    have e2 : kwValid { kw with defs := false } (argtypeOf f) = kwValid kw (argtypeOf f) := by
      cases f <;> simp [kwValid, argtypeOf] at hf ⊢
    have e3 : ∀ ks, makeAll E (withPic ks { kw with defs := false }) srcs ks = makeAll E (withPic ks kw) srcs ks := by
      intro ks
      unfold withPic
      by_cases hk : ks = [.static, .shared] ∧ kw.pic = none
      · rw [if_pos hk, if_pos hk]
        rcases ks with _ | ⟨a, _ | ⟨b, l⟩⟩ <;> rfl
      · rw [if_neg hk, if_neg hk]
        rcases ks with _ | ⟨a, _ | ⟨b, l⟩⟩ <;> rfl
    simp only [tgtCommon, e1, e2, e3]

/-- A single target is refused for want of sources exactly if it is not a static library and nothing goes into it: no
source that is compiled, no object, no library linked whole. (Without `pic`, `pie` and keywords of other kinds.) -/
theorem sources_needed (E : Env) (f : Fn) (k : Kind) (kw : Kw) (srcs : List Bytes)
    (hf : f = .executable ∧ k = .executable ∨ f = .staticLibrary ∧ k = .static ∨ f = .sharedLibrary ∧ k = .shared ∨ f = .sharedModule ∧ k = .sharedModule)
    (h1 : kw.pic = none) (h2 : kw.pie = none) (h3 : kw.version = false) (h4 : kw.soversion = false) (h5 : kw.defs = false) (h6 : kw.targetType = none) :
    (∃ t, tgtCommon E f kw srcs = .ok [t] ∧ t.kind = k) ↔
      (k = .static ∨ (∃ s ∈ srcs, E.cls s = .compiled ∨ E.cls s = .object) ∨ kw.objects.getD [] ≠ [] ∨ kw.depObjects ≠ [] ∨ kw.linkWhole = true) := by
  have hks : kindsFor E f kw = .ok [k] := by
    rcases hf with ⟨rfl, rfl⟩ | ⟨rfl, rfl⟩ | ⟨rfl, rfl⟩ | ⟨rfl, rfl⟩ <;> simp [kindsFor, typeOf, h6]
  have hw : withPic [k] kw = kw := by
    unfold withPic
    rw [if_neg]
    rintro ⟨e, _⟩
    cases e
  have hpic : ∃ b, picOf E k kw.pic = .ok b := by rw [h1]; exact ⟨_, rfl⟩
  have hpie : ∃ b, pieOf E k kw.pie = .ok b := by rw [h2]; exact ⟨_, rfl⟩
  obtain ⟨a, ha⟩ := hpic
  obtain ⟨b, hb⟩ := hpie
  have hv : kwValid kw (argtypeOf f) = true := by simp [kwValid, h3, h4, h5]
  have hd : ∀ l, dedup l = [] ↔ l = [] := by
    intro l
    constructor
    · intro e
      cases l with
      | nil => rfl
      | cons x l =>
        have : x ∈ dedup (x :: l) := (mem_dedup _ _).2 (by simp)
        rw [e] at this
        cases this
    · rintro rfl; rfl
  have hc : tgtCommon E f kw srcs = (create E kw k false srcs).bind fun t => .ok [t] := by
    unfold tgtCommon
    rw [hks]
    show (if !kwValid kw (argtypeOf f) then Res.error else makeAll E (withPic [k] kw) srcs [k]) = _
    rw [hv, hw]
    rfl
  rw [hc]
  have hcase : (create E kw k false srcs = .error ∧ (dedup (srcs.filter (fun s => E.cls s = .compiled)) = [] ∧
      dedup (dedup (kw.objects.getD []) ++ kw.depObjects) ++ srcs.filter (fun s => E.cls s = .object) = [] ∧ (!kw.linkWhole) = true ∧ k ≠ .static)) ∨
      (∃ t, create E kw k false srcs = .ok t ∧ t.kind = k) ∧ ¬ (dedup (srcs.filter (fun s => E.cls s = .compiled)) = [] ∧
      dedup (dedup (kw.objects.getD []) ++ kw.depObjects) ++ srcs.filter (fun s => E.cls s = .object) = [] ∧ (!kw.linkWhole) = true ∧ k ≠ .static) := by
    unfold create
    rw [ha, hb]
    simp only [Res.bind, Bool.false_eq_true, if_false]
    split
    · rename_i hh
      exact Or.inl ⟨rfl, hh⟩
    · rename_i hh
      exact Or.inr ⟨⟨_, rfl, rfl⟩, hh⟩
  rcases hcase with ⟨hcr, hh⟩ | ⟨⟨t, hcr, htk⟩, hh⟩
  · rw [hcr]
    obtain ⟨g1, g2, g3, g4⟩ := hh
    rw [hd, List.filter_eq_nil_iff] at g1
    rw [List.append_eq_nil_iff, hd, List.append_eq_nil_iff, hd, List.filter_eq_nil_iff] at g2
    constructor
    · rintro ⟨t, h, _⟩; cases h
    · rintro (h | ⟨s, hs, h | h⟩ | h | h | h)
      · exact absurd h g4
      · exact absurd (by simpa using h) (g1 s hs)
      · exact absurd (by simpa using h) (g2.2 s hs)
      · exact absurd g2.1.1 h
      · exact absurd g2.1.2 h
      · rw [h] at g3; cases g3
  · rw [hcr]
    refine ⟨fun _ => ?_, fun _ => ⟨t, rfl, htk⟩⟩
    by_cases k0 : k = .static
    · exact Or.inl k0
    by_cases k1 : ∃ s ∈ srcs, E.cls s = .compiled ∨ E.cls s = .object
    · exact Or.inr (Or.inl k1)
    by_cases k2 : kw.objects.getD [] = []
    · by_cases k3 : kw.depObjects = []
      · by_cases k4 : kw.linkWhole = true
        · exact Or.inr (Or.inr (Or.inr (Or.inr k4)))
        · refine absurd ⟨?_, ?_, by simpa using k4, k0⟩ hh
          · rw [hd, List.filter_eq_nil_iff]
            intro s hs e
            exact k1 ⟨s, hs, Or.inl (by simpa using e)⟩
          · rw [List.append_eq_nil_iff, hd, List.append_eq_nil_iff, hd, List.filter_eq_nil_iff]
            exact ⟨⟨k2, k3⟩, fun s hs e => k1 ⟨s, hs, Or.inr (by simpa using e)⟩⟩
      · exact Or.inr (Or.inr (Or.inr (Or.inl k3)))
    · exact Or.inr (Or.inr (Or.inl k2))

/-! ### Cases that meet the hypotheses -/

/-- `.c` is compiled, `.a` is a library. -/
def demo : Env :=
  { default := .both, staticpic := false, pieOpt := true,
    dirs := fun k => { priv := ascii (if k = .static then "/b/libx.a.p" else "/b/libx.so.p"), build := ascii "/b", cwd := ascii "/s", source := ascii "/s" },
    root := ascii "/b", ext := dotO,
    cls := fun s => if (suffix s) = some (ascii "c") then .compiled else if suffix s = some (ascii "a") then .library else if suffix s = some (ascii "o") then .object else .header }

/-- Two sources and a library; the static library is position independent, because it is shared. -/
example : ∃ t u, tgtCommon demo .library {} [ascii "/s/m.c", ascii "/s/z.a", ascii "/s/n.o"] = .ok [t, u] ∧ t.pic = true ∧ u.pic = true ∧
    t.src = [ascii "/s/m.c"] ∧ u.objects = [ascii "/b/libx.a.p/m.c.o", ascii "/s/n.o"] ∧ t.linkWith = [ascii "/s/z.a"] :=
  ⟨⟨.static, demo.dirs .static, [ascii "/s/m.c"], [ascii "/s/n.o"], [ascii "/s/z.a"], true, false⟩,
    ⟨.shared, demo.dirs .shared, [], [ascii "/b/libx.a.p/m.c.o", ascii "/s/n.o"], [], true, false⟩,
    by decide +kernel, rfl, rfl, rfl, rfl, rfl⟩

example : Ext demo.ext ∧ Place demo.root ∧ In demo.root (demo.dirs .static).priv ∧ (∃ l c, comps (demo.dirs .static).priv = l ++ [c ++ [46, 112]]) ∧
    Source (demo.dirs .static) (ascii "/s/m.c") := by
  refine ⟨fun _ => Or.inl rfl, by unfold Place; decide +kernel, ⟨[ascii "libx.a.p"], by decide +kernel, by decide +kernel⟩, ⟨[ascii "b"], ascii "libx.a", by decide +kernel⟩, ?_⟩
  exact ⟨by unfold Place; decide +kernel, by unfold Place; decide +kernel, by unfold Place; decide +kernel, by unfold Place; decide +kernel, by unfold Place; decide +kernel, by decide +kernel⟩

/-- A static library of nothing is made, an executable of nothing is not. -/
example : (∃ t, tgtCommon demo .staticLibrary {} [] = .ok [t]) ∧ tgtCommon demo .executable {} [ascii "/s/m.h"] = .error :=
  ⟨⟨⟨.static, demo.dirs .static, [], [], [], false, false⟩, by decide +kernel⟩, by decide +kernel⟩

/-- A static library by itself follows the option. -/
example : ∃ t, tgtCommon demo .staticLibrary {} [ascii "/s/m.c"] = .ok [t] ∧ t.pic = false :=
  ⟨⟨.static, demo.dirs .static, [ascii "/s/m.c"], [], [], false, false⟩, by decide +kernel, rfl⟩

end Muon.Kinds
