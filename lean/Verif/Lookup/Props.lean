import Verif.Lookup.Lemmas
/-
C96: looking up dependencies.
-/
namespace Muon.Lookup
open Muon Spec

/-! ### Facts about states -/

theorem get_append_some {l : List Dep} {i : Nat} {d e : Dep} (h : l[i]? = some d) : (l ++ [e])[i]? = some d := by
  obtain ⟨hi, _⟩ := List.getElem?_eq_some_iff.1 h
  rw [List.getElem?_append_left hi]; exact h

theorem get_append_last (l : List Dep) (e : Dep) : (l ++ [e])[l.length]? = some e := by simp

theorem Spec.Found.append {st : St} {i : Nat} {e : Dep} (h : Found st i) :
    Found { st with heap := st.heap ++ [e] } i := by
  obtain ⟨d, hd, hf⟩ := h
  exact ⟨d, get_append_some hd, hf⟩

theorem Spec.Sound.append {st : St} (e : Dep) (h : Sound st) : Sound { st with heap := st.heap ++ [e] } :=
  ⟨fun p n i hi => (h.cacheS p n i hi).append, fun p n i hi => (h.cacheD p n i hi).append,
   fun n i hi => (h.ovS n i hi).append, fun n i hi => (h.ovD n i hi).append,
   fun s vars v i hs hv => (h.subs s vars v i hs hv).append⟩

theorem Spec.Found.set {st : St} {i j : Nat} {d : Dep} {x : Inc} (hd : st.heap[j]? = some d) (h : Found st i) :
    Found { st with heap := st.heap.set j { d with inc := x } } i := by
  obtain ⟨e, he, hf⟩ := h
  by_cases hij : j = i
  · subst hij
    obtain ⟨hi, _⟩ := List.getElem?_eq_some_iff.1 he
    have : d = e := by simp only [Is] at he; rw [hd] at he; injection he
    subst this
    exact ⟨{ d with inc := x }, by simp [Is, hi], hf⟩
  · exact ⟨e, by simp only [Is]; rw [List.getElem?_set_ne hij]; exact he, hf⟩

theorem Spec.Sound.set {st : St} {j : Nat} {d : Dep} {x : Inc} (hd : st.heap[j]? = some d) (h : Sound st) :
    Sound { st with heap := st.heap.set j { d with inc := x } } :=
  ⟨fun p n i hi => (h.cacheS p n i hi).set hd, fun p n i hi => (h.cacheD p n i hi).set hd,
   fun n i hi => (h.ovS n i hi).set hd, fun n i hi => (h.ovD n i hi).set hd,
   fun s vars v i hs hv => (h.subs s vars v i hs hv).set hd⟩

theorem Spec.Sound.setCache {st : St} {E : Env} {m : Mode} {i : Nat} {names : List Bytes} (h : Sound st)
    (hi : Found st i) : Sound (setCache E m i names st) := by
  refine ⟨fun p n k hk => ?_, fun p n k hk => ?_, h.ovS, h.ovD, h.subs⟩
  · simp only [Lookup.setCache] at hk
    split at hk
    · injection hk with hk; subst hk; exact hi
    · exact h.cacheS p n k hk
  · simp only [Lookup.setCache] at hk
    split at hk
    · injection hk with hk; subst hk; exact hi
    · exact h.cacheD p n k hk

theorem Moves.sound {E : Env} (hE : EvalSound E) {a b : St} (h : Moves E a b) (ha : Sound a) : Sound b := by
  induction h with
  | refl => exact ha
  | eval _ e ih => rw [← e]; exact (hE _ _ _ _ ih).1
  | @sub b b' r n m ver vars _ e ih =>
    have h1 := hE b r n m ih
    rw [e] at h1
    refine ⟨h1.1.cacheS, h1.1.cacheD, h1.1.ovS, h1.1.ovD, fun s vs v i hs hv => ?_⟩
    simp only at hs
    split at hs
    · injection hs with hs; subst hs; exact h1.2 ver vars v i rfl hv
    · exact h1.1.subs s vs v i hs hv

theorem Spec.Alike.refl (d : Dep) : Alike d d := rfl
theorem Spec.Alike.trans {a b c : Dep} (h1 : Alike a b) (h2 : Alike b c) : Alike a c := Eq.trans h1 h2
theorem Spec.Alike.symm {a b : Dep} (h1 : Alike a b) : Alike b a := Eq.symm h1

theorem Spec.Alike.facts {a b : Dep} (h : Alike a b) :
    a.name = b.name ∧ a.version = b.version ∧ a.found = b.found ∧ a.kind = b.kind := by
  simp only [Alike, Dep.mk.injEq] at h
  exact ⟨h.1, h.2.1, h.2.2.1, h.2.2.2.1⟩

theorem Spec.Alike.eq {a b : Dep} (h : Alike a b) (x : Inc) : { a with inc := x } = { b with inc := x } := by
  obtain ⟨h1, h2, h3, h4⟩ := h.facts
  cases a; cases b
  simp_all

theorem Spec.Keeps.refl (p : Nat) (a : St) : Keeps p a a := ⟨fun _ d h => ⟨d, h, .refl d⟩, fun _ => rfl, fun _ => rfl⟩

theorem Spec.Keeps.trans {p : Nat} {a b c : St} (h1 : Keeps p a b) (h2 : Keeps p b c) : Keeps p a c :=
  ⟨fun i d h => by
    obtain ⟨e, he, hde⟩ := h1.heap i d h
    obtain ⟨f, hf, hef⟩ := h2.heap i e he
    exact ⟨f, hf, hde.trans hef⟩,
   fun n => (h2.cacheS n).trans (h1.cacheS n), fun n => (h2.cacheD n).trans (h1.cacheD n)⟩

theorem Moves.keeps {E : Env} {p : Nat} (hE : EvalKeeps E p) {a b : St} (h : Moves E a b) : Keeps p a b := by
  induction h with
  | refl => exact .refl _ _
  | eval _ e ih => rw [← e]; exact ih.trans (hE _ _ _ _)
  | @sub b b' r n m ver vars _ e ih =>
    have h1 := hE b r n m
    rw [e] at h1
    exact ih.trans ⟨h1.heap, h1.cacheS, h1.cacheD⟩

theorem keeps_append (p : Nat) (st : St) (e : Dep) : Keeps p st { st with heap := st.heap ++ [e] } :=
  ⟨fun _ d h => ⟨d, get_append_some h, .refl d⟩, fun _ => rfl, fun _ => rfl⟩

theorem keeps_set (p : Nat) {st : St} {j : Nat} {d : Dep} {x : Inc} (hd : st.heap[j]? = some d) :
    Keeps p st { st with heap := st.heap.set j { d with inc := x } } := by
  refine ⟨fun i e h => ?_, fun _ => rfl, fun _ => rfl⟩
  by_cases hij : j = i
  · subst hij
    obtain ⟨hi, _⟩ := List.getElem?_eq_some_iff.1 h
    have : d = e := by simp only [Is] at h; rw [hd] at h; injection h
    subst this
    exact ⟨{ d with inc := x }, by simp [Is, hi], rfl⟩
  · exact ⟨e, by simp only [Is]; rw [List.getElem?_set_ne hij]; exact h, .refl e⟩

theorem Src.keeps {E : Env} {c : Call} {m : Mode} {a b : St} {h : Hit} (p : Nat) (hs : Src E c m a b h) :
    Keeps p a b := by
  cases hs with
  | cache => exact .refl _ _
  | ov => exact .refl _ _
  | var => exact .refl _ _
  | pkg => exact keeps_append ..
  | special => exact keeps_append ..

theorem override_mem {st : St} {m : Mode} {i : Nat} {m' : Mode} : ∀ {ns : List Bytes},
    override st m ns = some (i, m') → (m ≠ .default → m' = m) ∧ ∃ n ∈ ns, st.ovS n = some i ∨ st.ovD n = some i
  | [], h => by simp [override] at h
  | n :: ns, h => by
    simp only [override] at h
    split at h
    · rename_i j e
      cases h
      split at e
      · rename_i hm
        exact ⟨fun h => by cases m <;> simp_all, n, by simp, .inl e⟩
      · cases e
    · split at h
      · rename_i j e
        cases h
        split at e
        · rename_i hm
          exact ⟨fun h => by cases m <;> simp_all, n, by simp, .inr e⟩
        · cases e
      · obtain ⟨h1, k, hk, h2⟩ := override_mem h
        exact ⟨h1, k, by simp [hk], h2⟩

theorem cached_mem {E : Env} {st : St} {m : Mode} {n : Bytes} {i : Nat} {m' : Mode}
    (h : cached E st m n = some (i, m')) :
    (m ≠ .default → m' = m) ∧
    ((m ≠ .shared ∧ st.cacheS E.proj n = some i) ∨ (m ≠ .static ∧ st.cacheD E.proj n = some i)) := by
  unfold cached at h
  split at h
  · rename_i j e
    cases h
    split at e
    · rename_i hm
      exact ⟨fun h => by cases m <;> simp_all, .inl ⟨hm, e⟩⟩
    · cases e
  · split at h
    · rename_i j e
      cases h
      split at e
      · rename_i hm
        exact ⟨fun h => by cases m <;> simp_all, .inr ⟨hm, e⟩⟩
      · cases e
    · cases h

theorem Src.mode {E : Env} {c : Call} {m : Mode} {a b : St} {h : Hit} (hs : Src E c m a b h) (hm : m ≠ .default) :
    h.mode = m := by
  cases hs with
  | cache _ h => exact (cached_mem h).1 hm
  | ov h => exact (override_mem h).1 hm
  | var => rfl
  | pkg => rfl
  | special => rfl

theorem meets_of {v : Option Bytes} {cs : Option (List Bytes)} (h : versionOk v cs = .ok true) : Meets v cs := by
  intro l hl
  subst hl
  cases v with
  | none => simp [versionOk] at h
  | some w =>
    simp only [versionOk, Res.ok.injEq] at h
    exact ⟨w, rfl, ((Version.version_compare_all w l).1 h).2⟩

theorem versionOk_of {v : Option Bytes} {cs : Option (List Bytes)} (h : Meets v cs) (hne : cs ≠ some []) :
    versionOk v cs = .ok true := by
  cases cs with
  | none => rfl
  | some l =>
    obtain ⟨w, rfl, hw⟩ := h l rfl
    simp only [versionOk, Res.ok.injEq]
    exact (Version.version_compare_all w l).2 ⟨fun e => hne (by rw [e]), hw⟩

/-! ### What a call does -/

/-- A call that succeeds: it is skipped, or finds something, or does not. -/
theorem dependency_ok {E : Env} {c : Call} {st st' : St} {r : Result} (h : dependency E c st = .ok (st', r)) :
    (c.req = .skip ∧ ∃ n, st' = { st with heap := st.heap ++ [⟨n, none, false, .declared, .preserve⟩] } ∧
      r = .dep st.heap.length) ∨
    (∃ s x, look E c st = .ok (s, some x) ∧ deliver E c s x = .ok (st', r)) ∨
    (∃ s, look E c st = .ok (s, none) ∧ c.req = .auto ∧
      ((c.disabler = true ∧ st' = s ∧ r = .disabler) ∨
       (c.disabler = false ∧ ∃ n, st' = { s with heap := s.heap ++ [⟨n, none, false, .notFound, c.inc⟩] } ∧
        r = .dep s.heap.length))) := by
  unfold dependency at h
  split at h
  · cases h
  · rename_i n ns e
    split at h
    · rename_i hr
      cases h
      exact .inl ⟨hr, n, rfl, rfl⟩
    · rename_i hr
      split at h
      · cases h
      · cases h
      · rename_i s x hl
        exact .inr (.inl ⟨s, x, hl, h⟩)
      · rename_i s hl
        refine .inr (.inr ⟨s, hl, ?_⟩)
        split at h
        · cases h
        · rename_i hr'
          have ha : c.req = .auto := by cases hq : c.req <;> simp_all
          refine ⟨ha, ?_⟩
          split at h
          · rename_i hd
            cases h
            exact .inl ⟨hd, rfl, rfl⟩
          · rename_i hd
            cases h
            exact .inr ⟨by simpa using hd, _, rfl, rfl⟩

/-- What is delivered. -/
theorem deliver_ok {E : Env} {c : Call} {s st' : St} {x : Hit} {r : Result} (h : deliver E c s x = .ok (st', r)) :
    ∃ d, s.heap[x.id]? = some d ∧
    ((x.cache = true ∧ st' = { s with heap := s.heap ++ [{ d with inc := c.inc }] } ∧ r = .dep s.heap.length) ∨
     (x.cache = false ∧ r = .dep x.id ∧ ((d.found = false ∧ st' = { s with heap := s.heap.set x.id { d with inc := c.inc } }) ∨
       (d.found = true ∧
        st' = setCache E x.mode x.id c.names { s with heap := s.heap.set x.id { d with inc := c.inc } })))) := by
  unfold deliver at h
  split at h
  · cases h
  · rename_i d hd
    refine ⟨d, hd, ?_⟩
    split at h
    · rename_i hc
      cases h
      exact .inl ⟨hc, rfl, rfl⟩
    · rename_i hc
      simp only [Res.ok.injEq, Prod.mk.injEq] at h
      refine .inr ⟨by simpa using hc, h.2.symm, ?_⟩
      cases hf : d.found with
      | false => simp only [hf] at h; exact .inl ⟨rfl, h.1.symm⟩
      | true => simp only [hf] at h; exact .inr ⟨rfl, h.1.symm⟩

theorem Src.found {E : Env} {c : Call} {m : Mode} {a b : St} {h : Hit} (hs : Src E c m a b h) (ha : Sound a) :
    Sound b ∧ (Found b h.id ∨ (ascii "appleframeworks" ∈ c.names ∧ E.darwin = false) ∨
      ([] ∈ c.names ∧ c.req ≠ .required)) := by
  cases hs with
  | cache _ e =>
    refine ⟨ha, .inl ?_⟩
    rcases (cached_mem e).2 with h | h
    · exact ha.cacheS _ _ _ h.2
    · exact ha.cacheD _ _ _ h.2
  | ov e =>
    refine ⟨ha, .inl ?_⟩
    obtain ⟨_, n, _, h | h⟩ := override_mem e
    · exact ha.ovS _ _ h
    · exact ha.ovD _ _ h
  | var _ e1 e2 => exact ⟨ha, .inl (ha.subs _ _ _ _ e1 e2)⟩
  | pkg => exact ⟨ha.append _, .inl ⟨_, get_append_last _ _, rfl⟩⟩
  | @special d hn hd =>
    refine ⟨ha.append _, ?_⟩
    rcases hd with h | h
    · exact .inl ⟨d, get_append_last _ _, h⟩
    · exact .inr h

theorem look_sound {E : Env} {c : Call} {st st' : St} {o} (hE : EvalSound E) (hs : Sound st)
    (h : look E c st = .ok (st', o)) : Sound st' := by
  have ht := (look_src h).1
  cases o with
  | none => exact (ht.1 rfl).sound hE hs
  | some x =>
    obtain ⟨s, hm, hsrc⟩ := ht.2 x rfl
    exact (hsrc.found (hm.sound hE hs)).1

/-- Lookups keep what `Sound` says: the cache only holds dependencies that were found. -/
theorem sound_kept {E : Env} {c : Call} {st st' : St} {r : Result} (hE : EvalSound E) (hs : Sound st)
    (h : dependency E c st = .ok (st', r)) : Sound st' := by
  rcases dependency_ok h with ⟨_, n, rfl, _⟩ | ⟨s, x, hl, hdl⟩ | ⟨s, hl, _, ⟨_, rfl, _⟩ | ⟨_, n, rfl, _⟩⟩
  · exact hs.append _
  · have h1 := look_sound hE hs hl
    obtain ⟨d, hd, ⟨_, rfl, _⟩ | ⟨_, _, ⟨_, rfl⟩ | ⟨hf, rfl⟩⟩⟩ := deliver_ok hdl
    · exact h1.append _
    · exact h1.set hd
    · exact (h1.set hd).setCache (Spec.Found.set hd ⟨d, hd, hf⟩)
  · exact look_sound hE hs hl
  · exact (look_sound hE hs hl).append _

/-- C96: a required dependency is found or the lookup fails, as long as overrides and subprojects provide only
dependencies that were found, and `appleframeworks` is not asked for outside of macOS. -/
theorem required_found_partial {E : Env} {c : Call} {st st' : St} {r : Result} (hE : EvalSound E) (hs : Sound st)
    (hr : c.req = .required) (ha : ascii "appleframeworks" ∈ c.names → E.darwin = true)
    (h : dependency E c st = .ok (st', r)) : ∃ i, r = .dep i ∧ Found st' i := by
  rcases dependency_ok h with ⟨h1, _⟩ | ⟨s, x, hl, hdl⟩ | ⟨s, hl, h1, _⟩
  · rw [hr] at h1; cases h1
  · obtain ⟨s0, hm, hsrc⟩ := (look_src hl).1.2 x rfl
    have hf : Found s x.id := by
      rcases (hsrc.found (hm.sound hE hs)).2 with h | ⟨h, h'⟩ | ⟨_, h⟩
      · exact h
      · rw [ha h] at h'; cases h'
      · exact absurd hr h
    obtain ⟨e, he, hef⟩ := hf
    obtain ⟨d, hd, ⟨_, rfl, rfl⟩ | ⟨_, rfl, ⟨h0, rfl⟩ | ⟨hf, rfl⟩⟩⟩ := deliver_ok hdl
    · have : e = d := by simp only [Is] at he; rw [hd] at he; injection he with he; exact he.symm
      subst this
      exact ⟨_, rfl, _, get_append_last _ _, hef⟩
    · have : e = d := by simp only [Is] at he; rw [hd] at he; injection he with he; exact he.symm
      subst this
      rw [hef] at h0; cases h0
    · obtain ⟨f, hf1, hf2⟩ := Spec.Found.set (x := c.inc) hd ⟨e, he, hef⟩
      exact ⟨_, rfl, f, hf1, hf2⟩
  · rw [hr] at h1; cases h1

/-- C96: with `required` disabled nothing is looked up: whatever the environment, the dependency returned is a new one
that is not found, and nothing else changes. -/
theorem skip {E E' : Env} {c : Call} {st : St} (hn : c.names ≠ []) (hr : c.req = .skip) :
    dependency E c st = dependency E' c st ∧
    ∃ d, d.found = false ∧ dependency E c st = .ok ({ st with heap := st.heap ++ [d] }, .dep st.heap.length) := by
  cases hq : c.names with
  | nil => exact absurd hq hn
  | cons n ns =>
    have hh : ∀ E : Env, dependency E c st =
        .ok ({ st with heap := st.heap ++ [⟨n, none, false, .declared, .preserve⟩] }, .dep st.heap.length) := by
      intro E
      unfold dependency
      rw [hq]
      simp [hr]
    exact ⟨by rw [hh, hh], _, rfl, hh E⟩

/-- C96: a dependency that is not required and not found is a disabler if that is asked for, and else a dependency that
is not found. -/
theorem not_found {E : Env} {c : Call} {st s : St} (hn : c.names ≠ []) (hr : c.req = .auto)
    (hl : look E c st = .ok (s, none)) :
    (c.disabler = true → dependency E c st = .ok (s, .disabler)) ∧
    (c.disabler = false → ∃ d, d.found = false ∧ d.inc = c.inc ∧
      dependency E c st = .ok ({ s with heap := s.heap ++ [d] }, .dep s.heap.length)) := by
  cases hq : c.names with
  | nil => exact absurd hq hn
  | cons n ns =>
    refine ⟨fun hd => ?_, fun hd => ⟨⟨c.names.getLast?.getD [], none, false, .notFound, c.inc⟩, rfl, rfl, ?_⟩⟩
    · unfold dependency; rw [hq]; simp [hr, hl, hd]
    · unfold dependency; rw [hq]; simp [hr, hl, hd]

/-! ### Versions and static libraries -/

/-- Where a dependency that was found comes from, seen after the call: it is in the cache of the project from before,
or from pkg-config, or an override, or a variable of a subproject, or one the program knows itself. -/
theorem origin {E : Env} {c : Call} {st st' : St} {i : Nat} {d : Dep} (hr : c.req ≠ .skip)
    (h : dependency E c st = .ok (st', .dep i)) (hd : Is st' i d) (hf : d.found = true) :
    (∃ s n k m' d0, Moves E st s ∧ Named c n ∧ cached E s (modeOf c) n = some (k, m') ∧ Is s k d0 ∧ Alike d0 d ∧
      Meets d.version c.versions) ∨
    (∃ n v, Named c n ∧ E.pkg n (modeOf c == .static) = some v ∧ d.name = n ∧ d.version = some v ∧
      d.kind = .pkgconf (modeOf c == .static) ∧ Meets d.version c.versions) ∨
    (∃ n ∈ c.names, st'.ovS n = some i ∨ st'.ovD n = some i) ∨
    (E.wrap ≠ .nofallback ∧ ∃ s vars v, st'.subs s = some vars ∧ vars v = some (.dep i)) ∨
    (∃ n ∈ c.names, n = ascii "threads" ∨ n = ascii "appleframeworks" ∨ n = []) := by
  rcases dependency_ok h with ⟨h1, _⟩ | ⟨s, x, hl, hdl⟩ | ⟨s, hl, h1, ⟨_, _, h2⟩ | ⟨_, n, rfl, h2⟩⟩
  · exact absurd h1 hr
  · obtain ⟨s0, hm, hsrc⟩ := (look_src hl).1.2 x rfl
    obtain ⟨e, he, hcase⟩ := deliver_ok hdl
    have hal : Alike e d ∧ (x.cache = false → i = x.id ∧ st'.ovS = s.ovS ∧ st'.ovD = s.ovD ∧ st'.subs = s.subs) := by
      rcases hcase with ⟨hc, rfl, h2⟩ | ⟨hc, h2, ⟨h0, rfl⟩ | ⟨hf, rfl⟩⟩
      · cases h2
        have := hd.symm.trans (get_append_last _ _)
        injection this with this
        subst this
        exact ⟨rfl, fun h => by rw [hc] at h; cases h⟩
      · cases h2
        obtain ⟨hi, _⟩ := List.getElem?_eq_some_iff.1 he
        have : some d = some { e with inc := c.inc } := hd.symm.trans (by simp [hi])
        injection this with this
        subst this
        exact ⟨rfl, fun _ => ⟨rfl, rfl, rfl, rfl⟩⟩
      · cases h2
        obtain ⟨hi, _⟩ := List.getElem?_eq_some_iff.1 he
        have : some d = some { e with inc := c.inc } := hd.symm.trans (by simp [Lookup.setCache, hi])
        injection this with this
        subst this
        exact ⟨rfl, fun _ => ⟨rfl, rfl, rfl, rfl⟩⟩
    obtain ⟨hal, hfr⟩ := hal
    obtain ⟨_, hver, _, hkind⟩ := hal.facts
    cases hsrc with
    | @cache n k m' d0 hn hc h0 hv =>
      have : d0 = e := by rw [h0] at he; injection he
      subst this
      exact .inl ⟨_, n, k, m', d0, hm, hn, hc, h0, hal, by rw [← hver]; exact meets_of hv⟩
    | @pkg n v hn hp hv =>
      have : some e = some ⟨n, some v, true, .pkgconf (modeOf c == .static), .preserve⟩ :=
        he.symm.trans (get_append_last _ _)
      injection this with this
      subst this
      exact .inr (.inl ⟨n, v, hn, hp, hal.facts.1.symm, hver.symm, hkind.symm, by rw [← hver]; exact meets_of hv⟩)
    | ov ho =>
      obtain ⟨hi, h1, h2, h3⟩ := hfr rfl
      obtain ⟨_, n, hn, h⟩ := override_mem ho
      rw [h1, h2, hi]
      exact .inr (.inr (.inl ⟨n, hn, h⟩))
    | @var sn vars v _ hw hs1 hs2 =>
      obtain ⟨hi, h1, h2, h3⟩ := hfr rfl
      rw [h3, hi]
      exact .inr (.inr (.inr (.inl ⟨hw, sn, vars, v, hs1, hs2⟩)))
    | special hn =>
      rcases hn with h | h | h
      · exact .inr (.inr (.inr (.inr ⟨_, h, .inl rfl⟩)))
      · exact .inr (.inr (.inr (.inr ⟨_, h, .inr (.inl rfl)⟩)))
      · exact .inr (.inr (.inr (.inr ⟨_, h, .inr (.inr rfl)⟩)))
  · cases h2
  · cases h2
    have := hd.symm.trans (get_append_last _ _)
    injection this with this
    subst this
    cases hf

/-- C96: a dependency that is returned as found meets the version that was asked for, unless it is an override, a
variable of a subproject, or a dependency without a version that the program knows itself. -/
theorem version_partial {E : Env} {c : Call} {st st' : St} {i : Nat} {d : Dep}
    (h : dependency E c st = .ok (st', .dep i)) (hd : Is st' i d) (hf : d.found = true)
    (hov : ∀ n ∈ c.names, st'.ovS n ≠ some i ∧ st'.ovD n ≠ some i)
    (hvar : ∀ s vars v, st'.subs s = some vars → vars v ≠ some (.dep i))
    (hsp : ∀ n ∈ c.names, ¬ Special n) : Meets d.version c.versions := by
  by_cases hr : c.req = .skip
  · rcases dependency_ok h with ⟨h1, n, rfl, h2⟩ | ⟨s, x, hl, hdl⟩ | ⟨s, hl, h1, _⟩
    · cases h2
      have := hd.symm.trans (get_append_last _ _)
      injection this with this
      subst this
      cases hf
    · exfalso
      unfold dependency at h
      split at h
      · cases h
      · simp only [hr, if_true, Res.ok.injEq, Prod.mk.injEq] at h
        obtain ⟨rfl, h2⟩ := h
        cases h2
        have := hd.symm.trans (get_append_last _ _)
        injection this with this
        subst this
        cases hf
    · rw [hr] at h1; cases h1
  · rcases origin hr h hd hf with ⟨_, _, _, _, _, _, _, _, _, _, h⟩ | ⟨_, _, _, _, _, _, _, h⟩ | ⟨n, hn, h⟩ |
      ⟨_, s, vars, v, h1, h2⟩ | ⟨n, hn, h⟩
    · exact h
    · exact h
    · rcases h with h | h
      · exact absurd h (hov n hn).1
      · exact absurd h (hov n hn).2
    · exact absurd h2 (hvar _ _ _ h1)
    · exact absurd (by rcases h with h | h | h <;> simp [Special, h]) (hsp n hn)

/-- C96: with `static: true`, a dependency that was found is not one of pkg-config without the static libraries, unless
the project's cache holds such a one, or it is an override or a variable of a subproject. -/
theorem static_partial {E : Env} {c : Call} {st st' : St} {i : Nat} {d : Dep} (hE : EvalKeeps E E.proj)
    (hst : c.static = some true) (hr : c.req ≠ .skip)
    (hc : ∀ n k e, st.cacheS E.proj n = some k → Is st k e → e.kind ≠ .pkgconf false)
    (hwf : ∀ n k, st.cacheS E.proj n = some k → ∃ e, Is st k e)
    (h : dependency E c st = .ok (st', .dep i)) (hd : Is st' i d) (hf : d.found = true)
    (hov : ∀ n ∈ c.names, st'.ovS n ≠ some i ∧ st'.ovD n ≠ some i)
    (hvar : ∀ s vars v, st'.subs s = some vars → vars v ≠ some (.dep i))
    (hsp : ∀ n ∈ c.names, ¬ Special n) : d.kind ≠ .pkgconf false := by
  have hm : modeOf c = .static := by simp [modeOf, hst]
  rcases origin hr h hd hf with ⟨s, n, k, m', e, hmv, _, hca, he, hal, _⟩ | ⟨_, _, _, _, _, _, h, _⟩ | ⟨n, hn, h⟩ |
      ⟨_, s, vars, v, h1, h2⟩ | ⟨n, hn, h⟩
  · rw [hm] at hca
    have hk := hmv.keeps hE
    rcases (cached_mem hca).2 with ⟨_, h1⟩ | ⟨h1, _⟩
    · rw [hk.cacheS] at h1
      obtain ⟨e0, he0⟩ := hwf n k h1
      obtain ⟨e1, he1, ha1⟩ := hk.heap k e0 he0
      have : e1 = e := by simp only [Is] at he he1; rw [he] at he1; injection he1 with he1; exact he1.symm
      subst this
      rw [← hal.facts.2.2.2, ← ha1.facts.2.2.2]
      exact hc n k e0 h1 he0
    · exact absurd rfl h1
  · rw [h, hm]; decide
  · rcases h with h | h
    · exact absurd h (hov n hn).1
    · exact absurd h (hov n hn).2
  · exact absurd h2 (hvar _ _ _ h1)
  · exact absurd (by rcases h with h | h | h <;> simp [Special, h]) (hsp n hn)

/-! ### Subprojects -/

theorem useFallback_off {E : Env} (hw : E.wrap = .nofallback) {c : Call} {m : Mode} {st : St} {fb : List Bytes} :
    useFallback E c m st fb = .ok (st, none) := by simp [useFallback, hw]

theorem pkgThen_eval {E : Env} {ev} (hw : E.wrap = .nofallback) (c : Call) (m : Mode) (st : St) (n : Bytes) (fb) :
    pkgThen { E with eval := ev } c m st n fb = pkgThen E c m st n fb := by
  cases fb with
  | none => rfl
  | some f =>
    have h1 : ∀ st', useFallback { E with eval := ev } c m st' f = useFallback E c m st' f := fun st' => by
      rw [useFallback_off hw, useFallback_off (E := { E with eval := ev }) hw]
    have h2 : usePkg { E with eval := ev } c m st n = usePkg E c m st n := rfl
    unfold pkgThen
    rw [h2]
    cases usePkg E c m st n with
    | ok p => obtain ⟨s, _ | _⟩ := p <;> simp [h1]
    | error => rfl
    | bad => rfl

theorem getDep_eval {E : Env} {ev} (hw : E.wrap = .nofallback) (c : Call) (m : Mode) (st : St) (n : Bytes) (fb) (second) :
    getDep { E with eval := ev } c m st n fb second = getDep E c m st n fb second := by
  have h0 : cached { E with eval := ev } st m n = cached E st m n := rfl
  have h1 : lookFresh { E with eval := ev } c m st n fb second = lookFresh E c m st n fb second := by
    unfold lookFresh
    have h2 : fallbackOf { E with eval := ev } fb second n = fallbackOf E fb second n := rfl
    have h3 : ∀ f, forced { E with eval := ev } st f n = forced E st f n := fun _ => rfl
    have h4 : ∀ f, useFallback { E with eval := ev } c m st f = useFallback E c m st f := fun f => by
      rw [useFallback_off hw, useFallback_off (E := { E with eval := ev }) hw]
    simp only [h2, h3, h4, pkgThen_eval hw]
  unfold getDep
  rw [h0, h1]

theorem lookName_eval {E : Env} {ev} (hw : E.wrap = .nofallback) (c : Call) (m : Mode) (fb) (second) (st : St) (n : Bytes) :
    lookName { E with eval := ev } c m fb second st n = lookName E c m fb second st n := by
  simp only [lookName, getDep_eval hw]

theorem lookNames_eval {E : Env} {ev} (hw : E.wrap = .nofallback) (c : Call) (m : Mode) (fb) (second) :
    ∀ (ns : List Bytes) (st : St),
      lookNames { E with eval := ev } c m fb second st ns = lookNames E c m fb second st ns
  | [], _ => rfl
  | n :: ns, st => by
    simp only [lookNames, lookName_eval hw, lookNames_eval hw c m fb second ns]

/-- C96: with the wrap mode `nofallback`, what `dependency()` does is the same whatever subprojects there are: none is
evaluated. -/
theorem nofallback {E : Env} (hw : E.wrap = .nofallback) (ev) (c : Call) (st : St) :
    dependency { E with eval := ev } c st = dependency E c st := by
  have h1 : look { E with eval := ev } c st = look E c st := by
    simp only [look, lookNames_eval hw]
  have h2 : ∀ s x, deliver { E with eval := ev } c s x = deliver E c s x := fun _ _ => rfl
  simp only [dependency, h1, h2]

theorem getDep_nofb {E : Env} {ev} (c : Call) (m : Mode) (st : St) (n : Bytes) (hp : E.provides n = none) :
    getDep { E with eval := ev } c m st n none false = getDep E c m st n none false := by
  have h0 : cached { E with eval := ev } st m n = cached E st m n := rfl
  have h1 : lookFresh { E with eval := ev } c m st n none false = lookFresh E c m st n none false := by
    simp only [lookFresh, fallbackOf, hp]
    rfl
  unfold getDep
  rw [h0, h1]

/-- C96: with `allow_fallback: false` no subproject is evaluated, if no wrap file provides the dependency. -/
theorem fallback_disallowed_partial {E : Env} {c : Call} (ha : c.allow = some false)
    (hp : ∀ n, E.provides n = none) (ev) (st : St) :
    dependency { E with eval := ev } c st = dependency E c st := by
  have hal : allowed c = false := by simp [allowed, ha]
  have he : explicit c = none := by simp [explicit, hal]
  have h1 : ∀ st n, lookName { E with eval := ev } c (modeOf c) none false st n = lookName E c (modeOf c) none false st n := by
    intro st n
    simp only [lookName, getDep_nofb _ _ _ _ (hp _)]
  have h2 : ∀ (ns : List Bytes) (st : St),
      lookNames { E with eval := ev } c (modeOf c) none false st ns = lookNames E c (modeOf c) none false st ns := by
    intro ns
    induction ns with
    | nil => intro st; rfl
    | cons n ns ih => intro st; simp only [lookNames, h1, ih]
  have h3 : look { E with eval := ev } c st = look E c st := by
    simp [look, he, hal, h2]
  have h4 : ∀ s x, deliver { E with eval := ev } c s x = deliver E c s x := fun _ _ => rfl
  simp only [dependency, h3, h4]

theorem getDep_pkg {E : Env} {pk} (c : Call) (m : Mode) (st : St) (n : Bytes) (s : Bytes) (t : List Bytes) (second)
    (hw : E.wrap = .forcefallback ∨ n ∈ E.forceFor) :
    getDep { E with pkg := pk } c m st n (some (s :: t)) second = getDep E c m st n (some (s :: t)) second := by
  have h0 : cached { E with pkg := pk } st m n = cached E st m n := rfl
  have h1 : lookFresh { E with pkg := pk } c m st n (some (s :: t)) second = lookFresh E c m st n (some (s :: t)) second := by
    have hf : (E.wrap == .forcefallback || E.forceFor.contains n || (st.subs s).isSome || second) = true := by
      rcases hw with h | h <;> simp [h]
    simp only [lookFresh, fallbackOf, forced, hf, if_true]
    rfl
  unfold getDep
  rw [h0, h1]

/-- C96: if the fallback is forced, by the wrap mode or for each of the names, pkg-config is not asked. -/
theorem forced_fallback {E : Env} {c : Call} {s : Bytes} {t : List Bytes} (hf : c.fallback = some (s :: t))
    (ha : c.allow ≠ some false)
    (hw : E.wrap = .forcefallback ∨ ∀ n ∈ c.names, n ∈ E.forceFor ∧ n ≠ ascii "curses") (pk) (st : St) :
    dependency { E with pkg := pk } c st = dependency E c st := by
  have hal : allowed c = true := by
    unfold allowed
    cases h : c.allow with
    | none => simp [hf]
    | some b => cases b <;> simp_all
  have he : explicit c = some (s :: t) := by simp [explicit, hal, hf]
  have h1 : ∀ sec st n, n ∈ c.names → lookName { E with pkg := pk } c (modeOf c) (some (s :: t)) sec st n =
      lookName E c (modeOf c) (some (s :: t)) sec st n := by
    intro sec st n hn
    unfold lookName
    split
    · rfl
    · split
      · rename_i hcur
        have : E.wrap = .forcefallback := by
          rcases hw with h | h
          · exact h
          · exact absurd hcur (h n hn).2
        simp only [getDep_pkg c _ _ _ s t sec (.inl this)]
      · simp only [getDep_pkg c _ _ n s t sec (hw.imp_right fun h => (h n hn).1)]
  have h2 : ∀ sec (ns : List Bytes) (st : St), (∀ n ∈ ns, n ∈ c.names) →
      lookNames { E with pkg := pk } c (modeOf c) (some (s :: t)) sec st ns =
      lookNames E c (modeOf c) (some (s :: t)) sec st ns := by
    intro sec ns
    induction ns with
    | nil => intro st _; rfl
    | cons n ns ih =>
      intro st hns
      have ih' := fun st => ih st (fun k hk => hns k (by simp [hk]))
      simp only [lookNames, h1 sec st n (hns n (by simp)), ih']
  have h3 : look { E with pkg := pk } c st = look E c st := by
    simp only [look, he, h2 _ c.names _ (fun _ h => h)]
  have h4 : ∀ s x, deliver { E with pkg := pk } c s x = deliver E c s x := fun _ _ => rfl
  simp only [dependency, h3, h4]

/-- C96: a dependency that nothing is known of yet comes from pkg-config if it is there in the right version, even if
there is a fallback, unless that is forced. -/
theorem pkg_first {E : Env} {c : Call} {st : St} {n v : Bytes} (hn : c.names = [n]) (hsp : ¬ Special n)
    (hr : c.req ≠ .skip) (hcS : st.cacheS E.proj n = none) (hcD : st.cacheD E.proj n = none)
    (hoS : st.ovS n = none) (hoD : st.ovD n = none) (hp : E.pkg n (c.static == some true) = some v)
    (hv : Meets (some v) c.versions) (hne : c.versions ≠ some []) (hw : E.wrap ≠ .forcefallback)
    (hff : n ∉ E.forceFor) (hsub : ∀ s, st.subs s = none) (hfb : c.fallback ≠ some []) (hpr : E.provides n ≠ some []) :
    ∃ st', dependency E c st = .ok (st', .dep st.heap.length) ∧
      Is st' st.heap.length ⟨n, some v, true, .pkgconf (c.static == some true), c.inc⟩ ∧ st'.subs = st.subs := by
  have hmode : (modeOf c == .static) = (c.static == some true) := by
    unfold modeOf
    cases c.static with
    | none => rfl
    | some b => cases b <;> rfl
  have h0 : cached E st (modeOf c) n = none := by simp [cached, hcS, hcD]
  have h1 : override st (modeOf c) c.names = none := by simp [hn, override, hoS, hoD]
  have h2 : usePkg E c (modeOf c) st n = .ok ({ st with heap := st.heap ++
      [⟨n, some v, true, .pkgconf (modeOf c == .static), .preserve⟩] }, some (st.heap.length, modeOf c)) := by
    unfold usePkg
    rw [hmode, hp]
    simp only [versionOk_of hv hne]
  have h3 : ∀ fb, pkgThen E c (modeOf c) st n fb = usePkg E c (modeOf c) st n := fun fb => by
    unfold pkgThen; rw [h2]
  have h4 : lookFresh E c (modeOf c) st n (explicit c) false = usePkg E c (modeOf c) st n := by
    unfold lookFresh
    rw [h1]
    simp only
    cases hf : fallbackOf E (explicit c) false n with
    | none => exact h3 _
    | some f =>
      have hf0 : f ≠ [] := by
        rintro rfl
        unfold fallbackOf at hf
        split at hf
        · rename_i g hg
          cases hf
          unfold explicit at hg
          split at hg
          · exact hfb hg
          · cases hg
        · split at hf
          · rename_i g hg; cases hf; exact hpr hg
          · simp at hf
      cases f with
      | nil => exact absurd rfl hf0
      | cons s t =>
        have : (E.wrap == .forcefallback || E.forceFor.contains n || (st.subs s).isSome) = false := by
          simp [hsub, hff, hw]
        simp only [forced, this, Bool.or_self, Bool.false_eq_true, if_false]
        exact h3 _
  have h5 : getDep E c (modeOf c) st n (explicit c) false = .ok ({ st with heap := st.heap ++
      [⟨n, some v, true, .pkgconf (modeOf c == .static), .preserve⟩] }, some ⟨st.heap.length, modeOf c, false⟩) := by
    unfold getDep
    rw [h0]
    simp only [h4, h2, fresh]
  have h6 : lookName E c (modeOf c) (explicit c) false st n = getDep E c (modeOf c) st n (explicit c) false := by
    simp only [Special, not_or] at hsp
    simp [lookName, hsp]
  have h7 : look E c st = .ok ({ st with heap := st.heap ++
      [⟨n, some v, true, .pkgconf (modeOf c == .static), .preserve⟩] }, some ⟨st.heap.length, modeOf c, false⟩) := by
    unfold look
    rw [hn]
    simp only [lookNames, h6, h5]
  refine ⟨setCache E (modeOf c) st.heap.length [n] { st with heap := st.heap ++
      [⟨n, some v, true, .pkgconf (c.static == some true), c.inc⟩] }, ?_, by simp [Is, setCache], rfl⟩
  unfold dependency
  rw [hn]
  simp only [hr, if_false, h7, deliver, get_append_last, hmode]
  simp [hn]

/-! ### Histories -/

/-- What a call leaves of the cache of a project: all of it, unless something is found outside the cache. -/
theorem call_effect {E : Env} {c : Call} {st st' : St} {r : Result} {p : Nat} (hE : EvalKeeps E p)
    (h : dependency E c st = .ok (st', r)) :
    Keeps p st st' ∨ ∃ s x d, Keeps p st s ∧ look E c st = .ok (s, some x) ∧ x.cache = false ∧ r = .dep x.id ∧
      Is s x.id d ∧ d.found = true ∧
      st' = setCache E x.mode x.id c.names { s with heap := s.heap.set x.id { d with inc := c.inc } } := by
  have hlook : ∀ {s o}, look E c st = .ok (s, o) → Keeps p st s := by
    intro s o hl
    have ht := (look_src hl).1
    cases o with
    | none => exact (ht.1 rfl).keeps hE
    | some x =>
      obtain ⟨s0, hm, hsrc⟩ := ht.2 x rfl
      exact (hm.keeps hE).trans (hsrc.keeps p)
  rcases dependency_ok h with ⟨_, n, rfl, _⟩ | ⟨s, x, hl, hdl⟩ | ⟨s, hl, _, ⟨_, rfl, _⟩ | ⟨_, n, rfl, _⟩⟩
  · exact .inl (keeps_append ..)
  · obtain ⟨d, hd, ⟨_, rfl, _⟩ | ⟨hc, h2, ⟨_, rfl⟩ | ⟨hf, rfl⟩⟩⟩ := deliver_ok hdl
    · exact .inl ((hlook hl).trans (keeps_append ..))
    · exact .inl ((hlook hl).trans (keeps_set _ hd))
    · exact .inr ⟨s, x, d, hlook hl, hl, hc, h2, hd, hf, rfl⟩
  · exact .inl (hlook hl)
  · exact .inl ((hlook hl).trans (keeps_append ..))

/-- A dependency like `d` is in the cache of project `p`. -/
def Holds (p : Nat) (m : Mode) (n : Bytes) (d : Dep) (st : St) : Prop :=
  ∀ E : Env, E.proj = p → ∃ i m' e, cached E st m n = some (i, m') ∧ Is st i e ∧ Alike e d

theorem cached_keeps {E : Env} {a b : St} (h : Keeps E.proj a b) (m : Mode) (n : Bytes) :
    cached E b m n = cached E a m n := by
  simp only [cached, h.cacheS, h.cacheD]

theorem Holds.keeps {p : Nat} {m : Mode} {n : Bytes} {d : Dep} {a b : St} (h : Holds p m n d a) (hk : Keeps p a b) :
    Holds p m n d b := by
  intro E hE
  obtain ⟨i, m', e, h1, h2, h3⟩ := h E hE
  subst hE
  obtain ⟨f, hf, hfe⟩ := hk.heap i e h2
  exact ⟨i, m', f, by rw [cached_keeps hk]; exact h1, hf, hfe.symm.trans h3⟩

theorem heap_setCache {E : Env} {m : Mode} {k j : Nat} {names : List Bytes} {s : St} {d : Dep} {x : Inc}
    (hd : Is s j d) {i : Nat} {e : Dep} (he : Is s i e) :
    ∃ f, Is (setCache E m k names { s with heap := s.heap.set j { d with inc := x } }) i f ∧ Alike e f :=
  (keeps_set 0 (x := x) hd).heap i e he

/-- A step that does not look for `n` together with other names, nor for another kind of library, in project `p`. -/
def Apart (p : Nat) (n : Bytes) (c : Call) : Step → Prop
  | .call E c' => EvalKeeps E p ∧ (E.proj ≠ p ∨ n ∉ c'.names ∨ (c'.names = [n] ∧ c'.static = c.static))
  | .override .. => True

theorem step_holds {p : Nat} {n : Bytes} {c : Call} {d : Dep} {a b : St} {t : Step} (hsp : ¬ Special n)
    (ht : Apart p n c t) (h : t.run a = .ok b) (ha : Holds p (modeOf c) n d a) : Holds p (modeOf c) n d b := by
  cases t with
  | override s k i =>
    simp only [Step.run, Res.ok.injEq] at h
    subst h
    refine ha.keeps ?_
    unfold overrideDependency
    split
    · exact ⟨fun _ d h => ⟨d, h, .refl d⟩, fun _ => rfl, fun _ => rfl⟩
    · exact ⟨fun _ d h => ⟨d, h, .refl d⟩, fun _ => rfl, fun _ => rfl⟩
  | call E c' =>
    simp only [Step.run] at h
    split at h
    · rename_i st' r hr
      injection h with h
      subst h
      rcases call_effect ht.1 hr with hk | ⟨s, x, e, hk, hl, hx, _, he, _, rfl⟩
      · exact ha.keeps hk
      · have hs := ha.keeps hk
        by_cases hpn : E.proj = p ∧ n ∈ c'.names
        · exfalso
          rcases ht.2 with h1 | h1 | ⟨h1, h2⟩
          · exact h1 hpn.1
          · exact h1 hpn.2
          · obtain ⟨s1, hm1, hc1⟩ := (look_src hl).2 n h1 hsp x rfl hx
            have hmode : modeOf c' = modeOf c := by simp [modeOf, h2]
            obtain ⟨_, _, _, h3, _⟩ := (ha.keeps (hm1.keeps ht.1)) E hpn.1
            rw [hmode] at hc1
            rw [hc1] at h3
            cases h3
        · intro E' hE'
          obtain ⟨i, m', f, h1, h2, h3⟩ := hs E' hE'
          obtain ⟨g, hg, hgf⟩ := heap_setCache (E := E) (m := x.mode) (k := x.id) (names := c'.names) (x := c'.inc) he h2
          refine ⟨i, m', g, ?_, hg, hgf.symm.trans h3⟩
          have hno : ∀ q : Prop, ¬ (q ∧ E'.proj = E.proj ∧ n ∈ c'.names) := by
            rintro q ⟨_, h5, h6⟩
            exact hpn ⟨by rw [← h5, hE'], h6⟩
          rw [← h1]
          simp only [cached, Lookup.setCache, hno, if_false]
    · cases h
    · cases h

theorem runAll_holds {p : Nat} {n : Bytes} {c : Call} {d : Dep} (hsp : ¬ Special n) : ∀ (ts : List Step) {a b : St},
    (∀ t ∈ ts, Apart p n c t) → runAll ts a = .ok b → Holds p (modeOf c) n d a → Holds p (modeOf c) n d b
  | [], a, b, _, h, ha => by simp only [runAll, Res.ok.injEq] at h; subst h; exact ha
  | t :: ts, a, b, ht, h, ha => by
    simp only [runAll] at h
    split at h
    · rename_i s hs
      exact runAll_holds hsp ts (fun t h => ht t (by simp [h])) h (step_holds hsp (ht t (by simp)) hs ha)
    · cases h
    · cases h

/-- What a call for one name found is then in the cache. -/
theorem found_holds {E : Env} {c : Call} {st st' : St} {n : Bytes} {i : Nat} {d : Dep} (hE : EvalKeeps E E.proj)
    (hn : c.names = [n]) (hsp : ¬ Special n) (h : dependency E c st = .ok (st', .dep i)) (hd : Is st' i d)
    (hf : d.found = true) : Holds E.proj (modeOf c) n d st' ∧ d.inc = c.inc := by
  rcases dependency_ok h with ⟨_, k, rfl, h2⟩ | ⟨s, x, hl, hdl⟩ | ⟨s, hl, _, ⟨_, _, h2⟩ | ⟨_, k, rfl, h2⟩⟩
  · cases h2
    have := hd.symm.trans (get_append_last _ _)
    injection this with this
    subst this
    cases hf
  · obtain ⟨e, he, ⟨hc, rfl, h2⟩ | ⟨hc, h2, ⟨h0, rfl⟩ | ⟨_, rfl⟩⟩⟩ := deliver_ok hdl
    · cases h2
      have := hd.symm.trans (get_append_last _ _)
      injection this with this
      subst this
      obtain ⟨s0, hm, hsrc⟩ := (look_src hl).1.2 x rfl
      cases hsrc with
      | @cache k i m' d0 hk hca h0 hv =>
        have hkn : k = n := by
          rcases hk with ⟨h1, _⟩ | ⟨h1, _⟩
          · rw [hn] at h1; simpa using h1
          · rw [hn] at h1
            simp only [List.mem_singleton] at h1
            exact absurd (.inr (.inl h1.symm)) hsp
        subst hkn
        refine ⟨fun E' hE' => ⟨i, m', e, ?_, get_append_some he, rfl⟩, rfl⟩
        rw [← hca]
        simp only [cached, hE']
      | ov => cases hc
      | var => cases hc
      | pkg => cases hc
      | special => cases hc
    · cases h2
      obtain ⟨hi, _⟩ := List.getElem?_eq_some_iff.1 he
      have : some d = some { e with inc := c.inc } := hd.symm.trans (by simp [hi])
      injection this with this
      subst this
      simp only at hf
      rw [h0] at hf; cases hf
    · cases h2
      obtain ⟨hi, _⟩ := List.getElem?_eq_some_iff.1 he
      have : some d = some { e with inc := c.inc } := hd.symm.trans (by simp [Lookup.setCache, hi])
      injection this with this
      subst this
      refine ⟨fun E' hE' => ?_, rfl⟩
      obtain ⟨s1, hm1, hc1⟩ := (look_src hl).2 n hn hsp x rfl hc
      obtain ⟨s0, hm0, hsrc⟩ := (look_src hl).1.2 x rfl
      have hks : Keeps E.proj st s := (hm0.keeps hE).trans (hsrc.keeps _)
      have hnone : cached E s (modeOf c) n = none := by
        rw [cached_keeps hks, ← cached_keeps (hm1.keeps hE)]; exact hc1
      have hmode := hsrc.mode
      have hcc : ∃ m', cached E' (Lookup.setCache E x.mode x.id c.names
          { s with heap := s.heap.set x.id { e with inc := c.inc } }) (modeOf c) n = some (x.id, m') := by
        have hS : modeOf c ≠ .shared → s.cacheS E.proj n = none := by
          intro hq
          unfold cached at hnone
          rw [if_pos hq] at hnone
          cases hz : s.cacheS E.proj n with
          | none => rfl
          | some z => rw [hz] at hnone; cases hnone
        simp only [cached, Lookup.setCache, hE', hn, List.mem_singleton, and_self, and_true]
        cases hmc : modeOf c with
        | default =>
          rw [hmc] at hS
          cases hxm : x.mode <;> simp [hS]
        | static =>
          have := hmode (by rw [hmc]; decide)
          simp [this, hmc]
        | shared =>
          have := hmode (by rw [hmc]; decide)
          simp [this, hmc]
      obtain ⟨m', hcc⟩ := hcc
      exact ⟨x.id, m', _, hcc, hd, rfl⟩
  · cases h2
  · cases h2
    have := hd.symm.trans (get_append_last _ _)
    injection this with this
    subst this
    cases hf

/-- A dependency in the cache is what a lookup gives. -/
theorem holds_found {E : Env} {c : Call} {st : St} {n : Bytes} {d : Dep} (hn : c.names = [n]) (hsp : ¬ Special n)
    (hr : c.req ≠ .skip) (hv : Meets d.version c.versions) (hne : c.versions ≠ some []) (hi : d.inc = c.inc)
    (h : Holds E.proj (modeOf c) n d st) :
    dependency E c st = .ok ({ st with heap := st.heap ++ [d] }, .dep st.heap.length) := by
  obtain ⟨i, m', e, h1, h2, h3⟩ := h E rfl
  have h4 : getDep E c (modeOf c) st n (explicit c) false = .ok (st, some ⟨i, m', true⟩) := by
    unfold getDep
    simp only [h1, show st.heap[i]? = some e from h2, h3.facts.2.1, versionOk_of hv hne]
  have h5 : look E c st = .ok (st, some ⟨i, m', true⟩) := by
    simp only [Special, not_or] at hsp
    unfold look
    rw [hn]
    simp only [lookNames, lookName, hsp, if_false, h4]
  unfold dependency
  rw [hn]
  simp only [hr, if_false, h5, deliver, show st.heap[i]? = some e from h2, if_true]
  rw [h3.eq c.inc, ← hi]

/-- C96: a lookup that found a dependency gives the same again, in the same project: whatever was looked up or
overridden since, in whatever project, unless the name was looked up together with other names or for another kind of
library; and whatever pkg-config and subprojects would now say. Nothing else is changed by it. -/
theorem again_partial {E E' : Env} {c : Call} {st st1 st2 : St} {n : Bytes} {i : Nat} {d : Dep} {ts : List Step}
    (hE : EvalKeeps E E.proj) (hn : c.names = [n]) (hsp : ¬ Special n)
    (h : dependency E c st = .ok (st1, .dep i)) (hd : Is st1 i d) (hf : d.found = true)
    (hv : Meets d.version c.versions) (hne : c.versions ≠ some [])
    (ht : ∀ t ∈ ts, Apart E.proj n c t) (hts : runAll ts st1 = .ok st2) (hp : E'.proj = E.proj) :
    dependency E' c st2 = .ok ({ st2 with heap := st2.heap ++ [d] }, .dep st2.heap.length) := by
  obtain ⟨h1, h2⟩ := found_holds hE hn hsp h hd hf
  have hr : c.req ≠ .skip := by
    intro hr
    unfold dependency at h
    rw [hn] at h
    simp only [hr, if_true, Res.ok.injEq, Prod.mk.injEq] at h
    obtain ⟨rfl, h3⟩ := h
    cases h3
    have := hd.symm.trans (get_append_last _ _)
    injection this with this
    subst this
    cases hf
  exact holds_found hn hsp hr hv hne h2 (hp ▸ runAll_holds hsp ts ht hts h1)

/-! ### Examples, and what does not hold -/

/-- A state in which nothing is known, with the given objects. -/
def blank (ds : List Dep) : St :=
  ⟨ds, fun _ _ => none, fun _ _ => none, fun _ => none, fun _ => none, fun _ => none⟩

/-- A project with the given packages of pkg-config (in version 1) and no subprojects. -/
def plain (pkgs : List Bytes) : Env :=
  ⟨0, .nodownload, [], fun _ => none, fun n _ => if n ∈ pkgs then some (ascii "1") else none, false,
   fun st _ _ _ => (st, none)⟩

/-- A project with a subproject `s` of version 1, which overrides `z` by a dependency of version 1. -/
def withSub (provides : Bytes → Option (List Bytes)) : Env :=
  ⟨0, .nodownload, [], provides, fun _ _ => none, false, fun st _ n _ =>
    if n = ascii "s" then
      ({ st with
          heap := st.heap ++ [⟨ascii "s", some (ascii "1"), true, .declared, .preserve⟩]
          ovD := fun k => if k = ascii "z" then some st.heap.length else st.ovD k },
        some (ascii "1", fun _ => none))
    else (st, none)⟩

theorem plain_sound (pkgs : List Bytes) : EvalSound (plain pkgs) :=
  fun _ _ _ _ h => ⟨h, fun _ _ _ _ e _ => by cases e⟩

theorem plain_keeps (pkgs : List Bytes) (p : Nat) : EvalKeeps (plain pkgs) p := fun _ _ _ _ => .refl _ _

theorem blank_sound (ds : List Dep) : Sound (blank ds) :=
  ⟨(fun _ _ _ h => nomatch h), (fun _ _ _ h => nomatch h), (fun _ _ h => nomatch h), (fun _ _ h => nomatch h),
   (fun _ _ _ _ h => nomatch h)⟩

/-- The hypotheses of `required_found_partial` and `version_partial` are met, and the dependency is found. -/
example : returned (dependency (plain [ascii "z"]) { names := [ascii "z"], versions := some [ascii ">=1"] } (blank [])) =
    some ⟨ascii "z", some (ascii "1"), true, .pkgconf false, .preserve⟩ := by decide +kernel

example : ∃ i, (∃ st', dependency (plain [ascii "z"]) { names := [ascii "a", ascii "z"] } (blank []) = .ok (st', .dep i)) :=
  ⟨0, _, rfl⟩

/-- A subproject gives what pkg-config does not have. -/
example : returned (dependency (withSub fun _ => none)
    { names := [ascii "z"], fallback := some [ascii "s"] } (blank [])) =
    some ⟨ascii "s", some (ascii "1"), true, .declared, .preserve⟩ := by decide +kernel

/-- The steps of `again_partial`: lookups of other names, and of the same one, and an override of it. -/
example : ∀ t ∈ [Step.call (plain [ascii "z"]) { names := [ascii "a", ascii "b"], req := .auto },
      .override false (ascii "z") 0, .call (plain []) { names := [ascii "z"] }],
    Apart 0 (ascii "z") { names := [ascii "z"] } t := by
  intro t ht
  simp only [List.mem_cons, List.not_mem_nil, or_false] at ht
  rcases ht with rfl | rfl | rfl
  · exact ⟨plain_keeps _ _, .inr (.inl (by decide +kernel))⟩
  · trivial
  · exact ⟨plain_keeps _ _, .inr (.inr ⟨rfl, rfl⟩)⟩

example : ∃ st2, runAll [Step.call (plain [ascii "z"]) { names := [ascii "a", ascii "b"], req := .auto },
      .override false (ascii "z") 0, .call (plain []) { names := [ascii "z"] }]
    (after (blank []) (dependency (plain [ascii "z"]) { names := [ascii "z"] } (blank []))) = .ok st2 := ⟨_, rfl⟩

/-- C96, refuted: a required dependency that was overridden by one that is not found is returned without an error; and
so is `appleframeworks` on Linux. -/
theorem required_counterexample :
    returned (dependency (plain []) { names := [ascii "z"] }
      (overrideDependency false (ascii "z") 0 (blank [⟨ascii "y", none, false, .notFound, .preserve⟩]))) =
      some ⟨ascii "y", none, false, .notFound, .preserve⟩ ∧
    returned (dependency (plain []) { names := [ascii "appleframeworks"], modules := true } (blank [])) =
      some ⟨[], none, false, .declared, .preserve⟩ := by decide +kernel

/-- C96, refuted: the version asked for is not compared with that of an override, so one of version 1 is accepted as
`>=2`. The same lookup again then fails, since the version of what is in the cache is compared. If the override has no
version (as one made of `find_library`), the same lookup again aborts. -/
theorem version_counterexample :
    (let st := overrideDependency false (ascii "z") 0
        (blank [⟨ascii "z", some (ascii "1"), true, .declared, .preserve⟩])
     let c : Call := { names := [ascii "z"], versions := some [ascii ">=2"] }
     returned (dependency (plain []) c st) = some ⟨ascii "z", some (ascii "1"), true, .declared, .preserve⟩ ∧
     ending (dependency (plain []) c (after st (dependency (plain []) c st))) = .error) ∧
    (let st := overrideDependency false (ascii "z") 0 (blank [⟨[], none, true, .library, .preserve⟩])
     let c : Call := { names := [ascii "z"], versions := some [ascii ">=2"] }
     ending (dependency (plain []) c st) = .ok ∧
     ending (dependency (plain []) c (after st (dependency (plain []) c st))) = .bad) := by decide +kernel

/-- C96, refuted: a fallback to a subproject whose version does not match is refused, but then found in the second pass
as an override. -/
theorem fallback_version_counterexample :
    returned (dependency (withSub fun _ => none)
      { names := [ascii "z"], versions := some [ascii ">=2"], fallback := some [ascii "s"] } (blank [])) =
      some ⟨ascii "s", some (ascii "1"), true, .declared, .preserve⟩ := by decide +kernel

/-- C96, refuted: an empty list of versions is met by no version. -/
theorem empty_version_counterexample :
    ending (dependency (plain [ascii "z"]) { names := [ascii "z"], versions := some [] } (blank [])) = .error ∧
    Meets (some (ascii "1")) (some []) := by
  refine ⟨by decide +kernel, ?_⟩
  intro l h
  cases h
  exact ⟨_, rfl, by simp⟩

/-- C96, refuted: `fallback: []` fails an assertion, even if pkg-config knows the dependency. -/
theorem empty_fallback_counterexample :
    ending (dependency (plain [ascii "z"]) { names := [ascii "z"], fallback := some [] } (blank [])) = .bad := by
  decide +kernel

/-- C96, refuted: with `allow_fallback: false` a subproject is evaluated all the same if a wrap file provides the
dependency. -/
theorem fallback_disallowed_counterexample :
    returned (dependency (withSub fun n => if n = ascii "z" then some [ascii "s"] else none)
      { names := [ascii "z"], allow := some false } (blank [])) =
      some ⟨ascii "s", some (ascii "1"), true, .declared, .preserve⟩ := by decide +kernel

/-- C96, refuted: `static: true` gives the dependency without the static libraries, if it was looked up before without
that keyword. -/
theorem static_counterexample :
    (let st := after (blank []) (dependency (plain [ascii "z"]) { names := [ascii "z"] } (blank []))
     returned (dependency (plain [ascii "z"]) { names := [ascii "z"], static := some true } st) =
       some ⟨ascii "z", some (ascii "1"), true, .pkgconf false, .preserve⟩) ∧
    returned (dependency (plain [ascii "z"]) { names := [ascii "z"], static := some true } (blank [])) =
       some ⟨ascii "z", some (ascii "1"), true, .pkgconf true, .preserve⟩ := by decide +kernel

/-- C96, refuted: a lookup of several names puts what it finds in the cache under all of them. After `dependency('a',
'z')` finds only `z`, `dependency('a')` gives `z`, although there is no `a`. -/
theorem names_counterexample :
    (let st := after (blank []) (dependency (plain [ascii "z"]) { names := [ascii "a", ascii "z"] } (blank []))
     returned (dependency (plain [ascii "z"]) { names := [ascii "a"] } st) =
       some ⟨ascii "z", some (ascii "1"), true, .pkgconf false, .preserve⟩) ∧
    ending (dependency (plain [ascii "z"]) { names := [ascii "a"] } (blank [])) = .error := by decide +kernel

/-- C96, refuted: a lookup with `static: true` changes what a lookup without it gives. -/
theorem kind_counterexample :
    (let st := overrideDependency false (ascii "z") 0
        (blank [⟨ascii "y", some (ascii "1"), true, .declared, .preserve⟩])
     let E := plain [ascii "z"]
     let st1 := after st (dependency E { names := [ascii "z"] } st)
     let st2 := after st1 (dependency E { names := [ascii "z"], static := some true } st1)
     (returned (dependency E { names := [ascii "z"] } st)).map (·.name) = some (ascii "y") ∧
     (returned (dependency E { names := [ascii "z"] } st1)).map (·.name) = some (ascii "y") ∧
     (returned (dependency E { names := [ascii "z"] } st2)).map (·.name) = some (ascii "z")) := by decide +kernel

/-- C96, refuted: the type of the include directories is written into the override itself. What one project got with
`include_type: 'system'` is changed when another project looks the same dependency up. -/
theorem include_counterexample :
    (let st := overrideDependency false (ascii "z") 0
        (blank [⟨ascii "y", some (ascii "1"), true, .declared, .preserve⟩])
     let r := dependency (plain []) { names := [ascii "z"], inc := .system } st
     let st1 := after st r
     let st2 := after st1 (dependency { plain [] with proj := 1 } { names := [ascii "z"] } st1)
     (returned r).map (·.inc) = some .system ∧ (st1.heap[0]?).map (·.inc) = some .system ∧
     (st2.heap[0]?).map (·.inc) = some .preserve) := by decide +kernel

end Muon.Lookup
