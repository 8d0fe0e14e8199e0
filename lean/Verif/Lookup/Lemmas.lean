import Verif.Lookup.Spec
import Verif.Version.Props
/-
How lookups come by what they find.
-/
namespace Muon.Lookup
open Muon Spec

/-- The states a lookup goes through before it finds something: only subprojects are evaluated. -/
inductive Moves (E : Env) : St → St → Prop
  | refl (a) : Moves E a a
  | eval {a b b' r n m} : Moves E a b → (E.eval b r n m).1 = b' → Moves E a b'
  | sub {a b b' r n m ver vars} : Moves E a b → E.eval b r n m = (b', some (ver, vars)) →
      Moves E a { b' with subs := fun k => if k = n then some vars else b'.subs k }

theorem Moves.trans {E : Env} {a b c : St} (h1 : Moves E a b) (h2 : Moves E b c) : Moves E a c := by
  induction h2 with
  | refl => exact h1
  | eval _ e ih => exact .eval ih e
  | sub _ e ih => exact .sub ih e

/-- A name the call looks for. -/
def Named (c : Call) (n : Bytes) : Prop :=
  (n ∈ c.names ∧ ¬ Special n) ∨ (ascii "curses" ∈ c.names ∧ n = ascii "ncurses")

/-- Where a hit comes from: the state it was found in, and the state it leaves. -/
inductive Src (E : Env) (c : Call) (m : Mode) : St → St → Hit → Prop
  | cache {st n i m' d} : Named c n → cached E st m n = some (i, m') → st.heap[i]? = some d →
      versionOk d.version c.versions = .ok true → Src E c m st st ⟨i, m', true⟩
  | ov {st i m'} : override st m c.names = some (i, m') → Src E c m st st ⟨i, m', false⟩
  | var {st s vars v i} : E.wrap ≠ .nofallback → st.subs s = some vars → vars v = some (.dep i) →
      Src E c m st st ⟨i, m, false⟩
  | pkg {st n v} : Named c n → E.pkg n (m == .static) = some v → versionOk (some v) c.versions = .ok true →
      Src E c m st { st with heap := st.heap ++ [⟨n, some v, true, .pkgconf (m == .static), .preserve⟩] }
        ⟨st.heap.length, m, false⟩
  | special {st d} : ascii "threads" ∈ c.names ∨ ascii "appleframeworks" ∈ c.names ∨ [] ∈ c.names →
      (d.found = true ∨ (ascii "appleframeworks" ∈ c.names ∧ E.darwin = false) ∨ ([] ∈ c.names ∧ c.req ≠ .required)) →
      Src E c m st { st with heap := st.heap ++ [d] } ⟨st.heap.length, m, false⟩

theorem subproject_moves {E : Env} {c : Call} {m : Mode} {st st' : St} {n : Bytes} {o}
    (h : subproject E c m st n = (st', o)) :
    Moves E st st' ∧ ∀ vars, o = some vars → st'.subs n = some vars := by
  unfold subproject at h
  split at h
  · rename_i vars e
    cases h
    exact ⟨.refl _, fun v hv => by rw [e, hv]⟩
  · split at h
    · rename_i s e
      cases h
      exact ⟨.eval (.refl _) (by rw [e]), fun v hv => by cases hv⟩
    · rename_i s ver vars e
      split at h
      · cases h
        exact ⟨.eval (.refl _) (by rw [e]), fun v hv => by cases hv⟩
      · cases h
        exact ⟨.sub (.refl _) e, fun v hv => by simpa using hv⟩

theorem useSub_src {E : Env} {c : Call} {m : Mode} {st st' : St} {n : Bytes} {var o}
    (hw : E.wrap ≠ .nofallback) (h : useSub E c m st n var = (st', o)) :
    Moves E st st' ∧ ∀ i m', o = some (i, m') → Src E c m st' st' ⟨i, m', false⟩ := by
  unfold useSub at h
  split at h
  · rename_i s e
    cases h
    exact ⟨(subproject_moves e).1, fun i m' e => by cases e⟩
  · rename_i s vars e
    have hs := subproject_moves e
    split at h
    · split at h
      · rename_i v i hv
        cases h
        exact ⟨hs.1, fun i' m' e' => by cases e'; exact .var hw (hs.2 _ rfl) hv⟩
      · cases h
        exact ⟨hs.1, fun i m' e => by cases e⟩
    · cases h
      exact ⟨hs.1, fun i m' e => .ov e⟩

theorem useFallback_src {E : Env} {c : Call} {m : Mode} {st st' : St} {fb o}
    (h : useFallback E c m st fb = .ok (st', o)) :
    Moves E st st' ∧ ∀ i m', o = some (i, m') → Src E c m st' st' ⟨i, m', false⟩ := by
  unfold useFallback at h
  split at h
  · cases h
    exact ⟨.refl _, fun i m' e => by cases e⟩
  · rename_i hw
    split at h
    · injection h with h; exact useSub_src hw h
    · injection h with h; exact useSub_src hw h
    · cases h

theorem usePkg_src {E : Env} {c : Call} {m : Mode} {st st' : St} {n o} (hn : Named c n)
    (h : usePkg E c m st n = .ok (st', o)) :
    (o = none → st' = st) ∧ ∀ i m', o = some (i, m') → Src E c m st st' ⟨i, m', false⟩ := by
  unfold usePkg at h
  split at h
  · cases h; exact ⟨fun _ => rfl, fun i m' e => by cases e⟩
  · rename_i v hv
    split at h
    · cases h
    · cases h
    · cases h; exact ⟨fun _ => rfl, fun i m' e => by cases e⟩
    · rename_i hk
      cases h
      refine ⟨(fun e => by cases e), fun i m' e => ?_⟩
      cases e
      exact .pkg hn hv hk

/-- What a lookup leaves: the states it went through, and where the hit comes from. -/
def Traced (E : Env) (c : Call) (m : Mode) (st st' : St) (o : Option Hit) : Prop :=
  (o = none → Moves E st st') ∧ ∀ h, o = some h → ∃ s, Moves E st s ∧ Src E c m s st' h

theorem pkgThen_src {E : Env} {c : Call} {m : Mode} {st st' : St} {n fb o} (hn : Named c n)
    (h : pkgThen E c m st n fb = .ok (st', o)) :
    (o = none → Moves E st st') ∧ ∀ i m', o = some (i, m') → ∃ s, Moves E st s ∧ Src E c m s st' ⟨i, m', false⟩ := by
  unfold pkgThen at h
  split at h
  · rename_i s e
    have hs := (usePkg_src hn e).1 rfl
    subst hs
    split at h
    · cases h; exact ⟨fun _ => .refl _, fun i m' e => by cases e⟩
    · have := useFallback_src h
      exact ⟨fun _ => this.1, fun i m' e => ⟨_, this.1, this.2 i m' e⟩⟩
  · have := usePkg_src hn h
    exact ⟨fun e => by rw [this.1 e]; exact .refl _, fun i m' e => ⟨_, .refl _, this.2 i m' e⟩⟩

theorem lookFresh_src {E : Env} {c : Call} {m : Mode} {st st' : St} {n fb second o} (hn : Named c n)
    (h : lookFresh E c m st n fb second = .ok (st', o)) :
    (o = none → Moves E st st') ∧ ∀ i m', o = some (i, m') → ∃ s, Moves E st s ∧ Src E c m s st' ⟨i, m', false⟩ := by
  unfold lookFresh at h
  split at h
  · rename_i e
    cases h
    exact ⟨fun _ => .refl _, fun i m' e' => by cases e'; exact ⟨_, .refl _, .ov e⟩⟩
  · split at h
    · exact pkgThen_src hn h
    · split at h
      · cases h
      · cases h
      · split at h
        · have := useFallback_src h
          exact ⟨fun _ => this.1, fun i m' e => ⟨_, this.1, this.2 i m' e⟩⟩
        · exact pkgThen_src hn h

theorem fresh_ok {r : Res (St × Option (Nat × Mode))} {st' o} (h : fresh r = .ok (st', o)) :
    ∃ o', r = .ok (st', o') ∧ o = o'.map (fun x => ⟨x.1, x.2, false⟩) := by
  unfold fresh at h
  split at h
  · cases h; exact ⟨_, rfl, rfl⟩
  · cases h; exact ⟨_, rfl, rfl⟩
  · cases h
  · cases h

theorem getDep_src {E : Env} {c : Call} {m : Mode} {st st' : St} {n fb second o} (hn : Named c n)
    (h : getDep E c m st n fb second = .ok (st', o)) :
    Traced E c m st st' o ∧ (∀ x, o = some x → x.cache = false → cached E st m n = none) := by
  unfold getDep at h
  split at h
  · rename_i i m' e
    split at h
    · cases h
    · rename_i d hd
      split at h
      · cases h
      · cases h
      · rename_i hk
        cases h
        refine ⟨⟨(fun e => by cases e), fun x e' => ?_⟩, fun x e' hx => ?_⟩
        · cases e'; exact ⟨_, .refl _, .cache hn e hd hk⟩
        · cases e'; cases hx
      · cases h
        exact ⟨⟨fun _ => .refl _, (fun x e' => by cases e')⟩, fun x e' hx => by cases e'⟩
  · rename_i e
    obtain ⟨o', h1, rfl⟩ := fresh_ok h
    have := lookFresh_src hn h1
    refine ⟨⟨fun e' => this.1 (by cases o' <;> simp_all), fun x e' => ?_⟩, fun _ _ _ => e⟩
    cases o' with
    | none => cases e'
    | some p => obtain ⟨i, m'⟩ := p; cases e'; exact this.2 i m' rfl

theorem Traced.trans {E : Env} {c : Call} {m : Mode} {a b d : St} {o} (h1 : Moves E a b)
    (h2 : Traced E c m b d o) : Traced E c m a d o :=
  ⟨fun e => h1.trans (h2.1 e), fun x e => by
    obtain ⟨s, hs, hx⟩ := h2.2 x e
    exact ⟨s, h1.trans hs, hx⟩⟩

theorem lookName_src {E : Env} {c : Call} {m : Mode} {st st' : St} {n fb second o} (hn : n ∈ c.names)
    (h : lookName E c m fb second st n = .ok (st', o)) :
    Traced E c m st st' o ∧ (¬ Special n → ∀ x, o = some x → x.cache = false → cached E st m n = none) := by
  unfold lookName at h
  split at h
  · rename_i e
    cases h
    refine ⟨⟨(fun e => by cases e), fun x e' => ?_⟩, fun hs => absurd (Or.inl e) hs⟩
    cases e'
    exact ⟨_, .refl _, .special (.inl (e ▸ hn)) (.inl rfl)⟩
  · split at h
    · rename_i e
      have hnn : Named c (ascii "ncurses") := .inr ⟨e ▸ hn, rfl⟩
      refine ⟨?_, fun hs => absurd (Or.inr (Or.inl e)) hs⟩
      split at h
      · rename_i s e1
        exact (getDep_src hnn h).1.trans ((getDep_src hnn e1).1.1 rfl)
      · exact (getDep_src hnn h).1
    · split at h
      · rename_i e
        refine ⟨?_, fun hs => absurd (Or.inr (Or.inr (Or.inl e))) hs⟩
        split at h
        · cases h
        · split at h
          · cases h
            refine ⟨(fun e => by cases e), fun x e' => ?_⟩
            cases e'
            exact ⟨_, .refl _, .special (.inr (.inl (e ▸ hn))) (.inl rfl)⟩
          · rename_i hd
            cases h
            refine ⟨(fun e => by cases e), fun x e' => ?_⟩
            cases e'
            exact ⟨_, .refl _, .special (.inr (.inl (e ▸ hn))) (.inr (.inl ⟨e ▸ hn, by simpa using hd⟩))⟩
      · split at h
        · rename_i e
          refine ⟨?_, fun hs => absurd (Or.inr (Or.inr (Or.inr e))) hs⟩
          split at h
          · cases h
          · rename_i hr
            cases h
            refine ⟨(fun e => by cases e), fun x e' => ?_⟩
            cases e'
            exact ⟨_, .refl _, .special (.inr (.inr (e ▸ hn))) (.inr (.inr ⟨e ▸ hn, hr⟩))⟩
        · rename_i h1 h2 h3 h4
          have hs : ¬ Special n := by
            rintro (h | h | h | h)
            · exact h1 h
            · exact h2 h
            · exact h3 h
            · exact h4 h
          have := getDep_src (.inl ⟨hn, hs⟩) h
          exact ⟨this.1, fun _ => this.2⟩

theorem lookNames_src {E : Env} {c : Call} {m : Mode} {fb second o} {st' : St} :
    ∀ (ns : List Bytes) (st : St), (∀ n ∈ ns, n ∈ c.names) → lookNames E c m fb second st ns = .ok (st', o) →
      Traced E c m st st' o ∧
      (∀ n, ns = [n] → ¬ Special n → ∀ x, o = some x → x.cache = false → cached E st m n = none)
  | [], st, _, h => by
    simp only [lookNames] at h
    cases h
    exact ⟨⟨fun _ => .refl _, (fun x e => by cases e)⟩, fun n e => by cases e⟩
  | n :: ns, st, hn, h => by
    simp only [lookNames] at h
    split at h
    · rename_i s e
      have h1 := (lookName_src (hn n (by simp)) e).1.1 rfl
      have h2 := lookNames_src ns s (fun k hk => hn k (by simp [hk])) h
      refine ⟨h2.1.trans h1, fun k hk _ x ho hx => ?_⟩
      cases hk
      simp only [lookNames] at h
      cases h
      cases ho
    · have := lookName_src (hn n (by simp)) h
      exact ⟨this.1, fun k hk => by cases hk; exact this.2⟩

theorem look_src {E : Env} {c : Call} {o} {st st' : St} (h : look E c st = .ok (st', o)) :
    Traced E c (modeOf c) st st' o ∧
    (∀ n, c.names = [n] → ¬ Special n → ∀ x, o = some x → x.cache = false →
      ∃ s, Moves E st s ∧ cached E s (modeOf c) n = none) := by
  unfold look at h
  split at h
  · rename_i s e
    have h1 := (lookNames_src c.names st (fun _ h => h) e).1.1 rfl
    split at h
    · have h2 := lookNames_src c.names s (fun _ h => h) h
      exact ⟨h2.1.trans h1, fun n hn hs x ho hx => ⟨s, h1, h2.2 n hn hs x ho hx⟩⟩
    · cases h
      exact ⟨⟨fun _ => h1, (fun x e => by cases e)⟩, fun n _ _ x e => by cases e⟩
  · have := lookNames_src c.names st (fun _ h => h) h
    exact ⟨this.1, fun n hn hs x ho hx => ⟨st, .refl _, this.2 n hn hs x ho hx⟩⟩

end Muon.Lookup
