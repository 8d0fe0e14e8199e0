import Verif.Wrap.Props
/-
What wraps provide (C100).
-/
namespace Muon.Wrap
open Muon Ini Ini.Spec Spec

/-- The pieces between commas. -/
inductive Pieces : Bytes → List Bytes → Prop
  | one (s : Bytes) : 44 ∉ s → Pieces s [s]
  | more (s r : Bytes) (l : List Bytes) : 44 ∉ s → Pieces r l → Pieces (s ++ 44 :: r) (s :: l)

theorem commas_pieces (v : Bytes) : Pieces v (commas v) := by
  induction v with
  | nil => exact .one [] (by simp)
  | cons c s ih =>
    unfold commas
    cases hc : commas s with
    | nil => rw [hc] at ih; cases ih
    | cons p ps =>
      rw [hc] at ih
      simp only []
      by_cases h : c = 44
      · rw [if_pos h, h]; exact .more [] s _ (by simp) ih
      · rw [if_neg h]
        cases ih with
        | one _ hs => exact .one _ (by simp only [List.mem_cons, not_or]; exact ⟨Ne.symm h, hs⟩)
        | more _ r _ hs hr => exact .more (c :: p) r _ (by simp only [List.mem_cons, not_or]; exact ⟨Ne.symm h, hs⟩) hr

theorem stripped_of (p : Bytes) : Str.Spec.Stripped [32, 10, 9] p (match Str.strip p none with | .ok s => s | _ => []) := by
  obtain ⟨mid, h, hs⟩ := Str.strip_spec p none
  rw [h]; exact hs

/-- A value is the list of names that it looks like. -/
theorem nameList_spec (v : Bytes) : Listed v (nameList v) := by
  have h := commas_pieces v
  unfold nameList
  revert h
  generalize commas v = l
  intro h
  induction h with
  | one s hs => exact .one s _ hs (stripped_of s)
  | more s r l hs _ ih => exact .more s _ r _ hs (stripped_of s) ih

theorem lastOr_append (D E : List (Bytes × List Bytes)) (old : Option (List Bytes)) (q : Bytes) :
    lastOr (D ++ E) old q = lastOr E (lastOr D old q) q := by
  unfold lastOr
  rw [List.filter_append, List.getLast?_append]
  cases (E.filter (fun e => decide (e.1 = q))).getLast? <;> simp

theorem lastOr_nil (old : Option (List Bytes)) (q : Bytes) : lastOr [] old q = old := rfl

theorem lastOr_one (k : Bytes) (v : List Bytes) (old : Option (List Bytes)) (q : Bytes) :
    lastOr [(k, v)] old q = if q = k then some v else old := by
  unfold lastOr
  by_cases h : q = k
  · rw [List.filter_cons_of_pos (by simp [h]), if_pos h]; rfl
  · rw [List.filter_cons_of_neg (by simpa using Ne.symm h), if_neg h]; rfl

theorem addAll_spec (name : Bytes) (l : List Bytes) (m : Map) (q : Bytes) :
    addAll m name l q = lastOr (l.map (fun n => (n, [name]))) (m q) q := by
  unfold addAll
  induction l generalizing m with
  | nil => rfl
  | cons n l ih =>
    rw [List.foldl_cons, ih, List.map_cons, ← List.singleton_append (l := l.map _), lastOr_append, lastOr_one]
    rfl

/-- What the second pass needs. -/
structure OkP (es : List Event) : Prop where
  inside : ∀ e ∈ es, e.sect ≠ none
  known : ∀ h ∈ headers es, h = ascii "wrap-file" ∨ h = ascii "wrap-git" ∨ h = ascii "provide"
  given : ∀ p ∈ given es, p.1 ≠ [] ∧ p.2 ≠ []

theorem sectOf_known (x : Bytes) : (∃ t, sectOf x = some t) ↔ x = ascii "wrap-file" ∨ x = ascii "wrap-git" ∨ x = ascii "provide" := by
  unfold sectOf
  constructor
  · rintro ⟨t, h⟩
    by_cases h1 : x = ascii "wrap-file"
    · exact .inl h1
    · by_cases h2 : x = ascii "wrap-git"
      · exact .inr (.inl h2)
      · by_cases h3 : x = ascii "provide"
        · exact .inr (.inr h3)
        · rw [if_neg h1, if_neg h2, if_neg h3] at h; cases h
  · rintro (h | h | h) <;> subst h
    · exact ⟨.file, by decide +kernel⟩
    · exact ⟨.git, by decide +kernel⟩
    · exact ⟨.provide, by decide +kernel⟩

theorem feed_provides (name : Bytes) (es : List Event) : ∀ (s : Option Bytes) (st : Prov), Consistent s es → Link s st.section' →
    ((feed (provideCb name) es st).2 = true ↔ OkP es) ∧
    ((feed (provideCb name) es st).2 = true → ∃ D X, Entries name (given es) D X ∧
      (∀ q, (feed (provideCb name) es st).1.deps q = lastOr D (st.deps q) q) ∧
      (∀ q, (feed (provideCb name) es st).1.exes q = lastOr X (st.exes q) q)) := by
  induction es with
  | nil =>
    intro s st _ _
    exact ⟨⟨fun _ => ⟨by simp, by simp [headers], by simp [given]⟩, fun _ => rfl⟩, fun _ => ⟨[], [], .nil, fun _ => rfl, fun _ => rfl⟩⟩
  | cons e es ih =>
    intro s st hc hl
    obtain ⟨sect, kv, n⟩ := e
    cases sect with
    | none =>
      rw [feed_false (s' := st) rfl]
      exact ⟨⟨fun h => by simp at h, fun h => absurd rfl (h.inside ⟨none, kv, n⟩ (List.mem_cons_self ..))⟩, fun h => by simp at h⟩
    | some x =>
      cases kv with
      | none =>
        have hc' := (hc.1 rfl).2
        simp only [] at hc'
        cases ht : sectOf x with
        | none =>
          have hs : provideCb name st ⟨some x, none, n⟩ = (st, false) := by simp only [provideCb, ht]
          rw [feed_false hs]
          refine ⟨⟨fun h => by simp at h, fun h => ?_⟩, fun h => by simp at h⟩
          obtain ⟨t, h'⟩ := (sectOf_known x).2 (h.known x (by rw [headers_sect]; simp))
          rw [ht] at h'; cases h'
        | some t =>
          have hs : provideCb name st ⟨some x, none, n⟩ = ({ st with section' := t }, true) := by simp only [provideCb, ht]
          rw [feed_true hs]
          obtain ⟨h1, h2⟩ := ih (some x) { st with section' := t } hc' (fun y hy => by cases hy; exact ht)
          refine ⟨h1.trans ⟨fun h => ⟨?_, ?_, ?_⟩, fun h => ⟨?_, ?_, ?_⟩⟩, fun h => ?_⟩
          · intro e he
            rcases List.mem_cons.mp he with rfl | he
            · simp
            · exact h.inside e he
          · intro y hy
            rw [headers_sect] at hy
            rcases List.mem_cons.mp hy with rfl | hy
            · exact (sectOf_known y).1 ⟨t, ht⟩
            · exact h.known y hy
          · rw [given_sect]; exact h.given
          · exact fun e he => h.inside e (by simp [he])
          · exact fun y hy => h.known y (by rw [headers_sect]; simp [hy])
          · have := h.given; rw [given_sect] at this; exact this
          · rw [given_sect]; exact h2 h
      | some p =>
        obtain ⟨k, v⟩ := p
        obtain ⟨hx, hc'⟩ := hc.2 (by simp)
        simp only [] at hx hc'
        have hsec := hl x hx.symm
        by_cases hp : x = ascii "provide"
        · have ht : st.section' = .provide := by
            have := (sectOf_provide x).2 hp; rw [hsec] at this; exact Option.some.inj this
          have hgiv : given (⟨some x, some (k, v), n⟩ :: es) = (k, v) :: given es := by rw [hp, given_provide]
          by_cases hne : k ≠ [] ∧ v ≠ []
          · obtain ⟨st', hs, hsec', D1, X1, hent, hd, hx'⟩ : ∃ st', provideCb name st ⟨some x, some (k, v), n⟩ = (st', true) ∧ st'.section' = st.section' ∧
                ∃ D1 X1, (∀ ps D X, Entries name ps D X → Entries name ((k, v) :: ps) (D1 ++ D) (X1 ++ X)) ∧
                  (∀ q, st'.deps q = lastOr D1 (st.deps q) q) ∧ (∀ q, st'.exes q = lastOr X1 (st.exes q) q) := by
              simp only [provideCb]
              rw [if_neg (by simp [ht]), if_neg hne.1, if_neg hne.2]
              by_cases hk1 : k = ascii "dependency_names"
              · rw [if_pos hk1, hk1]
                exact ⟨_, rfl, rfl, _, [], fun ps D X h => .deps (nameList_spec v) h, fun q => addAll_spec name _ _ q, fun q => rfl⟩
              · rw [if_neg hk1]
                by_cases hk2 : k = ascii "program_names"
                · rw [if_pos hk2, hk2]
                  exact ⟨_, rfl, rfl, [], _, fun ps D X h => .programs (nameList_spec v) h, fun q => rfl, fun q => addAll_spec name _ _ q⟩
                · rw [if_neg hk2]
                  exact ⟨_, rfl, rfl, [(k, [name, v])], [], fun ps D X h => .variable hk1 hk2 h, fun q => by rw [lastOr_one]; rfl, fun q => rfl⟩
            rw [feed_true hs]
            obtain ⟨h1, h2⟩ := ih s st' hc' (by rw [hsec']; exact hl)
            refine ⟨h1.trans ⟨fun h => ⟨?_, ?_, ?_⟩, fun h => ⟨?_, ?_, ?_⟩⟩, fun h => ?_⟩
            · intro e he
              rcases List.mem_cons.mp he with rfl | he
              · simp
              · exact h.inside e he
            · rw [headers_pair]; exact h.known
            · rw [hgiv]
              intro p hp
              rcases List.mem_cons.mp hp with rfl | hp
              · exact hne
              · exact h.given p hp
            · exact fun e he => h.inside e (by simp [he])
            · have := h.known; rw [headers_pair] at this; exact this
            · exact fun p hp => h.given p (by rw [hgiv]; simp [hp])
            · obtain ⟨D, X, hE, hD, hX⟩ := h2 h
              refine ⟨D1 ++ D, X1 ++ X, ?_, ?_, ?_⟩
              · rw [hgiv]; exact hent _ _ _ hE
              · intro q; rw [hD, lastOr_append, hd]
              · intro q; rw [hX, lastOr_append, hx']
          · have hs : provideCb name st ⟨some x, some (k, v), n⟩ = (st, false) := by
              simp only [provideCb]
              rw [if_neg (by simp [ht])]
              by_cases hk : k = []
              · rw [if_pos hk]
              · have hv : v = [] := by
                  cases v with
                  | nil => rfl
                  | cons a b => exact absurd ⟨hk, by simp⟩ hne
                rw [if_neg hk, if_pos hv]
            rw [feed_false hs]
            refine ⟨⟨fun h => by simp at h, fun h => ?_⟩, fun h => by simp at h⟩
            exact absurd (h.given (k, v) (by rw [hgiv]; simp)) hne
        · have ht : st.section' ≠ .provide := by
            intro h; rw [h] at hsec; exact hp ((sectOf_provide x).1 hsec)
          have hgiv : given (⟨some x, some (k, v), n⟩ :: es) = given es := given_pair _ (by simpa using hp) _ _ _
          have hs : provideCb name st ⟨some x, some (k, v), n⟩ = (st, true) := by
            simp only [provideCb]; rw [if_pos ht]
          rw [feed_true hs]
          obtain ⟨h1, h2⟩ := ih s st hc' hl
          refine ⟨h1.trans ⟨fun h => ⟨?_, ?_, ?_⟩, fun h => ⟨?_, ?_, ?_⟩⟩, fun h => ?_⟩
          · intro e he
            rcases List.mem_cons.mp he with rfl | he
            · simp
            · exact h.inside e he
          · rw [headers_pair]; exact h.known
          · rw [hgiv]; exact h.given
          · exact fun e he => h.inside e (by simp [he])
          · have := h.known; rw [headers_pair] at this; exact this
          · have := h.given; rw [hgiv] at this; exact this
          · rw [hgiv]; exact h2 h

theorem no_provide (es : List Event) : ∀ s, Consistent s es → s ≠ some (ascii "provide") → ascii "provide" ∉ headers es → given es = [] := by
  induction es with
  | nil => intros; rfl
  | cons e es ih =>
    intro s hc hs hh
    obtain ⟨sect, kv, n⟩ := e
    cases kv with
    | none =>
      obtain ⟨h1, h2⟩ := hc.1 rfl
      cases sect with
      | none => exact absurd rfl h1
      | some x =>
        rw [headers_sect] at hh
        rw [given_sect]
        simp only [List.mem_cons, not_or] at hh
        exact ih (some x) h2 (fun h => hh.1 (by cases h; rfl)) hh.2
    | some p =>
      obtain ⟨h1, h2⟩ := hc.2 (by simp)
      simp only [] at h1 h2
      rw [headers_pair] at hh
      rw [given_pair _ (by rw [h1]; exact hs)]
      exact ih s h2 hs hh

theorem accepted_iff (path : Bytes) (ls : List Bytes) (es : List Event) (ok : Bool) (hF : Form ls) (hs : Says false none 1 ls es ok) :
    ((∃ w, parse path (file ls) = .ok w) ↔ Accepted es ok ∧ ∃ n, Path.basename path = n ++ ascii ".wrap") := by
  constructor
  · rintro ⟨w, hw⟩
    obtain ⟨h1, h2, h3, h4, h5, h6, h7, h8⟩ := (parse_iff_partial path ls es ok hF hs w).1 hw
    refine ⟨⟨h1, h2, ?_⟩, ⟨_, h7⟩⟩
    have e1 : decide (ascii "wrap-git" ∈ headers es) = w.git := by rw [Bool.eq_iff_iff, h4]; simp
    have e2 : (fun f => key f ∈ (own es).map (·.1)) = fun f => w.fields f ≠ none := by
      funext f
      apply propext
      rw [List.mem_map]
      constructor
      · rintro ⟨⟨a, b⟩, hm, he⟩
        simp only [] at he
        rw [he] at hm
        rw [(h6 f b).2 hm]; simp
      · intro hn
        cases hv : w.fields f with
        | none => exact absurd hv hn
        | some v => exact ⟨_, (h6 f v).1 hv, rfl⟩
    rw [e1, e2]; exact h3
  · rintro ⟨⟨h1, h2, h3⟩, n, hn⟩
    let fl : Field → Option Bytes := fun f => ((own es).find? (fun p => p.1 = key f)).map (·.2)
    have hfl : ∀ f v, fl f = some v ↔ (key f, v) ∈ own es := by
      intro f v
      simp only [fl, Option.map_eq_some_iff]
      constructor
      · rintro ⟨⟨a, b⟩, hp, rfl⟩
        have h := List.find?_some hp
        have hm := List.mem_of_find?_eq_some hp
        simp only [decide_eq_true_eq] at h
        rw [← h]; exact hm
      · intro hm
        cases hx : (own es).find? (fun p => p.1 = key f) with
        | none => have := List.find?_eq_none.1 hx _ hm; simp at this
        | some p =>
          have h := List.find?_some hx
          have hm' := List.mem_of_find?_eq_some hx
          simp only [decide_eq_true_eq] at h
          refine ⟨p, rfl, ?_⟩
          have hnd := h2.once
          clear hx
          revert hm hm' hnd
          generalize own es = l
          intro hm hm' hnd
          induction l with
          | nil => cases hm
          | cons a l ih =>
            simp only [List.map_cons, List.nodup_cons] at hnd
            rcases List.mem_cons.mp hm with e | m
            · rcases List.mem_cons.mp hm' with e' | m'
              · rw [e', ← e]
              · exact absurd (List.mem_map.mpr ⟨p, m', by rw [h, ← e]⟩) hnd.1
            · rcases List.mem_cons.mp hm' with e' | m'
              · exact absurd (List.mem_map.mpr ⟨(key f, v), m, by rw [← e', h]⟩) hnd.1
              · exact ih m m' hnd.2
    refine ⟨⟨decide (ascii "wrap-git" ∈ headers es), fl, n, Path.join (Path.dirname path) ((fl .directory).getD n), decide (ascii "provide" ∈ headers es)⟩,
      (parse_iff_partial path ls es ok hF hs _).2 ⟨h1, h2, ?_, by simp, by simp, hfl, hn, rfl⟩⟩
    have e2 : (fun f => fl f ≠ none) = (fun f => key f ∈ (own es).map (·.1)) := by
      funext f
      apply propext
      rw [List.mem_map]
      constructor
      · intro hne
        cases hv : fl f with
        | none => exact absurd hv hne
        | some v => exact ⟨_, (hfl f v).1 hv, rfl⟩
      · rintro ⟨⟨a, b⟩, hm, he⟩
        simp only [] at he
        rw [he] at hm
        rw [(hfl f b).2 hm]; simp
    show Valid _ (fun f => fl f ≠ none)
    rw [e2]; exact h3

theorem loadOne_spec (subprojects f c : Bytes) (ls : List Bytes) (hc : c = file ls) (hF : Form ls) (hw : ascii ".wrap" <:+ f) (es : List Event) (ok : Bool)
    (hs : Says false none 1 ls es ok) (st st' : Map × Map) :
    (loadOne subprojects st (f, some c) = .ok st' → ∃ name D X, Path.basename (Path.join subprojects f) = name ++ ascii ".wrap" ∧ Accepted es ok ∧
      (∀ p ∈ given es, p.1 ≠ [] ∧ p.2 ≠ []) ∧ Entries name (given es) D X ∧ (∀ q, st'.1 q = lastOr D (st.1 q) q) ∧ ∀ q, st'.2 q = lastOr X (st.2 q) q) ∧
    ((∃ name, Path.basename (Path.join subprojects f) = name ++ ascii ".wrap") → Accepted es ok → (∀ p ∈ given es, p.1 ≠ [] ∧ p.2 ≠ []) →
      ∃ r, loadOne subprojects st (f, some c) = .ok r) := by
  unfold loadOne
  simp only []
  rw [if_neg (by simp [(Str.endswith_iff _ _).2 hw]), hc]
  have hp : ∀ name, Ini.parse false (provideCb name) ⟨.file, st.1, st.2⟩ (file ls) =
      .ok ((feed (provideCb name) es ⟨.file, st.1, st.2⟩).1, (feed (provideCb name) es ⟨.file, st.1, st.2⟩).2 && ok) :=
    fun name => parse_says_partial false _ _ ls es ok hF.1 hF.2.1 hF.firstOk hs
  have hfp := fun name => feed_provides name es none ⟨.file, st.1, st.2⟩ (says_consistent hs) (fun x hx => by cases hx)
  constructor
  · intro h
    obtain ⟨w, hw', h⟩ := Res.bind_eq_ok.1 h
    have hA := ((accepted_iff _ ls es ok hF hs).1 ⟨w, hw'⟩).1
    obtain ⟨_, _, _, _, h5, _, h7, _⟩ := (parse_iff_partial _ ls es ok hF hs w).1 hw'
    by_cases hpr : w.provides = true
    · rw [if_neg (by simp [hpr]), hp, Res.ok_bind] at h
      split at h
      · rename_i hb
        have hb := (Bool.and_eq_true_iff.1 hb).1
        obtain ⟨h1, h2⟩ := hfp w.name
        obtain ⟨D, X, hE, hD, hX⟩ := h2 hb
        cases h
        exact ⟨w.name, D, X, h7, hA, (h1.1 hb).given, hE, hD, hX⟩
      · cases h
    · rw [if_pos (by simp [hpr])] at h
      cases h
      have hg := no_provide es none (says_consistent hs) (by simp) (fun hh => hpr (h5.2 hh))
      exact ⟨w.name, [], [], h7, hA, by rw [hg]; simp, by rw [hg]; exact .nil, fun _ => rfl, fun _ => rfl⟩
  · intro hn hA hg
    obtain ⟨w, hw'⟩ := (accepted_iff _ ls es ok hF hs).2 ⟨hA, hn⟩
    rw [hw', Res.ok_bind]
    by_cases hpr : w.provides = true
    · rw [if_neg (by simp [hpr]), hp, Res.ok_bind]
      have := (hfp w.name).1.2 ⟨hA.2.1.inside, hA.2.1.known, hg⟩
      rw [if_pos (by simp [this, hA.1])]
      exact ⟨_, rfl⟩
    · rw [if_pos (by simp [hpr])]; exact ⟨_, rfl⟩

/-- All wrap files of a directory provide what they say; of several entries for a name the last one counts. Partial: for
files that can be read as lines. -/
theorem loadAll_ok_partial (subprojects : Bytes) (l : List (Bytes × Option Bytes)) (hl : ∀ f c, (f, some c) ∈ l → ∃ ls, c = file ls ∧ Form ls) :
    ∀ (st st' : Map × Map), loadAll subprojects l st = .ok st' →
      ∃ D X, Provides subprojects l D X ∧ (∀ q, st'.1 q = lastOr D (st.1 q) q) ∧ ∀ q, st'.2 q = lastOr X (st.2 q) q := by
  induction l with
  | nil => intro st st' h; cases h; exact ⟨[], [], .nil, fun _ => rfl, fun _ => rfl⟩
  | cons a l ih =>
    intro st st' h
    obtain ⟨f, c⟩ := a
    unfold loadAll at h
    obtain ⟨st1, h1, h2⟩ := Res.bind_eq_ok.1 h
    obtain ⟨D, X, hP, hD, hX⟩ := ih (fun f c hm => hl f c (by simp [hm])) _ _ h2
    by_cases hw : ascii ".wrap" <:+ f
    · cases c with
      | none =>
        unfold loadOne at h1
        simp only [] at h1
        rw [if_neg (by simp [(Str.endswith_iff _ _).2 hw])] at h1
        cases h1
        exact ⟨D, X, .noFile hP, hD, hX⟩
      | some c =>
        obtain ⟨ls, hcl, hF⟩ := hl f c (by simp)
        obtain ⟨es, ok, hs⟩ := says_total false none 1 ls hF.2.1
        obtain ⟨name, D1, X1, hn, hA, hg, hE, hD1, hX1⟩ := (loadOne_spec subprojects f c ls hcl hF hw es ok hs st st1).1 h1
        refine ⟨D1 ++ D, X1 ++ X, ?_, fun q => by rw [hD, lastOr_append, hD1], fun q => by rw [hX, lastOr_append, hX1]⟩
        rw [hcl]
        exact .wrap hn hw hF hs hA hg hE hP
    · unfold loadOne at h1
      simp only [] at h1
      rw [if_pos (by rw [Bool.not_eq_true', Bool.eq_false_iff]; exact fun h => hw ((Str.endswith_iff _ _).1 h))] at h1
      cases h1
      exact ⟨D, X, .other hw hP, hD, hX⟩

/-- And a directory of wrap files that are all accepted is loaded. -/
theorem loadAll_total_partial (subprojects : Bytes) (l : List (Bytes × Option Bytes)) (D X : List (Bytes × List Bytes))
    (h : Provides subprojects l D X) :
    ∀ st : Map × Map, ∃ st', loadAll subprojects l st = .ok st' := by
  induction h with
  | nil => intro st; exact ⟨st, rfl⟩
  | @other f c l D X hw _ ih =>
    intro st
    obtain ⟨st', h'⟩ := ih st
    refine ⟨st', ?_⟩
    unfold loadAll loadOne
    simp only []
    rw [if_pos (by rw [Bool.not_eq_true', Bool.eq_false_iff]; exact fun h => hw ((Str.endswith_iff _ _).1 h)), Res.ok_bind]
    exact h'
  | @noFile f l D X _ ih =>
    intro st
    obtain ⟨st', h'⟩ := ih st
    refine ⟨st', ?_⟩
    unfold loadAll loadOne
    simp only []
    split
    · rw [Res.ok_bind]; exact h'
    · rw [Res.ok_bind]; exact h'
  | @wrap f name ls es ok l D1 X1 D X hn hw hF hs hA hg hE _ ih =>
    intro st
    obtain ⟨r, hr⟩ := (loadOne_spec subprojects f _ ls rfl hF hw es ok hs st st).2 ⟨name, hn⟩ hA hg
    obtain ⟨st', h'⟩ := ih r
    refine ⟨st', ?_⟩
    unfold loadAll
    rw [hr, Res.ok_bind]
    exact h'

end Muon.Wrap
