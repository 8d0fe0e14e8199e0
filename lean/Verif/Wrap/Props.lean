import Verif.Wrap.Spec
import Verif.Ini.Props
import Verif.Str.Props
import Verif.Path.Props
/-
What wrap files say (C100).
-/
namespace Muon.Wrap
open Muon Ini Ini.Spec Spec

theorem key_name (f : Field) : f.name = key f := by cases f <;> rfl

theorem key_inj {f g : Field} (h : key f = key g) : f = g := by
  revert h; cases f <;> cases g <;> decide +kernel

theorem fieldOf_iff (k : Bytes) (f : Field) : fieldOf k = some f ↔ key f = k := by
  unfold fieldOf
  constructor
  · intro h
    have := List.find?_some h
    rw [← key_name]; simpa using this
  · intro h
    subst h
    cases f <;> decide +kernel

theorem fieldOf_none (k : Bytes) : fieldOf k = none ↔ ¬ ∃ f, key f = k := by
  cases h : fieldOf k with
  | none => simp only [true_iff]; rintro ⟨f, hf⟩; rw [(fieldOf_iff k f).2 hf] at h; cases h
  | some f => simp only [reduceCtorEq, false_iff, Classical.not_not]; exact ⟨f, (fieldOf_iff k f).1 h⟩

/-- Pairs are in the section of the last header. -/
def Consistent : Option Bytes → List Event → Prop
  | _, [] => True
  | s, e :: es => (e.kv = none → e.sect ≠ none ∧ Consistent e.sect es) ∧ (e.kv ≠ none → e.sect = s ∧ Consistent s es)

theorem says_consistent {kv : Bool} {s : Option Bytes} {n : Nat} {ls : List Bytes} {es : List Event} {ok : Bool}
    (h : Says kv s n ls es ok) : Consistent s es := by
  induction h with
  | nil => trivial
  | nothing _ _ ih => exact ih
  | sect _ _ ih => exact ⟨fun _ => ⟨by simp, ih⟩, fun h => absurd rfl h⟩
  | pair _ _ ih => exact ⟨fun h => by simp at h, fun _ => ⟨rfl, ih⟩⟩
  | invalid _ => trivial

/-- The type of a file with these type headers. -/
def typeAfter (st : St) : List Bytes → Sect
  | [] => st.type
  | t :: _ => if t = ascii "wrap-git" then .git else .file

/-- What reading events from a state needs. -/
structure Ok (st : St) (es : List Event) : Prop where
  inside : ∀ e ∈ es, e.sect ≠ none
  known : ∀ h ∈ headers es, h = ascii "wrap-file" ∨ h = ascii "wrap-git" ∨ h = ascii "provide"
  oneType : (types es).length + (if st.haveType then 1 else 0) ≤ 1
  keys : ∀ p ∈ own es, ∃ f, key f = p.1 ∧ st.fields f = none
  once : ((own es).map (·.1)).Nodup

/-- And what it leads to. -/
structure After (st : St) (es : List Event) (st' : St) : Prop where
  type : st'.type = typeAfter st (types es)
  provides : st'.provides = true ↔ st.provides = true ∨ ascii "provide" ∈ headers es
  fields : ∀ f v, st'.fields f = some v ↔ st.fields f = some v ∨ (key f, v) ∈ own es

theorem headers_sect (s : Bytes) (n : Nat) (es : List Event) : headers (⟨some s, none, n⟩ :: es) = s :: headers es := by
  unfold headers; rw [List.filterMap_cons]; rfl
theorem headers_pair (s : Option Bytes) (p : Bytes × Bytes) (n : Nat) (es : List Event) : headers (⟨s, some p, n⟩ :: es) = headers es := by
  unfold headers; rw [List.filterMap_cons]; rfl
theorem own_sect (s : Bytes) (n : Nat) (es : List Event) : own (⟨some s, none, n⟩ :: es) = own es := by
  unfold own; rw [List.filterMap_cons]; simp
theorem own_provide (p : Bytes × Bytes) (n : Nat) (es : List Event) : own (⟨some (ascii "provide"), some p, n⟩ :: es) = own es := by
  unfold own; rw [List.filterMap_cons]; simp
theorem own_pair (s : Option Bytes) (hs : s ≠ some (ascii "provide")) (p : Bytes × Bytes) (n : Nat) (es : List Event) :
    own (⟨s, some p, n⟩ :: es) = p :: own es := by
  unfold own; rw [List.filterMap_cons]; simp [hs]
theorem given_sect (s : Bytes) (n : Nat) (es : List Event) : given (⟨some s, none, n⟩ :: es) = given es := by
  unfold given; rw [List.filterMap_cons]; simp
theorem given_provide (p : Bytes × Bytes) (n : Nat) (es : List Event) : given (⟨some (ascii "provide"), some p, n⟩ :: es) = p :: given es := by
  unfold given; rw [List.filterMap_cons]; simp
theorem given_pair (s : Option Bytes) (hs : s ≠ some (ascii "provide")) (p : Bytes × Bytes) (n : Nat) (es : List Event) :
    given (⟨s, some p, n⟩ :: es) = given es := by
  unfold given; rw [List.filterMap_cons]; simp [hs]

theorem sectOf_provide (s : Bytes) : sectOf s = some .provide ↔ s = ascii "provide" := by
  unfold sectOf
  by_cases h1 : s = ascii "wrap-file"
  · subst h1; decide +kernel
  · by_cases h2 : s = ascii "wrap-git"
    · subst h2; decide +kernel
    · rw [if_neg h1, if_neg h2]
      by_cases h3 : s = ascii "provide"
      · rw [if_pos h3]; simp [h3]
      · rw [if_neg h3]; simp [h3]

/-- The section of a state is that of the last header. -/
def Link (s : Option Bytes) (t : Sect) : Prop := ∀ x, s = some x → sectOf x = some t

theorem feed_true {σ : Type} {cb : σ → Event → σ × Bool} {e : Event} {es : List Event} {s s' : σ} (h : cb s e = (s', true)) :
    feed cb (e :: es) s = feed cb es s' := by
  rw [feed, h]
theorem feed_false {σ : Type} {cb : σ → Event → σ × Bool} {e : Event} {es : List Event} {s s' : σ} (h : cb s e = (s', false)) :
    feed cb (e :: es) s = (s', false) := by
  rw [feed, h]

theorem feed_spec (es : List Event) : ∀ (s : Option Bytes) (st : St), Consistent s es → Link s st.section' →
    ((feed parseCb es st).2 = true ↔ Ok st es) ∧ ((feed parseCb es st).2 = true → After st es (feed parseCb es st).1) := by
  induction es with
  | nil =>
    intro s st _ _
    refine ⟨⟨fun _ => ⟨by simp, by simp [headers], ?_, by simp [own], by simp [own]⟩, fun _ => rfl⟩, fun _ => ⟨rfl, by simp [feed, headers], by simp [feed, own]⟩⟩
    simp only [types, headers, List.filterMap_nil, List.filter_nil, List.length_nil]; split <;> omega
  | cons e es ih =>
    intro s st hc hl
    obtain ⟨sect, kv, n⟩ := e
    cases sect with
    | none =>
      rw [feed_false (s' := st) rfl]
      refine ⟨⟨fun h => by simp at h, fun h => absurd rfl (h.inside ⟨none, kv, n⟩ (List.mem_cons_self ..))⟩, fun h => by simp at h⟩
    | some x =>
      cases kv with
      | none =>
        have hc' := (hc.1 rfl).2
        simp only [] at hc'
        by_cases hk : x = ascii "wrap-file" ∨ x = ascii "wrap-git"
        · have hp : x ≠ ascii "provide" := by rcases hk with rfl | rfl <;> decide +kernel
          have hty : types (⟨some x, none, n⟩ :: es) = x :: types es := by
            unfold types; rw [headers_sect, List.filter_cons_of_pos (by simpa using hp)]
          obtain ⟨t, ht, htp, htt⟩ : ∃ t, sectOf x = some t ∧ t ≠ .provide ∧ t = (if x = ascii "wrap-git" then .git else .file) := by
            rcases hk with rfl | rfl
            · exact ⟨.file, by decide +kernel⟩
            · exact ⟨.git, by decide +kernel⟩
          have hs : onSection st x = if st.haveType then ({ st with section' := t }, false) else ({ st with section' := t, type := t, haveType := true }, true) := by
            unfold onSection; rw [ht]
            cases t with
            | provide => exact absurd rfl htp
            | file => rfl
            | git => rfl
          by_cases hh : st.haveType = true
          · rw [if_pos hh] at hs
            rw [feed_false (s' := { st with section' := t }) hs]
            refine ⟨⟨fun h => by simp at h, fun h => ?_⟩, fun h => by simp at h⟩
            have := h.oneType; rw [hty, if_pos hh] at this; simp at this
          · rw [if_neg hh] at hs
            rw [feed_true (s' := { st with section' := t, type := t, haveType := true }) hs]
            obtain ⟨h1, h2⟩ := ih (some x) { st with section' := t, type := t, haveType := true } hc' (fun y hy => by cases hy; exact ht)
            refine ⟨h1.trans ⟨fun h => ⟨?_, ?_, ?_, ?_, ?_⟩, fun h => ⟨?_, ?_, ?_, ?_, ?_⟩⟩, fun h => ?_⟩
            · intro e he
              rcases List.mem_cons.mp he with rfl | he
              · simp
              · exact h.inside e he
            · intro y hy
              rw [headers_sect] at hy
              rcases List.mem_cons.mp hy with rfl | hy
              · rcases hk with hk | hk
                · exact .inl hk
                · exact .inr (.inl hk)
              · exact h.known y hy
            · have := h.oneType; rw [if_pos rfl] at this; rw [hty, if_neg hh]; simp only [List.length_cons]; omega
            · rw [own_sect]; exact h.keys
            · rw [own_sect]; exact h.once
            · exact fun e he => h.inside e (by simp [he])
            · exact fun y hy => h.known y (by rw [headers_sect]; simp [hy])
            · have := h.oneType; rw [hty, if_neg hh] at this; rw [if_pos rfl]; simp only [List.length_cons] at this; omega
            · have := h.keys; rw [own_sect] at this; exact this
            · have := h.once; rw [own_sect] at this; exact this
            · have hok := h1.1 h
              have ha := h2 h
              have hnil : types es = [] := by
                have := hok.oneType; rw [if_pos rfl] at this
                exact List.eq_nil_of_length_eq_zero (by omega)
              refine ⟨?_, ?_, ?_⟩
              · rw [ha.type, hty, hnil]; simp only [typeAfter]; exact htt
              · rw [headers_sect]; refine ha.provides.trans ?_; simp [Ne.symm hp]
              · rw [own_sect]; exact ha.fields
        · by_cases hp : x = ascii "provide"
          · have hty : types (⟨some x, none, n⟩ :: es) = types es := by
              unfold types; rw [headers_sect, List.filter_cons_of_neg (by simpa using hp)]
            have ht : sectOf x = some .provide := (sectOf_provide x).2 hp
            have hs : onSection st x = ({ st with section' := .provide, provides := true }, true) := by
              unfold onSection; rw [ht]
            rw [feed_true (s' := { st with section' := .provide, provides := true }) hs]
            obtain ⟨h1, h2⟩ := ih (some x) { st with section' := .provide, provides := true } hc' (fun y hy => by cases hy; exact ht)
            refine ⟨h1.trans ⟨fun h => ⟨?_, ?_, ?_, ?_, ?_⟩, fun h => ⟨?_, ?_, ?_, ?_, ?_⟩⟩, fun h => ?_⟩
            · intro e he
              rcases List.mem_cons.mp he with rfl | he
              · simp
              · exact h.inside e he
            · intro y hy
              rw [headers_sect] at hy
              rcases List.mem_cons.mp hy with rfl | hy
              · exact .inr (.inr hp)
              · exact h.known y hy
            · rw [hty]; exact h.oneType
            · rw [own_sect]; exact h.keys
            · rw [own_sect]; exact h.once
            · exact fun e he => h.inside e (by simp [he])
            · exact fun y hy => h.known y (by rw [headers_sect]; simp [hy])
            · have := h.oneType; rw [hty] at this; exact this
            · have := h.keys; rw [own_sect] at this; exact this
            · have := h.once; rw [own_sect] at this; exact this
            · have ha := h2 h
              refine ⟨?_, ?_, ?_⟩
              · rw [ha.type, hty]; cases types es <;> rfl
              · rw [headers_sect]; refine ha.provides.trans ?_; simp [hp]
              · rw [own_sect]; exact ha.fields
          · have hs : onSection st x = (st, false) := by
              unfold onSection sectOf
              rw [if_neg (fun h => hk (.inl h)), if_neg (fun h => hk (.inr h)), if_neg hp]
            rw [feed_false (s' := st) hs]
            refine ⟨⟨fun h => by simp at h, fun h => ?_⟩, fun h => by simp at h⟩
            rcases h.known x (by rw [headers_sect]; simp) with h | h | h
            · exact absurd (.inl h) hk
            · exact absurd (.inr h) hk
            · exact absurd h hp
      | some p =>
        obtain ⟨k, v⟩ := p
        obtain ⟨hx, hc'⟩ := hc.2 (by simp)
        simp only [] at hx hc'
        have hsec := hl x hx.symm
        have hty : types (⟨some x, some (k, v), n⟩ :: es) = types es := by unfold types; rw [headers_pair]
        by_cases hp : x = ascii "provide"
        · have ht : st.section' = .provide := by
            have := (sectOf_provide x).2 hp; rw [hsec] at this; exact Option.some.inj this
          have hs : onPair st k v = (st, true) := by unfold onPair; rw [if_pos ht]
          rw [feed_true (s' := st) hs]
          obtain ⟨h1, h2⟩ := ih s st hc' hl
          have hown : own (⟨some x, some (k, v), n⟩ :: es) = own es := by rw [hp, own_provide]
          refine ⟨h1.trans ⟨fun h => ⟨?_, ?_, ?_, ?_, ?_⟩, fun h => ⟨?_, ?_, ?_, ?_, ?_⟩⟩, fun h => ?_⟩
          · intro e he
            rcases List.mem_cons.mp he with rfl | he
            · simp
            · exact h.inside e he
          · rw [headers_pair]; exact h.known
          · rw [hty]; exact h.oneType
          · rw [hown]; exact h.keys
          · rw [hown]; exact h.once
          · exact fun e he => h.inside e (by simp [he])
          · have := h.known; rw [headers_pair] at this; exact this
          · have := h.oneType; rw [hty] at this; exact this
          · have := h.keys; rw [hown] at this; exact this
          · have := h.once; rw [hown] at this; exact this
          · have ha := h2 h
            exact ⟨by rw [hty]; exact ha.type, by rw [headers_pair]; exact ha.provides, by rw [hown]; exact ha.fields⟩
        · have ht : st.section' ≠ .provide := by
            intro h; rw [h] at hsec; exact hp ((sectOf_provide x).1 hsec)
          have hown : own (⟨some x, some (k, v), n⟩ :: es) = (k, v) :: own es := own_pair _ (by simpa using hp) _ _ _
          cases hfo : fieldOf k with
          | none =>
            have hs : onPair st k v = (st, false) := by unfold onPair; rw [if_neg ht, hfo]
            rw [feed_false (s' := st) hs]
            refine ⟨⟨fun h => by simp at h, fun h => ?_⟩, fun h => by simp at h⟩
            obtain ⟨f, hf, _⟩ := h.keys (k, v) (by rw [hown]; simp)
            exact absurd ⟨f, hf⟩ ((fieldOf_none k).1 hfo)
          | some f =>
            have hkf := (fieldOf_iff k f).1 hfo
            cases hset : st.fields f with
            | some w =>
              have hs : onPair st k v = (st, false) := by unfold onPair; rw [if_neg ht, hfo]; simp [hset]
              rw [feed_false (s' := st) hs]
              refine ⟨⟨fun h => by simp at h, fun h => ?_⟩, fun h => by simp at h⟩
              obtain ⟨g, hg, hn⟩ := h.keys (k, v) (by rw [hown]; simp)
              rw [key_inj (hg.trans hkf.symm), hset] at hn; cases hn
            | none =>
              have hs : onPair st k v = (setField st f v, true) := by unfold onPair; rw [if_neg ht, hfo]; simp [hset]
              rw [feed_true (s' := setField st f v) hs]
              obtain ⟨h1, h2⟩ := ih s (setField st f v) hc' hl
              have hsf : ∀ g, (setField st f v).fields g = if g = f then some v else st.fields g := fun g => rfl
              refine ⟨h1.trans ⟨fun h => ⟨?_, ?_, ?_, ?_, ?_⟩, fun h => ⟨?_, ?_, ?_, ?_, ?_⟩⟩, fun h => ?_⟩
              · intro e he
                rcases List.mem_cons.mp he with rfl | he
                · simp
                · exact h.inside e he
              · rw [headers_pair]; exact h.known
              · rw [hty]; exact h.oneType
              · rw [hown]
                intro q hq
                rcases List.mem_cons.mp hq with rfl | hq
                · exact ⟨f, hkf, hset⟩
                · obtain ⟨g, hg, hn⟩ := h.keys q hq
                  rw [hsf] at hn
                  by_cases hgf : g = f
                  · rw [if_pos hgf] at hn; cases hn
                  · rw [if_neg hgf] at hn; exact ⟨g, hg, hn⟩
              · rw [hown]
                simp only [List.map_cons, List.nodup_cons]
                refine ⟨?_, h.once⟩
                intro hm
                obtain ⟨q, hq, hqk⟩ := List.mem_map.mp hm
                obtain ⟨g, hg, hn⟩ := h.keys q hq
                rw [hsf, if_pos (key_inj (hg.trans (hqk.trans hkf.symm)))] at hn; cases hn
              · exact fun e he => h.inside e (by simp [he])
              · have := h.known; rw [headers_pair] at this; exact this
              · have := h.oneType; rw [hty] at this; exact this
              · intro q hq
                obtain ⟨g, hg, hn⟩ := h.keys q (by rw [hown]; simp [hq])
                refine ⟨g, hg, ?_⟩
                rw [hsf, if_neg, hn]
                intro hgf
                have := h.once; rw [hown] at this
                simp only [List.map_cons, List.nodup_cons] at this
                exact this.1 (List.mem_map.mpr ⟨q, hq, by rw [← hg, hgf, hkf]⟩)
              · have := h.once; rw [hown] at this
                simp only [List.map_cons, List.nodup_cons] at this
                exact this.2
              · have ha := h2 h
                refine ⟨by rw [hty]; exact ha.type, by rw [headers_pair]; exact ha.provides, ?_⟩
                intro g w
                rw [ha.fields, hown, hsf, List.mem_cons]
                by_cases hgf : g = f
                · subst hgf
                  rw [if_pos rfl, hset]
                  constructor
                  · rintro (h | h)
                    · cases h; exact .inr (.inl (by rw [hkf]))
                    · exact .inr (.inr h)
                  · rintro (h | h | h)
                    · cases h
                    · cases h; exact .inl rfl
                    · exact .inr h
                · rw [if_neg hgf]
                  constructor
                  · rintro (h | h)
                    · exact .inl h
                    · exact .inr (.inr h)
                  · rintro (h | h | h)
                    · exact .inl h
                    · have : key g = key f := by rw [hkf]; exact congrArg Prod.fst h
                      exact absurd (key_inj this) hgf
                    · exact .inr h

theorem ok_readable (es : List Event) : Ok {} es ↔ Readable es :=
  ⟨fun h => ⟨h.inside, h.known, h.oneType, fun p hp => let ⟨f, hf, _⟩ := h.keys p hp; ⟨f, hf⟩, h.once⟩,
   fun h => ⟨h.inside, h.known, h.oneType, fun p hp => let ⟨f, hf⟩ := h.keys p hp; ⟨f, hf, rfl⟩, h.once⟩⟩

theorem validate_iff (git : Bool) (set : Field → Bool) : validate git set = true ↔ Valid git (fun f => set f = true) := by
  have hv : validate git set = true ↔ ∀ f, (match need git set f with | .optional => true | .required => set f | .invalid => !set f) = true := by
    unfold validate
    rw [List.all_eq_true]
    exact ⟨fun h f => h f (by cases f <;> decide +kernel), fun h f _ => h f⟩
  rw [hv]
  constructor
  · intro h
    have hpd := h .patchDirectory; have hpu := h .patchUrl; have hpf := h .patchFilename; have hph := h .patchHash
    have hpb := h .patchFallbackUrl; have hsf := h .sourceFilename; have hsu := h .sourceUrl; have hsh := h .sourceHash
    have hsb := h .sourceFallbackUrl; have hl := h .leadDirectoryMissing; have hu := h .url; have hr := h .revision
    have hd := h .depth; have hc := h .cloneRecursive; have hp := h .pushUrl
    clear h hv
    simp only [need] at *
    refine ⟨?_, ?_, ?_, ?_⟩
    · intro hh
      have : (set .patchUrl || set .patchFilename || set .patchHash) = true := by
        simpa [or_assoc] using hh
      rw [this] at hpd hpf
      simp_all
    · intro hh
      cases hb : (set .patchUrl || set .patchFilename || set .patchHash) with
      | true => rw [hb] at hpf; simpa using hpf
      | false => rw [hb] at hpb; simp [hh] at hpb
    · intro hg
      subst hg
      clear hpd hpu hpf hph hpb
      refine ⟨fun h => ?_, ?_, ?_, ?_, ?_, ?_⟩ <;> simp_all
    · intro hg
      subst hg
      clear hpd hpu hpf hph hpb
      refine ⟨?_, ?_, ?_, ?_, ?_, ?_, ?_⟩ <;> simp_all
  · intro h f
    obtain ⟨h1, h2, h3, h4⟩ := h
    have hb : (set .patchUrl || set .patchFilename || set .patchHash) = true ↔ (set .patchUrl = true ∨ set .patchFilename = true ∨ set .patchHash = true) := by
      simp [or_assoc]
    cases hbb : (set .patchUrl || set .patchFilename || set .patchHash) with
    | true =>
      have h1' := h1 (hb.1 hbb)
      cases git with
      | true => have h4' := h4 rfl; cases f <;> simp [need, hbb] <;> simp_all
      | false =>
        have h3' := h3 rfl
        cases hsu : set .sourceUrl with
        | true => have := h3'.1 hsu; cases f <;> simp [need, hbb, hsu] <;> simp_all
        | false => cases f <;> simp [need, hbb, hsu] <;> simp_all
    | false =>
      have hn : set .patchUrl = false ∧ set .patchFilename = false ∧ set .patchHash = false := by
        simpa [and_assoc] using hbb
      have hfb : set .patchFallbackUrl = false := by
        cases hx : set .patchFallbackUrl with
        | false => rfl
        | true => rw [h2 hx] at hn; exact absurd hn.2.1 (by simp)
      cases git with
      | true => have h4' := h4 rfl; cases f <;> simp [need, hbb] <;> simp_all
      | false =>
        have h3' := h3 rfl
        cases hsu : set .sourceUrl with
        | true => have := h3'.1 hsu; cases f <;> simp [need, hbb, hsu] <;> simp_all
        | false => cases f <;> simp [need, hbb, hsu] <;> simp_all

theorem Spec.Form.firstOk {ls : List Bytes} (h : Form ls) : ∀ l, ls.head? = some l → FirstOk false l := by
  intro l hl
  rcases h.2.2 l hl with h | h | h
  · exact .inl h
  · exact .inr (.inl h)
  · exact .inr (.inr ⟨rfl, h⟩)

/-- Whether a wrap file is accepted, and what it then says. Partial: the file ends in a line end, has no NUL bytes, and
its first line is not a pair without a key (C15). -/
theorem parse_iff_partial (path : Bytes) (ls : List Bytes) (es : List Event) (ok : Bool) (hF : Form ls) (hs : Says false none 1 ls es ok) (w : Wrap) :
    parse path (file ls) = .ok w ↔
      ok = true ∧ Readable es ∧ Valid w.git (fun f => w.fields f ≠ none) ∧
      (w.git = true ↔ ascii "wrap-git" ∈ headers es) ∧ (w.provides = true ↔ ascii "provide" ∈ headers es) ∧
      (∀ f v, w.fields f = some v ↔ (key f, v) ∈ own es) ∧
      Path.basename path = w.name ++ ascii ".wrap" ∧
      w.dest = Path.join (Path.dirname path) ((w.fields .directory).getD w.name) := by
  unfold parse
  rw [parse_says_partial false parseCb {} ls es ok hF.1 hF.2.1 hF.firstOk hs, Res.ok_bind]
  obtain ⟨h1, h2⟩ := feed_spec es none {} (says_consistent hs) (fun x hx => by cases hx)
  generalize feed parseCb es {} = r at *
  obtain ⟨st, b⟩ := r
  simp only [] at h1 h2 ⊢
  by_cases hb : (b && ok) = true
  · rw [if_neg (by simp [hb])]
    obtain ⟨hb1, hb2⟩ := Bool.and_eq_true_iff.1 hb
    have hR := (ok_readable es).1 (h1.1 hb1)
    have hA := h2 hb1
    have hgit : (st.type = .git) ↔ ascii "wrap-git" ∈ headers es := by
      rw [hA.type]
      have hmem : ascii "wrap-git" ∈ headers es ↔ ascii "wrap-git" ∈ types es := by
        unfold types; rw [List.mem_filter]; exact ⟨fun h => ⟨h, by decide +kernel⟩, fun h => h.1⟩
      rw [hmem]
      have hl := hR.oneType
      cases ht : types es with
      | nil => simp [typeAfter]
      | cons t r =>
        rw [ht] at hl
        have : r = [] := List.eq_nil_of_length_eq_zero (by simpa using hl)
        subst this
        simp only [typeAfter, List.mem_singleton]
        by_cases hg : t = ascii "wrap-git"
        · simp [hg]
        · rw [if_neg hg]; simp [Ne.symm hg]
    have hfields : ∀ f v, st.fields f = some v ↔ (key f, v) ∈ own es := fun f v => by simpa using hA.fields f v
    have hprov : st.provides = true ↔ ascii "provide" ∈ headers es := by simpa using hA.provides
    by_cases hv : validate (st.type = .git) (fun f => (st.fields f).isSome) = true
    · rw [if_neg (by simp [hv])]
      have hV : Valid (decide (st.type = .git)) (fun f => st.fields f ≠ none) := by
        have := (validate_iff _ _).1 hv
        simpa only [Option.isSome_iff_ne_none] using this
      by_cases he : Str.endswith (Path.basename path) (ascii ".wrap") = true
      · rw [if_neg (by simp [he])]
        obtain ⟨n, hn⟩ := (Str.endswith_iff _ _).1 he
        have htk : (Path.basename path).take ((Path.basename path).length - 5) = n := by
          rw [← hn, List.length_append, show (ascii ".wrap").length = 5 from by decide +kernel, Nat.add_sub_cancel]
          exact List.take_left ..
        simp only [htk]
        constructor
        · intro h
          cases h
          exact ⟨hb2, hR, hV, by simpa using hgit, hprov, hfields, hn.symm, rfl⟩
        · rintro ⟨_, _, _, hg, hp, hfl, hnm, hd⟩
          obtain ⟨wg, wf, wn, wd, wp⟩ := w
          simp only [] at hg hp hfl hnm hd
          have e1 : decide (st.type = .git) = wg := by
            rw [Bool.eq_iff_iff, hg]; simpa using hgit
          have e2 : st.fields = wf := by
            funext f
            cases hx : wf f with
            | some v => exact (hfields f v).2 ((hfl f v).1 hx)
            | none =>
              cases hy : st.fields f with
              | none => rfl
              | some v => rw [(hfl f v).2 ((hfields f v).1 hy)] at hx; cases hx
          have e3 : n = wn := List.append_cancel_right (hn.trans hnm)
          have e4 : st.provides = wp := by rw [Bool.eq_iff_iff, hp]; exact hprov
          subst e1; subst e2; subst e3; subst e4; subst hd
          rfl
      · rw [if_pos (by simp [he])]
        constructor
        · intro h; cases h
        · rintro ⟨_, _, _, _, _, _, hn, _⟩
          exact absurd ((Str.endswith_iff _ _).2 ⟨_, hn.symm⟩) he
    · rw [if_pos (by simp [hv])]
      constructor
      · intro h; cases h
      · rintro ⟨_, _, hV, hg, _, hfl, _, _⟩
        refine absurd ((validate_iff _ _).2 ?_) hv
        have e1 : decide (st.type = .git) = w.git := by
          rw [Bool.eq_iff_iff, hg]; simpa using hgit
        have e2 : st.fields = w.fields := by
          funext f
          cases hx : w.fields f with
          | some v => exact (hfields f v).2 ((hfl f v).1 hx)
          | none =>
            cases hy : st.fields f with
            | none => rfl
            | some v => rw [(hfl f v).2 ((hfields f v).1 hy)] at hx; cases hx
        rw [e1]
        simpa only [Option.isSome_iff_ne_none, e2] using hV
  · rw [if_pos (by cases b <;> cases ok <;> simp_all)]
    constructor
    · intro h; cases h
    · rintro ⟨hok, hR, _⟩
      exact absurd (Bool.and_eq_true_iff.2 ⟨h1.2 ((ok_readable es).2 hR), hok⟩) hb

/-- A wrap that is accepted has the fields that fetching it needs, unless it is a `wrap-file` without a URL. -/
theorem git_fields (path content : Bytes) (w : Wrap) (h : parse path content = .ok w) :
    (w.git = true → w.fields .url ≠ none ∧ w.fields .revision ≠ none) ∧ (w.fields .sourceUrl ≠ none → w.fields .sourceFilename ≠ none) := by
  unfold parse at h
  obtain ⟨r, _, h⟩ := Res.bind_eq_ok.1 h
  split at h
  · cases h
  · split at h
    · cases h
    · split at h
      · cases h
      · rename_i hv _
        cases h
        have hV := (validate_iff _ _).1 (by simpa using hv)
        simp only [Option.isSome_iff_ne_none] at hV
        refine ⟨fun hg => ⟨(hV.git hg).1, (hV.git hg).2.1⟩, fun hs => ?_⟩
        cases hg : decide (r.1.type = .git) with
        | false => exact (hV.file hg).1 hs
        | true => exact absurd hs (hV.git hg).2.2.1

end Muon.Wrap
