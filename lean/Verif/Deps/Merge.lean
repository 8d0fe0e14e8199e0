import Verif.Deps.Lemmas
/-
The objects of the store have exactly what the specification says.
-/
namespace Muon.Deps
open Muon Spec

theorem runDir_eq (root p : Bytes) : runDir root p = directory root p := by
  unfold runDir directory
  simp only
  rw [Path.isAbsolute_eq]
  cases h : Path.dirname p with
  | nil => simp [Path.Spec.isAbs]
  | cons c s => by_cases hc : c = 47 <;> simp [Path.Spec.isAbs, hc]

/-- What linking with the call `j` adds. -/
def Via (root : Bytes) (P : List Cmd) (whole : Bool) (j : Nat) (f : Field) (v : Item) : Prop :=
  (∃ t k p, Makes P j t k p ∧ ((f = destField whole ∧ k ≠ .exe ∧ v = ⟨p, false⟩) ∨ (f = .rpath ∧ k ≠ .static ∧ v = ⟨directory root p, false⟩) ∨
    (Handed k f ∧ Brings root P t f v))) ∨
  (∃ p, Makesfile P j p ∧ f = destField whole ∧ v = ⟨p, false⟩)

theorem brings_iff {root : Bytes} {P : List Cmd} {i : Nat} {c : Cmd} (hc : P[i]? = some c)
    (h1 : ∀ j ca inc la links src, c ≠ .partialDep j ca inc la links src) (h2 : ∀ j t, c ≠ .asSystem j t) (f : Field) (v : Item) :
    Brings root P i f v ↔ v ∈ own c f ∨ (∃ j, Links c false j ∧ Via root P false j f v) ∨ (∃ j, Links c true j ∧ Via root P true j f v) ∨
      ∃ j, Uses c j ∧ Found P j ∧ Brings root P j f v := by
  constructor
  · intro h
    cases h with
    | own h hv => rw [hc] at h; cases h; exact .inl hv
    | library h hl hm hk => rw [hc] at h; cases h; exact .inr (.inl ⟨_, hl, .inl ⟨_, _, _, hm, .inl ⟨rfl, hk, rfl⟩⟩⟩)
    | wholeLibrary h hl hm hk => rw [hc] at h; cases h; exact .inr (.inr (.inl ⟨_, hl, .inl ⟨_, _, _, hm, .inl ⟨rfl, hk, rfl⟩⟩⟩))
    | file h hl hm => rw [hc] at h; cases h; exact .inr (.inl ⟨_, hl, .inr ⟨_, hm, rfl, rfl⟩⟩)
    | wholeFile h hl hm => rw [hc] at h; cases h; exact .inr (.inr (.inl ⟨_, hl, .inr ⟨_, hm, rfl, rfl⟩⟩))
    | @directory _ c' whole _ _ _ _ h hl hm hk =>
      rw [hc] at h; cases h
      cases whole with
      | false => exact .inr (.inl ⟨_, hl, .inl ⟨_, _, _, hm, .inr (.inl ⟨rfl, hk, rfl⟩)⟩⟩)
      | true => exact .inr (.inr (.inl ⟨_, hl, .inl ⟨_, _, _, hm, .inr (.inl ⟨rfl, hk, rfl⟩)⟩⟩))
    | @through _ c' whole _ _ _ _ _ _ h hl hm hk hb =>
      rw [hc] at h; cases h
      cases whole with
      | false => exact .inr (.inl ⟨_, hl, .inl ⟨_, _, _, hm, .inr (.inr ⟨hk, hb⟩)⟩⟩)
      | true => exact .inr (.inr (.inl ⟨_, hl, .inl ⟨_, _, _, hm, .inr (.inr ⟨hk, hb⟩)⟩⟩))
    | uses h hu hf hb => rw [hc] at h; cases h; exact .inr (.inr (.inr ⟨_, hu, hf, hb⟩))
    | partialDep h _ _ => rw [hc] at h; cases h; exact absurd rfl (h1 _ _ _ _ _ _)
    | asSystem h _ _ => rw [hc] at h; cases h; exact absurd rfl (h2 _ _)
    | asSystemInc h _ => rw [hc] at h; cases h; exact absurd rfl (h2 _ _)
  · rintro (h | ⟨j, hl, h⟩ | ⟨j, hl, h⟩ | ⟨j, hu, hf, hb⟩)
    · exact .own hc h
    · rcases h with ⟨t, k, p, hm, ⟨rfl, hk, rfl⟩ | ⟨rfl, hk, rfl⟩ | ⟨hk, hb⟩⟩ | ⟨p, hm, rfl, rfl⟩
      · exact .library hc hl hm hk
      · exact .directory hc hl hm hk
      · exact .through hc hl hm hk hb
      · exact .file hc hl hm
    · rcases h with ⟨t, k, p, hm, ⟨rfl, hk, rfl⟩ | ⟨rfl, hk, rfl⟩ | ⟨hk, hb⟩⟩ | ⟨p, hm, rfl, rfl⟩
      · exact .wholeLibrary hc hl hm hk
      · exact .directory hc hl hm hk
      · exact .through hc hl hm hk hb
      · exact .wholeFile hc hl hm
    · exact .uses hc hu hf hb

/-- The object that the call `i` made has what the specification says. -/
def Fits (root : Bytes) (P : List Cmd) (i : Nat) : Obj → Prop
  | .target k p int ext => ∃ lw lh ds la inc od rp ss os, P[i]? = some (.target k p lw lh ds la inc od rp ss os) ∧
      ∀ f v, (v ∈ int.lists f ↔ Brings root P i f v ∨ (f = .linkArgs ∧ v ∈ la)) ∧
        (passes f = true → (v ∈ ext.lists f ↔ Handed k f ∧ Brings root P i f v))
  | .both s t => P[i]? = some (.both s t)
  | .custom outs => P[i]? = some (.custom outs)
  | .file p => P[i]? = some (.file p)
  | .dep found d => (found = true ↔ Found P i) ∧ (∀ f v, v ∈ d.lists f ↔ Brings root P i f v) ∧
      ∃ c, P[i]? = some c ∧ ((∃ lw lh ds la ca inc src os, c = .declare lw lh ds la ca inc src os) ∨ (∃ b d, c = .external b d) ∨
        (∃ j ca inc la links src, c = .partialDep j ca inc la links src) ∨ ∃ j t, c = .asSystem j t)

theorem via_iff {root : Bytes} {P : List Cmd} {st : Store} {whole : Bool} {j : Nat} (hfit : ∀ (j : Nat) o, st[j]? = some o → Fits root P j o)
    (hl : Linkable st j) (f : Field) (v : Item) : FromObj root st whole j f v ↔ Via root P whole j f v := by
  have tgt : ∀ {t k p int ext}, st[t]? = some (.target k p int ext) → ∀ j, (∀ t' k' p', Makes P j t' k' p' ↔ t' = t ∧ k' = k ∧ p' = p) →
      (∀ p', ¬ Makesfile P j p') → (FromTarget root whole k p ext f v ↔ Via root P whole j f v) := by
    intro t k p int ext ht j hm hn
    obtain ⟨_, _, _, _, _, _, _, _, _, hP, hh⟩ := hfit _ _ ht
    have hx := (hh f v).2
    unfold FromTarget Via
    rw [runDir_eq]
    constructor
    · intro h
      refine .inl ⟨t, k, p, (hm t k p).2 ⟨rfl, rfl, rfl⟩, ?_⟩
      rcases h with h | h | ⟨h1, h2⟩
      · exact .inl h
      · exact .inr (.inl h)
      · exact .inr (.inr ((hx h1).1 h2))
    · rintro (⟨t', k', p', hm', h⟩ | ⟨p', hm', _⟩)
      · obtain ⟨rfl, rfl, rfl⟩ := (hm _ _ _).1 hm'
        rcases h with h | h | ⟨h1, h2⟩
        · exact .inl h
        · exact .inr (.inl h)
        · have hpass : passes f = true := by cases f <;> first | rfl | exact absurd h1 id
          exact .inr (.inr ⟨hpass, (hx hpass).2 ⟨h1, h2⟩⟩)
      · exact absurd hm' (hn p')
  cases hl with
  | @target k p int ext h =>
    rw [fromObj_target h]
    obtain ⟨_, _, _, _, _, _, _, _, _, hP, -⟩ := hfit _ _ h
    refine tgt h j ?_ ?_
    · intro t' k' p'
      constructor
      · intro hm
        cases hm with
        | target h' => rw [hP] at h'; cases h'; exact ⟨rfl, rfl, rfl⟩
        | both h' _ => rw [hP] at h'; cases h'
      · rintro ⟨rfl, rfl, rfl⟩; exact .target hP
    · intro p' hm
      cases hm with
      | file h' => rw [hP] at h'; cases h'
      | custom h' _ _ => rw [hP] at h'; cases h'
  | @both s t k p int ext h ht =>
    rw [fromObj_both h ht]
    have hP : P[j]? = some (.both s t) := hfit _ _ h
    obtain ⟨_, _, _, _, _, _, _, _, _, hPt, -⟩ := hfit _ _ ht
    refine tgt ht j ?_ ?_
    · intro t' k' p'
      constructor
      · intro hm
        cases hm with
        | target h' => rw [hP] at h'; cases h'
        | both h' h2 => rw [hP] at h'; cases h'; rw [hPt] at h2; cases h2; exact ⟨rfl, rfl, rfl⟩
      · rintro ⟨rfl, rfl, rfl⟩; exact .both hP hPt
    · intro p' hm
      cases hm with
      | file h' => rw [hP] at h'; cases h'
      | custom h' _ _ => rw [hP] at h'; cases h'
  | @file p h =>
    rw [fromObj_file h]
    have hP : P[j]? = some (.file p) := hfit _ _ h
    constructor
    · intro h; exact .inr ⟨p, .file hP, h⟩
    · rintro (⟨t, k, p', hm, _⟩ | ⟨p', hm, h⟩)
      · cases hm with
        | target h' => rw [hP] at h'; cases h'
        | both h' _ => rw [hP] at h'; cases h'
      · cases hm with
        | file h' => rw [hP] at h'; cases h'; exact h
        | custom h' _ _ => rw [hP] at h'; cases h'
  | @custom outs h ho =>
    rw [fromObj_custom h]
    have hP : P[j]? = some (.custom outs) := hfit _ _ h
    constructor
    · rintro ⟨o, hm, p, hp, hr⟩
      exact .inr ⟨p, .custom hP hm (hfit _ _ hp), hr⟩
    · rintro (⟨t, k, p', hm, _⟩ | ⟨p', hm, hr⟩)
      · cases hm with
        | target h' => rw [hP] at h'; cases h'
        | both h' _ => rw [hP] at h'; cases h'
      · cases hm with
        | file h' => rw [hP] at h'; cases h'
        | @custom outs' o _ h' hm' hp =>
          rw [hP] at h'; cases h'
          obtain ⟨q, hq⟩ := ho o hm'
          have : P[o]? = some (.file q) := hfit _ _ hq
          rw [hp] at this; cases this
          exact ⟨o, hm', p', hq, hr⟩

theorem dep_iff {root : Bytes} {P : List Cmd} {st : Store} {j : Nat} (hfit : ∀ (j : Nat) o, st[j]? = some o → Fits root P j o)
    (hl : ∃ b d, st[j]? = some (.dep b d)) (f : Field) (v : Item) : FromDep st j f v ↔ Found P j ∧ Brings root P j f v := by
  obtain ⟨b, d, h⟩ := hl
  obtain ⟨hb, hm, -⟩ := hfit _ _ h
  unfold FromDep
  rw [h]
  constructor
  · rintro ⟨d', he, hv⟩
    cases he
    exact ⟨hb.1 rfl, (hm f v).1 hv⟩
  · rintro ⟨hf, hv⟩
    have := hb.2 hf
    subst this
    exact ⟨d, rfl, (hm f v).2 hv⟩

/-- The three sorts of keywords together. -/
theorem keywords_mem {root : Bytes} {P : List Cmd} {st : Store} {lw lh ds : Option (List Nat)} {d0 d1 d2 d3 d2' : BDep}
    (hfit : ∀ (j : Nat) o, st[j]? = some o → Fits root P j o) (hc : Outs st)
    (h1 : processLink root st false lw d0 = .ok d1) (h2 : processLink root st true lh d1 = .ok d2)
    (extra : Field → Item → Prop) (h2' : ∀ f v, v ∈ d2'.lists f ↔ v ∈ d2.lists f ∨ extra f v)
    (h3 : processDeps st ds d2' = .ok d3) (f : Field) (v : Item) :
    v ∈ d3.lists f ↔ (v ∈ d0.lists f ∨ extra f v) ∨ (∃ j, (∃ l, lw = some l ∧ j ∈ l) ∧ Via root P false j f v) ∨
      (∃ j, (∃ l, lh = some l ∧ j ∈ l) ∧ Via root P true j f v) ∨
      ∃ j, (∃ l, ds = some l ∧ j ∈ l) ∧ Found P j ∧ Brings root P j f v := by
  obtain ⟨m1, l1⟩ := processLink_spec hc h1
  obtain ⟨m2, l2⟩ := processLink_spec hc h2
  obtain ⟨m3, l3⟩ := processDeps_spec h3
  rw [m3, h2', m2, m1]
  constructor
  · rintro ((((h | ⟨l, e, j, hj, h⟩) | ⟨l, e, j, hj, h⟩) | h) | ⟨l, e, j, hj, h⟩)
    · exact .inl (.inl h)
    · exact .inr (.inl ⟨j, ⟨l, e, hj⟩, (via_iff hfit (l1 l e j hj) f v).1 h⟩)
    · exact .inr (.inr (.inl ⟨j, ⟨l, e, hj⟩, (via_iff hfit (l2 l e j hj) f v).1 h⟩))
    · exact .inl (.inr h)
    · exact .inr (.inr (.inr ⟨j, ⟨l, e, hj⟩, (dep_iff hfit (l3 l e j hj) f v).1 h⟩))
  · rintro ((h | h) | ⟨j, ⟨l, e, hj⟩, h⟩ | ⟨j, ⟨l, e, hj⟩, h⟩ | ⟨j, ⟨l, e, hj⟩, h⟩)
    · exact .inl (.inl (.inl (.inl h)))
    · exact .inl (.inr h)
    · exact .inl (.inl (.inl (.inr ⟨l, e, j, hj, (via_iff hfit (l1 l e j hj) f v).2 h⟩)))
    · exact .inl (.inl (.inr ⟨l, e, j, hj, (via_iff hfit (l2 l e j hj) f v).2 h⟩))
    · exact .inr ⟨l, e, j, hj, (dep_iff hfit (l3 l e j hj) f v).2 h⟩

theorem mem_set (d : BDep) (f g : Field) (l : List Item) (w : Item) :
    w ∈ (d.set f l).lists g ↔ if g = f then w ∈ l else w ∈ d.lists g := by
  unfold BDep.set; simp only; split <;> rfl

/-- `createTarget` in parts. -/
theorem createTarget_ok {e : Env} {st : Store} {k : Kind} {p : Bytes} {lw lh ds : Option (List Nat)} {la inc od rp : List Item}
    {ss os : List Bytes} {o : Obj} (h : createTarget e st k p lw lh ds la inc od rp ss os = .ok o) :
    ∃ d1 d2 d3 l, processLink e.root st false lw empty = .ok d1 ∧ processLink e.root st true lh d1 = .ok d2 ∧
      processDeps st ds d2 = .ok d3 ∧
      determineLinker e ((ss ++ (d3.lists .sources).map Item.text).filterMap e.langOf) (os ++ (d3.lists .objects).map Item.text) d3.lang = .ok l ∧
      ∃ d4 : BDep, (∀ f, d4.lists f = match f with
          | .orderDeps => d3.lists .orderDeps ++ od
          | .includes => inc ++ d3.lists .includes
          | .rpath => d3.lists .rpath ++ rp
          | f => d3.lists f) ∧ d4.lang = l ∧
        o = .target k p (d4.set .linkArgs (d4.lists .linkArgs ++ la)) (external k d4) := by
  unfold createTarget at h
  obtain ⟨d1, h1, h⟩ := (Res.bind_eq_ok (x := processLink e.root st false lw empty)).1 h
  obtain ⟨d2, h2, h⟩ := (Res.bind_eq_ok (x := processLink e.root st true lh d1)).1 h
  obtain ⟨d3, h3, h⟩ := (Res.bind_eq_ok (x := processDeps st ds d2)).1 h
  obtain ⟨l, h4, h⟩ := Res.bind_eq_ok.1 h
  injection h with h
  refine ⟨d1, d2, d3, l, h1, h2, h3, h4, _, ?_, rfl, h.symm⟩
  intro f
  cases f <;> rfl

/-- `declare` in parts. -/
theorem declare_ok {e : Env} {st : Store} {lw lh ds : Option (List Nat)} {la ca inc src os : List Item} {o : Obj}
    (h : declare e st lw lh ds la ca inc src os = .ok o) :
    ∃ d0 d1 d2 d3, processLink e.root st false lw d0 = .ok d1 ∧ processLink e.root st true lh d1 = .ok d2 ∧
      processDeps st ds (d2.set .includes (d2.lists .includes ++ inc)) = .ok d3 ∧ o = .dep true d3 ∧ d0.lang = .null ∧
      ∀ f, d0.lists f = match f with
        | .linkArgs => la
        | .compileArgs => ca
        | .sources => src
        | .objects => os
        | _ => [] := by
  unfold declare at h
  obtain ⟨d1, h1, h⟩ := Res.bind_eq_ok.1 h
  obtain ⟨d2, h2, h⟩ := Res.bind_eq_ok.1 h
  obtain ⟨d3, h3, h⟩ := Res.bind_eq_ok.1 h
  injection h with h
  refine ⟨_, d1, d2, d3, h1, h2, h3, h.symm, rfl, ?_⟩
  intro f
  cases f <;> rfl

theorem step_fits {e : Env} {P : List Cmd} {st : Store} {i : Nat} {c : Cmd} {o : Obj} (hP : P[i]? = some c)
    (hfit : ∀ (j : Nat) o, st[j]? = some o → Fits e.root P j o) (hc : Outs st) (h : step e st c = .ok o) : Fits e.root P i o := by
  cases c with
  | target k p lw lh ds la inc od rp ss os =>
    obtain ⟨d1, d2, d3, l, h1, h2, h3, -, d4, h4, -, rfl⟩ := createTarget_ok h
    refine ⟨lw, lh, ds, la, inc, od, rp, ss, os, hP, ?_⟩
    have hb : ∀ f v, v ∈ d4.lists f ↔ Brings e.root P i f v := by
      intro f v
      have hk := keywords_mem hfit hc h1 h2 (fun _ _ => False) (by simp) h3 f v
      rw [brings_iff hP (by simp) (by simp)]
      simp only [or_false] at hk
      have he : ¬ v ∈ empty.lists f := by simp [empty]
      simp only [he, false_or] at hk
      rw [h4]
      cases f <;> simp only [own, List.not_mem_nil, false_or, List.mem_append, hk, Links, Uses] <;> first | rfl | exact or_comm
    intro f v
    constructor
    · rw [mem_set]
      split
      · rename_i hf; subst hf; rw [List.mem_append, hb]; simp
      · rename_i hf; rw [hb]; simp [hf]
    · intro hp
      cases f <;> simp only [external, Handed, true_and] <;> first | exact hb _ _ | (exact absurd hp (by decide)) | skip
      all_goals
        split
        · rename_i hk; simp only [hk, true_and]; exact hb _ _
        · rename_i hk; simp [hk]
  | both s d =>
    simp only [step] at h
    split at h
    · injection h with h; subst h; exact hP
    · cases h
  | custom outs =>
    simp only [step] at h
    split at h
    · injection h with h; subst h; exact hP
    · cases h
  | file p => simp only [step] at h; injection h with h; subst h; exact hP
  | declare lw lh ds la ca inc src os =>
    obtain ⟨d0, d1, d2, d3, h1, h2, h3, rfl, -, h0⟩ := declare_ok h
    refine ⟨⟨fun _ => .declared hP, fun _ => rfl⟩, fun f v => ?_, _, hP, .inl ⟨_, _, _, _, _, _, _, _, rfl⟩⟩
    have hk := keywords_mem hfit hc h1 h2 (fun f v => f = .includes ∧ v ∈ inc) (by
      intro f v
      rw [mem_set]
      split
      · rename_i hf; subst hf; simp
      · rename_i hf; simp [hf]) h3 f v
    rw [brings_iff hP (by simp) (by simp), hk, h0]
    cases f <;> simp [own, Links, Uses]
  | external found d =>
    simp only [step] at h
    injection h with h; subst h
    refine ⟨⟨?_, ?_⟩, fun f v => ?_, _, hP, .inr (.inl ⟨_, _, rfl⟩)⟩
    · rintro rfl; exact .external hP
    · intro hf
      cases hf with
      | declared h' => rw [hP] at h'; cases h'
      | external h' => rw [hP] at h'; cases h'; rfl
      | partialDep h' _ => rw [hP] at h'; cases h'
      | asSystem h' _ => rw [hP] at h'; cases h'
    · rw [brings_iff hP (by simp) (by simp)]
      simp [own, Links, Uses]
  | partialDep j ca inc la links src =>
    simp only [step, partialDep] at h
    split at h
    · rename_i found d hj
      injection h with h; subst h
      obtain ⟨hb, hm, -⟩ := hfit _ _ hj
      refine ⟨⟨?_, ?_⟩, fun f v => ?_, _, hP, .inr (.inr (.inl ⟨_, _, _, _, _, _, rfl⟩))⟩
      · intro hf; exact .partialDep hP (hb.1 hf)
      · intro hf
        cases hf with
        | declared h' => rw [hP] at h'; cases h'
        | external h' => rw [hP] at h'; cases h'
        | partialDep h' hf => rw [hP] at h'; cases h'; exact hb.2 hf
        | asSystem h' _ => rw [hP] at h'; cases h'
      · have hk : keeps ca inc la links src f = true ↔ Kept ca inc la links src f := by cases f <;> simp [keeps, Kept]
        simp only
        constructor
        · intro hv
          split at hv
          · rename_i hkeep; exact .partialDep hP (hk.1 hkeep) ((hm f v).1 hv)
          · cases hv
        · intro hbr
          cases hbr with
          | own h' hv => rw [hP] at h'; cases h'; simp [own] at hv
          | partialDep h' hkeep hv => rw [hP] at h'; cases h'; rw [if_pos (hk.2 hkeep)]; exact (hm f v).2 hv
          | asSystem h' _ _ => rw [hP] at h'; cases h'
          | asSystemInc h' _ => rw [hP] at h'; cases h'
          | library h' hl => rw [hP] at h'; cases h'; cases hl
          | wholeLibrary h' hl => rw [hP] at h'; cases h'; cases hl
          | file h' hl => rw [hP] at h'; cases h'; cases hl
          | wholeFile h' hl => rw [hP] at h'; cases h'; cases hl
          | directory h' hl => rw [hP] at h'; cases h'; cases hl
          | through h' hl => rw [hP] at h'; cases h'; cases hl
          | uses h' hl => rw [hP] at h'; cases h'; cases hl
    · cases h
  | asSystem j t =>
    simp only [step, asSystem] at h
    split at h
    · rename_i found d hj
      split at h
      · injection h with h; subst h
        obtain ⟨hb, hm, -⟩ := hfit _ _ hj
        refine ⟨⟨?_, ?_⟩, fun f v => ?_, _, hP, .inr (.inr (.inr ⟨_, _, rfl⟩))⟩
        · intro hf; exact .asSystem hP (hb.1 hf)
        · intro hf
          cases hf with
          | declared h' => rw [hP] at h'; cases h'
          | external h' => rw [hP] at h'; cases h'
          | partialDep h' _ => rw [hP] at h'; cases h'
          | asSystem h' hf => rw [hP] at h'; cases h'; exact hb.2 hf
        · have hi : ∀ w : Item, incItem t w = ⟨w.text, marked t w.system⟩ := by
            intro w; cases t <;> rfl
          rw [mem_set]
          constructor
          · intro hv
            split at hv
            · rename_i hf; subst hf
              obtain ⟨w, hw, rfl⟩ := List.mem_map.1 hv
              rw [hi]
              exact .asSystemInc hP ((hm _ _).1 hw)
            · rename_i hf; exact .asSystem hP hf ((hm f v).1 hv)
          · intro hbr
            cases hbr with
            | own h' hv => rw [hP] at h'; cases h'; simp [own] at hv
            | partialDep h' hkeep hv => rw [hP] at h'; cases h'
            | asSystem h' hf hv => rw [hP] at h'; cases h'; rw [if_neg hf]; exact (hm f v).2 hv
            | asSystemInc h' hv =>
              rw [hP] at h'; cases h'
              rw [if_pos rfl]
              exact List.mem_map.2 ⟨_, (hm _ _).2 hv, hi _⟩
            | library h' hl => rw [hP] at h'; cases h'; cases hl
            | wholeLibrary h' hl => rw [hP] at h'; cases h'; cases hl
            | file h' hl => rw [hP] at h'; cases h'; cases hl
            | wholeFile h' hl => rw [hP] at h'; cases h'; cases hl
            | directory h' hl => rw [hP] at h'; cases h'; cases hl
            | through h' hl => rw [hP] at h'; cases h'; cases hl
            | uses h' hl => rw [hP] at h'; cases h'; cases hl
      · cases h
    · cases h

/-- A run makes one object after the other. -/
theorem run_steps {e : Env} : ∀ (cs : List Cmd) (st st' : Store), run e cs st = .ok st' →
    st'.length = st.length + cs.length ∧ (∀ j, j < st.length → st'[j]? = st[j]?) ∧
    ∀ n c, cs[n]? = some c → ∃ o, step e (st'.take (st.length + n)) c = .ok o ∧ st'[st.length + n]? = some o := by
  intro cs
  induction cs with
  | nil => intro st st' h; unfold run at h; cases h; simp
  | cons c cs ih =>
    intro st st' h
    unfold run at h
    obtain ⟨o, h1, h⟩ := Res.bind_eq_ok.1 h
    obtain ⟨a, b, d⟩ := ih _ _ h
    rw [List.length_append, List.length_singleton] at a b d
    have hpre : st'.take st.length = st := by
      apply List.ext_getElem?
      intro n
      rw [List.getElem?_take]
      split
      · rename_i hn; rw [b n (by omega), List.getElem?_append_left hn]
      · rename_i hn; rw [List.getElem?_eq_none (by omega)]
    refine ⟨by rw [List.length_cons]; omega, fun j hj => by rw [b j (by omega), List.getElem?_append_left hj], fun n c' hn => ?_⟩
    cases n with
    | zero =>
      rw [List.getElem?_cons_zero] at hn
      cases hn
      refine ⟨o, by rw [Nat.add_zero, hpre]; exact h1, ?_⟩
      rw [Nat.add_zero, b _ (by omega), List.getElem?_append_right (Nat.le_refl _)]
      simp
    | succ n =>
      rw [List.getElem?_cons_succ] at hn
      obtain ⟨o', h2, h3⟩ := d n c' hn
      rw [show st.length + (n + 1) = st.length + 1 + n by omega]
      exact ⟨o', h2, h3⟩

theorem run_at {e : Env} {P : List Cmd} {st : Store} (h : run e P [] = .ok st) {i : Nat} {o : Obj} (ho : st[i]? = some o) :
    ∃ c, P[i]? = some c ∧ step e (st.take i) c = .ok o := by
  obtain ⟨a, -, d⟩ := run_steps P [] st h
  simp only [List.length_nil, Nat.zero_add] at a d
  have hi : i < P.length := by rw [← a]; exact (List.getElem?_eq_some_iff.1 ho).1
  obtain ⟨o', h1, h2⟩ := d i P[i] (List.getElem?_eq_getElem hi)
  rw [ho] at h2; cases h2
  exact ⟨_, List.getElem?_eq_getElem hi, h1⟩

theorem take_get {st : Store} {i j : Nat} {o : Obj} (h : (st.take i)[j]? = some o) : j < i ∧ st[j]? = some o := by
  rw [List.getElem?_take] at h
  split at h
  · rename_i hj; exact ⟨hj, h⟩
  · cases h

theorem run_outs {e : Env} {P : List Cmd} {st : Store} (h : run e P [] = .ok st) (i : Nat) : Outs (st.take i) := by
  intro j outs hj o ho
  obtain ⟨hji, hj⟩ := take_get hj
  obtain ⟨c, -, hs⟩ := run_at h hj
  have hall : outs.all (fun n => match (st.take j)[n]? with | some (.file _) => true | _ => false) = true := by
    cases c with
    | custom outs' =>
      simp only [step] at hs
      split at hs
      · rename_i hall; injection hs with hs; cases hs; exact hall
      · cases hs
    | target => obtain ⟨_, _, _, _, _, _, _, _, _, _, _, he⟩ := createTarget_ok hs; cases he
    | both =>
      simp only [step] at hs
      split at hs
      · injection hs with hs; cases hs
      · cases hs
    | file => simp only [step] at hs; injection hs with hs; cases hs
    | declare => obtain ⟨_, _, _, _, _, _, _, he, _⟩ := declare_ok hs; cases he
    | external => simp only [step] at hs; injection hs with hs; cases hs
    | partialDep =>
      simp only [step, partialDep] at hs
      split at hs
      · injection hs with hs; cases hs
      · cases hs
    | asSystem =>
      simp only [step, asSystem] at hs
      split at hs
      · split at hs
        · injection hs with hs; cases hs
        · cases hs
      · cases hs
  have := List.all_eq_true.1 hall o ho
  split at this
  · rename_i p hp
    obtain ⟨h1, h2⟩ := take_get hp
    exact ⟨p, by rw [List.getElem?_take, if_pos (by omega)]; exact h2⟩
  · cases this

theorem run_fits {e : Env} {P : List Cmd} {st : Store} (h : run e P [] = .ok st) : ∀ (i : Nat) (o : Obj), st[i]? = some o → Fits e.root P i o := by
  intro i
  induction i using Nat.strongRecOn with
  | ind i ih =>
    intro o ho
    obtain ⟨c, hP, hs⟩ := run_at h ho
    refine step_fits hP (fun j o hj => ?_) (run_outs h i) hs
    obtain ⟨h1, h2⟩ := take_get hj
    exact ih j h1 o h2

end Muon.Deps
