import Verif.Names.Lemmas
/-
C93: the names of the objects of a target, of its private directory, and of the links to a shared library.
-/
namespace Muon.Names
open Muon Path Path.Spec Spec

/-- The object of every source of a target has a name, and lies in the private directory of the target. -/
theorem object_inside (d : Dirs) (root : Bytes) (ext : Option Bytes → Bytes) (s : Bytes) (h : Source d s) (he : Ext ext) :
    ∃ r, objectPath d root ext false s = .ok r ∧ In d.priv r ∧ Place r := by
  obtain ⟨b, x, _, hx, hg, _, _, ho, _⟩ := object_eq (root := root) (ext := ext) h
  refine ⟨_, ho, ?_⟩
  generalize suffix (render true (comps d.priv ++ x)) = o
  obtain ⟨y, c, rfl, hc⟩ := object_comps he (a := true) h.priv.comp hx (fun c hc => (hg c hc).1) o
  have hne : render true (comps d.priv ++ (y ++ [c])) ≠ [] := by simp [render]
  refine ⟨⟨_, by simp, hc⟩, ?_, ?_, ?_, ?_⟩
  · rw [isAbs_append _ _ hne]; simp [render, isAbs]
  · have h0 : 0 ∉ render true (comps d.priv ++ (y ++ [c])) := render_no0 _ _ (by
      intro z hz
      rcases List.mem_append.1 hz with hz | hz
      · exact h.priv.comp z hz
      · exact (hg z hz).1)
    have h1 : 0 ∉ ext o := by rcases he o with h | h <;> rw [h] <;> decide
    simp [h0, h1]
  · rw [hc]
    simp only [List.mem_append, List.mem_singleton, not_or]
    refine ⟨h.priv.2.2.1, fun hm => (hg _ (by simp [hm])).2 rfl, fun e => (ext_comp he o (hg c (by simp)).1).2 e.symm⟩
  · rw [hc]; simp

/-- Sources in the same place have different objects: if both names are taken relative to the same directory and the
objects are the same file, the sources are the same file. (Missing: sources in different places, for which it fails.) -/
theorem objects_distinct_partial (d : Dirs) (root : Bytes) (ext : Option Bytes → Bytes) (s t q r1 r2 : Bytes) (hs : Source d s) (ht : Source d t) (he : Ext ext)
    (h1 : From d s (some q)) (h2 : From d t (some q))
    (o1 : objectPath d root ext false s = .ok r1) (o2 : objectPath d root ext false t = .ok r2) (hr : comps r1 = comps r2) :
    comps s = comps t := by
  obtain ⟨b, x, hb, hx, hg, hq, _, ho, _⟩ := object_eq (root := root) (ext := ext) hs
  obtain ⟨b', x', hb', hx', hg', hq', _, ho', _⟩ := object_eq (root := root) (ext := ext) ht
  rw [ho] at o1; cases o1
  rw [ho'] at o2; cases o2
  obtain ⟨y, c, rfl, hc⟩ := object_comps he (a := true) hs.priv.comp hx (fun c hc => (hg c hc).1) (suffix (render true (comps d.priv ++ x)))
  obtain ⟨y', c', rfl, hc'⟩ := object_comps he (a := true) hs.priv.comp hx' (fun c hc => (hg' c hc).1) (suffix (render true (comps d.priv ++ x')))
  rw [hc, hc'] at hr
  have hr := List.append_cancel_left hr
  obtain ⟨e1, e2⟩ := List.append_inj' hr rfl
  have e2 := ext_inj he (List.singleton_inj.1 e2)
  rw [hq q (from_unique hb h1), hq' q (from_unique hb' h2), e1, e2]

/-- Sources outside of the source and build directories have different objects if their paths have no underscore. -/
theorem outside_distinct_partial (d : Dirs) (root : Bytes) (ext : Option Bytes → Bytes) (s t r1 r2 : Bytes) (hs : Source d s) (ht : Source d t) (he : Ext ext)
    (h1 : From d s none) (h2 : From d t none) (u1 : 95 ∉ s) (u2 : 95 ∉ t)
    (o1 : objectPath d root ext false s = .ok r1) (o2 : objectPath d root ext false t = .ok r2) (hr : comps r1 = comps r2) :
    comps s = comps t := by
  obtain ⟨b, x, hb, hx, hg, _, hq, ho, _⟩ := object_eq (root := root) (ext := ext) hs
  obtain ⟨b', x', hb', hx', hg', _, hq', ho', _⟩ := object_eq (root := root) (ext := ext) ht
  have ex := hq (from_unique hb h1)
  have ex' := hq' (from_unique hb' h2)
  subst ex ex'
  rw [ho] at o1; cases o1
  rw [ho'] at o2; cases o2
  obtain ⟨y, c, e, hc⟩ := object_comps he (a := true) hs.priv.comp hx (fun c hc => (hg c hc).1) (suffix (render true (comps d.priv ++ [under s])))
  obtain ⟨y', c', e', hc'⟩ := object_comps he (a := true) hs.priv.comp hx' (fun c hc => (hg' c hc).1) (suffix (render true (comps d.priv ++ [under t])))
  rw [hc, hc'] at hr
  have hr := List.append_cancel_left hr
  obtain ⟨e1, e2⟩ := List.append_inj' hr rfl
  have e2 := ext_inj he (List.singleton_inj.1 e2)
  have hu : under s = under t := by
    have := List.append_inj' (show [] ++ [under s] = y ++ [c] from e) rfl
    have := List.append_inj' (show [] ++ [under t] = y' ++ [c'] from e') rfl
    simp_all
  have key : ∀ {p : Bytes}, 0 ∉ p → 95 ∉ p → (under p).map (fun c => if c = 95 then 47 else c) = render true (comps p) := by
    intro p h0 h95
    have hm : 95 ∉ render true (comps p) := by
      intro hm
      have : (95 : UInt8) ∈ 47 :: sepJoin (comps p) := hm
      rcases List.mem_cons.1 this with h | h
      · exact absurd h (by decide)
      · rcases sepJoin_mem _ _ h with h | ⟨c, hc, hx⟩
        · exact absurd h (by decide)
        · have : c ∈ pieces p := (List.mem_filter.1 hc).1
          exact h95 ((pieces_mem p c this).2 _ hx)
    unfold under
    rw [List.map_map]
    conv => rhs; rw [← List.map_id (render true (comps p))]
    apply List.map_congr_left
    intro a ha
    by_cases h : a = 47
    · subst h; decide
    · have : a ≠ 95 := fun e => hm (e ▸ ha)
      simp [h, this]
  have := congrArg (List.map fun c => if c = 95 then (47 : UInt8) else c) hu
  rw [key hs.place.2.1 u1, key ht.place.2.1 u2] at this
  have := congrArg comps this
  rwa [render_comps _ _ hs.place.comp, render_comps _ _ ht.place.comp] at this

theorem suffix_append (a b : Bytes) (h : 46 ∈ b) : suffix (a ++ b) = suffix b := by
  unfold suffix
  rw [if_pos (by simp [h]), if_pos h, List.reverse_append, List.takeWhile_append]
  rw [if_neg]
  intro hl
  have := List.takeWhile_prefix (l := b.reverse) (fun c : UInt8 => decide (c ≠ 46))
  have hh := this.eq_of_length hl
  have hm : 46 ∈ b.reverse.takeWhile (fun c : UInt8 => decide (c ≠ 46)) := by rw [hh]; simpa using h
  have := List.all_takeWhile (p := fun c : UInt8 => decide (c ≠ 46)) (l := b.reverse)
  rw [List.all_eq_true] at this
  simpa using this 46 hm

/-- The name written to the build file, which is relative to the build root, denotes that same object, for a private
directory in the build root with the suffix `.p`. -/
theorem object_relative (d : Dirs) (root : Bytes) (ext : Option Bytes → Bytes) (s : Bytes) (h : Source d s) (he : Ext ext) (hroot : Place root) (hin : In root d.priv)
    (hp : ∃ l c, comps d.priv = l ++ [c ++ [46, 112]]) :
    ∃ r r', objectPath d root ext false s = .ok r ∧ objectPath d root ext true s = .ok r' ∧ isAbs r' = false ∧ comps r = comps root ++ comps r' := by
  obtain ⟨y, hy, hye⟩ := hin
  obtain ⟨b, x, _, hx, hg, _, _, ho, hrel⟩ := object_eq (root := root) (ext := ext) h
  refine ⟨_, _, ho, hrel y hy hroot hye, ?_⟩
  have hgy : ∀ c ∈ y, Comp c := fun c hc => h.priv.comp c (by rw [hye]; simp [hc])
  have hgx : ∀ c ∈ x, Comp c := fun c hc => (hg c hc).1
  have hgxy : ∀ c ∈ y ++ x, Comp c := fun c hc => by
    rcases List.mem_append.1 hc with hc | hc
    · exact hgy c hc
    · exact hgx c hc
  have hsuf : suffix (render true (comps d.priv ++ x)) = suffix (render false (y ++ x)) := by
    rw [hye, List.append_assoc, render_append _ _ _ hroot.2.2.2 (by simp [hy])]
    have hr : render false (y ++ x) = sepJoin (y ++ x) := by simp [render, hy]
    rw [hr, suffix_append]
    obtain ⟨l, c, hl⟩ := hp
    obtain ⟨y', c', rfl⟩ := snoc_of hy
    rw [hye, ← List.append_assoc] at hl
    have hcc := List.singleton_inj.1 (List.append_inj' hl rfl).2
    rw [sepJoin_append _ _ (by simp) hx, sepJoin_snoc, hcc]
    split <;> simp
  rw [hsuf]
  generalize suffix (render false (y ++ x)) = o
  obtain ⟨z, c, rfl, hc⟩ := object_comps he (a := true) h.priv.comp hx hgx o
  obtain ⟨z', c', e', hc'⟩ := object_comps he (a := false) hgy hx hgx o
  obtain ⟨e1, e2⟩ := List.append_inj' e' rfl
  have e2 := List.singleton_inj.1 e2
  subst e1 e2
  refine ⟨?_, by rw [hc, hc', hye, List.append_assoc]⟩
  rw [isAbs_append _ _ (render_ne _ _ hgxy), render_isAbs _ _ hgxy]

/-- No two targets whose private directories are apart share an object. -/
theorem targets_apart (d e : Dirs) (root : Bytes) (ext : Option Bytes → Bytes) (s t r1 r2 : Bytes) (hs : Source d s) (ht : Source e t) (he : Ext ext)
    (h1 : ¬ comps d.priv <+: comps e.priv) (h2 : ¬ comps e.priv <+: comps d.priv)
    (o1 : objectPath d root ext false s = .ok r1) (o2 : objectPath e root ext false t = .ok r2) : comps r1 ≠ comps r2 := by
  obtain ⟨r, ho, ⟨x, _, hx⟩, _⟩ := object_inside d root ext s hs he
  obtain ⟨r', ho', ⟨x', _, hx'⟩, _⟩ := object_inside e root ext t ht he
  rw [ho] at o1; cases o1
  rw [ho'] at o2; cases o2
  intro hr
  rw [hx, hx'] at hr
  rcases Nat.le_total (comps d.priv).length (comps e.priv).length with hl | hl
  · exact h1 (List.prefix_of_prefix_length_le ⟨x, rfl⟩ ⟨x', hr.symm⟩ hl)
  · exact h2 (List.prefix_of_prefix_length_le ⟨x', rfl⟩ ⟨x, hr⟩ hl)

theorem Spec.FileName.comp {c : Bytes} (h : FileName c) : Comp c := ⟨h.1, h.2.1, h.2.2.2.1, h.2.2.2.2⟩

theorem join_file {dir c : Bytes} (hd : Place dir) (hc : FileName c) : join dir c = render true (comps dir ++ [c]) := by
  have := join_sep hd.ne hd.2.1 (x := [c]) (by simp) (by simpa using hc.comp)
  rw [hd.1] at this
  exact this

theorem private_comps {dir : Bytes} {n : Named} (hd : Place dir) (hn : FileName (buildName n)) :
    comps (privatePath dir n) = comps dir ++ [buildName n ++ [46, 112]] ∧ Place (privatePath dir n) := by
  have hc : Comp (buildName n ++ [46, 112]) := by
    obtain ⟨h1, h2, h3, h4, h5⟩ := hn
    refine ⟨by simp, ?_, by simp [h4], by simp [h5]⟩
    intro h
    have := congrArg List.length h
    simp at this
  have hg : ∀ c ∈ comps dir ++ [buildName n ++ [46, 112]], Comp c := by
    intro c hm
    rcases List.mem_append.1 hm with hm | hm
    · exact hd.comp c hm
    · rw [List.mem_singleton.1 hm]; exact hc
  unfold privatePath buildPath
  rw [join_file hd hn, render_ext]
  refine ⟨render_comps _ _ hg, render_isAbs _ _ hg, render_no0 _ _ hg, ?_, ?_⟩
  · rw [render_comps _ _ hg]
    simp only [List.mem_append, List.mem_singleton, not_or]
    refine ⟨hd.2.2.1, ?_⟩
    intro h
    have := congrArg List.getLast? h
    simp [dotdot] at this
  · rw [render_comps _ _ hg]; simp

/-- The private directory of a target is in its build directory, and two targets of one build directory that make
different files never share an object. -/
theorem siblings_apart (dir : Bytes) (n m : Named) (hd : Place dir) (hn : FileName (buildName n)) (hm : FileName (buildName m)) (hne : buildName n ≠ buildName m)
    (d e : Dirs) (hdp : d.priv = privatePath dir n) (hep : e.priv = privatePath dir m)
    (root : Bytes) (ext : Option Bytes → Bytes) (s t r1 r2 : Bytes) (hs : Source d s) (ht : Source e t) (he : Ext ext)
    (o1 : objectPath d root ext false s = .ok r1) (o2 : objectPath e root ext false t = .ok r2) :
    In dir d.priv ∧ comps r1 ≠ comps r2 := by
  have h1 := (private_comps hd hn).1
  have h2 := (private_comps hd hm).1
  refine ⟨⟨[buildName n ++ [46, 112]], by simp, by rw [hdp, h1]⟩, ?_⟩
  refine targets_apart d e root ext s t r1 r2 hs ht he ?_ ?_ o1 o2
  · rw [hdp, hep, h1, h2]
    intro h
    have := List.singleton_inj.1 (List.append_cancel_left (h.eq_of_length (by simp)))
    exact hne (List.append_cancel_right this)
  · rw [hdp, hep, h1, h2]
    intro h
    have := List.singleton_inj.1 (List.append_cancel_left (h.eq_of_length (by simp)))
    exact hne (List.append_cancel_right this).symm

theorem dotted_name {p v : Bytes} (hp : FileName p) (hv : 47 ∉ v ∧ 0 ∉ v) : FileName (p ++ 46 :: v) ∧ p ++ 46 :: v ≠ p := by
  obtain ⟨h1, h2, h3, h4, h5⟩ := hp
  have hl : 1 ≤ p.length := by cases p with | nil => exact absurd rfl h1 | cons a l => simp
  refine ⟨⟨by simp, ?_, ?_, by simp [h4, hv.1], by simp [h5, hv.2]⟩, ?_⟩
  · intro h
    have := congrArg List.length h
    simp at this; omega
  · intro h
    match p, h2, h with
    | [a], h2, h =>
      have h : a :: 46 :: v = [46, 46] := h
      injection h with ha _
      exact h2 (by rw [ha])
    | a :: b :: l, _, h =>
      have := congrArg List.length h
      simp [dotdot] at this
  · intro h
    have := congrArg List.length h
    simp at this

theorem join_comps {dir c : Bytes} (hd : Place dir) (hc : FileName c) : comps (join dir c) = comps dir ++ [c] := by
  rw [join_file hd hc, render_comps]
  intro z hz
  rcases List.mem_append.1 hz with hz | hz
  · exact hd.comp z hz
  · rw [List.mem_singleton.1 hz]; exact hc.comp

/-- The links to a shared library, on systems other than darwin: from the name without version, from the soname, and
from the name of the built file itself, following links ends at the built file; no two links are made at one place. For
every version and soversion. -/
theorem links_lead (dir : Bytes) (n : Named) (hd : Place dir) (hk : n.kind = .shared) (hdar : n.darwin = false) (hp : FileName (plainName n))
    (hv : ∀ v, n.ver = some v → 47 ∉ v ∧ 0 ∉ v) (hs : ∀ v, n.sover = some v → 47 ∉ v ∧ 0 ∉ v) :
    Leads (links dir n) dir (plainName n) (buildName n) ∧ Leads (links dir n) dir (soname n) (buildName n) ∧
    Leads (links dir n) dir (buildName n) (buildName n) ∧ ((links dir n).map fun l => comps l.1).Nodup := by
  have hb : buildName n = plainName n ++ dotted (match n.ver with | some v => some v | none => n.sover) := by
    unfold buildName verSuff
    rw [hk, hdar]
    rfl
  cases hver : n.ver with
  | none =>
    cases hsov : n.sover with
    | none =>
      have e1 : buildName n = plainName n := by rw [hb, hver, hsov]; simp [dotted]
      have e2 : soname n = plainName n := by simp [soname, hver, hsov]
      have el : links dir n = [] := by simp [links, hk, e1, e2]
      rw [el, e1, e2]
      have := Leads.here (links := []) (dir := dir) (join_comps hd hp) (by simp)
      exact ⟨this, this, this, by simp⟩
    | some s =>
      have e1 : buildName n = plainName n ++ 46 :: s := by rw [hb, hver, hsov]; rfl
      have e2 : soname n = plainName n ++ 46 :: s.take 1022 := by simp [soname, hsov]
      have h1 := dotted_name hp (hs s hsov)
      have h2 := dotted_name (v := s.take 1022) hp ⟨fun h => (hs s hsov).1 (List.mem_of_mem_take h), fun h => (hs s hsov).2 (List.mem_of_mem_take h)⟩
      exact leads_of hd hk hp (e1 ▸ h1) (e2 ▸ h2)
  | some v =>
    have e1 : buildName n = plainName n ++ 46 :: v := by rw [hb, hver]; rfl
    have h1 := dotted_name hp (hv v hver)
    cases hsov : n.sover with
    | none =>
      have e2 : soname n = plainName n ++ 46 :: (v.take 1022).takeWhile (· ≠ 46) := by simp [soname, hsov, hver]
      have hm : ∀ z, z ∈ (v.take 1022).takeWhile (· ≠ 46) → z ∈ v := fun z hz => List.mem_of_mem_take ((List.takeWhile_sublist _).subset hz)
      have h2 := dotted_name (v := (v.take 1022).takeWhile (· ≠ 46)) hp ⟨fun h => (hv v hver).1 (hm _ h), fun h => (hv v hver).2 (hm _ h)⟩
      exact leads_of hd hk hp (e1 ▸ h1) (e2 ▸ h2)
    | some s =>
      have e2 : soname n = plainName n ++ 46 :: s.take 1022 := by simp [soname, hsov]
      have h2 := dotted_name (v := s.take 1022) hp ⟨fun h => (hs s hsov).1 (List.mem_of_mem_take h), fun h => (hs s hsov).2 (List.mem_of_mem_take h)⟩
      exact leads_of hd hk hp (e1 ▸ h1) (e2 ▸ h2)
where
  leads_of {dir : Bytes} {n : Named} (hd : Place dir) (hk : n.kind = .shared) (hp : FileName (plainName n))
      (h1 : FileName (buildName n) ∧ buildName n ≠ plainName n) (h2 : FileName (soname n) ∧ soname n ≠ plainName n) :
      Leads (links dir n) dir (plainName n) (buildName n) ∧ Leads (links dir n) dir (soname n) (buildName n) ∧
      Leads (links dir n) dir (buildName n) (buildName n) ∧ ((links dir n).map fun l => comps l.1).Nodup := by
    have jp := join_comps hd hp
    have jb := join_comps hd h1.1
    have js := join_comps hd h2.1
    by_cases hbs : buildName n = soname n
    · have el : links dir n = [(join dir (plainName n), soname n)] := by simp [links, hk, hbs, h2.2]
      rw [el]
      have hhere : Leads [(join dir (plainName n), soname n)] dir (buildName n) (buildName n) := by
        refine .here jb ?_
        intro l hl
        rw [List.mem_singleton.1 hl, jb, jp]
        intro h
        exact h1.2 (List.singleton_inj.1 (List.append_cancel_left h)).symm
      refine ⟨.link (List.mem_singleton.2 rfl) jp (hbs ▸ hhere), hbs ▸ hhere, hhere, by simp⟩
    · have el : links dir n = [(join dir (soname n), buildName n), (join dir (plainName n), soname n)] := by simp [links, hk, hbs, h2.2]
      rw [el]
      have hhere : Leads [(join dir (soname n), buildName n), (join dir (plainName n), soname n)] dir (buildName n) (buildName n) := by
        refine .here jb ?_
        intro l hl
        simp only [List.mem_cons, List.not_mem_nil, or_false] at hl
        rcases hl with rfl | rfl
        · rw [jb, js]; intro h; exact hbs (List.singleton_inj.1 (List.append_cancel_left h)).symm
        · rw [jb, jp]; intro h; exact h1.2 (List.singleton_inj.1 (List.append_cancel_left h)).symm
      have hso : Leads [(join dir (soname n), buildName n), (join dir (plainName n), soname n)] dir (soname n) (buildName n) :=
        .link (List.mem_cons_self) js hhere
      refine ⟨.link (List.mem_cons_of_mem _ (List.mem_singleton.2 rfl)) jp hso, hso, hhere, ?_⟩
      simp only [List.map_cons, List.map_nil, List.nodup_cons, List.mem_singleton, List.not_mem_nil, not_false_eq_true, List.nodup_nil, and_true, js, jp]
      intro h
      exact h2.2 (List.singleton_inj.1 (List.append_cancel_left h))

/-- What the names are: an executable is called as the target; a static library `lib….a`; a shared library `lib….so`
with the version, or else the soversion, after a dot; its soname has the soversion, or else the version up to its first
dot (names that fit the buffers). -/
theorem default_names (name a b w : Bytes) (hl : name.length < 2000) (ha : 46 ∉ a) (hw : w.length ≤ 1022) (hab : a.length ≤ 1022) (dar : Bool) :
    (∀ v s, buildName ⟨.executable, name, s, v, none, none, dar⟩ = name) ∧
    (∀ v s, buildName ⟨.static, name, s, v, none, none, dar⟩ = [108, 105, 98] ++ name ++ [46, 97]) ∧
    (∀ k, k = Kind.shared ∨ k = Kind.sharedModule →
      buildName ⟨k, name, none, none, none, none, false⟩ = [108, 105, 98] ++ name ++ [46, 115, 111] ∧
      soname ⟨k, name, none, none, none, none, false⟩ = [108, 105, 98] ++ name ++ [46, 115, 111] ∧
      buildName ⟨k, name, some w, none, none, none, false⟩ = [108, 105, 98] ++ name ++ [46, 115, 111] ++ [46] ++ w ∧
      soname ⟨k, name, some w, none, none, none, false⟩ = [108, 105, 98] ++ name ++ [46, 115, 111] ++ [46] ++ w ∧
      (∀ s, buildName ⟨k, name, s, some (a ++ [46] ++ b), none, none, false⟩ = [108, 105, 98] ++ name ++ [46, 115, 111] ++ [46] ++ a ++ [46] ++ b) ∧
      soname ⟨k, name, none, some (a ++ [46] ++ b), none, none, false⟩ = [108, 105, 98] ++ name ++ [46, 115, 111] ++ [46] ++ a ∧
      soname ⟨k, name, none, some a, none, none, false⟩ = [108, 105, 98] ++ name ++ [46, 115, 111] ++ [46] ++ a ∧
      soname ⟨k, name, some w, some (a ++ [46] ++ b), none, none, false⟩ = [108, 105, 98] ++ name ++ [46, 115, 111] ++ [46] ++ w) := by
  have hp : ∀ k s v, k = Kind.shared ∨ k = Kind.sharedModule → plainName ⟨k, name, s, v, none, none, false⟩ = [108, 105, 98] ++ name ++ [46, 115, 111] := by
    rintro k s v (rfl | rfl) <;> (unfold plainName prefOf suffOf dotted; rw [List.take_of_length_le] <;> simp; omega)
  have htw : ∀ c : Bytes, (a ++ 46 :: c).takeWhile (· ≠ 46) = a := by
    intro c
    rw [List.takeWhile_append_of_pos (by intro z hz; simp only [decide_eq_true_eq]; rintro rfl; exact ha hz)]
    simp
  refine ⟨?_, ?_, ?_⟩
  · intro v s
    unfold buildName plainName prefOf suffOf verSuff dotted
    rw [List.take_of_length_le] <;> simp; omega
  · intro v s
    unfold buildName plainName prefOf suffOf verSuff dotted
    rw [List.take_of_length_le] <;> simp; omega
  · intro k hk
    have hvs : ∀ s v, verSuff ⟨k, name, s, v, none, none, false⟩ = match v with | some v => some v | none => s := by
      intro s v
      rcases hk with rfl | rfl <;> rfl
    have ht : ((a ++ [46] ++ b).take 1022).takeWhile (· ≠ 46) = a := by
      by_cases h : a.length < 1022
      · rw [List.append_assoc, List.take_append, List.take_of_length_le (by omega)]
        obtain ⟨m, hm⟩ : ∃ m, 1022 - a.length = m + 1 := ⟨1022 - a.length - 1, by omega⟩
        rw [hm]
        exact htw _
      · rw [List.append_assoc, List.take_append, List.take_of_length_le (by omega), show 1022 - a.length = 0 by omega]
        have := List.takeWhile_append_of_pos (p := fun c : UInt8 => decide (c ≠ 46)) (l₁ := a) (l₂ := []) (by intro z hz; simp only [decide_eq_true_eq]; rintro rfl; exact ha hz)
        simpa using this
    have ht' : (a.take 1022).takeWhile (· ≠ 46) = a := by
      rw [List.take_of_length_le hab]
      have := List.takeWhile_append_of_pos (p := fun c : UInt8 => decide (c ≠ 46)) (l₁ := a) (l₂ := []) (by intro z hz; simp only [decide_eq_true_eq]; rintro rfl; exact ha hz)
      simpa using this
    refine ⟨?_, ?_, ?_, ?_, ?_, ?_, ?_, ?_⟩
    · unfold buildName; rw [hp _ _ _ hk, hvs]; simp [dotted]
    · unfold soname; rw [hp _ _ _ hk]; simp
    · unfold buildName; rw [hp _ _ _ hk, hvs]; simp [dotted]
    · unfold soname; rw [hp _ _ _ hk]; simp [List.take_of_length_le hw]
    · intro s; unfold buildName; rw [hp _ _ _ hk, hvs]; simp [dotted]
    · unfold soname; rw [hp _ _ _ hk]; dsimp only; rw [ht]; simp
    · unfold soname; rw [hp _ _ _ hk]; dsimp only; rw [ht']; simp
    · unfold soname; rw [hp _ _ _ hk]; simp [List.take_of_length_le hw]

/-- On darwin every shared library with a version or soversion has a link made at the very path of the file to be built. -/
theorem darwin_links_counterexample (dir : Bytes) (n : Named) (hk : n.kind = .shared) (hdar : n.darwin = true) (hv : n.ver.isSome ∨ n.sover.isSome) :
    (buildPath dir n, soname n) ∈ links dir n ∧ (join dir (soname n), buildName n) ∈ links dir n := by
  have e1 : buildName n = plainName n := by simp [buildName, verSuff, hk, hdar, dotted]
  have e2 : soname n ≠ plainName n := by
    unfold soname
    cases hs : n.sover with
    | some s => simp
    | none =>
      cases hv' : n.ver with
      | some v => simp
      | none => rw [hs, hv'] at hv; simp at hv
  unfold buildPath links
  rw [e1]
  simp [hk, e2, Ne.symm e2]

/-- Two targets of one kind, without versions and with the same prefix and suffix, that make the same file have the
same name (names that fit the buffer of 2048 bytes). -/
theorem names_distinct (n m : Named) (hk : n.kind = m.kind) (hd : n.darwin = m.darwin) (hpre : n.pre = m.pre) (hsuf : n.suff = m.suff)
    (v1 : n.ver = none ∧ n.sover = none) (v2 : m.ver = none ∧ m.sover = none)
    (l1 : (prefOf n).length + n.name.length + (dotted (suffOf n)).length < 2048) (l2 : (prefOf m).length + m.name.length + (dotted (suffOf m)).length < 2048)
    (h : buildName n = buildName m) : n.name = m.name := by
  have hv : ∀ k : Named, k.ver = none ∧ k.sover = none → dotted (verSuff k) = [] := by
    intro k hk
    unfold verSuff
    rw [hk.1, hk.2]
    cases k.kind <;> simp [dotted]
  have e : prefOf n = prefOf m ∧ suffOf n = suffOf m := by
    unfold prefOf suffOf
    rw [hk, hd, hpre, hsuf]
    exact ⟨rfl, rfl⟩
  unfold buildName plainName at h
  rw [hv n v1, hv m v2, List.append_nil, List.append_nil, List.take_of_length_le (by simp; omega), List.take_of_length_le (by simp; omega), e.1, e.2] at h
  exact List.append_cancel_left (List.append_cancel_right h)

/-! ### What does not hold -/

/-- "/b/t.p", "/b", "/s/u" and "/s" -/
def dirs : Dirs := { priv := [47, 98, 47, 116, 46, 112], build := [47, 98], cwd := [47, 115, 47, 117], source := [47, 115] }

/-- Every object is ".o". -/
def dotO : Option Bytes → Bytes := fun _ => [46, 111]

/-- Sources of one target that are in different places can have the same object: `x.c` of the directory of the target
and `../x.c`. -/
theorem objects_counterexample :
    ∃ s t r, Source dirs s ∧ Source dirs t ∧ comps s ≠ comps t ∧ objectPath dirs [47, 98] dotO false s = .ok r ∧ objectPath dirs [47, 98] dotO false t = .ok r := by
  refine ⟨[47, 115, 47, 117, 47, 120, 46, 99], [47, 115, 47, 120, 46, 99], [47, 98, 47, 116, 46, 112, 47, 120, 46, 99, 46, 111], ?_, ?_, by decide +kernel, by decide +kernel, by decide +kernel⟩
  · exact ⟨by unfold Place; decide +kernel, by unfold Place; decide +kernel, by unfold Place; decide +kernel, by unfold Place; decide +kernel, by unfold Place; decide +kernel, by decide +kernel⟩
  · exact ⟨by unfold Place; decide +kernel, by unfold Place; decide +kernel, by unfold Place; decide +kernel, by unfold Place; decide +kernel, by unfold Place; decide +kernel, by decide +kernel⟩

/-- So can sources outside of the source root: `/o/a_b.c` and `/o/a/b.c`. -/
theorem outside_counterexample :
    ∃ s t r, Source dirs s ∧ Source dirs t ∧ comps s ≠ comps t ∧ base dirs s = .ok none ∧ base dirs t = .ok none ∧
      objectPath dirs [47, 98] dotO false s = .ok r ∧ objectPath dirs [47, 98] dotO false t = .ok r := by
  refine ⟨[47, 111, 47, 97, 95, 98, 46, 99], [47, 111, 47, 97, 47, 98, 46, 99], [47, 98, 47, 116, 46, 112, 47, 95, 111, 95, 97, 95, 98, 46, 99, 46, 111], ?_, ?_,
    by decide +kernel, by decide +kernel, by decide +kernel, by decide +kernel, by decide +kernel⟩
  · exact ⟨by unfold Place; decide +kernel, by unfold Place; decide +kernel, by unfold Place; decide +kernel, by unfold Place; decide +kernel, by unfold Place; decide +kernel, by decide +kernel⟩
  · exact ⟨by unfold Place; decide +kernel, by unfold Place; decide +kernel, by unfold Place; decide +kernel, by unfold Place; decide +kernel, by unfold Place; decide +kernel, by decide +kernel⟩

/-- An executable called `t` and one called `t.p`: the second is built at the private directory of the first. -/
theorem private_counterexample :
    ∃ n m : Named, n.name ≠ m.name ∧ n.kind = .executable ∧ m.kind = .executable ∧ buildPath [47, 98] m = privatePath [47, 98] n :=
  ⟨⟨.executable, [116], none, none, none, none, false⟩, ⟨.executable, [116, 46, 112], none, none, none, none, false⟩, by decide, rfl, rfl, by decide +kernel⟩

/-- What a target is called: `name_prefix` or `lib` (nothing for an executable), the name, `name_suffix` or the usual
suffix of the kind, and for a shared library outside of Darwin the version, or else the `soversion`. -/
theorem file_name (n : Named) (hl : (n.pre.getD []).length + n.name.length + (n.suff.getD []).length ≤ 2000) :
    ∃ p t v, buildName n = p ++ n.name ++ t ++ v ∧ plainName n = p ++ n.name ++ t ∧
      (∀ q, n.pre = some q → p = q) ∧ (n.pre = none → n.kind = .executable → p = []) ∧
      (n.pre = none → n.kind ≠ .executable → p = ascii "lib") ∧
      (∀ s, n.suff = some s → t = ascii "." ++ s) ∧ (n.suff = none → n.kind = .executable → t = []) ∧
      (n.suff = none → n.kind = .static → t = ascii ".a") ∧
      (n.suff = none → n.kind = .shared ∨ n.kind = .sharedModule → t = if n.darwin then ascii ".dylib" else ascii ".so") ∧
      (n.kind = .executable ∨ n.kind = .static ∨ n.darwin = true → v = []) ∧
      (n.kind = .shared ∨ n.kind = .sharedModule → n.darwin = false →
        (∀ w, n.ver = some w → v = ascii "." ++ w) ∧ (n.ver = none → ∀ w, n.sover = some w → v = ascii "." ++ w) ∧
        (n.ver = none → n.sover = none → v = [])) := by
  have hl' : (prefOf n ++ n.name ++ dotted (suffOf n)).length ≤ 2047 := by
    obtain ⟨k, nm, so, ve, pr, su, dw⟩ := n
    cases k <;> cases pr <;> cases su <;> cases dw <;> simp [prefOf, suffOf, dotted] at hl ⊢ <;> omega
  · refine ⟨prefOf n, dotted (suffOf n), dotted (verSuff n), ?_⟩
    have hp : plainName n = prefOf n ++ n.name ++ dotted (suffOf n) := by
      rw [plainName, List.take_of_length_le hl']
    refine ⟨by rw [buildName, hp], hp, ?_⟩
    have a1 : ascii "." = [46] := by decide +kernel
    have a2 : ascii "lib" = [108, 105, 98] := by decide +kernel
    have a3 : ascii ".a" = [46, 97] := by decide +kernel
    have a4 : ascii ".so" = [46, 115, 111] := by decide +kernel
    have a5 : ascii ".dylib" = [46, 100, 121, 108, 105, 98] := by decide +kernel
    rw [a1, a2, a3, a4, a5]
    obtain ⟨k, nm, so, ve, pr, su, dw⟩ := n
    cases k <;> cases pr <;> cases su <;> cases dw <;> cases ve <;> cases so <;>
      simp [prefOf, suffOf, verSuff, dotted]

/-- A shared library `x` with a suffix of its own and a version. -/
example : buildName ⟨.shared, ascii "x", none, some (ascii "1.2"), none, some (ascii "ext"), false⟩ = ascii "libx.ext.1.2" := by decide +kernel

/-! ### Cases that meet the hypotheses -/

/-- `gen/a.c` in the build directory: the object is `/b/t.p/gen/a.c.o`. -/
example : Source dirs [47, 98, 47, 103, 47, 97, 46, 99] ∧ From dirs [47, 98, 47, 103, 47, 97, 46, 99] (some [47, 98]) ∧
    objectPath dirs [47, 98] dotO false [47, 98, 47, 103, 47, 97, 46, 99] = .ok [47, 98, 47, 116, 46, 112, 47, 103, 47, 97, 46, 99, 46, 111] ∧
    objectPath dirs [47, 98] dotO true [47, 98, 47, 103, 47, 97, 46, 99] = .ok [116, 46, 112, 47, 103, 47, 97, 46, 99, 46, 111] := by
  have hs : Source dirs [47, 98, 47, 103, 47, 97, 46, 99] :=
    ⟨by unfold Place; decide +kernel, by unfold Place; decide +kernel, by unfold Place; decide +kernel, by unfold Place; decide +kernel, by unfold Place; decide +kernel, by decide +kernel⟩
  refine ⟨hs, ?_, by decide +kernel, by decide +kernel⟩
  obtain ⟨b, hf, hb⟩ := base_from hs
  have : b = some [47, 98] := by
    have e : base dirs [47, 98, 47, 103, 47, 97, 46, 99] = .ok (some [47, 98]) := by decide +kernel
    rw [hb] at e; cases e; rfl
  rw [← this]; exact hf

example : Ext dotO := fun _ => Or.inl rfl

/-- A shared library `x` with version 1.2: `libx.so` → `libx.so.1` → `libx.so.1.2`. -/
example : ∃ n : Named, n.kind = .shared ∧ n.darwin = false ∧ FileName (plainName n) ∧ n.ver = some [49, 46, 50] ∧
    links [47, 98] n = [([47, 98, 47, 108, 105, 98, 120, 46, 115, 111, 46, 49], [108, 105, 98, 120, 46, 115, 111, 46, 49, 46, 50]),
      ([47, 98, 47, 108, 105, 98, 120, 46, 115, 111], [108, 105, 98, 120, 46, 115, 111, 46, 49])] :=
  ⟨⟨.shared, [120], none, some [49, 46, 50], none, none, false⟩, rfl, rfl, by unfold FileName; decide +kernel, rfl, by decide +kernel⟩

end Muon.Names
