import Verif.Names.Spec
import Verif.Path.Props
import Verif.Install.RunSub
/-
Lemmas on the names of built files.
-/
namespace Muon.Names
open Muon Path Path.Spec Spec

theorem Spec.Place.ne {p : Bytes} (h : Place p) : p ≠ [] := by rintro rfl; simp [Place, isAbs] at h

theorem Spec.Place.ok {p : Bytes} (h : Place p) : Install.PathOk p := ⟨h.2.1, h.2.2.1⟩

theorem Spec.Place.comp {p : Bytes} (h : Place p) : ∀ c ∈ comps p, Comp c := comps_good p h.2.1

theorem in_iff {d s : Bytes} (hne : comps s ≠ comps d) : In d s ↔ comps d <+: comps s := by
  constructor
  · rintro ⟨x, _, h⟩; exact ⟨x, h.symm⟩
  · rintro ⟨x, h⟩
    refine ⟨x, ?_, h.symm⟩
    rintro rfl
    exact hne (by rw [← h]; simp)

theorem sub_eq {d s : Bytes} (hd : Place d) (hs : Place s) : isSubpath d s = .ok (decide (comps d <+: comps s)) := by
  rw [isSubpath_iff_partial d s hd.2.1 hs.2.1 hs.ne (Or.inl hd.1), hd.1, hs.1]
  simp

theorem base_from {d : Dirs} {s : Bytes} (h : Source d s) : ∃ b, From d s b ∧ base d s = .ok b := by
  have e1 := in_iff h.file.1
  have e2 := in_iff h.file.2.1
  have e3 := in_iff h.file.2.2.1
  have e4 := in_iff h.file.2.2.2
  unfold base
  rw [sub_eq h.priv h.place, sub_eq h.build h.place, sub_eq h.cwd h.place, sub_eq h.source h.place]
  by_cases h1 : comps d.priv <+: comps s
  · exact ⟨_, .priv (e1.2 h1), by simp [Res.bind, h1]⟩
  by_cases h2 : comps d.build <+: comps s
  · exact ⟨_, .build (fun x => h1 (e1.1 x)) (e2.2 h2), by simp [Res.bind, h1, h2]⟩
  by_cases h3 : comps d.cwd <+: comps s
  · exact ⟨_, .cwd (fun x => h1 (e1.1 x)) (fun x => h2 (e2.1 x)) (e3.2 h3), by simp [Res.bind, h1, h2, h3]⟩
  by_cases h4 : comps d.source <+: comps s
  · exact ⟨_, .source (fun x => h1 (e1.1 x)) (fun x => h2 (e2.1 x)) (fun x => h3 (e3.1 x)) (e4.2 h4), by simp [Res.bind, h1, h2, h3, h4]⟩
  · exact ⟨_, .outside (fun x => h1 (e1.1 x)) (fun x => h2 (e2.1 x)) (fun x => h3 (e3.1 x)) (fun x => h4 (e4.1 x)), by simp [Res.bind, h1, h2, h3, h4]⟩

theorem from_unique {d : Dirs} {s : Bytes} {b c : Option Bytes} (h1 : From d s b) (h2 : From d s c) : b = c := by
  cases h1 <;> cases h2 <;> first | rfl | (exfalso; contradiction)

/-- The text of a path with the slashes replaced. -/
def under (s : Bytes) : Bytes := (render true (comps s)).map fun c => if c = 47 then 95 else c

theorem under_comp {s : Bytes} (hs : Place s) : Comp (under s) := by
  have h0 := render_no0 true (comps s) hs.comp
  have hhd : (under s).head? = some 95 := by simp [under, render]
  refine ⟨?_, ?_, ?_, ?_⟩
  · intro h; rw [h] at hhd; simp at hhd
  · intro h; rw [h] at hhd; simp at hhd
  · simp only [under, List.mem_map, not_exists, not_and]
    intro c _
    split
    · decide
    · assumption
  · simp only [under, List.mem_map, not_exists, not_and]
    intro c hc
    split
    · decide
    · rintro rfl; exact h0 hc

theorem rel_spec {d : Dirs} {s : Bytes} {b : Option Bytes} (h : Source d s) (hf : From d s b) :
    ∃ x, x ≠ [] ∧ (∀ c ∈ x, Comp c ∧ c ≠ dotdot) ∧ rel b s = .ok (sepJoin x) ∧
      (∀ q, b = some q → comps s = comps q ++ x) ∧ (b = none → x = [under s]) := by
  have some_case : ∀ q, Place q → In q s → b = some q →
      ∃ x, x ≠ [] ∧ (∀ c ∈ x, Comp c ∧ c ≠ dotdot) ∧ rel b s = .ok (sepJoin x) ∧
      (∀ q, b = some q → comps s = comps q ++ x) ∧ (b = none → x = [under s]) := by
    rintro q hq ⟨x, hx, he⟩ rfl
    refine ⟨x, hx, ?_, Install.relative_below hq.ok hq.1 h.place.ok h.place.1 hq.2.2.2 hx he, ?_, fun h => by cases h⟩
    · intro c hc
      have hm : c ∈ comps s := by rw [he]; simp [hc]
      exact ⟨h.place.comp c hm, fun e => h.place.2.2.1 (e ▸ hm)⟩
    · intro q' hq'; cases hq'; exact he
  cases hf with
  | priv hi => exact some_case _ h.priv hi rfl
  | build _ hi => exact some_case _ h.build hi rfl
  | cwd _ _ hi => exact some_case _ h.cwd hi rfl
  | source _ _ _ hi => exact some_case _ h.source hi rfl
  | outside =>
    refine ⟨[under s], by simp, ?_, ?_, (fun q h => by cases h), fun _ => rfl⟩
    · intro c hc
      rw [List.mem_singleton] at hc
      subst hc
      refine ⟨under_comp h.place, ?_⟩
      intro he
      have hhd : (under s).head? = some 95 := by simp [under, render]
      rw [he] at hhd; simp [dotdot] at hhd
    · unfold rel copy
      rw [normalize_canon false s h.place.2.1]
      unfold canon
      rw [if_neg h.place.ne, h.place.1]
      rfl

theorem join_sep {p : Bytes} {x : List Bytes} (hp : p ≠ []) (h0 : 0 ∉ p) (hx : x ≠ []) (hg : ∀ c ∈ x, Comp c) :
    join p (sepJoin x) = render (isAbs p) (comps p ++ x) := by
  have hs := render_ne false x hg
  have ha := render_isAbs false x hg
  have h00 := render_no0 false x hg
  have hr : render false x = sepJoin x := by simp [render, hx]
  rw [hr] at hs ha h00
  rw [join_text p _ h0 h00 hp ha, if_neg hs, sepJoin_comps x hg]

theorem render_ext (a : Bool) (l : List Bytes) (c e : Bytes) : render a (l ++ [c]) ++ e = render a (l ++ [c ++ e]) := by
  rw [render_snoc, render_snoc]
  split <;> simp

theorem snoc_of {x : List Bytes} (hx : x ≠ []) : ∃ y c, x = y ++ [c] :=
  ⟨x.dropLast, x.getLast hx, (List.dropLast_concat_getLast hx).symm⟩

/-- The object of a source. -/
theorem object_eq {d : Dirs} {s root : Bytes} {ext : Option Bytes → Bytes} (h : Source d s) :
    ∃ b x, From d s b ∧ x ≠ [] ∧ (∀ c ∈ x, Comp c ∧ c ≠ dotdot) ∧
      (∀ q, b = some q → comps s = comps q ++ x) ∧ (b = none → x = [under s]) ∧
      objectPath d root ext false s = .ok (render true (comps d.priv ++ x) ++ ext (suffix (render true (comps d.priv ++ x)))) ∧
      (∀ y, y ≠ [] → Place root → comps d.priv = comps root ++ y →
        objectPath d root ext true s = .ok (render false (y ++ x) ++ ext (suffix (render false (y ++ x))))) := by
  obtain ⟨b, hf, hb⟩ := base_from h
  obtain ⟨x, hx, hg, hr, h1, h2⟩ := rel_spec h hf
  refine ⟨b, x, hf, hx, hg, h1, h2, ?_, ?_⟩
  · unfold objectPath
    simp only [Bool.false_eq_true, if_false, Res.bind, hb, hr]
    rw [join_sep h.priv.ne h.priv.2.1 hx (fun c hc => (hg c hc).1), h.priv.1]
  · intro y hy hroot he
    have hrel := Install.relative_below hroot.ok hroot.1 h.priv.ok h.priv.1 hroot.2.2.2 hy he
    have hgy : ∀ c ∈ y, Comp c := fun c hc => h.priv.comp c (by rw [he]; simp [hc])
    have hry : render false y = sepJoin y := by simp [render, hy]
    unfold objectPath
    simp only [if_true, hrel, Res.bind, hb, hr]
    have n1 := render_ne false y hgy
    have n2 := render_no0 false y hgy
    have n3 := render_isAbs false y hgy
    rw [hry] at n1 n2 n3
    rw [join_sep n1 n2 hx (fun c hc => (hg c hc).1), n3, sepJoin_comps y hgy]

theorem ext_comp {ext : Option Bytes → Bytes} (he : Ext ext) (o : Option Bytes) {c : Bytes} (hc : Comp c) : Comp (c ++ ext o) ∧ c ++ ext o ≠ dotdot := by
  obtain ⟨h1, h2, h3, h4⟩ := hc
  have hl : 2 ≤ (ext o).length := by rcases he o with h | h <;> rw [h] <;> decide
  have h47 : 47 ∉ ext o := by rcases he o with h | h <;> rw [h] <;> decide
  have h0 : 0 ∉ ext o := by rcases he o with h | h <;> rw [h] <;> decide
  have hlc : 1 ≤ c.length := by cases c with | nil => exact absurd rfl h1 | cons a l => simp
  refine ⟨⟨by simp [h1], ?_, by simp [h3, h47], by simp [h4, h0]⟩, ?_⟩
  · intro h
    have := congrArg List.length h
    simp at this; omega
  · intro h
    have := congrArg List.length h
    simp [dotdot] at this; omega

/-- The components of the object. -/
theorem object_comps {ext : Option Bytes → Bytes} (he : Ext ext) {a : Bool} {l x : List Bytes} (hl : ∀ c ∈ l, Comp c) (hx : x ≠ []) (hg : ∀ c ∈ x, Comp c) (o : Option Bytes) :
    ∃ y c, x = y ++ [c] ∧ comps (render a (l ++ x) ++ ext o) = l ++ (y ++ [c ++ ext o]) := by
  obtain ⟨y, c, rfl⟩ := snoc_of hx
  refine ⟨y, c, rfl, ?_⟩
  rw [← List.append_assoc, render_ext, render_comps, List.append_assoc]
  intro z hz
  simp only [List.mem_append, List.mem_singleton] at hz
  rcases hz with (hz | hz) | rfl
  · exact hl z hz
  · exact hg z (by simp [hz])
  · exact (ext_comp he o (hg c (by simp))).1

theorem ext_inj {ext : Option Bytes → Bytes} (he : Ext ext) {a b : Bytes} {o p : Option Bytes} (h : a ++ ext o = b ++ ext p) : a = b := by
  have hl := congrArg List.getLast? h
  rcases he o with h1 | h1 <;> rcases he p with h2 | h2 <;> rw [h1, h2] at h <;> rw [h1, h2] at hl <;> simp at hl <;> simpa using h

end Muon.Names
