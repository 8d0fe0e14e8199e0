import Verif.Canon.Lemmas
import Verif.Htab.Props
namespace Muon.Canon
open Muon
open _root_.Muon.Path.Spec (pieces comps isAbs dotdot sepJoin render cancel canon walk)

/-- The path names the root directory once `name/..` is cancelled: the case the code gets wrong. -/
def isRoot (p : Bytes) : Prop := isAbs p = true ∧ cancel (comps p) = []

instance (p : Bytes) : Decidable (isRoot p) := inferInstanceAs (Decidable (_ ∧ _))

/-- C54: canonicalising a non-empty path never reads or writes outside its buffer; it fails only for a path with more
than 60 names in it. -/
theorem canon_safe (p : Bytes) (hp : p ≠ []) (h0 : 0 ∉ p) :
    (∃ q, canonpath p = .ok q ∧ 0 ∉ q) ∨
    canonpath p = .error ∧ 60 < ((comps p).filter (fun c => c ≠ dotdot)).length := by
  rcases canonpath_spec p hp h0 with ⟨h1, h2⟩ | ⟨h1, _⟩
  · exact Or.inr ⟨h2, h1⟩
  · refine Or.inl ⟨_, h1, ?_⟩
    split
    · simp
    · exact Path.canon_no0 true p h0

/-- C54: the result is the canonical form of the path (an optional leading slash and the components that are left once
empty ones, `.` and `name/..` are dropped, separated by single slashes; `.` for none), unless that form is the root. -/
theorem canon_partial (p q : Bytes) (h0 : 0 ∉ p) (h : canonpath p = .ok q) (hr : ¬isRoot p) : q = canon true p := by
  by_cases hp : p = []
  · subst hp; cases h
  rcases canonpath_spec p hp h0 with ⟨_, h2⟩ | ⟨h1, _⟩
  · rw [h2] at h; cases h
  · rw [h1, if_neg (show ¬(isAbs p = true ∧ cancel (comps p) = []) from hr)] at h
    exact (Res.ok.inj h).symm

/-- C54: canonicalising twice gives the same as once. -/
theorem canon_idempotent_partial (p q : Bytes) (h0 : 0 ∉ p) (h : canonpath p = .ok q) (hr : ¬isRoot p) : canonpath q = .ok q := by
  by_cases hp : p = []
  · subst hp; cases h
  rcases canonpath_spec p hp h0 with ⟨_, h2⟩ | ⟨h1, hn⟩
  · rw [h2] at h; cases h
  rw [h1, if_neg (show ¬(isAbs p = true ∧ cancel (comps p) = []) from hr)] at h
  have e := Res.ok.inj h
  subst e
  have hcc : comps (canon true p) = cancel (comps p) := by rw [Path.canon_comps true p h0]; simp
  have hc2 : cancel (cancel (comps p)) = cancel (comps p) := Path.cancel_nf _ (Path.nf_cancel _)
  rcases canonpath_spec (canon true p) (fun e => hp ((Path.canon_ne true p h0).1 e)) (Path.canon_no0 true p h0) with ⟨h2, _⟩ | ⟨h2, _⟩
  · rw [hcc] at h2; omega
  · rw [h2, if_neg, Path.canon_canon true p h0]
    rw [Path.canon_isAbs true p h0, hcc, hc2]
    exact hr

/-- C54: the canonical path leads to the same place from every directory. -/
theorem canon_walk (p q : Bytes) (h0 : 0 ∉ p) (h : canonpath p = .ok q) (start : List Bytes) :
    walk start (comps q) = walk start (comps p) := by
  by_cases hr : isRoot p
  · by_cases hp : p = []
    · subst hp; cases h
    rcases canonpath_spec p hp h0 with ⟨_, h2⟩ | ⟨h1, _⟩
    · rw [h2] at h; cases h
    · rw [h1, if_pos (show isAbs p = true ∧ cancel (comps p) = [] from hr)] at h
      have e := Res.ok.inj h
      subst e
      rw [← Path.walk_cancel start (comps p), hr.2]
      rfl
  · rw [canon_partial p q h0 h hr, Path.canon_comps true p h0]
    simp [Path.walk_cancel]

/-- C54: two paths get one canonical form exactly if both are absolute or both relative and they have the same
components once `name/..` is cancelled. -/
theorem canon_same (p p' q q' : Bytes) (h0 : 0 ∉ p) (h0' : 0 ∉ p') (h : canonpath p = .ok q) (h' : canonpath p' = .ok q') :
    q = q' ↔ isAbs p = isAbs p' ∧ cancel (comps p) = cancel (comps p') := by
  have ne : ∀ {p q : Bytes}, canonpath p = .ok q → p ≠ [] := by
    intro p q h e; subst e; cases h
  have form : ∀ {p q : Bytes}, 0 ∉ p → canonpath p = .ok q → q = if isRoot p then [] else canon true p := by
    intro p q h0 h
    rcases canonpath_spec p (ne h) h0 with ⟨_, h2⟩ | ⟨h1, _⟩
    · rw [h2] at h; cases h
    · rw [h1] at h; exact (Res.ok.inj h).symm
  have e := form h0 h
  have e' := form h0' h'
  constructor
  · intro hq
    subst hq
    by_cases hr : isRoot p
    · by_cases hr' : isRoot p'
      · exact ⟨hr.1.trans hr'.1.symm, hr.2.trans hr'.2.symm⟩
      · rw [if_pos hr] at e; rw [if_neg hr', e] at e'
        exact absurd ((Path.canon_ne true p' h0').1 e'.symm) (ne h')
    · by_cases hr' : isRoot p'
      · rw [if_neg hr] at e; rw [if_pos hr', e] at e'
        exact absurd ((Path.canon_ne true p h0).1 e') (ne h)
      · rw [if_neg hr] at e; rw [if_neg hr', e] at e'
        refine ⟨?_, ?_⟩
        · rw [← Path.canon_isAbs true p h0, e', Path.canon_isAbs true p' h0']
        · have := congrArg comps e'
          rw [Path.canon_comps true p h0, Path.canon_comps true p' h0'] at this
          simpa using this
  · rintro ⟨ha, hc⟩
    rw [e, e']
    have hi : isRoot p ↔ isRoot p' := by unfold isRoot; rw [ha, hc]
    have hk : canon true p = canon true p' := by
      unfold Path.Spec.canon; rw [if_neg (ne h), if_neg (ne h'), ha, if_pos rfl, if_pos rfl, hc]
    rw [hk]
    simp only [hi]

/-- C54: two files named in a build description are one node exactly if their paths are spellings of one path. -/
theorem one_node_per_path (hash : Bytes → UInt64) (ps qs : List Bytes) (hl : qs.length = ps.length)
    (h : ∀ i, i < ps.length → 0 ∉ ps.getD i [] ∧ canonpath (ps.getD i []) = .ok (qs.getD i [])) :
    ∃ t n vs, Htab.mknodes hash qs Htab.init 0 = some (t, n, vs) ∧ vs.length = ps.length ∧
      ∀ i j, i < ps.length → j < ps.length →
        (vs[i]? = vs[j]? ↔ isAbs (ps.getD i []) = isAbs (ps.getD j []) ∧ cancel (comps (ps.getD i [])) = cancel (comps (ps.getD j []))) := by
  obtain ⟨t, n, vs, e, hv, hi⟩ := Htab.same_node_iff_same_path hash qs
  refine ⟨t, n, vs, e, by omega, fun i j h1 h2 => ?_⟩
  obtain ⟨z1, c1⟩ := h i h1
  obtain ⟨z2, c2⟩ := h j h2
  rw [hi i j (by omega) (by omega), ← canon_same _ _ _ _ z1 z2 c1 c2]
  rw [List.getD_eq_getElem?_getD, List.getD_eq_getElem?_getD, List.getElem?_eq_getElem (by omega), List.getElem?_eq_getElem (by omega)]
  simp

/-- C54 fails for the root: it becomes the empty path, and canonicalising that again is a fatal error. -/
theorem canon_root_counterexample :
    canonpath (ascii "/") = .ok [] ∧ canonpath (ascii "/a/..") = .ok [] ∧ canonpath [] = .error ∧ canon true (ascii "/a/..") = ascii "/" := by
  decide +kernel

/-- C54 fails for deep paths: a path of 61 names is a fatal error, whatever follows, one of 60 is not. -/
theorem canon_deep_counterexample :
    canonpath (List.replicate 61 [97, 47]).flatten = .error ∧
    canonpath ((List.replicate 61 [97, 47]).flatten ++ (List.replicate 61 [46, 46, 47]).flatten ++ [98]) = .error ∧
    canonpath (List.replicate 60 [97, 47]).flatten = .ok (List.replicate 60 [97, 47]).flatten.dropLast := by
  decide +kernel

example : canonpath (ascii "./a//b/../../../c/./d/") = .ok (ascii "../c/d") ∧ ¬isRoot (ascii "./a//b/../../../c/./d/") ∧
    0 ∉ ascii "./a//b/../../../c/./d/" ∧ canonpath (ascii "/x/../y") = .ok (ascii "/y") ∧ canonpath (ascii "a/..") = .ok (ascii ".") := by
  decide +kernel

end Muon.Canon
