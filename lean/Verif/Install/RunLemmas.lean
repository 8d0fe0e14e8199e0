import Verif.Install.Run
import Verif.Path.Props
/-
C90: lemmas about the file system.
-/
namespace Muon.Install
open Muon Path Path.Spec

/-! ### Locations -/

theorem get_set (fs : FS) (l : List Bytes) (n : Node) (q : List Bytes) : (fs.set l n).get q = if q = l then some n else fs.get q := by
  induction fs with
  | nil =>
    simp only [FS.set, FS.get, List.lookup_cons, List.lookup_nil]
    by_cases h : q = l
    · subst h; simp
    · have : (q == l) = false := by simpa using h
      simp [this, h]
  | cons e fs ih =>
    obtain ⟨k, m⟩ := e
    simp only [FS.get] at ih
    simp only [FS.set, FS.get]
    by_cases hk : k = l
    · subst hk
      rw [if_pos rfl]
      simp only [List.lookup_cons]
      by_cases h : q = k
      · subst h; simp
      · have : (q == k) = false := by simpa using h
        simp [this, h]
    · rw [if_neg hk]
      simp only [List.lookup_cons]
      by_cases h : q = k
      · subst h; simp [hk]
      · have : (q == k) = false := by simpa using h
        simp only [this]; exact ih

theorem get_erase (fs : FS) (l q : List Bytes) : (fs.erase l).get q = if q = l then none else fs.get q := by
  induction fs with
  | nil => simp [FS.erase, FS.get]
  | cons e fs ih =>
    obtain ⟨k, m⟩ := e
    simp only [FS.get, FS.erase] at ih ⊢
    rw [List.filter_cons]
    by_cases hk : k = l
    · subst hk
      simp only [ne_eq, not_true, decide_false, Bool.false_eq_true, if_false]
      rw [ih, List.lookup_cons]
      by_cases h : q = k
      · subst h; simp
      · have : (q == k) = false := by simpa using h
        simp [this, h]
    · simp only [ne_eq, hk, not_false_eq_true, decide_true, if_true]
      rw [List.lookup_cons, List.lookup_cons]
      by_cases h : q = k
      · subst h; simp [hk]
      · have : (q == k) = false := by simpa using h
        simp only [this]; exact ih

theorem get_isSome (fs : FS) (q : List Bytes) : (fs.get q).isSome = true ↔ q ∈ fs.map (·.1) := by
  induction fs with
  | nil => simp [FS.get]
  | cons e fs ih =>
    obtain ⟨k, m⟩ := e
    simp only [FS.get] at ih
    simp only [FS.get, List.lookup_cons, List.map_cons, List.mem_cons]
    by_cases h : q = k
    · subst h; simp
    · have : (q == k) = false := by simpa using h
      simp only [this, ih, h, false_or]

/-- Names that can be names of files. -/
def Good (l : List Bytes) : Prop := ∀ c ∈ l, Comp c ∧ c ≠ dotdot

/-- Every location is there once, and has proper names. -/
def Wf (fs : FS) : Prop := (fs.map (·.1)).Nodup ∧ ∀ k ∈ fs.map (·.1), Good k

theorem keys_set (fs : FS) (l : List Bytes) (n : Node) : (fs.set l n).map (·.1) = if l ∈ fs.map (·.1) then fs.map (·.1) else fs.map (·.1) ++ [l] := by
  induction fs with
  | nil => simp [FS.set]
  | cons e fs ih =>
    obtain ⟨k, m⟩ := e
    simp only [FS.set]
    by_cases hk : k = l
    · subst hk; simp
    · rw [if_neg hk, List.map_cons, ih, List.map_cons]
      have : (l ∈ k :: fs.map (·.1)) ↔ l ∈ fs.map (·.1) := by simp [Ne.symm hk]
      by_cases h : l ∈ fs.map (·.1)
      · rw [if_pos h, if_pos (this.2 h)]
      · rw [if_neg h, if_neg (fun hh => h (this.1 hh))]; rfl

theorem Wf.set {fs : FS} (h : Wf fs) {l : List Bytes} (hl : Good l) (n : Node) : Wf (fs.set l n) := by
  unfold Wf
  rw [keys_set]
  by_cases hm : l ∈ fs.map (·.1)
  · rw [if_pos hm]; exact h
  · rw [if_neg hm]
    refine ⟨?_, ?_⟩
    · rw [List.nodup_append]
      refine ⟨h.1, by simp, ?_⟩
      intro a ha b hb
      rw [List.mem_singleton] at hb
      subst hb
      rintro rfl
      exact hm ha
    · intro k hk
      rcases List.mem_append.1 hk with hk | hk
      · exact h.2 k hk
      · rw [List.mem_singleton] at hk; subst hk; exact hl

theorem Wf.erase {fs : FS} (h : Wf fs) (l : List Bytes) : Wf (fs.erase l) := by
  have hs : ((fs.erase l).map (·.1)).Sublist (fs.map (·.1)) := List.filter_sublist.map _
  exact ⟨hs.nodup h.1, fun k hk => h.2 k (hs.subset hk)⟩

theorem mem_names (fs : FS) (l : List Bytes) (c : Bytes) : c ∈ fs.names l ↔ (fs.get (l ++ [c])).isSome = true := by
  rw [get_isSome]
  unfold FS.names
  rw [List.mem_filterMap, List.mem_map]
  constructor
  · rintro ⟨⟨k, n⟩, hk, h⟩
    simp only at h
    split at h
    · rename_i x hx
      split at h
      · rename_i hd
        cases h
        refine ⟨_, hk, ?_⟩
        obtain ⟨ys, rfl⟩ := List.getLast?_eq_some_iff.1 hx
        rw [List.dropLast_concat] at hd
        subst hd; rfl
      · cases h
    · cases h
  · rintro ⟨⟨k, n⟩, hk, rfl⟩
    refine ⟨_, hk, ?_⟩
    simp

theorem names_nodup {fs : FS} (h : Wf fs) (l : List Bytes) : (fs.names l).Nodup := by
  have : fs.names l = (fs.map (·.1)).filterMap (fun k => match k.getLast? with
      | some c => if k.dropLast = l then some c else none
      | none => none) := by
    unfold FS.names; rw [List.filterMap_map]; rfl
  rw [this]
  have h1 := h.1
  generalize fs.map (·.1) = ks at h1
  induction ks with
  | nil => simp
  | cons k ks ih =>
    obtain ⟨hk, hks⟩ := List.nodup_cons.1 h1
    rw [List.filterMap_cons]
    split
    · exact ih hks
    · rename_i c hc
      refine List.nodup_cons.2 ⟨?_, ih hks⟩
      intro hm
      obtain ⟨k', hk', hc'⟩ := List.mem_filterMap.1 hm
      have uniq : ∀ (k : List Bytes), (match k.getLast? with
          | some c => if k.dropLast = l then some c else none
          | none => none) = some c → k = l ++ [c] := by
        intro k hh
        split at hh
        · rename_i x hx
          split at hh
          · rename_i hd
            cases hh
            obtain ⟨ys, rfl⟩ := List.getLast?_eq_some_iff.1 hx
            rw [List.dropLast_concat] at hd
            subst hd; rfl
          · cases hh
        · cases hh
      rw [uniq k hc] at hk
      rw [uniq k' hc'] at hk'
      exact hk hk'

theorem names_good {fs : FS} (h : Wf fs) (l : List Bytes) : ∀ c ∈ fs.names l, Comp c ∧ c ≠ dotdot := by
  intro c hc
  rw [mem_names, get_isSome] at hc
  exact h.2 _ hc c (by simp)

/-! ### Changes -/

/-- Files changed at locations in `A` only, and directories (with the mode `M`) made where nothing was in `B`. -/
inductive Ch (M : Nat) (A B : List Bytes → Prop) : FS → FS → Prop
  | refl (fs : FS) : Ch M A B fs fs
  | set {fs gs : FS} (h : Ch M A B fs gs) (l : List Bytes) (n : Node) (ha : A l) (hg : Good l) : Ch M A B fs (gs.set l n)
  | erase {fs gs : FS} (h : Ch M A B fs gs) (l : List Bytes) (ha : A l) : Ch M A B fs (gs.erase l)
  | mk {fs gs : FS} (h : Ch M A B fs gs) (l : List Bytes) (hb : B l) (hg : Good l) (hn : gs.get l = none) : Ch M A B fs (gs.set l (.dir M))

namespace Ch
variable {M : Nat} {A B : List Bytes → Prop}

theorem trans {a b c : FS} (h1 : Ch M A B a b) (h2 : Ch M A B b c) : Ch M A B a c := by
  induction h2 with
  | refl => exact h1
  | set _ l n ha hg ih => exact .set ih l n ha hg
  | erase _ l ha ih => exact .erase ih l ha
  | mk _ l hb hg hn ih => exact .mk ih l hb hg hn

theorem mono {A' B' : List Bytes → Prop} (ha : ∀ l, A l → A' l) (hb : ∀ l, B l → B' l) {a b : FS} (h : Ch M A B a b) : Ch M A' B' a b := by
  induction h with
  | refl => exact .refl _
  | set _ l n h hg ih => exact .set ih l n (ha l h) hg
  | erase _ l h ih => exact .erase ih l (ha l h)
  | mk _ l h hg hn ih => exact .mk ih l (hb l h) hg hn

/-- Making a directory where anything may be changed is such a change. -/
theorem absorb (hb : ∀ l, B l → A l) {a b : FS} (h : Ch M A B a b) : Ch M A (fun _ => False) a b := by
  induction h with
  | refl => exact .refl _
  | set _ l n h hg ih => exact .set ih l n h hg
  | erase _ l h ih => exact .erase ih l h
  | mk _ l h hg hn ih => exact .set ih l _ (hb l h) hg

theorem wf {a b : FS} (h : Ch M A B a b) (hw : Wf a) : Wf b := by
  induction h with
  | refl => exact hw
  | set _ l n _ hg ih => exact ih.set hg n
  | erase _ l _ ih => exact ih.erase l
  | mk _ l _ hg hn ih => exact ih.set hg _

/-- What is not changed. -/
theorem keep {a b : FS} (h : Ch M A B a b) {q : List Bytes} (ha : ¬ A q) (hb : ¬ B q) : b.get q = a.get q := by
  induction h with
  | refl => rfl
  | set _ l n h hg ih => rw [get_set, if_neg (by rintro rfl; exact ha h), ih]
  | erase _ l h ih => rw [get_erase, if_neg (by rintro rfl; exact ha h), ih]
  | mk _ l h hg hn ih => rw [get_set, if_neg (by rintro rfl; exact hb h), ih]

theorem made {a b : FS} (h : Ch M A B a b) {q : List Bytes} (ha : ¬ A q) : b.get q = a.get q ∨ (a.get q = none ∧ b.get q = some (.dir M)) := by
  induction h with
  | refl => exact Or.inl rfl
  | set _ l n h hg ih => rw [get_set, if_neg (by rintro rfl; exact ha h)]; exact ih
  | erase _ l h ih => rw [get_erase, if_neg (by rintro rfl; exact ha h)]; exact ih
  | mk _ l h hg hn ih =>
    rw [get_set]
    by_cases hq : q = l
    · subst hq
      rw [if_pos rfl]
      rcases ih with ih | ih
      · rw [hn] at ih; exact Or.inr ⟨ih.symm, rfl⟩
      · rw [hn] at ih; cases ih.2
    · rw [if_neg hq]; exact ih

/-- No link is made where only directories are made. -/
theorem noLink {a b : FS} (h : Ch M A B a b) {q : List Bytes} (ha : ¬ A q) (hl : isLink (a.get q) = false) : isLink (b.get q) = false := by
  rcases h.made ha with h | h
  · rw [h]; exact hl
  · rw [h.2]; rfl

end Ch

/-! ### Paths without links -/

/-- All directories on the way are there. -/
def dirsTo (fs : FS) : List Bytes → List Bytes → Bool
  | _, [] => true
  | cur, c :: rest => isDir (fs.get cur) && dirsTo fs (cur ++ [c]) rest

theorem scan_eq (fs : FS) (follow : Bool) (todo : List Bytes) : ∀ (cur : List Bytes), dotdot ∉ todo → (∀ q, cur <+: q → q <+: cur ++ todo → q ≠ cur → q ≠ cur ++ todo → isLink (fs.get q) = false) →
    (dirsTo fs cur todo = false → scan fs follow cur todo = .done none) ∧
    (dirsTo fs cur todo = true → follow = false ∨ todo = [] ∨ isLink (fs.get (cur ++ todo)) = false → scan fs follow cur todo = .done (some (cur ++ todo))) := by
  induction todo with
  | nil =>
    intro cur _ _
    refine ⟨by simp [dirsTo], fun _ _ => by simp [scan]⟩
  | cons c rest ih =>
    intro cur hd hl
    have hc : c ≠ dotdot := fun h => hd (by simp [h])
    have e : cur ++ [c] ++ rest = cur ++ c :: rest := by simp
    obtain ⟨i1, i2⟩ := ih (cur ++ [c]) (fun h => hd (by simp [h])) (by
      intro q h1 h2 h3 h4
      rw [e] at h2 h4
      refine hl q ((List.prefix_append _ _).trans h1) h2 ?_ h4
      rintro rfl
      have := h1.length_le
      simp at this
      omega)
    rw [scan]
    simp only [dirsTo]
    by_cases hdir : isDir (fs.get cur) = true
    · simp only [hdir, Bool.true_and, Bool.not_true, Bool.false_eq_true, if_false, if_neg hc]
      refine ⟨?_, ?_⟩
      · intro hf
        have hr : rest ≠ [] := by rintro rfl; simp [dirsTo] at hf
        have hn := hl (cur ++ [c]) (List.prefix_append _ _) (by rw [← e]; exact List.prefix_append _ _) (by simp) (by
          intro h
          rw [← e] at h
          exact hr (by simpa using h))
        split
        · rename_i t ht; rw [ht] at hn; simp [isLink] at hn
        · exact i1 hf
      · intro hf hfl
        by_cases hr : rest = []
        · subst hr
          split
          · rename_i t ht
            rcases hfl with hfl | hfl | hfl
            · simp [hfl]
            · cases hfl
            · rw [ht] at hfl; simp [isLink] at hfl
          · simp [scan]
        · have hn := hl (cur ++ [c]) (List.prefix_append _ _) (by rw [← e]; exact List.prefix_append _ _) (by simp) (by
            intro h
            rw [← e] at h
            exact hr (by simpa using h))
          split
          · rename_i t ht; rw [ht] at hn; simp [isLink] at hn
          · rw [← e]
            refine i2 hf ?_
            rw [e]
            rcases hfl with h | h | h
            · exact Or.inl h
            · cases h
            · exact Or.inr (Or.inr h)
    · have hdir' : isDir (fs.get cur) = false := by simpa using hdir
      simp only [hdir', Bool.not_false, if_true, Bool.false_and]
      exact ⟨fun _ => trivial, fun h => by cases h⟩

/-- No links on the way to a location (that is, at the locations above it other than the root). -/
def Above (fs : FS) (d : List Bytes) : Prop := ∀ q, q <+: d → q ≠ d → isLink (fs.get q) = false

/-- No links on the way to a location, there, or below it. -/
def Free (fs : FS) (d : List Bytes) : Prop := ∀ q, q <+: d ∨ d <+: q → isLink (fs.get q) = false

theorem Free.above {fs : FS} {d : List Bytes} (h : Free fs d) : Above fs d := fun q hq _ => h q (Or.inl hq)

theorem Above.of_prefix {fs : FS} {d e : List Bytes} (h : Above fs d) (he : e <+: d) : Above fs e := by
  intro q hq hne
  refine h q (hq.trans he) ?_
  rintro rfl
  exact hne (hq.eq_of_length (Nat.le_antisymm hq.length_le he.length_le))

/-- If there are no links on the way, the location of a path is that of its components. -/
theorem resolve_eq (fs : FS) (follow : Bool) (p : Bytes) (hd : dotdot ∉ comps p) (ha : Above fs (comps p)) (hl : follow = false ∨ comps p = [] ∨ isLink (fs.get (comps p)) = false) :
    resolve fs follow p = if isAbs p = true ∧ p.length < 4096 ∧ dirsTo fs [] (comps p) = true then some (comps p) else none := by
  unfold resolve
  by_cases h1 : isAbs p = true
  · by_cases h2 : p.length < 4096
    · rw [if_neg (by simp [h1]; omega)]
      obtain ⟨s1, s2⟩ := scan_eq fs follow (comps p) [] hd (by
        intro q _ h3 _ h5
        exact ha q (by simpa using h3) (by simpa using h5))
      by_cases h3 : dirsTo fs [] (comps p) = true
      · have := s2 h3 (by simpa using hl)
        rw [if_pos ⟨h1, h2, h3⟩]
        simp only [namei, this]; simp
      · have := s1 (by simpa using h3)
        rw [if_neg (fun h => h3 h.2.2)]
        simp only [namei, this]
    · rw [if_pos (by right; omega), if_neg (fun h => h2 h.2.1)]
  · rw [if_pos (by simp [h1]), if_neg (fun h => h1 h.1)]

theorem resolve_some (fs : FS) (follow : Bool) (p : Bytes) (hd : dotdot ∉ comps p) (ha : Above fs (comps p)) (hl : follow = false ∨ comps p = [] ∨ isLink (fs.get (comps p)) = false) {l : List Bytes}
    (h : resolve fs follow p = some l) : l = comps p := by
  rw [resolve_eq fs follow p hd ha hl] at h
  split at h
  · exact (Option.some.inj h).symm
  · cases h

end Muon.Install
