import Verif.Install.RunFrame
/-
C90: targets that make no links.
-/
namespace Muon.Install
open Muon Path Path.Spec

/-- There is no link where there was none. -/
def NoNew (fs gs : FS) : Prop := ∀ q, isLink (fs.get q) = false → isLink (gs.get q) = false

theorem NoNew.refl (fs : FS) : NoNew fs fs := fun _ h => h
theorem NoNew.trans {a b c : FS} (h1 : NoNew a b) (h2 : NoNew b c) : NoNew a c := fun q h => h2 q (h1 q h)
theorem NoNew.free {fs gs : FS} (h : NoNew fs gs) {d : List Bytes} (hf : Free fs d) : Free gs d := fun q hq => h q (hf q hq)
theorem NoNew.above {fs gs : FS} (h : NoNew fs gs) {d : List Bytes} (hf : Above fs d) : Above gs d := fun q h1 h2 => h q (hf q h1 h2)

theorem NoNew.set {fs : FS} (l : List Bytes) {n : Node} (hn : isLink (some n) = false) : NoNew fs (fs.set l n) := by
  intro q h
  rw [get_set]
  split
  · exact hn
  · exact h

theorem NoNew.erase {fs : FS} (l : List Bytes) : NoNew fs (fs.erase l) := by
  intro q h
  rw [get_erase]
  split
  · rfl
  · exact h

theorem seq_new {a b : Act} {fs : FS} (h1 : NoNew fs (a fs).2) (h2 : (a fs).1 = true → NoNew (a fs).2 (b (a fs).2).2) : NoNew fs ((a.seq b) fs).2 := by
  unfold Act.seq
  dsimp only
  split
  · rename_i h; exact h1.trans (h2 h)
  · exact h1

theorem mkdir_new (S : Sys) (p : Bytes) (fs : FS) : NoNew fs (fsMkdir S p fs).2 := by
  unfold fsMkdir
  split
  · exact .refl _
  · split
    · exact .refl _
    · exact .set _ rfl

theorem ensureDir_new (S : Sys) (p : Bytes) (fs : FS) : NoNew fs (ensureDir S p fs).2 := by
  unfold ensureDir
  split
  · exact .refl _
  · exact mkdir_new S p fs

theorem mkdirLoop_new (S : Sys) (buf : Bytes) (n : Nat) : ∀ i fs, NoNew fs (mkdirLoop S buf n i fs).2 := by
  induction n with
  | zero => intro i fs; exact .refl _
  | succ n ih =>
    intro i fs
    rw [mkdirLoop]
    refine seq_new ?_ fun _ => ih _ _
    split
    · exact ensureDir_new S _ fs
    · exact .refl _

theorem mkdirP_new (S : Sys) (p : Bytes) (fs : FS) : NoNew fs (mkdirP S p fs).2 := seq_new (mkdirLoop_new S _ _ _ fs) fun _ => ensureDir_new S _ _

theorem chmod_new (p : Bytes) (mode : Nat) (fs : FS) : NoNew fs (fsChmod p mode fs).2 := by
  unfold fsChmod
  split
  · exact .refl _
  · split
    · exact .refl _
    · split
      · exact .refl _
      · split
        · exact .set _ rfl
        · exact .set _ rfl
        · exact .refl _
        · exact .refl _

theorem chmodOpt_new (p : Bytes) (mode : Option Nat) (fs : FS) : NoNew fs (chmodOpt p mode fs).2 := by
  cases mode with
  | none => exact .refl _
  | some m => exact chmod_new p m fs

theorem fixFile_new (S : Sys) (p : Bytes) (fs : FS) : NoNew fs (fixFile S p fs).2 := by
  unfold fixFile
  split
  · exact .refl _
  · split
    · exact .set _ rfl
    · exact .refl _

theorem create_new (S : Sys) (p : Bytes) (mode : Nat) (fs : FS) : NoNew fs (sysCreate S p mode fs).2 := by
  unfold sysCreate
  split
  · exact .refl _
  · split
    · exact .set _ rfl
    · exact .set _ rfl
    · exact .refl _

theorem writeAll_new (fs : FS) (l : List Bytes) (c : Bytes) : NoNew fs (writeAll fs l c) := by
  unfold writeAll
  split
  · exact .set _ rfl
  · exact .refl _

theorem copyFile_new (S : Sys) {src : Bytes} (dest : Bytes) {fs : FS} (hs : PathOk src) (hf : Free fs (comps src)) : NoNew fs (fsCopyFile S src dest fs).2 := by
  unfold fsCopyFile
  split
  · exact .refl _
  · rename_i ls hls
    have := resolve_some fs false src hs.2 hf.above (Or.inl rfl) hls
    subst this
    have hnl := hf _ (Or.inl (List.prefix_refl _))
    split
    · rename_i t ht; rw [ht] at hnl; simp [isLink] at hnl
    · rename_i c m _
      have hc := create_new S dest m fs
      split
      · rename_i gs hgs; rw [hgs] at hc; exact hc
      · rename_i ld gs hgs; rw [hgs] at hc; exact hc.trans (writeAll_new _ _ _)
    · exact .refl _

theorem Free.child {fs : FS} {d : List Bytes} (hf : Free fs d) (c : Bytes) : Free fs (d ++ [c]) := by
  intro q hq
  refine hf q ?_
  rcases hq with hq | hq
  · rcases Nat.lt_or_ge d.length q.length with h | h
    · exact Or.inr (List.prefix_of_prefix_length_le (List.prefix_append d [c]) hq (Nat.le_of_lt h))
    · exact Or.inl (List.prefix_of_prefix_length_le hq (List.prefix_append d [c]) h)
  · exact Or.inr ((List.prefix_append _ _).trans hq)

theorem each_new {M : Nat} {cb : Bytes → Act} {d s : List Bytes}
    (hch : ∀ (c : Bytes) (fs : FS), Comp c ∧ c ≠ dotdot → Wf fs → Free fs (d ++ [c]) → Ch M (d ++ [c] <+: ·) (fun _ => False) fs (cb c fs).2)
    (hcb : ∀ (c : Bytes) (fs : FS), Comp c ∧ c ≠ dotdot → Wf fs → Free fs d → Free fs s → NoNew fs (cb c fs).2) (l : List Bytes) :
    ∀ (fs : FS), (∀ c ∈ l, Comp c ∧ c ≠ dotdot) → Wf fs → Free fs d → Free fs s → NoNew fs (eachName cb l fs).2 := by
  induction l with
  | nil => intro fs _ _ _ _; exact .refl _
  | cons c l ih =>
    intro fs hg hw hd hs
    have h1 := hcb c fs (hg c (by simp)) hw hd hs
    rw [eachName]
    refine seq_new h1 fun _ => ?_
    exact ih _ (fun x hx => hg x (by simp [hx])) ((hch c fs (hg c (by simp)) hw (hd.child c)).wf hw) (h1.free hd) (h1.free hs)

theorem foreach_new {M : Nat} {cb : Bytes → Act} {d s : List Bytes} (src : Bytes)
    (hch : ∀ (c : Bytes) (fs : FS), Comp c ∧ c ≠ dotdot → Wf fs → Free fs (d ++ [c]) → Ch M (d ++ [c] <+: ·) (fun _ => False) fs (cb c fs).2)
    (hcb : ∀ (c : Bytes) (fs : FS), Comp c ∧ c ≠ dotdot → Wf fs → Free fs d → Free fs s → NoNew fs (cb c fs).2) (fs : FS) (hw : Wf fs) (hd : Free fs d) (hs : Free fs s) :
    NoNew fs (dirForeach src cb fs).2 := by
  unfold dirForeach
  split
  · exact .refl _
  · split
    · exact each_new hch hcb _ fs (names_good hw _) hw hd hs
    · exact .refl _

theorem copyDir_new (S : Sys) (n : Nat) : ∀ (src dest : Bytes) (fs : FS), PathOk src → PathOk dest → Wf fs → Free fs (comps dest) → Free fs (comps src) → NoNew fs (copyDir S n src dest fs).2 := by
  induction n with
  | zero => intro src dest fs _ _ _ _ _; exact .refl _
  | succ n ih =>
    intro src dest fs hs hp hw hf hsf
    rw [copyDir]
    have h1 := ensureDir_ch S (fs := fs) hp hf.above
    have hn := ensureDir_new S dest fs
    refine seq_new hn fun _ => ?_
    refine foreach_new (M := masked S.umask 0o755) (d := comps dest) (s := comps src) src ?_ ?_ _ (h1.wf hw) (hn.free hf) (hn.free hsf)
    · intro c gs hc hgw hgf
      obtain ⟨j1, j2⟩ := join_name hp hc
      rw [← j2] at hgf ⊢
      dsimp only
      split
      · have h2 := ensureDir_ch S (fs := gs) j1 hgf.above
        refine seq_ch (ensureDir_below S j1 hgf.above) fun _ => ?_
        exact copyDir_ch S n _ _ _ j1 (h2.wf hgw) (hgf.ch h2 fun _ _ h => h)
      · refine (copyFile_ch _ S _ j1 hgf.above (hgf _ (Or.inl (List.prefix_refl _)))).mono ?_ (fun _ h => h)
        rintro _ rfl; exact List.prefix_refl _
      · exact .refl _
    · intro c gs hc hgw hgd hgs
      obtain ⟨j1, j2⟩ := join_name hp hc
      obtain ⟨k1, k2⟩ := join_name hs hc
      have hgd := hgd.child c
      have hgs := hgs.child c
      rw [← j2] at hgd
      rw [← k2] at hgs
      dsimp only
      split
      · have h2 := ensureDir_ch S (fs := gs) j1 hgd.above
        have hn := ensureDir_new S (join dest c) gs
        refine seq_new hn fun _ => ?_
        exact ih _ _ _ k1 j1 (h2.wf hgw) (hn.free hgd) (hn.free hgs)
      · exact copyFile_new S _ k1 hgs
      · exact .refl _

theorem copySub_new (S : Sys) (X : Sub) (n : Nat) : ∀ (src dest : Bytes) (fs : FS), PathOk src → PathOk dest → Wf fs → Free fs (comps dest) → Free fs (comps src) → NoNew fs (copySub S X n src dest fs).2 := by
  induction n with
  | zero => intro src dest fs _ _ _ _ _; exact .refl _
  | succ n ih =>
    intro src dest fs hs hp hw hf hsf
    rw [copySub]
    dsimp only
    split
    · by_cases hdir : fsDirExists fs src = true
      · rw [if_pos hdir]
        split
        · exact .refl _
        · have h1 := ensureDir_ch S (fs := fs) hp hf.above
          have hn := ensureDir_new S dest fs
          refine seq_new (seq_new hn fun _ => ?_) fun _ => chmodOpt_new _ _ _
          refine foreach_new (M := masked S.umask 0o755) (d := comps dest) (s := comps src) src ?_ ?_ _ (h1.wf hw) (hn.free hf) (hn.free hsf)
          · intro c gs hc hgw hgf
            obtain ⟨j1, j2⟩ := join_name hp hc
            rw [← j2] at hgf ⊢
            exact copySub_ch S X n _ _ gs j1 hgw hgf
          · intro c gs hc hgw hgd hgs
            obtain ⟨j1, j2⟩ := join_name hp hc
            obtain ⟨k1, k2⟩ := join_name hs hc
            have hgd := hgd.child c
            have hgs := hgs.child c
            rw [← j2] at hgd
            rw [← k2] at hgs
            exact ih _ _ gs k1 j1 hgw hgd hgs
      · rw [if_neg hdir]
        by_cases hfile : (fsSymlinkExists fs src || fsFileExists fs src) = true
        · rw [if_pos hfile]
          split
          · exact .refl _
          · exact seq_new (copyFile_new S _ hs hsf) fun _ => chmodOpt_new _ _ _
        · rw [if_neg hfile]; exact .refl _
    · exact .refl _

/-- A target without links in its source makes no links. -/
theorem target_new (S : Sys) (t : Target) (dest : Bytes) (fs : FS) (hp : PathOk dest) (hne : dest ≠ []) (hw : Wf fs) (hf : Free fs (comps dest))
    (hk : t.kind = .emptydir ∨ t.kind ≠ .symlink ∧ PathOk t.src ∧ Free fs (comps t.src)) : NoNew fs (installTarget S t dest fs).2 := by
  unfold installTarget
  refine seq_new ?_ fun _ => chmodOpt_new _ _ _
  unfold installBody
  cases hkind : t.kind with
  | default =>
    obtain ⟨hs, hsf⟩ : PathOk t.src ∧ Free fs (comps t.src) := by
      rcases hk with h | h
      · exact absurd (hkind.symm.trans h) (by simp)
      · exact h.2
    dsimp only
    unfold inParent
    split
    · exact .refl _
    · obtain ⟨d1, d2⟩ := dirname_ok hp hne
      have h1 := mkdirP_ch S (dirname dest) d1 fs (by rw [d2]; exact hf.above.of_prefix (List.dropLast_prefix _))
      have hn := mkdirP_new S (dirname dest) fs
      refine seq_new hn fun _ => ?_
      refine seq_new ?_ fun _ => ?_
      · unfold copyAny
        split
        · exact copyDir_new S _ _ _ _ hs hp (h1.wf hw) (hn.free hf) (hn.free hsf)
        · exact copyFile_new S _ hs (hn.free hsf)
      · split
        · exact fixFile_new S _ _
        · exact .refl _
  | symlink =>
    rcases hk with h | h
    · exact absurd (hkind.symm.trans h) (by simp)
    · exact absurd hkind h.1
  | subdir =>
    obtain ⟨hs, hsf⟩ : PathOk t.src ∧ Free fs (comps t.src) := by
      rcases hk with h | h
      · exact absurd (hkind.symm.trans h) (by simp)
      · exact h.2
    have h1 := mkdirP_ch S dest hp fs hf.above
    have hn := mkdirP_new S dest fs
    refine seq_new hn fun _ => ?_
    refine foreach_new (M := masked S.umask 0o755) (d := comps dest) (s := comps t.src) t.src ?_ ?_ _ (h1.wf hw) (hn.free hf) (hn.free hsf)
    · intro c gs hc hgw hgf
      obtain ⟨j1, j2⟩ := join_name hp hc
      rw [← j2] at hgf ⊢
      exact copySub_ch S _ _ _ _ gs j1 hgw hgf
    · intro c gs hc hgw hgd hgs
      obtain ⟨j1, j2⟩ := join_name hp hc
      obtain ⟨k1, k2⟩ := join_name hs hc
      have hgd := hgd.child c
      have hgs := hgs.child c
      rw [← j2] at hgd
      rw [← k2] at hgs
      exact copySub_new S _ _ _ _ gs k1 j1 hgw hgd hgs
  | emptydir => exact mkdirP_new S dest fs

end Muon.Install
