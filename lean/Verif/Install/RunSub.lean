import Verif.Install.RunFile
/-
C90: installing directories.
-/
namespace Muon.Install
open Muon Path Path.Spec

/-- The name of something below a directory relative to it. -/
theorem relative_below {b p : Bytes} {x : List Bytes} (hb : PathOk b) (hba : isAbs b = true) (hp : PathOk p) (hpa : isAbs p = true) (hbn : comps b ≠ []) (hx : x ≠ []) (hc : comps p = comps b ++ x) :
    relativeTo b p = .ok (sepJoin x) := by
  have hcan : ∀ q, PathOk q → isAbs q = true → canon true q = render true (comps q) := by
    intro q hq ha
    have hn : q ≠ [] := by rintro rfl; simp [isAbs] at ha
    unfold canon
    rw [if_neg hn, ha, if_pos rfl, cancel_eq, cancelFold_nn _ (fun c hc he => hq.2 (he ▸ hc))]
    rfl
  have hgb : ∀ c ∈ comps b, Comp c := comps_good b hb.1
  have hgp : ∀ c ∈ comps p, Comp c := comps_good p hp.1
  have hgx : ∀ c ∈ x, Comp c := fun c h => hgp c (by rw [hc]; simp [h])
  have hpe : render true (comps p) = render true (comps b) ++ [47] ++ sepJoin x := by rw [hc, render_append _ _ _ hbn hx]
  have hlen : 2 ≤ (render true (comps b)).length := by
    rw [render_length]
    match h : comps b with
    | [] => exact absurd h hbn
    | c :: l =>
      have := (hgb c (by rw [h]; simp)).1
      have : c.length ≠ 0 := by simpa using this
      simp only [lens]
      omega
  unfold relativeTo
  rw [normalize_canon true b hb.1, normalize_canon true p hp.1, hcan b hb hba, hcan p hp hpa]
  have hab : isAbsolute (render true (comps b)) = true := by rw [isAbsolute_eq, render_isAbs _ _ hgb]
  have hap : isAbsolute (render true (comps p)) = true := by rw [isAbsolute_eq, render_isAbs _ _ hgp]
  simp only [hab, hap, Bool.not_true, Bool.false_eq_true, if_false]
  have hb0 := render_no0 true _ hgb
  have hp0 := render_no0 true _ hgp
  rw [hpe] at hp0 ⊢
  generalize hbe : render true (comps b) = B at *
  rw [if_neg (by
    intro h
    have := congrArg List.length h
    simp at this)]
  have hb47 : byteAt B 0 = 47 := by simpa [isAbsolute] using hab
  obtain ⟨i, ce, hcl, _, hib, hip, htk, hend, hce⟩ := commonLoop_spec B (B ++ [47] ++ sepJoin x) hb0 hp0 hb47 _ 0 0 rfl (Nat.zero_le _) (Nat.zero_le _) rfl (fun h => absurd rfl h)
  have hi : i = B.length := by
    rcases hend with h | h | h
    · exact h
    · simp at h; omega
    · apply Classical.byContradiction
      intro hne
      apply h
      rw [List.append_assoc, byteAt_append_left B _ i (by omega)]
  simp only [hcl]
  subst hi
  have e1 : byteAt B B.length = 0 := byteAt_end _ _ (Nat.le_refl _)
  have e2 : byteAt (B ++ [47] ++ sepJoin x) B.length = 47 := by
    have := byteAt_append B ([47] ++ sepJoin x) 0
    rw [List.append_assoc]
    rw [Nat.add_zero] at this
    rw [this]; rfl
  rw [if_neg (show ¬ B.length = 0 by omega), if_neg (show ¬ B.length = 1 by omega)]
  simp only [e1, e2, and_self, if_true, ne_eq, not_true_eq_false, false_and, if_false]
  rw [if_pos (by decide)]
  have e3 : (B ++ [47] ++ sepJoin x).drop (B.length + 1) = sepJoin x := by
    rw [show B.length + 1 = (B ++ [47]).length by simp, List.drop_left']
    rfl
  rw [e3, List.nil_append]
  have hr : sepJoin x = render false x := by unfold render; rw [if_neg (by simp), if_neg hx]
  rw [hr, normalize_canon false _ (render_no0 _ _ hgx), canon_render _ _ hgx]

theorem Valid.child {p c : Bytes} (h : Valid p) (hc : Comp c ∧ c ≠ dotdot) (hl : lens (comps p ++ [c]) < 4096) : Valid (join p c) ∧ comps (join p c) = comps p ++ [c] := by
  obtain ⟨j1, j2⟩ := join_name h.1 hc
  have hca : isAbs c = false := by
    cases c with
    | nil => exact absurd rfl hc.1.1
    | cons x c =>
      have : x ≠ 47 := by rintro rfl; exact hc.1.2.2.1 (by simp)
      simp [isAbs, this]
  refine ⟨⟨j1, ?_, ?_⟩, j2⟩
  · rw [(join_relative p c h.1.1 hc.1.2.2.2 hca).2]; exact h.2.1
  · rw [join_text p c h.1.1 hc.1.2.2.2 h.ne hca, if_neg hc.1.1, h.2.1, comps_self c hc.1, render_length]
    omega

/-! ### Specification -/

/-- A copy of a file or directory: with the permissions that were given, or with those of the source (for directories 0755) without the bits of the umask. -/
def Spec.copyNode (um : Nat) (perm : Option Nat) : Node → Node
  | .file c m => .file c (perm.getD (masked um m))
  | .dir _ => .dir (perm.getD (masked um 0o755))
  | n => n

/-- Something in the directory `s` is excluded if its name, or that of a directory it is in, is listed, relative to `s`. -/
def Spec.Excluded (fs : FS) (s : List Bytes) (dirs files : List Bytes) (z : List Bytes) : Prop :=
  ∃ y, y ≠ [] ∧ y <+: z ∧ (isDir (fs.get (s ++ y)) = true ∧ sepJoin y ∈ dirs ∨ isDir (fs.get (s ++ y)) = false ∧ sepJoin y ∈ files)

/-- What is at the place of `z` afterwards: a copy, or nothing if it is excluded. -/
def Spec.Copied (S : Sys) (X : Sub) (fs : FS) (s z : List Bytes) (v : Option Node) : Prop :=
  (Spec.Excluded fs s X.excludeDirs X.excludeFiles z → v = none) ∧
  (¬ Spec.Excluded fs s X.excludeDirs X.excludeFiles z → v = (fs.get (s ++ z)).map (Spec.copyNode S.umask X.perm))

/-- The source: everything in it is a file or a directory, is in directories, and its name is not too long, nor is that of its copy. -/
def Spec.Tree (fs : FS) (s d : List Bytes) : Prop :=
  ∀ z, fs.get (s ++ z) ≠ none → Ready fs (s ++ z) ∧ (isDir (fs.get (s ++ z)) = true ∨ isFile (fs.get (s ++ z)) = true) ∧ lens (s ++ z) < 4096 ∧ lens (d ++ z) < 4096

theorem each_ok {fs0 : FS} {cb : Bytes → Act} {el : List Bytes} {R : Bytes → List Bytes → Option Node → Prop} (l : List Bytes)
    (hcb : ∀ c ∈ l, ∀ fs, Wf fs → (∀ q, ¬ (el <+: q ∧ q ≠ el) → fs.get q = fs0.get q) → (∀ q, el ++ [c] <+: q → fs.get q = none) →
      ∃ gs, cb c fs = (true, gs) ∧ Wf gs ∧ (∀ q, ¬ el ++ [c] <+: q → gs.get q = fs.get q) ∧ ∀ y, R c y (gs.get (el ++ [c] ++ y))) :
    ∀ fs, l.Nodup → Wf fs → (∀ q, ¬ (el <+: q ∧ q ≠ el) → fs.get q = fs0.get q) → (∀ c ∈ l, ∀ q, el ++ [c] <+: q → fs.get q = none) →
      ∃ gs, eachName cb l fs = (true, gs) ∧ Wf gs ∧ (∀ q, (∀ c ∈ l, ¬ el ++ [c] <+: q) → gs.get q = fs.get q) ∧ ∀ c ∈ l, ∀ y, R c y (gs.get (el ++ [c] ++ y)) := by
  induction l with
  | nil => intro fs _ hw _ _; exact ⟨fs, rfl, hw, fun _ _ => rfl, by simp⟩
  | cons c l ih =>
    intro fs hn hw hag hfr
    obtain ⟨hc, hn⟩ := List.nodup_cons.1 hn
    obtain ⟨gs, g1, g2, g3, g4⟩ := hcb c (by simp) fs hw hag (hfr c (by simp))
    have below : ∀ q, el ++ [c] <+: q → el <+: q ∧ q ≠ el := by
      intro q h
      refine ⟨(List.prefix_append _ _).trans h, ?_⟩
      rintro rfl
      have := h.length_le
      simp at this
      omega
    have other : ∀ c' ∈ l, ∀ q, el ++ [c'] <+: q → ¬ el ++ [c] <+: q := by
      intro c' hc' q h1 h2
      have := prefix_snoc_ne h1 h2
      subst this
      exact hc hc'
    obtain ⟨ks, k1, k2, k3, k4⟩ := ih (fun c' hc' => hcb c' (by simp [hc'])) gs hn g2
      (fun q hq => by rw [g3 q (fun h => hq (below q h))]; exact hag q hq)
      (fun c' hc' q hq => by rw [g3 q (other c' hc' q hq)]; exact hfr c' (by simp [hc']) q hq)
    refine ⟨ks, ?_, k2, ?_, ?_⟩
    · rw [eachName]; simp only [Act.seq, g1, if_true, k1]
    · intro q hq
      rw [k3 q (fun c' hc' => hq c' (by simp [hc'])), g3 q (hq c (by simp))]
    · intro c' hc' y
      rcases List.mem_cons.1 hc' with rfl | hc'
      · rw [k3 _ ?_]
        · exact g4 y
        · intro c'' hc'' h
          exact other c'' hc'' _ h (List.prefix_append _ _)
      · exact k4 c' hc' y

theorem copySub_ok (S : Sys) (X : Sub) {fs0 : FS} {s d : List Bytes} (hr : PathOk X.root ∧ isAbs X.root = true) (hrc : comps X.root = s) (hs : s ≠ []) (ha : ¬ s <+: d ∧ ¬ d <+: s)
    (ht : Spec.Tree fs0 s d) (hperm : ∀ p, X.perm = some p → p &&& 0o1000 = 0) (n : Nat) : ∀ (x : List Bytes) (p e : Bytes) (fs : FS), 4096 ≤ n + x.length → Valid p → comps p = s ++ x → x ≠ [] →
    Valid e → comps e = d ++ x → Wf fs → (∀ q, ¬ d <+: q → fs.get q = fs0.get q) → Ready fs (d ++ x) → (∀ q, d ++ x <+: q → fs.get q = none) → fs0.get (s ++ x) ≠ none →
    (∀ y, y <+: x → y ≠ x → ¬ Spec.Excluded fs0 s X.excludeDirs X.excludeFiles y) →
    ∃ gs, copySub S X n p e fs = (true, gs) ∧ Wf gs ∧ (∀ q, ¬ d ++ x <+: q → gs.get q = fs.get q) ∧ ∀ y, Spec.Copied S X fs0 s (x ++ y) (gs.get (d ++ x ++ y)) := by
  -- the source is not below the destination
  have hout : ∀ z q, q <+: s ++ z → ¬ d <+: q := by
    intro z q hq hd
    rcases Nat.le_total d.length s.length with hl | hl
    · exact ha.2 (List.prefix_of_prefix_length_le (hd.trans hq) (List.prefix_append s z) hl)
    · exact ha.1 (List.prefix_of_prefix_length_le (List.prefix_append s z) (hd.trans hq) hl)
  induction n with
  | zero =>
    intro x p e fs hn _ _ _ _ _ _ _ _ _ hex
    have h1 := (ht x hex).2.2.1
    have h2 : x.length ≤ lens (s ++ x) := by
      rw [lens_append]
      have : ∀ l : List Bytes, l.length ≤ lens l := by
        intro l
        induction l with
        | nil => simp
        | cons c l ih => simp only [lens, List.length_cons]; omega
      have := this x
      omega
    omega
  | succ n ih =>
    intro x p e fs hn hvp hcp hx hve hce hw hag hready hfresh hex hnot
    obtain ⟨t1, t2, t3, t4⟩ := ht x hex
    have hsrc : ∀ z, fs.get (s ++ z) = fs0.get (s ++ z) := fun z => hag _ (hout z _ (List.prefix_refl _))
    have hreadyS : Ready fs (comps p) := by
      rw [hcp]
      intro q h1 h2
      rw [hag q (hout x q h1)]
      exact t1 q h1 h2
    have hget : fs.get (comps p) = fs0.get (s ++ x) := by rw [hcp, hsrc]
    have hnl : isLink (fs.get (comps p)) = false := by
      rw [hget]
      rcases t2 with h | h
      · exact notLink_of_dir h
      · exact notLink_of_file h
    have hst : stat fs p = fs0.get (s ++ x) := by
      unfold stat
      rw [resolve_ready hvp hreadyS true (Or.inr hnl)]
      simp [hget]
    have hrel := relative_below hr.1 hr.2 hvp.1 hvp.2.1 (by rw [hrc]; exact hs) hx (by rw [hcp, hrc])
    have hfe : fs.get (comps e) = none := by rw [hce]; exact hfresh _ (List.prefix_refl _)
    rw [copySub]
    simp only [hrel]
    -- if it is excluded, so is everything in it
    have hskip : Spec.Excluded fs0 s X.excludeDirs X.excludeFiles x → (∀ y, Spec.Copied S X fs0 s (x ++ y) (fs.get (d ++ x ++ y))) := by
      rintro ⟨y0, a1, a2, a3⟩ y
      refine ⟨fun _ => hfresh _ (List.prefix_append _ _), fun h => absurd ⟨y0, a1, a2.trans (List.prefix_append _ _), a3⟩ h⟩
    have hexcl : ¬ Spec.Excluded fs0 s X.excludeDirs X.excludeFiles x ↔
        ¬ (isDir (fs0.get (s ++ x)) = true ∧ sepJoin x ∈ X.excludeDirs ∨ isDir (fs0.get (s ++ x)) = false ∧ sepJoin x ∈ X.excludeFiles) := by
      constructor
      · intro h h2; exact h ⟨x, hx, List.prefix_refl _, h2⟩
      · rintro h ⟨y, a1, a2, a3⟩
        by_cases hy : y = x
        · subst hy; exact h a3
        · exact hnot y a2 hy ⟨y, a1, List.prefix_refl _, a3⟩
    rcases t2 with hdir | hfile
    · -- a directory
      have hde : fsDirExists fs p = true := by unfold fsDirExists; rw [hst]; exact hdir
      rw [if_pos hde]
      by_cases hin : sepJoin x ∈ X.excludeDirs
      · rw [if_pos hin]
        exact ⟨fs, rfl, hw, fun _ _ => rfl, hskip ⟨x, hx, List.prefix_refl _, Or.inl ⟨hdir, hin⟩⟩⟩
      · rw [if_neg hin]
        have hne : ¬ Spec.Excluded fs0 s X.excludeDirs X.excludeFiles x := by
          rw [hexcl]
          rintro (h | h)
          · exact hin h.2
          · rw [hdir] at h; cases h.1
        have hens := ensureDir_ok S hve (by rw [hce]; exact hready) (Or.inl hfe)
        rw [if_pos hfe] at hens
        have hw1 : Wf (fs.set (comps e) (.dir (masked S.umask 0o755))) := hw.set hve.1.good _
        generalize hfs1 : fs.set (comps e) (.dir (masked S.umask 0o755)) = fs1 at hens hw1
        have get1 : ∀ q, fs1.get q = if q = d ++ x then some (.dir (masked S.umask 0o755)) else fs.get q := by
          intro q; rw [← hfs1, get_set, hce]
        have hlt : ∀ z, s ++ z ≠ d ++ x := fun z h => hout z _ (List.prefix_refl _) (by rw [h]; exact List.prefix_append _ _)
        have hres1 : resolve fs1 true p = some (comps p) := by
          refine resolve_ready hvp ?_ true (Or.inr ?_)
          · intro q h1 h2
            rw [get1, if_neg]
            · exact hreadyS q h1 h2
            · rintro rfl
              rw [hcp] at h1
              exact hout x _ h1 (List.prefix_append _ _)
          · rw [get1, if_neg (by rw [hcp]; exact hlt x)]; exact hnl
        have hd1 : isDir (fs1.get (comps p)) = true := by rw [get1, if_neg (by rw [hcp]; exact hlt x), hget]; exact hdir
        have hnames : ∀ c, c ∈ fs1.names (comps p) ↔ fs0.get (s ++ (x ++ [c])) ≠ none := by
          intro c
          rw [mem_names, hcp, List.append_assoc, get1, if_neg (hlt _), hsrc]
          cases fs0.get (s ++ (x ++ [c])) <;> simp
        obtain ⟨gs, g1, g2, g3, g4⟩ := each_ok (fs0 := fs1) (el := d ++ x) (cb := fun c => copySub S X n (join p c) (join e c))
          (R := fun c y v => Spec.Copied S X fs0 s (x ++ [c] ++ y) v) (fs1.names (comps p)) (by
            intro c hc gs hgw hgag hgf
            have hex' := (hnames c).1 hc
            obtain ⟨u1, u2, u3, u4⟩ := ht _ hex'
            have hgood := names_good hw1 _ c hc
            obtain ⟨p1, p2⟩ := hvp.child hgood (by rw [hcp, List.append_assoc]; exact u3)
            obtain ⟨e1, e2⟩ := hve.child hgood (by rw [hce, List.append_assoc]; exact u4)
            have hlow : ∀ q, d ++ x <+: q → d <+: q := fun q h => (List.prefix_append _ _).trans h
            obtain ⟨ks, k1, k2, k3, k4⟩ := ih (x ++ [c]) (join p c) (join e c) gs (by simp; omega) p1 (by rw [p2, hcp]; simp) (by simp) e1 (by rw [e2, hce]; simp) hgw
              (fun q hq => by
                rw [hgag q (fun h => hq (hlow q h.1)), get1, if_neg (by rintro rfl; exact hq (List.prefix_append _ _))]
                exact hag q hq)
              (by
                intro q h1 h2
                have h3 : q <+: d ++ x := by
                  refine List.prefix_of_prefix_length_le h1 ?_ ?_
                  · rw [← List.append_assoc]; exact List.prefix_append _ _
                  · have := h1.length_le
                    have hne : q.length ≠ (d ++ (x ++ [c])).length := fun h => h2 (h1.eq_of_length h)
                    simp at this hne ⊢
                    omega
                by_cases hq : q = d ++ x
                · rw [hgag q (fun h => h.2 hq), get1, if_pos hq]; rfl
                · rw [hgag q (fun h => hq (h3.eq_of_length (Nat.le_antisymm h3.length_le h.1.length_le))), get1, if_neg hq]
                  exact hready q h3 hq)
              (fun q hq => hgf q (by rw [List.append_assoc]; exact hq)) hex'
              (by
                intro y hy hyn
                have : y <+: x := by
                  refine List.prefix_of_prefix_length_le hy (List.prefix_append _ _) ?_
                  have := hy.length_le
                  have hne : y.length ≠ (x ++ [c]).length := fun h => hyn (hy.eq_of_length h)
                  simp at this hne
                  omega
                by_cases hyx : y = x
                · rw [hyx]; exact hne
                · exact hnot y this hyx)
            refine ⟨ks, k1, k2, fun q hq => k3 q (by rw [← List.append_assoc]; exact hq), fun y => ?_⟩
            have := k4 y
            rw [← List.append_assoc d] at this
            exact this)
          fs1 (names_nodup hw1 _) hw1 (fun _ _ => rfl) (by
            intro c _ q hq
            rw [get1, if_neg]
            · exact hfresh q ((List.prefix_append _ _).trans hq)
            · rintro rfl
              have := hq.length_le
              simp at this
              omega)
        -- the directory itself
        have hge : gs.get (d ++ x) = some (.dir (masked S.umask 0o755)) := by
          rw [g3 _ ?_, get1, if_pos rfl]
          intro c _ h
          have := h.length_le
          simp at this
          omega
        have hgr : Ready gs (comps e) := by
          rw [hce]
          intro q h1 h2
          rw [g3 q ?_, get1, if_neg h2]
          · exact hready q h1 h2
          · intro c _ h
            have h3 := (h.trans h1).length_le
            simp at h3
            omega
        obtain ⟨ks, k1, k2, k3, k4⟩ : ∃ ks, chmodOpt e X.perm gs = (true, ks) ∧ Wf ks ∧ ks.get (d ++ x) = some (.dir (X.perm.getD (masked S.umask 0o755))) ∧ ∀ q, q ≠ d ++ x → ks.get q = gs.get q := by
          cases hp : X.perm with
          | none => exact ⟨gs, rfl, g2, hge, fun _ _ => rfl⟩
          | some m =>
            refine ⟨_, chmod_dir hve hgr (by rw [hce]; exact hge), g2.set hve.1.good _, ?_, ?_⟩
            · rw [hce, get_set, if_pos rfl]; rfl
            · intro q hq; rw [hce, get_set, if_neg hq]
        refine ⟨ks, ?_, k2, ?_, ?_⟩
        · simp only [Act.seq, hens, if_true]
          unfold dirForeach
          rw [hres1]
          simp only [hd1, if_true, g1, k1]
        · intro q hq
          have hq' : q ≠ d ++ x := fun h => hq (by rw [h]; exact List.prefix_refl _)
          rw [k4 q hq', g3 q (fun c _ h => hq ((List.prefix_append _ _).trans h)), get1, if_neg hq']
        · intro y
          cases y with
          | nil =>
            rw [List.append_nil, List.append_nil, k3]
            refine ⟨fun h => absurd h hne, fun _ => ?_⟩
            cases hn0 : fs0.get (s ++ x) with
            | none => exact absurd hn0 hex
            | some v =>
              rw [hn0] at hdir
              cases v with
              | dir m => rfl
              | _ => simp [isDir] at hdir
          | cons c y =>
            rw [k4 _ (by simp)]
            by_cases hc : c ∈ fs1.names (comps p)
            · have := g4 c hc y
              simpa using this
            · have hno : fs0.get (s ++ (x ++ [c])) = none := by
                apply Classical.byContradiction
                intro h; exact hc ((hnames c).2 h)
              have hno2 : fs0.get (s ++ (x ++ c :: y)) = none := by
                apply Classical.byContradiction
                intro h
                have hrd := (ht _ h).1 (s ++ (x ++ [c]))
                by_cases hy : y = []
                · subst hy; exact h hno
                · have := hrd ⟨y, by simp⟩ (by simp [hy])
                  rw [hno] at this
                  simp [isDir] at this
              have hgn : gs.get (d ++ x ++ c :: y) = none := by
                rw [g3 _ ?_, get1, if_neg (by simp)]
                · exact hfresh _ (List.prefix_append _ _)
                · intro c' hc' h
                  have : c' = c := prefix_snoc_ne h ⟨y, by simp⟩
                  subst this
                  exact hc hc'
              rw [hgn]
              exact ⟨fun _ => rfl, fun _ => by rw [hno2]; rfl⟩
    · -- a file
      obtain ⟨c, m, hcm⟩ : ∃ c m, fs0.get (s ++ x) = some (.file c m) := by
        cases hv : fs0.get (s ++ x) with
        | none => exact absurd hv hex
        | some v =>
          rw [hv] at hfile
          cases v with
          | file c m => exact ⟨c, m, rfl⟩
          | _ => simp [isFile] at hfile
      have hnd : isDir (fs0.get (s ++ x)) = false := by rw [hcm]; rfl
      have hde : fsDirExists fs p = false := by unfold fsDirExists; rw [hst]; exact hnd
      have hfe2 : (fsSymlinkExists fs p || fsFileExists fs p) = true := by
        have : fsFileExists fs p = true := by unfold fsFileExists; rw [hst]; exact hfile
        rw [this]; simp
      rw [hde, if_neg (by simp), if_pos hfe2]
      by_cases hin : sepJoin x ∈ X.excludeFiles
      · rw [if_pos hin]
        exact ⟨fs, rfl, hw, fun _ _ => rfl, hskip ⟨x, hx, List.prefix_refl _, Or.inr ⟨hnd, hin⟩⟩⟩
      · rw [if_neg hin]
        have hne : ¬ Spec.Excluded fs0 s X.excludeDirs X.excludeFiles x := by
          rw [hexcl]
          rintro (h | h)
          · rw [hnd] at h; cases h.1
          · exact hin h.2
        have hres := resolve_ready hvp hreadyS false (Or.inl rfl)
        obtain ⟨gs, g1, g2⟩ := copyFile_ok S hres (by rw [hget, hcm]) hve (by rw [hce]; exact hready) (by
          rw [hcp, hce]
          intro h
          exact hout x _ (List.prefix_refl _) (by rw [h]; exact List.prefix_append _ _)) (Or.inl hfe)
        rw [hfe, hce] at g2
        have hnone : ∀ c' y, fs0.get (s ++ (x ++ c' :: y)) = none := by
          intro c' y
          apply Classical.byContradiction
          intro h
          have := (ht _ h).1 (s ++ x) ⟨c' :: y, by simp⟩ (by simp)
          rw [hnd] at this
          cases this
        have hwg : Wf gs := by
          have := (copyFile_ch 0 S p hve.1 (fs := fs) (by rw [hce]; exact hready.above) (by rw [hfe]; rfl)).wf hw
          rw [g1] at this
          exact this
        have hge : gs.get (d ++ x) = some (.file c (masked S.umask m)) := by rw [g2, if_pos rfl]; rfl
        have hgr : Ready gs (comps e) := by
          rw [hce]
          exact ready_of_get hready fun q hq => by rw [g2 q, if_neg hq]
        obtain ⟨ks, k1, k2, k3, k4⟩ : ∃ ks, chmodOpt e X.perm gs = (true, ks) ∧ Wf ks ∧ ks.get (d ++ x) = some (.file c (X.perm.getD (masked S.umask m))) ∧ ∀ q, q ≠ d ++ x → ks.get q = gs.get q := by
          cases hp : X.perm with
          | none => exact ⟨gs, rfl, hwg, hge, fun _ _ => rfl⟩
          | some k =>
            refine ⟨_, chmod_file hve hgr (by rw [hce]; exact hge) (hperm k hp), hwg.set hve.1.good _, ?_, ?_⟩
            · rw [hce, get_set, if_pos rfl]; rfl
            · intro q hq; rw [hce, get_set, if_neg hq]
        refine ⟨ks, ?_, k2, ?_, ?_⟩
        · simp only [Act.seq, g1, if_true, k1]
        · intro q hq
          have hq' : q ≠ d ++ x := fun h => hq (by rw [h]; exact List.prefix_refl _)
          rw [k4 q hq', g2, if_neg hq']
        · intro y
          cases y with
          | nil =>
            rw [List.append_nil, List.append_nil, k3]
            exact ⟨fun h => absurd h hne, fun _ => by rw [hcm]; rfl⟩
          | cons c' y =>
            rw [k4 _ (by simp), g2, if_neg (by simp), hfresh _ (List.prefix_append _ _)]
            exact ⟨fun _ => rfl, fun _ => by rw [hnone]; rfl⟩

/-- C90: a directory is installed with everything in it that is not excluded, and nothing else, if nothing was in the destination before and there are no links. -/
theorem installed_subdir_partial (S : Sys) (t : Target) (dest : Bytes) (fs : FS) (hk : t.kind = .subdir) (hw : Wf fs) (hvs : Valid t.src) (hs : comps t.src ≠ []) (hdir : isDir (fs.get (comps t.src)) = true)
    (ht : Spec.Tree fs (comps t.src) (comps dest)) (hv : Valid dest) (hroot : isDir (fs.get []) = true) (hway : ∀ q, q <+: comps dest → fs.get q = none ∨ isDir (fs.get q) = true)
    (hfresh : ∀ q, comps dest <+: q → q ≠ comps dest → fs.get q = none) (ha : ¬ comps t.src <+: comps dest ∧ ¬ comps dest <+: comps t.src) (hsticky : ∀ p, t.perm = some p → p &&& 0o1000 = 0) :
    ∃ gs m, installTarget S t dest fs = (true, gs) ∧
      gs.get (comps dest) = some (.dir m) ∧ m = t.perm.getD (match fs.get (comps dest) with
        | some (.dir k) => k
        | _ => masked S.umask 0o755) ∧
      (∀ z, z ≠ [] → (Spec.Excluded fs (comps t.src) t.excludeDirs t.excludeFiles z → gs.get (comps dest ++ z) = none) ∧
        (¬ Spec.Excluded fs (comps t.src) t.excludeDirs t.excludeFiles z → gs.get (comps dest ++ z) = (fs.get (comps t.src ++ z)).map (Spec.copyNode S.umask t.perm))) ∧
      ∀ q, ¬ comps dest <+: q → gs.get q = if q <+: comps dest ∧ fs.get q = none then some (.dir (masked S.umask 0o755)) else fs.get q := by
  obtain ⟨m1, m2⟩ := mkdirP_ok S hv hroot hway
  have hwm := (mkdirP_ch S dest hv.1 fs (fun q h1 _ => notLink_of (hway q h1))).wf hw
  generalize hms : (mkdirP S dest fs).2 = ms at *
  have hm : mkdirP S dest fs = (true, ms) := by rw [← m1, ← hms]
  have hout : ∀ z q, q <+: comps t.src ++ z → ¬ comps dest <+: q := by
    intro z q hq hd
    rcases Nat.le_total (comps dest).length (comps t.src).length with hl | hl
    · exact ha.2 (List.prefix_of_prefix_length_le (hd.trans hq) (List.prefix_append _ z) hl)
    · exact ha.1 (List.prefix_of_prefix_length_le (List.prefix_append _ z) (hd.trans hq) hl)
  have hmsrc : ∀ q, fs.get q ≠ none → ms.get q = fs.get q := fun q h => m2.extends q h
  have hnew : ∀ q, ¬ q <+: comps dest → ms.get q = fs.get q := fun q h => by rw [m2 q, if_neg (fun h' => h h'.1)]
  have hmz : ∀ z, ms.get (comps t.src ++ z) = fs.get (comps t.src ++ z) := by
    intro z
    refine hnew _ fun h => ha.1 ((List.prefix_append _ _).trans h)
  have hmdir : isDir (ms.get (comps dest)) = true := by
    rw [m2]
    rcases hway _ (List.prefix_refl _) with h | h
    · rw [if_pos ⟨List.prefix_refl _, h⟩]; rfl
    · rw [if_neg (fun hh => by rw [hh.2] at h; simp [isDir] at h)]; exact h
  have hmready : Ready ms (comps dest) := by
    intro q h1 h2
    rw [m2 q]
    rcases hway q h1 with h | h
    · rw [if_pos ⟨h1, h⟩]; rfl
    · by_cases hn : fs.get q = none
      · rw [if_pos ⟨h1, hn⟩]; rfl
      · rw [if_neg (fun h => hn h.2)]; exact h
  have hsready : Ready ms (comps t.src) := by
    intro q h1 h2
    have hne : fs.get (comps t.src ++ []) ≠ none := by
      rw [List.append_nil]
      intro h; rw [h] at hdir; simp [isDir] at hdir
    have h3 := (ht [] hne).1 q (by rw [List.append_nil]; exact h1) (by rw [List.append_nil]; exact h2)
    rw [hmsrc q]
    · exact h3
    · intro h; rw [h] at h3; simp [isDir] at h3
  have hsd : isDir (ms.get (comps t.src)) = true := by
    have := hmz []
    rw [List.append_nil] at this
    rw [this]; exact hdir
  have hres := resolve_ready hvs hsready true (Or.inr (notLink_of_dir hsd))
  have htm : Spec.Tree ms (comps t.src) (comps dest) := by
    intro z hz
    rw [hmz] at hz ⊢
    obtain ⟨h1, h2⟩ := ht z hz
    refine ⟨?_, h2⟩
    intro q a b
    have h3 := h1 q a b
    rw [hmsrc q]
    · exact h3
    · intro h; rw [h] at h3; simp [isDir] at h3
  have hexc : ∀ z, Spec.Excluded ms (comps t.src) t.excludeDirs t.excludeFiles z ↔ Spec.Excluded fs (comps t.src) t.excludeDirs t.excludeFiles z := by
    intro z
    unfold Spec.Excluded
    simp only [hmz]
  obtain ⟨gs, g1, g2, g3, g4⟩ := each_ok (fs0 := ms) (el := comps dest) (cb := fun c => copySub S ⟨t.src, t.perm, t.excludeDirs, t.excludeFiles⟩ maxDepth (join t.src c) (join dest c))
    (R := fun c y v => Spec.Copied S ⟨t.src, t.perm, t.excludeDirs, t.excludeFiles⟩ ms (comps t.src) ([c] ++ y) v) (ms.names (comps t.src)) (by
      intro c hc fs' hw' hag hfr
      have hex := (mem_names ms _ c).1 hc
      have hex : ms.get (comps t.src ++ [c]) ≠ none := by
        intro h; rw [h] at hex; simp at hex
      obtain ⟨u1, u2, u3, u4⟩ := htm _ hex
      have hgood := names_good hwm _ c hc
      obtain ⟨p1, p2⟩ := hvs.child hgood u3
      obtain ⟨e1, e2⟩ := hv.child hgood u4
      obtain ⟨ks, k1, k2, k3, k4⟩ := copySub_ok S ⟨t.src, t.perm, t.excludeDirs, t.excludeFiles⟩ (fs0 := ms) (s := comps t.src) (d := comps dest) ⟨hvs.1, hvs.2.1⟩ rfl hs ha htm hsticky maxDepth [c]
        (join t.src c) (join dest c) fs' (by unfold maxDepth; simp) p1 p2 (by simp) e1 e2 hw' (fun q hq => hag q (fun h => hq h.1))
        (by
          intro q h1 h2
          have h3 : q <+: comps dest := by
            refine List.prefix_of_prefix_length_le h1 (List.prefix_append _ _) ?_
            have := h1.length_le
            have hne : q.length ≠ (comps dest ++ [c]).length := fun h => h2 (h1.eq_of_length h)
            simp at this hne
            omega
          rw [hag q (fun h => h.2 (h3.eq_of_length (Nat.le_antisymm h3.length_le h.1.length_le)))]
          by_cases hq : q = comps dest
          · rw [hq]; exact hmdir
          · exact hmready q h3 hq)
        hfr hex (by
          intro y hy hyn
          have : y = [] := by
            have h1 := hy.length_le
            have hne : y.length ≠ [c].length := fun h => hyn (hy.eq_of_length h)
            simp only [List.length_singleton] at h1 hne
            have : y.length = 0 := by omega
            simpa using this
          subst this
          rintro ⟨w, w1, w2, _⟩
          exact w1 (List.prefix_nil.1 w2))
      exact ⟨ks, k1, k2, k3, k4⟩)
    ms (names_nodup hwm _) hwm (fun _ _ => rfl) (by
      intro c _ q hq
      have hlen : ¬ q <+: comps dest := by
        intro h
        have := (hq.trans h).length_le
        simp at this
        omega
      rw [hnew q hlen]
      refine hfresh q ((List.prefix_append _ _).trans hq) ?_
      rintro rfl
      exact hlen (List.prefix_refl _))
  have hgd : gs.get (comps dest) = some (.dir (match fs.get (comps dest) with
        | some (.dir k) => k
        | _ => masked S.umask 0o755)) := by
    rw [g3 _ (fun c _ h => by have := h.length_le; simp at this; omega), m2]
    rcases hway _ (List.prefix_refl _) with h | h
    · rw [if_pos ⟨List.prefix_refl _, h⟩, h]
    · rw [if_neg (fun hh => by rw [hh.2] at h; simp [isDir] at h)]
      cases hn : fs.get (comps dest) with
      | none => rw [hn] at h; simp [isDir] at h
      | some n =>
        cases n with
        | dir k => rfl
        | _ => rw [hn] at h; simp [isDir] at h
  have hgr : Ready gs (comps dest) := by
    intro q h1 h2
    rw [g3 q (fun c _ h => by have := (h.trans h1).length_le; simp at this; omega)]
    exact hmready q h1 h2
  have hbody : installBody S t dest fs = (true, gs) := by
    unfold installBody
    rw [hk]
    simp only [Act.seq, hm, if_true]
    unfold dirForeach
    rw [hres]
    simp only [hsd, if_true, g1]
  obtain ⟨ks, k1, k2, k3⟩ : ∃ ks, chmodOpt dest t.perm gs = (true, ks) ∧ ks.get (comps dest) = some (.dir (t.perm.getD (match fs.get (comps dest) with
        | some (.dir k) => k
        | _ => masked S.umask 0o755))) ∧ ∀ q, q ≠ comps dest → ks.get q = gs.get q := by
    cases hp : t.perm with
    | none => exact ⟨gs, rfl, hgd, fun _ _ => rfl⟩
    | some m =>
      refine ⟨_, chmod_dir hv hgr hgd, ?_, ?_⟩
      · rw [get_set, if_pos rfl]; rfl
      · intro q hq; rw [get_set, if_neg hq]
  refine ⟨ks, _, ?_, k2, rfl, ?_, ?_⟩
  · unfold installTarget
    simp only [Act.seq, hbody, if_true, k1]
  · intro z hz
    rw [k3 _ (by simpa using hz), ← hexc]
    cases z with
    | nil => exact absurd rfl hz
    | cons c y =>
      by_cases hc : c ∈ ms.names (comps t.src)
      · have := g4 c hc y
        unfold Spec.Copied at this
        rw [hmz] at this
        simpa using this
      · have hno : fs.get (comps t.src ++ [c]) = none := by
          apply Classical.byContradiction
          intro h
          apply hc
          rw [mem_names, hmz]
          cases hh : fs.get (comps t.src ++ [c]) with
          | none => exact absurd hh h
          | some _ => rfl
        have hno2 : fs.get (comps t.src ++ c :: y) = none := by
          apply Classical.byContradiction
          intro h
          by_cases hy : y = []
          · subst hy; exact h hno
          · have := (ht _ h).1 (comps t.src ++ [c]) ⟨y, by simp⟩ (by simp [hy])
            rw [hno] at this
            simp [isDir] at this
        have hgn : gs.get (comps dest ++ c :: y) = none := by
          rw [g3 _ ?_, hnew _ ?_]
          · exact hfresh _ (List.prefix_append _ _) (by simp)
          · intro h
            have := h.length_le
            simp at this
            omega
          · intro c' hc' h
            have : c' = c := prefix_snoc_ne h ⟨y, by simp⟩
            subst this
            exact hc hc'
        rw [hgn, hno2]
        exact ⟨fun _ => rfl, fun _ => rfl⟩
  · intro q hq
    rw [k3 q (fun h => hq (by rw [h]; exact List.prefix_refl _)), g3 q (fun c _ h => hq ((List.prefix_append _ _).trans h)), m2 q]

end Muon.Install
