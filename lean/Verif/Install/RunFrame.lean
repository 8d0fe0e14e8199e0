import Verif.Install.RunLemmas
/-
C90: what is changed.
-/
namespace Muon.Install
open Muon Path Path.Spec

/-- No NUL and no `..`. -/
def PathOk (p : Bytes) : Prop := 0 ∉ p ∧ dotdot ∉ comps p

theorem PathOk.good {p : Bytes} (h : PathOk p) : Good (comps p) := fun c hc => ⟨comps_good p h.1 c hc, fun he => h.2 (he ▸ hc)⟩

theorem join_name {p c : Bytes} (h : PathOk p) (hc : Comp c ∧ c ≠ dotdot) : PathOk (join p c) ∧ comps (join p c) = comps p ++ [c] := by
  obtain ⟨j1, j2, j3⟩ := join_facts p c h.1 hc.1.2.2.2
  have ha : isAbs c = false := by
    cases c with
    | nil => exact absurd rfl hc.1.1
    | cons x r =>
      have : x ≠ 47 := fun hh => hc.1.2.2.1 (by simp [hh])
      simp [isAbs, this]
  rw [ha] at j1
  simp only [Bool.false_eq_true, if_false] at j1
  rw [comps_self c hc.1] at j1
  refine ⟨⟨j3, ?_⟩, j1⟩
  rw [j1]
  simp only [List.mem_append, List.mem_singleton, not_or]
  exact ⟨h.2, Ne.symm hc.2⟩

section
variable {M : Nat} {A B : List Bytes → Prop} {fs : FS}

theorem seq_ch {a b : Act} (h1 : Ch M A B fs (a fs).2) (h2 : (a fs).1 = true → Ch M A B (a fs).2 (b (a fs).2).2) : Ch M A B fs ((a.seq b) fs).2 := by
  simp only [Act.seq]
  split
  · rename_i h; exact h1.trans (h2 h)
  · exact h1

end

/-! ### System calls -/

section
variable {fs : FS} {p : Bytes}

theorem mkdir_ch (S : Sys) (hp : PathOk p) (ha : Above fs (comps p)) : Ch (masked S.umask 0o755) (fun _ => False) (· = comps p) fs (fsMkdir S p fs).2 := by
  unfold fsMkdir
  split
  · exact .refl _
  · rename_i l hl
    have := resolve_some fs false p hp.2 ha (Or.inl rfl) hl
    subst this
    split
    · exact .refl _
    · rename_i hn
      exact .mk (.refl _) _ rfl hp.good (by simpa using hn)

theorem ensureDir_ch (S : Sys) (hp : PathOk p) (ha : Above fs (comps p)) : Ch (masked S.umask 0o755) (fun _ => False) (· = comps p) fs (ensureDir S p fs).2 := by
  unfold ensureDir
  split
  · exact .refl _
  · exact mkdir_ch S hp ha

theorem remove_ch (M : Nat) (hp : PathOk p) (ha : Above fs (comps p)) : Ch M (· = comps p) (fun _ => False) fs (sysRemove p fs).2 := by
  unfold sysRemove
  split
  · exact .refl _
  · rename_i l hl
    have := resolve_some fs false p hp.2 ha (Or.inl rfl) hl
    subst this
    split
    · exact .refl _
    · split
      · exact .refl _
      · exact .erase (.refl _) _ rfl
    · exact .erase (.refl _) _ rfl

theorem symlink_ch (M : Nat) (t : Bytes) (hp : PathOk p) (ha : Above fs (comps p)) : Ch M (· = comps p) (fun _ => False) fs (sysSymlink t p fs).2 := by
  unfold sysSymlink
  split
  · exact .refl _
  · split
    · exact .refl _
    · rename_i l hl
      have := resolve_some fs false p hp.2 ha (Or.inl rfl) hl
      subst this
      split
      · exact .refl _
      · exact .set (.refl _) _ _ rfl hp.good

theorem Above.ch {M : Nat} {A B : List Bytes → Prop} {gs : FS} {d : List Bytes} (ha : Above fs d) (h : Ch M A B fs gs) (hA : ∀ q, q <+: d → q ≠ d → ¬ A q) : Above gs d :=
  fun q h1 h2 => h.noLink (hA q h1 h2) (ha q h1 h2)

theorem makeSymlink_ch (M : Nat) (t : Bytes) (hp : PathOk p) (ha : Above fs (comps p)) : Ch M (· = comps p) (fun _ => False) fs (fsMakeSymlink t p fs).2 := by
  unfold fsMakeSymlink
  refine seq_ch ?_ ?_
  · split
    · exact remove_ch M hp ha
    · exact .refl _
  · intro _
    refine symlink_ch M t hp ?_
    split
    · exact ha.ch (remove_ch M hp ha) (fun q h1 h2 h3 => h2 h3)
    · exact ha

theorem copyFile_ch (M : Nat) (S : Sys) (src : Bytes) (hp : PathOk p) (ha : Above fs (comps p)) (hl : isLink (fs.get (comps p)) = false) : Ch M (· = comps p) (fun _ => False) fs (fsCopyFile S src p fs).2 := by
  unfold fsCopyFile
  split
  · exact .refl _
  · split
    · exact makeSymlink_ch M _ hp ha
    · rename_i c m _
      have key : (sysCreate S p m fs).1 = none ∧ (sysCreate S p m fs).2 = fs ∨ (sysCreate S p m fs).1 = some (comps p) ∧ ∃ n, (sysCreate S p m fs).2 = fs.set (comps p) n := by
        unfold sysCreate
        split
        · exact Or.inl ⟨rfl, rfl⟩
        · rename_i l hr
          have := resolve_some fs true p hp.2 ha (Or.inr (Or.inr hl)) hr
          subst this
          split
          · exact Or.inr ⟨rfl, _, rfl⟩
          · exact Or.inr ⟨rfl, _, rfl⟩
          · exact Or.inl ⟨rfl, rfl⟩
      split
      · rename_i gs hc
        rw [hc] at key
        rcases key with ⟨-, h⟩ | ⟨h, -⟩
        · simp only at h; rw [h]; exact .refl _
        · cases h
      · rename_i ld gs hc
        rw [hc] at key
        rcases key with ⟨h, -⟩ | ⟨h, n, h2⟩
        · cases h
        · simp only [Option.some.injEq] at h h2
          subst h h2
          unfold writeAll
          split
          · exact Ch.set (A := (· = comps p)) (Ch.set (A := (· = comps p)) (.refl _) _ _ rfl hp.good) _ _ rfl hp.good
          · exact .set (.refl _) _ _ rfl hp.good
    · exact .refl _

theorem chmod_ch (M : Nat) (mode : Nat) (hp : PathOk p) (ha : Above fs (comps p)) : Ch M (· = comps p) (fun _ => False) fs (fsChmod p mode fs).2 := by
  unfold fsChmod
  split
  · exact .refl _
  · split
    · exact .refl _
    · rename_i hns
      have base : ∀ l, resolve fs true p = some l → l = comps p := by
        intro l hl
        by_cases hk : isLink (fs.get (comps p)) = false
        · exact resolve_some fs true p hp.2 ha (Or.inr (Or.inr hk)) hl
        · exfalso
          have hk : isLink (fs.get (comps p)) = true := by simpa using hk
          have h1 := resolve_eq fs false p hp.2 ha (Or.inl rfl)
          unfold fsSymlinkExists lstat at hns
          by_cases hcond : isAbs p = true ∧ p.length < 4096 ∧ dirsTo fs [] (comps p) = true
          · rw [h1, if_pos hcond] at hns
            exact hns hk
          · unfold resolve at hl
            by_cases h2 : isAbs p = true
            · by_cases h3 : p.length < 4096
              · rw [if_neg (by simp [h2]; omega)] at hl
                have h4 : dirsTo fs [] (comps p) = false := by
                  cases h : dirsTo fs [] (comps p) with
                  | false => rfl
                  | true => exact absurd ⟨h2, h3, h⟩ hcond
                have := (scan_eq fs true (comps p) [] hp.2 (by
                  intro q _ h3 _ h5
                  exact ha q (by simpa using h3) (by simpa using h5))).1 h4
                simp only [namei, this] at hl
                cases hl
              · rw [if_pos (by right; omega)] at hl; cases hl
            · rw [if_pos (by simp [h2])] at hl; cases hl
      split
      · exact .refl _
      · rename_i l hl
        have := base l hl
        subst this
        split
        · exact .set (.refl _) _ _ rfl hp.good
        · exact .set (.refl _) _ _ rfl hp.good
        · exact .refl _
        · exact .refl _

theorem chmodOpt_ch (M : Nat) (mode : Option Nat) (hp : PathOk p) (ha : Above fs (comps p)) : Ch M (· = comps p) (fun _ => False) fs (chmodOpt p mode fs).2 := by
  cases mode with
  | none => exact .refl _
  | some m => exact chmod_ch M m hp ha

theorem fixFile_ch (M : Nat) (S : Sys) (hp : PathOk p) (ha : Above fs (comps p)) (hl : isLink (fs.get (comps p)) = false) : Ch M (· = comps p) (fun _ => False) fs (fixFile S p fs).2 := by
  unfold fixFile
  split
  · exact .refl _
  · rename_i l hr
    have := resolve_some fs true p hp.2 ha (Or.inr (Or.inr hl)) hr
    subst this
    split
    · exact .set (.refl _) _ _ rfl hp.good
    · exact .refl _

end

/-! ### Directories -/

theorem comps_take (s : Bytes) (i : Nat) (h : byteAt s i = 47) : comps (s.take i) <+: comps s := by
  have hi : i < s.length := by
    by_cases hh : i < s.length
    · exact hh
    · rw [byteAt_end s i (by omega)] at h; exact absurd h (by decide)
  have e : s = s.take i ++ 47 :: s.drop (i + 1) := by
    conv => lhs; rw [← List.take_append_drop i s]
    rw [List.drop_eq_getElem_cons hi]
    rw [byteAt_eq s i hi] at h
    rw [h]
  have := comps_append (s.take i) (s.drop (i + 1))
  rw [← e] at this
  rw [this]
  exact List.prefix_append _ _

theorem take_ok {s : Bytes} (hp : PathOk s) (i : Nat) (h : byteAt s i = 47) : PathOk (s.take i) :=
  ⟨fun hh => hp.1 (List.mem_of_mem_take hh), fun hh => hp.2 ((comps_take s i h).subset hh)⟩

theorem mkdirLoop_ch (S : Sys) (buf : Bytes) (hp : PathOk buf) (n : Nat) : ∀ (i : Nat) (fs : FS), Above fs (comps buf) →
    Ch (masked S.umask 0o755) (fun _ => False) (· <+: comps buf) fs (mkdirLoop S buf n i fs).2 := by
  induction n with
  | zero => intro i fs _; exact .refl _
  | succ n ih =>
    intro i fs ha
    rw [mkdirLoop]
    have h1 : Ch (masked S.umask 0o755) (fun _ => False) (· <+: comps buf) fs ((if byteAt buf i = 47 then ensureDir S (buf.take i) else Act.pass) fs).2 := by
      split
      · rename_i h
        have hpre := comps_take buf i h
        refine (ensureDir_ch S (take_ok hp i h) (ha.of_prefix hpre)).mono (fun _ h => h) ?_
        rintro _ rfl; exact hpre
      · exact .refl _
    exact seq_ch h1 fun _ => ih (i + 1) _ (ha.ch h1 fun _ _ _ h => h)

theorem mkdirP_ch (S : Sys) (p : Bytes) (hp : PathOk p) (fs : FS) (ha : Above fs (comps p)) : Ch (masked S.umask 0o755) (fun _ => False) (· <+: comps p) fs (mkdirP S p fs).2 := by
  have hc : comps (copy p) = comps p := normalize_comps p hp.1
  have hb : PathOk (copy p) := ⟨by unfold copy; rw [normalize_canon _ _ hp.1]; exact canon_no0 _ _ hp.1, by rw [hc]; exact hp.2⟩
  unfold mkdirP
  have h1 := mkdirLoop_ch S (copy p) hb ((copy p).length - 1) 1 fs (by rw [hc]; exact ha)
  rw [hc] at h1
  refine seq_ch h1 fun _ => ?_
  refine (ensureDir_ch S hp (ha.ch h1 fun _ _ _ h => h)).mono (fun _ h => h) ?_
  rintro _ rfl; exact List.prefix_refl _

/-! ### Copying directories -/

theorem prefix_snoc_ne {d q : List Bytes} {c c' : Bytes} (h : d ++ [c] <+: q) (h' : d ++ [c'] <+: q) : c = c' := by
  obtain ⟨x, rfl⟩ := h
  obtain ⟨y, hy⟩ := h'
  have : [c'] ++ y = [c] ++ x := by
    apply List.append_cancel_left (as := d)
    simpa using hy
  simp at this
  exact this.1.symm

/-- If what is done for each entry changes only what is below it, all changes are below the directory. -/
theorem each_ch {M : Nat} {cb : Bytes → Act} {d : List Bytes}
    (hcb : ∀ (c : Bytes) (fs : FS), Comp c ∧ c ≠ dotdot → Wf fs → Free fs (d ++ [c]) → Ch M (d ++ [c] <+: ·) (fun _ => False) fs (cb c fs).2) (l : List Bytes) :
    ∀ (fs : FS), l.Nodup → (∀ c ∈ l, Comp c ∧ c ≠ dotdot) → Wf fs → (∀ c ∈ l, Free fs (d ++ [c])) → Ch M (fun q => d <+: q ∧ q ≠ d) (fun _ => False) fs (eachName cb l fs).2 := by
  induction l with
  | nil => intro fs _ _ _ _; exact .refl _
  | cons c l ih =>
    intro fs hn hg hw hf
    obtain ⟨hc, hn⟩ := List.nodup_cons.1 hn
    have h1 := hcb c fs (hg c (by simp)) hw (hf c (by simp))
    rw [eachName]
    have hA : ∀ q, d ++ [c] <+: q → d <+: q ∧ q ≠ d := by
      intro q h
      refine ⟨(List.prefix_append _ _).trans h, ?_⟩
      rintro rfl
      have := h.length_le
      simp at this
      omega
    refine seq_ch (h1.mono hA (fun _ h => h)) fun _ => ?_
    refine ih _ hn (fun x hx => hg x (by simp [hx])) (h1.wf hw) ?_
    intro c' hc' q hq
    refine h1.noLink ?_ (hf c' (by simp [hc']) q hq)
    intro hh
    rcases hq with hq | hq
    · have h1 := hh.trans hq
      have : c = c' := prefix_snoc_ne h1 (List.prefix_refl _)
      subst this
      exact hc hc'
    · have := prefix_snoc_ne hh hq
      subst this
      exact hc hc'

theorem foreach_ch {M : Nat} {cb : Bytes → Act} {d : List Bytes} (src : Bytes)
    (hcb : ∀ (c : Bytes) (fs : FS), Comp c ∧ c ≠ dotdot → Wf fs → Free fs (d ++ [c]) → Ch M (d ++ [c] <+: ·) (fun _ => False) fs (cb c fs).2) (fs : FS) (hw : Wf fs) (hf : Free fs d) :
    Ch M (fun q => d <+: q ∧ q ≠ d) (fun _ => False) fs (dirForeach src cb fs).2 := by
  unfold dirForeach
  split
  · exact .refl _
  · split
    · rename_i l _ _
      refine each_ch hcb _ fs (names_nodup hw _) (names_good hw _) hw ?_
      intro c _ q hq
      refine hf q ?_
      rcases hq with hq | hq
      · rcases Nat.lt_or_ge d.length q.length with h | h
        · exact Or.inr (List.prefix_of_prefix_length_le (List.prefix_append d [c]) hq (Nat.le_of_lt h))
        · exact Or.inl (List.prefix_of_prefix_length_le hq (List.prefix_append d [c]) h)
      · exact Or.inr ((List.prefix_append _ _).trans hq)
    · exact .refl _

theorem Free.ch {fs gs : FS} {M : Nat} {A B : List Bytes → Prop} {d : List Bytes} (hf : Free fs d) (h : Ch M A B fs gs) (hA : ∀ q, q <+: d ∨ d <+: q → ¬ A q) : Free gs d :=
  fun q hq => h.noLink (hA q hq) (hf q hq)

theorem ensureDir_below (S : Sys) {fs : FS} {p : Bytes} (hp : PathOk p) (ha : Above fs (comps p)) : Ch (masked S.umask 0o755) (comps p <+: ·) (fun _ => False) fs (ensureDir S p fs).2 := by
  refine ((ensureDir_ch S hp ha).mono (A' := (comps p <+: ·)) (fun _ h => h.elim) (fun _ h => h)).absorb ?_
  rintro _ rfl; exact List.prefix_refl _

theorem copyDir_ch' (S : Sys) (n : Nat) : ∀ (src dest : Bytes) (fs : FS), PathOk dest → Wf fs → Free fs (comps dest) →
    Ch (masked S.umask 0o755) (fun q => comps dest <+: q ∧ q ≠ comps dest) (· = comps dest) fs (copyDir S n src dest fs).2 := by
  induction n with
  | zero => intro src dest fs _ _ _; exact .refl _
  | succ n ih =>
    intro src dest fs hp hw hf
    rw [copyDir]
    have h1 := ensureDir_ch S (fs := fs) hp hf.above
    refine seq_ch (h1.mono (fun _ h => h.elim) (fun _ h => h)) fun _ => ?_
    refine (foreach_ch src ?_ _ (h1.wf hw) (hf.ch h1 fun _ _ h => h)).mono (fun _ h => h) (fun _ h => h.elim)
    intro c gs hc hgw hgf
    obtain ⟨j1, j2⟩ := join_name hp hc
    rw [← j2] at hgf ⊢
    dsimp only
    split
    · have h2 := ensureDir_ch S (fs := gs) j1 hgf.above
      refine seq_ch (ensureDir_below S j1 hgf.above) fun _ => ?_
      refine ((ih _ _ _ j1 (h2.wf hgw) (hgf.ch h2 fun _ _ h => h)).mono (A' := (comps (join dest c) <+: ·)) (fun _ h => h.1) (fun _ h => h)).absorb ?_
      rintro _ rfl; exact List.prefix_refl _
    · refine (copyFile_ch _ S _ j1 hgf.above (hgf _ (Or.inl (List.prefix_refl _)))).mono ?_ (fun _ h => h)
      rintro _ rfl; exact List.prefix_refl _
    · exact .refl _

theorem copyDir_ch (S : Sys) (n : Nat) (src dest : Bytes) (fs : FS) (hp : PathOk dest) (hw : Wf fs) (hf : Free fs (comps dest)) :
    Ch (masked S.umask 0o755) (comps dest <+: ·) (fun _ => False) fs (copyDir S n src dest fs).2 := by
  refine ((copyDir_ch' S n src dest fs hp hw hf).mono (A' := (comps dest <+: ·)) (fun _ h => h.1) (fun _ h => h)).absorb ?_
  rintro _ rfl; exact List.prefix_refl _

/-- A file that is no link becomes no link. -/
theorem copyFile_noLink (S : Sys) (src : Bytes) {p : Bytes} {fs : FS} (hs : PathOk src) (hsf : Free fs (comps src)) (hp : PathOk p) (ha : Above fs (comps p)) (hl : isLink (fs.get (comps p)) = false) :
    isLink ((fsCopyFile S src p fs).2.get (comps p)) = false := by
  unfold fsCopyFile
  split
  · exact hl
  · rename_i ls hls
    have := resolve_some fs false src hs.2 hsf.above (Or.inl rfl) hls
    subst this
    have hnl := hsf _ (Or.inl (List.prefix_refl _))
    split
    · rename_i t ht; rw [ht] at hnl; simp [isLink] at hnl
    · rename_i c m _
      have key : (sysCreate S p m fs).1 = none ∧ (sysCreate S p m fs).2 = fs ∨ (sysCreate S p m fs).1 = some (comps p) ∧ ∃ c n, (sysCreate S p m fs).2 = fs.set (comps p) (.file c n) := by
        unfold sysCreate
        split
        · exact Or.inl ⟨rfl, rfl⟩
        · rename_i l hr
          have := resolve_some fs true p hp.2 ha (Or.inr (Or.inr hl)) hr
          subst this
          split
          · exact Or.inr ⟨rfl, _, _, rfl⟩
          · exact Or.inr ⟨rfl, _, _, rfl⟩
          · exact Or.inl ⟨rfl, rfl⟩
      split
      · rename_i gs hc
        rw [hc] at key
        rcases key with ⟨-, h⟩ | ⟨h, -⟩
        · simp only at h; rw [h]; exact hl
        · cases h
      · rename_i ld gs hc
        rw [hc] at key
        rcases key with ⟨h, -⟩ | ⟨h, c, n, h2⟩
        · cases h
        · simp only [Option.some.injEq] at h h2
          subst h h2
          unfold writeAll
          split
          · rw [get_set, if_pos rfl]; rfl
          · rw [get_set, if_pos rfl]; rfl
    · exact hl

theorem copySub_ch (S : Sys) (X : Sub) (n : Nat) : ∀ (src dest : Bytes) (fs : FS), PathOk dest → Wf fs → Free fs (comps dest) →
    Ch (masked S.umask 0o755) (comps dest <+: ·) (fun _ => False) fs (copySub S X n src dest fs).2 := by
  induction n with
  | zero => intro src dest fs _ _ _; exact .refl _
  | succ n ih =>
    intro src dest fs hp hw hf
    rw [copySub]
    have strict : ∀ q, q <+: comps dest → q ≠ comps dest → ¬ comps dest <+: q := by
      intro q h1 h2 h3
      exact h2 (h1.eq_of_length (Nat.le_antisymm h1.length_le h3.length_le))
    dsimp only
    split
    · by_cases hdir : fsDirExists fs src = true
      · rw [if_pos hdir]
        split
        · exact .refl _
        · have h1 := ensureDir_ch S (fs := fs) hp hf.above
          have h2 : Ch (masked S.umask 0o755) (comps dest <+: ·) (fun _ => False) fs (((ensureDir S dest).seq (dirForeach src fun c => copySub S X n (join src c) (join dest c))) fs).2 := by
            refine seq_ch (ensureDir_below S hp hf.above) fun _ => ?_
            refine (foreach_ch src ?_ _ (h1.wf hw) (hf.ch h1 fun _ _ h => h)).mono (fun _ h => h.1) (fun _ h => h)
            intro c gs hc hgw hgf
            obtain ⟨j1, j2⟩ := join_name hp hc
            rw [← j2] at hgf ⊢
            exact ih _ _ gs j1 hgw hgf
          refine seq_ch h2 fun _ => ?_
          refine (chmodOpt_ch _ X.perm hp (hf.above.ch h2 strict)).mono ?_ (fun _ h => h)
          rintro _ rfl; exact List.prefix_refl _
      · rw [if_neg hdir]
        by_cases hfile : (fsSymlinkExists fs src || fsFileExists fs src) = true
        · rw [if_pos hfile]
          split
          · exact .refl _
          · have h1 := (copyFile_ch (masked S.umask 0o755) S src hp hf.above (hf _ (Or.inl (List.prefix_refl _)))).mono (A' := (comps dest <+: ·)) (B' := fun _ => False)
              (by rintro _ rfl; exact List.prefix_refl _) (fun _ h => h)
            refine seq_ch h1 fun _ => ?_
            refine (chmodOpt_ch _ X.perm hp (hf.above.ch h1 strict)).mono ?_ (fun _ h => h)
            rintro _ rfl; exact List.prefix_refl _
        · rw [if_neg hfile]; exact .refl _
    · exact .refl _

/-! ### One target -/

theorem dirname_ok {p : Bytes} (hp : PathOk p) (hne : p ≠ []) : PathOk (dirname p) ∧ comps (dirname p) = (comps p).dropLast := by
  have hg : ∀ c ∈ (comps p).dropLast, Comp c := fun c hc => comps_good p hp.1 c (List.dropLast_subset _ hc)
  rw [dirname_spec p hp.1 hne]
  have hc := render_comps (isAbs p) _ hg
  refine ⟨⟨render_no0 _ _ hg, ?_⟩, hc⟩
  rw [hc]
  exact fun h => hp.2 (List.dropLast_subset _ h)

theorem inParent_ch (S : Sys) (dest : Bytes) (act : Act) (fs : FS) (hp : PathOk dest) (hne : dest ≠ []) (ha : Above fs (comps dest))
    (hact : ∀ gs, Ch (masked S.umask 0o755) (fun _ => False) (· <+: (comps dest).dropLast) fs gs → Ch (masked S.umask 0o755) (comps dest <+: ·) (· <+: comps dest) gs (act gs).2) :
    Ch (masked S.umask 0o755) (comps dest <+: ·) (· <+: comps dest) fs (inParent S dest act fs).2 := by
  unfold inParent
  split
  · exact .refl _
  · obtain ⟨d1, d2⟩ := dirname_ok hp hne
    have hpre : (comps dest).dropLast <+: comps dest := List.dropLast_prefix _
    have h1 := mkdirP_ch S (dirname dest) d1 fs (by rw [d2]; exact ha.of_prefix hpre)
    rw [d2] at h1
    refine seq_ch (h1.mono (fun _ h => h.elim) (fun _ h => h.trans hpre)) fun _ => hact _ h1

/-- All changes made for a target are at its destination or below, other than the directories on the way to it. -/
theorem target_ch (S : Sys) (t : Target) (dest : Bytes) (fs : FS) (hp : PathOk dest) (hne : dest ≠ []) (hw : Wf fs) (hf : Free fs (comps dest) ∨ t.kind = .symlink ∧ Above fs (comps dest))
    (hb : t.kind = .default → t.build = true → PathOk t.src ∧ Free fs (comps t.src)) :
    Ch (masked S.umask 0o755) (comps dest <+: ·) (· <+: comps dest) fs (installTarget S t dest fs).2 := by
  have ha : Above fs (comps dest) := by
    rcases hf with h | h
    · exact h.above
    · exact h.2
  have strict : ∀ q, q <+: comps dest → q ≠ comps dest → ¬ comps dest <+: q := by
    intro q h1 h2 h3
    exact h2 (h1.eq_of_length (Nat.le_antisymm h1.length_le h3.length_le))
  have own : ∀ q, q = comps dest → comps dest <+: q := by rintro _ rfl; exact List.prefix_refl _
  unfold installTarget
  have hbody : Ch (masked S.umask 0o755) (comps dest <+: ·) (· <+: comps dest) fs (installBody S t dest fs).2 := by
    unfold installBody
    cases hk : t.kind with
    | default =>
      dsimp only
      have hf : Free fs (comps dest) := by
        rcases hf with h | h
        · exact h
        · exact absurd (hk.symm.trans h.1) (by simp)
      refine inParent_ch S dest _ fs hp hne ha ?_
      intro gs hgs
      have hgf : Free gs (comps dest) := hf.ch hgs fun _ _ h => h
      have hgw := hgs.wf hw
      have hcopy : Ch (masked S.umask 0o755) (comps dest <+: ·) (fun _ => False) gs (copyAny S t.src dest gs).2 := by
        unfold copyAny
        split
        · exact copyDir_ch S _ _ _ _ hp hgw hgf
        · exact (copyFile_ch _ S _ hp hgf.above (hgf _ (Or.inl (List.prefix_refl _)))).mono own (fun _ h => h)
      refine (seq_ch hcopy fun hok => ?_).mono (fun _ h => h) (fun _ h => h.elim)
      split
      · rename_i hbt
        obtain ⟨b1, b2⟩ := hb hk hbt
        have b2 : Free gs (comps t.src) := b2.ch hgs fun _ _ h => h
        refine (fixFile_ch _ S hp (hgf.above.ch hcopy strict) ?_).mono own (fun _ h => h)
        unfold copyAny
        split
        · exact (copyDir_ch' S _ _ _ _ hp hgw hgf).noLink (fun h => h.2 rfl) (hgf _ (Or.inl (List.prefix_refl _)))
        · exact copyFile_noLink S _ b1 b2 hp hgf.above (hgf _ (Or.inl (List.prefix_refl _)))
      · exact .refl _
    | symlink =>
      refine inParent_ch S dest _ fs hp hne ha ?_
      intro gs hgs
      exact (makeSymlink_ch _ _ hp (ha.ch hgs fun _ _ _ h => h)).mono own (fun _ h => h.elim)
    | subdir =>
      have hf : Free fs (comps dest) := by
        rcases hf with h | h
        · exact h
        · exact absurd (hk.symm.trans h.1) (by simp)
      have h1 := mkdirP_ch S dest hp fs ha
      refine seq_ch (h1.mono (fun _ h => h.elim) (fun _ h => h)) fun _ => ?_
      refine (foreach_ch t.src ?_ _ (h1.wf hw) (hf.ch h1 fun _ _ h => h)).mono (fun _ h => h.1) (fun _ h => h.elim)
      intro c gs hc hgw hgf
      obtain ⟨j1, j2⟩ := join_name hp hc
      rw [← j2] at hgf ⊢
      exact copySub_ch S _ _ _ _ gs j1 hgw hgf
    | emptydir => exact (mkdirP_ch S dest hp fs ha).mono (fun _ h => h.elim) (fun _ h => h)
  refine seq_ch hbody fun _ => ?_
  exact (chmodOpt_ch _ t.perm hp (ha.ch hbody strict)).mono own (fun _ h => h.elim)

end Muon.Install
