import Verif.Install.RunFrame
/-
C90: when installing succeeds, and what is there then.
-/
namespace Muon.Install
open Muon Path Path.Spec

/-! ### Paths -/

/-- The length of the components with their slashes. -/
def lens : List Bytes → Nat
  | [] => 0
  | c :: l => c.length + 1 + lens l

theorem lens_filter (f : Bytes → Bool) (l : List Bytes) : lens (l.filter f) ≤ lens l := by
  induction l with
  | nil => exact Nat.le_refl _
  | cons c l ih =>
    rw [List.filter_cons]
    split
    · simp only [lens]; omega
    · simp only [lens]; omega

theorem lens_append (a b : List Bytes) : lens (a ++ b) = lens a + lens b := by
  induction a with
  | nil => simp [lens]
  | cons c a ih => simp only [List.cons_append, lens, ih]; omega

theorem lens_pieces (s : Bytes) : lens (pieces s) = s.length + 1 := by
  have h : ∀ n (s : Bytes), s.length = n → lens (pieces s) = s.length + 1 := by
    intro n
    induction n using Nat.strongRecOn with
    | _ n ih =>
      intro s hs
      rcases rest_cases s with h | ⟨x, r, rfl, hx⟩
      · rw [pieces_noSlash s h]; simp [lens]
      · rw [pieces_slash x r hx, lens, ih r.length (by simp at hs; omega) r rfl]
        simp; omega
  exact h _ s rfl

theorem lens_comps (s : Bytes) (h : isAbs s = true) : lens (comps s) ≤ s.length := by
  cases s with
  | nil => simp [isAbs] at h
  | cons x r =>
    have : x = 47 := by simpa [isAbs] using h
    subst this
    rw [comps_slash]
    unfold comps
    have h1 := lens_filter (fun p => p ≠ [] && p ≠ [46]) (pieces r)
    rw [lens_pieces] at h1
    simpa using h1

theorem sepJoin_length (cs : List Bytes) (h : cs ≠ []) : (sepJoin cs).length + 1 = lens cs := by
  induction cs with
  | nil => exact absurd rfl h
  | cons c cs ih =>
    cases cs with
    | nil => simp [sepJoin, lens]
    | cons d cs =>
      have := ih (by simp)
      simp only [sepJoin, lens, List.length_append, List.length_cons, List.length_nil] at this ⊢
      omega

theorem render_length (cs : List Bytes) : (render true cs).length = max 1 (lens cs) := by
  cases cs with
  | nil => simp [render, sepJoin, lens]
  | cons c cs =>
    have := sepJoin_length (c :: cs) (by simp)
    have h : (render true (c :: cs)).length = (sepJoin (c :: cs)).length + 1 := by
      simp [render]
    rw [h, this]
    simp only [lens]
    omega

theorem lens_prefix {a b : List Bytes} (h : a <+: b) : lens a ≤ lens b := by
  obtain ⟨x, rfl⟩ := h
  rw [lens_append]; omega

/-- An absolute path that is not too long, without NUL and `..`. -/
def Valid (p : Bytes) : Prop := PathOk p ∧ isAbs p = true ∧ p.length < 4096

theorem Valid.ne {p : Bytes} (h : Valid p) : p ≠ [] := by
  rintro rfl
  exact absurd h.2.1 (by decide)

theorem Valid.render {cs : List Bytes} (h : Good cs) (hl : lens cs < 4096) : Valid (render true cs) ∧ comps (Spec.render true cs) = cs := by
  have hc : ∀ c ∈ cs, Comp c := fun c hc => (h c hc).1
  have e := render_comps true cs hc
  refine ⟨⟨⟨render_no0 _ _ hc, ?_⟩, render_isAbs _ _ hc, ?_⟩, e⟩
  · rw [e]; exact fun hh => (h _ hh).2 rfl
  · rw [render_length]; omega

theorem Valid.dirname {p : Bytes} (h : Valid p) : Valid (dirname p) ∧ comps (Path.dirname p) = (comps p).dropLast := by
  obtain ⟨d1, d2⟩ := dirname_ok h.1 h.ne
  refine ⟨⟨d1, ?_, ?_⟩, d2⟩
  · rw [dirname_spec p h.1.1 h.ne, h.2.1]
    exact render_isAbs _ _ fun c hc => comps_good p h.1.1 c (List.dropLast_subset _ hc)
  · rw [dirname_spec p h.1.1 h.ne, h.2.1, render_length]
    have := lens_prefix (List.dropLast_prefix (comps p))
    have := lens_comps p h.2.1
    have := h.2.2
    omega

theorem Valid.copy {p : Bytes} (h : Valid p) : Valid (copy p) ∧ comps (Path.copy p) = comps p := by
  have hc : comps (Path.copy p) = comps p := normalize_comps p h.1.1
  refine ⟨⟨⟨?_, by rw [hc]; exact h.1.2⟩, ?_, ?_⟩, hc⟩
  · unfold Path.copy; rw [normalize_canon _ _ h.1.1]; exact canon_no0 _ _ h.1.1
  · unfold Path.copy; rw [normalize_isAbs _ _ h.1.1]; exact h.2.1
  · unfold Path.copy
    rw [normalize_canon _ _ h.1.1]
    unfold canon
    have := lens_comps p h.2.1
    have := h.2.2
    simp only [Bool.false_eq_true, if_false, h.2.1]
    split
    · simp
    · rw [render_length]; omega

/-! ### Directories on the way -/

theorem dirsTo_of (fs : FS) (d : List Bytes) : ∀ (cur : List Bytes), (∀ q, cur <+: q → q <+: cur ++ d → q ≠ cur ++ d → isDir (fs.get q) = true) → dirsTo fs cur d = true := by
  induction d with
  | nil => intro cur _; rfl
  | cons c d ih =>
    intro cur h
    have e : cur ++ [c] ++ d = cur ++ c :: d := by simp
    rw [dirsTo, h cur (List.prefix_refl _) (List.prefix_append _ _) (by simp), Bool.true_and]
    refine ih (cur ++ [c]) ?_
    intro q h1 h2 h3
    rw [e] at h2 h3
    exact h q ((List.prefix_append _ _).trans h1) h2 h3

/-- All directories above a location are there. -/
def Ready (fs : FS) (d : List Bytes) : Prop := ∀ q, q <+: d → q ≠ d → isDir (fs.get q) = true

theorem Ready.above {fs : FS} {d : List Bytes} (h : Ready fs d) : Above fs d := by
  intro q h1 h2
  have := h q h1 h2
  cases hq : fs.get q with
  | none => rfl
  | some n => cases n <;> simp_all [isDir, isLink]

theorem resolve_ready {fs : FS} {p : Bytes} (hv : Valid p) (hr : Ready fs (comps p)) (follow : Bool) (hl : follow = false ∨ isLink (fs.get (comps p)) = false) : resolve fs follow p = some (comps p) := by
  rw [resolve_eq fs follow p hv.1.2 hr.above (by rcases hl with h | h; exact Or.inl h; exact Or.inr (Or.inr h)), if_pos]
  refine ⟨hv.2.1, hv.2.2, dirsTo_of fs _ [] ?_⟩
  intro q _ h2 h3
  exact hr q (by simpa using h2) (by simpa using h3)

theorem notLink_of_dir {n : Option Node} (h : isDir n = true) : isLink n = false := by
  cases n with
  | none => rfl
  | some n => cases n <;> simp_all [isDir, isLink]

theorem notLink_of {n : Option Node} (h : n = none ∨ isDir n = true) : isLink n = false := by
  rcases h with rfl | h
  · rfl
  · exact notLink_of_dir h

theorem ensureDir_ok (S : Sys) {fs : FS} {p : Bytes} (hv : Valid p) (hr : Ready fs (comps p)) (hn : fs.get (comps p) = none ∨ isDir (fs.get (comps p)) = true) :
    ensureDir S p fs = (true, if fs.get (comps p) = none then fs.set (comps p) (.dir (masked S.umask 0o755)) else fs) := by
  unfold ensureDir fsDirExists stat
  rw [resolve_ready hv hr true (Or.inr (notLink_of hn))]
  simp only [Option.bind_some]
  rcases hn with h | h
  · rw [if_neg (by simp [h, isDir]), if_pos h]
    unfold fsMkdir
    rw [resolve_ready hv hr false (Or.inl rfl)]
    simp [h]
  · rw [if_pos h, if_neg]
    intro hh; rw [hh] at h; simp [isDir] at h

/-- Every location above that of a path is that of a part of the path. -/
theorem prefix_take (s : Bytes) : ∀ n, s.length = n → ∀ q, q <+: comps s → q ≠ comps s → q ≠ [] → ∃ j, 1 ≤ j ∧ j < s.length ∧ byteAt s j = 47 ∧ comps (s.take j) = q := by
  intro n
  induction n using Nat.strongRecOn generalizing s with
  | _ n ih =>
    intro hs q h1 h2 h3
    by_cases hsl : 47 ∈ s
    · -- the last slash
      obtain ⟨x, y, rfl, hy⟩ : ∃ x y : Bytes, s = x ++ 47 :: y ∧ 47 ∉ y := by
        clear ih hs h1 h2
        induction s with
        | nil => simp at hsl
        | cons a s ihs =>
          by_cases h : 47 ∈ s
          · obtain ⟨x, y, rfl, hy⟩ := ihs h
            exact ⟨a :: x, y, rfl, hy⟩
          · simp only [List.mem_cons, h, or_false] at hsl
            subst hsl
            exact ⟨[], s, rfl, h⟩
      rw [comps_append] at h1 h2
      by_cases hq : q <+: comps x
      · by_cases hqx : q = comps x
        · subst hqx
          refine ⟨x.length, ?_, by simp, ?_, by simp⟩
          · cases x with
            | nil => exact absurd rfl h3
            | cons a x => simp
          · exact byteAt_append x (47 :: y) 0
        · obtain ⟨j, j1, j2, j3, j4⟩ := ih x.length (by simp at hs; omega) x rfl q hq hqx h3
          refine ⟨j, j1, by simp; omega, ?_, ?_⟩
          · rw [byteAt_append_left x _ j j2]; exact j3
          · rw [List.take_append_of_le_length (by omega)]; exact j4
      · exfalso
        have hlen : (comps y).length ≤ 1 := by
          unfold comps
          rw [pieces_noSlash y hy]
          exact Nat.le_trans (List.length_filter_le _ _) (by simp)
        have h4 : (comps x).length < q.length := by
          rcases Nat.lt_or_ge (comps x).length q.length with h | h
          · exact h
          · exact absurd (List.prefix_of_prefix_length_le h1 (List.prefix_append _ _) h) hq
        have h5 := h1.length_le
        rw [List.length_append] at h5
        exact h2 (h1.eq_of_length (by rw [List.length_append]; omega))
    · exfalso
      have hlen : (comps s).length ≤ 1 := by
        unfold comps
        rw [pieces_noSlash s hsl]
        exact Nat.le_trans (List.length_filter_le _ _) (by simp)
      have h4 := h1.length_le
      have h5 : q.length ≠ 0 := by simpa using h3
      exact h2 (h1.eq_of_length (by omega))

/-- What `fs_mkdir_p` leaves: directories were made where nothing was on the way. -/
def addDirs (m : Nat) (d : List Bytes) (fs gs : FS) : Prop :=
  ∀ q, gs.get q = if q <+: d ∧ fs.get q = none then some (.dir m) else fs.get q

theorem mkdirLoop_ok (S : Sys) (buf : Bytes) (hv : Valid buf) (n : Nat) : ∀ (i : Nat) (fs : FS), 1 ≤ i → i + n = buf.length → isDir (fs.get []) = true →
    (∀ q, q <+: comps buf → fs.get q = none ∨ isDir (fs.get q) = true) → (∀ j, 1 ≤ j → j < i → byteAt buf j = 47 → isDir (fs.get (comps (buf.take j))) = true) →
    (mkdirLoop S buf n i fs).1 = true ∧ ∀ j, 1 ≤ j → j < buf.length → byteAt buf j = 47 → isDir ((mkdirLoop S buf n i fs).2.get (comps (buf.take j))) = true := by
  induction n with
  | zero =>
    intro i fs hi hl _ _ hd
    exact ⟨rfl, fun j h1 h2 h3 => hd j h1 (by omega) h3⟩
  | succ n ih =>
    intro i fs hi hl hroot hok hd
    rw [mkdirLoop]
    by_cases h47 : byteAt buf i = 47
    · simp only [if_pos h47, Act.seq]
      have hpre := comps_take buf i h47
      have hvi : Valid (buf.take i) := by
        refine ⟨take_ok hv.1 i h47, ?_, ?_⟩
        · have := hv.2.1
          cases buf with
          | nil => simp [isAbs] at this
          | cons x r =>
            obtain ⟨k, rfl⟩ : ∃ k, i = k + 1 := ⟨i - 1, by omega⟩
            simpa [isAbs] using this
        · have := hv.2.2
          rw [List.length_take]; omega
      have hready : Ready fs (comps (buf.take i)) := by
        intro q h1 h2
        by_cases hq : q = []
        · subst hq; exact hroot
        · obtain ⟨j, j1, j2, j3, j4⟩ := prefix_take (buf.take i) _ rfl q h1 h2 hq
          rw [List.length_take] at j2
          have e1 : (buf.take i).take j = buf.take j := by rw [List.take_take, Nat.min_eq_left (by omega)]
          have e2 : byteAt (buf.take i) j = byteAt buf j := by
            conv => rhs; rw [← List.take_append_drop i buf]
            rw [byteAt_append_left _ _ _ (by rw [List.length_take]; omega)]
          rw [e1] at j4
          rw [e2] at j3
          rw [← j4]
          exact hd j j1 (by omega) j3
      have he := ensureDir_ok S hvi hready (hok _ hpre)
      rw [he]
      simp only [if_true]
      have hget : ∀ q, q <+: comps buf → isDir (fs.get q) = true → isDir ((if fs.get (comps (buf.take i)) = none then fs.set (comps (buf.take i)) (.dir (masked S.umask 0o755)) else fs).get q) = true := by
        intro q _ h2
        split
        · rw [get_set]
          split
          · rfl
          · exact h2
        · exact h2
      have hnew : isDir ((if fs.get (comps (buf.take i)) = none then fs.set (comps (buf.take i)) (.dir (masked S.umask 0o755)) else fs).get (comps (buf.take i))) = true := by
        split
        · rw [get_set, if_pos rfl]; rfl
        · rename_i h
          rcases hok _ hpre with h' | h'
          · exact absurd h' h
          · exact h'
      refine ih (i + 1) _ (by omega) (by omega) (hget _ (List.nil_prefix) hroot) ?_ ?_
      · intro q hq
        rcases hok q hq with h | h
        · split
          · rw [get_set]
            split
            · exact Or.inr rfl
            · exact Or.inl h
          · exact Or.inl h
        · exact Or.inr (hget q hq h)
      · intro j j1 j2 j3
        by_cases hj : j = i
        · subst hj; exact hnew
        · exact hget _ (comps_take buf j j3) (hd j j1 (by omega) j3)
    · simp only [if_neg h47, Act.seq, Act.pass, if_true]
      refine ih (i + 1) fs (by omega) (by omega) hroot hok ?_
      intro j j1 j2 j3
      by_cases hj : j = i
      · subst hj; exact absurd j3 h47
      · exact hd j j1 (by omega) j3

theorem mkdirP_ok (S : Sys) {p : Bytes} (hv : Valid p) {fs : FS} (hroot : isDir (fs.get []) = true) (hok : ∀ q, q <+: comps p → fs.get q = none ∨ isDir (fs.get q) = true) :
    (mkdirP S p fs).1 = true ∧ addDirs (masked S.umask 0o755) (comps p) fs (mkdirP S p fs).2 := by
  obtain ⟨v1, v2⟩ := hv.copy
  have hlen : 1 + ((copy p).length - 1) = (copy p).length := by
    have := List.length_pos_iff.2 v1.ne
    omega
  have habove : Above fs (comps p) := fun q h1 _ => notLink_of (hok q h1)
  obtain ⟨m1, m2⟩ := mkdirLoop_ok S (copy p) v1 ((copy p).length - 1) 1 fs (Nat.le_refl _) hlen hroot (by rw [v2]; exact hok) (fun j h1 h2 => by omega)
  have hch := mkdirLoop_ch S (copy p) v1.1 ((copy p).length - 1) 1 fs (by rw [v2]; exact habove)
  rw [v2] at hch
  unfold mkdirP
  simp only [Act.seq, m1, if_true]
  generalize hg : (mkdirLoop S (copy p) ((copy p).length - 1) 1 fs).2 = gs at m2 hch
  have hready : Ready gs (comps p) := by
    intro q h1 h2
    by_cases hq : q = []
    · subst hq
      rcases hch.made (q := []) (fun h => h) with h | h
      · rw [h]; exact hroot
      · rw [h.1] at hroot; simp [isDir] at hroot
    · rw [← v2] at h1 h2
      obtain ⟨j, j1, j2, j3, j4⟩ := prefix_take (copy p) _ rfl q h1 h2 hq
      rw [← j4]
      exact m2 j j1 j2 j3
  have hok' : ∀ q, q <+: comps p → gs.get q = none ∨ isDir (gs.get q) = true := by
    intro q hq
    rcases hch.made (q := q) (fun h => h) with h | h
    · rw [h]; exact hok q hq
    · rw [h.2]; exact Or.inr rfl
  rw [ensureDir_ok S hv hready (hok' _ (List.prefix_refl _))]
  refine ⟨rfl, ?_⟩
  intro q
  have hdir : q <+: comps p → isDir ((if gs.get (comps p) = none then gs.set (comps p) (.dir (masked S.umask 0o755)) else gs).get q) = true := by
    intro hq
    by_cases hqe : q = comps p
    · subst hqe
      split
      · rw [get_set, if_pos rfl]; rfl
      · rename_i h
        exact (hok' _ (List.prefix_refl _)).resolve_left h
    · split
      · rw [get_set, if_neg hqe]; exact hready q hq hqe
      · exact hready q hq hqe
  have hch2 : Ch (masked S.umask 0o755) (fun _ => False) (· <+: comps p) fs (if gs.get (comps p) = none then gs.set (comps p) (.dir (masked S.umask 0o755)) else gs) := by
    split
    · rename_i h; exact .mk hch _ (List.prefix_refl _) hv.1.good h
    · exact hch
  show FS.get (if gs.get (comps p) = none then gs.set (comps p) (.dir (masked S.umask 0o755)) else gs) q = _
  generalize (if gs.get (comps p) = none then gs.set (comps p) (.dir (masked S.umask 0o755)) else gs) = ks at hdir hch2
  by_cases hq : q <+: comps p
  · rcases hch2.made (q := q) (fun h => h) with h | h
    · by_cases hn : fs.get q = none
      · have := hdir hq
        rw [h, hn] at this
        simp [isDir] at this
      · rw [if_neg (fun hh => hn hh.2)]; exact h
    · rw [if_pos ⟨hq, h.1⟩]; exact h.2
  · rw [if_neg (fun hh => hq hh.1)]
    exact hch2.keep (fun h => h) hq

/-! ### Sources stay -/

/-- Everything that was there still is. -/
def Extends (fs gs : FS) : Prop := ∀ q, fs.get q ≠ none → gs.get q = fs.get q

theorem addDirs.extends {m : Nat} {d : List Bytes} {fs gs : FS} (h : addDirs m d fs gs) : Extends fs gs := by
  intro q hq
  rw [h q, if_neg (fun hh => hq hh.2)]

theorem scan_ext {fs gs : FS} (he : Extends fs gs) (follow : Bool) (todo : List Bytes) : ∀ cur, (∀ l, scan fs follow cur todo = .done (some l) → fs.get l ≠ none → scan gs follow cur todo = .done (some l)) ∧
    (∀ c t, scan fs follow cur todo = .again c t → scan gs follow cur todo = .again c t) := by
  induction todo with
  | nil => intro cur; exact ⟨fun l h _ => h, fun c t h => h⟩
  | cons c rest ih =>
    intro cur
    rw [scan, scan]
    by_cases hd : isDir (fs.get cur) = true
    · have hg : gs.get cur = fs.get cur := he cur (by intro h; rw [h] at hd; simp [isDir] at hd)
      rw [hg, hd]
      simp only [Bool.not_true, Bool.false_eq_true, if_false]
      by_cases hc : c = dotdot
      · simp only [if_pos hc]; exact ih _
      · simp only [if_neg hc]
        by_cases hn : fs.get (cur ++ [c]) = none
        · rw [hn]
          dsimp only
          cases rest with
          | nil =>
            refine ⟨?_, fun c t h => by simp [scan] at h⟩
            intro l hl hne
            simp only [scan, Walk.done.injEq, Option.some.injEq] at hl
            subst hl
            exact absurd hn hne
          | cons e rest =>
            rw [scan]
            simp only [hn, isDir, Bool.not_false, if_true]
            exact ⟨fun l h => by simp at h, fun c t h => by simp at h⟩
        · rw [he _ hn]
          split
          · exact ⟨fun l h _ => h, fun c t h => h⟩
          · exact ih _
    · have hd : isDir (fs.get cur) = false := by simpa using hd
      rw [hd]
      simp only [Bool.not_false, if_true]
      exact ⟨fun l h => by simp at h, fun c t h => by simp at h⟩

theorem namei_ext {fs gs : FS} (he : Extends fs gs) (follow : Bool) (n : Nat) : ∀ cur todo l, namei fs follow n cur todo = some l → fs.get l ≠ none → namei gs follow n cur todo = some l := by
  induction n with
  | zero =>
    intro cur todo l h hl
    obtain ⟨s1, s2⟩ := scan_ext he follow todo cur
    simp only [namei] at h ⊢
    cases hs : scan fs follow cur todo with
    | done r =>
      rw [hs] at h
      simp only at h
      subst h
      rw [s1 l hs hl]
    | again c t => rw [hs] at h; cases h
  | succ n ih =>
    intro cur todo l h hl
    obtain ⟨s1, s2⟩ := scan_ext he follow todo cur
    simp only [namei] at h ⊢
    cases hs : scan fs follow cur todo with
    | done r =>
      rw [hs] at h
      simp only at h
      subst h
      rw [s1 l hs hl]
    | again c t =>
      rw [hs] at h
      rw [s2 c t hs]
      exact ih _ _ _ h hl

theorem resolve_ext {fs gs : FS} (he : Extends fs gs) {follow : Bool} {p : Bytes} {l : List Bytes} (h : resolve fs follow p = some l) (hl : fs.get l ≠ none) : resolve gs follow p = some l := by
  unfold resolve at h ⊢
  split at h
  · cases h
  · rename_i hc
    rw [if_neg hc]
    exact namei_ext he _ _ _ _ _ h hl

/-- A path to a file that is no link names the same file whether links are followed or not. -/
theorem scan_file {fs : FS} (todo : List Bytes) : ∀ cur, (∀ l, scan fs false cur todo = .done (some l) → isLink (fs.get l) = false → scan fs true cur todo = .done (some l)) ∧
    (∀ c t, scan fs false cur todo = .again c t → scan fs true cur todo = .again c t) := by
  induction todo with
  | nil => intro cur; exact ⟨fun l h _ => h, fun c t h => h⟩
  | cons c rest ih =>
    intro cur
    rw [scan, scan]
    by_cases hd : (!isDir (fs.get cur)) = true
    · simp only [if_pos hd]
      exact ⟨fun l h => by simp at h, fun c t h => by simp at h⟩
    · simp only [if_neg hd]
      by_cases hc : c = dotdot
      · simp only [if_pos hc]; exact ih _
      · simp only [if_neg hc]
        split
        · rename_i t ht
          by_cases hr : rest = []
          · subst hr
            simp only [Bool.not_false, and_self, if_true]
            refine ⟨?_, fun c t h => by simp at h⟩
            intro l hl hk
            simp only [Walk.done.injEq, Option.some.injEq] at hl
            subst hl
            rw [ht] at hk; simp [isLink] at hk
          · simp only [hr, false_and, if_false]
            exact ⟨fun l h => by simp at h, fun c t h => h⟩
        · exact ih _

theorem resolve_file {fs : FS} {p : Bytes} {l : List Bytes} (h : resolve fs false p = some l) (hl : isLink (fs.get l) = false) : resolve fs true p = some l := by
  unfold resolve at h ⊢
  split at h
  · cases h
  · rename_i hc
    rw [if_neg hc]
    have key : ∀ n cur todo, namei fs false n cur todo = some l → namei fs true n cur todo = some l := by
      intro n
      induction n with
      | zero =>
        intro cur todo h
        obtain ⟨s1, s2⟩ := scan_file (fs := fs) todo cur
        simp only [namei] at h ⊢
        cases hs : scan fs false cur todo with
        | done r =>
          rw [hs] at h
          simp only at h
          subst h
          rw [s1 l hs hl]
        | again c t => rw [hs] at h; cases h
      | succ n ih =>
        intro cur todo h
        obtain ⟨s1, s2⟩ := scan_file (fs := fs) todo cur
        simp only [namei] at h ⊢
        cases hs : scan fs false cur todo with
        | done r =>
          rw [hs] at h
          simp only at h
          subst h
          rw [s1 l hs hl]
        | again c t =>
          rw [hs] at h
          rw [s2 c t hs]
          exact ih _ _ h
    exact key _ _ _ h

end Muon.Install
