import Verif.Install.RunOk
/-
C90: installing single files, links and directories.
-/
namespace Muon.Install
open Muon Path Path.Spec

/-- The mode of a copy: that of the file that was there, or the mode of the source without the bits of the umask. -/
def newMode (um : Nat) (old : Option Node) (m : Nat) : Nat := match old with
  | some (.file _ k) => k
  | _ => masked um m

theorem notLink_of_file {n : Option Node} (h : isFile n = true) : isLink n = false := by
  cases n with
  | none => rfl
  | some n => cases n <;> simp_all [isFile, isLink]

theorem copyFile_ok (S : Sys) {fs : FS} {src dest : Bytes} {ls : List Bytes} {c : Bytes} {m : Nat} (hs : resolve fs false src = some ls) (hsf : fs.get ls = some (.file c m)) (hv : Valid dest)
    (hr : Ready fs (comps dest)) (hne : ls ≠ comps dest) (hd : fs.get (comps dest) = none ∨ isFile (fs.get (comps dest)) = true) :
    ∃ gs, fsCopyFile S src dest fs = (true, gs) ∧ ∀ q, gs.get q = if q = comps dest then some (.file c (newMode S.umask (fs.get (comps dest)) m)) else fs.get q := by
  have hnl : isLink (fs.get (comps dest)) = false := by
    rcases hd with h | h
    · rw [h]; rfl
    · exact notLink_of_file h
  have hcr : sysCreate S dest m fs = (some (comps dest), fs.set (comps dest) (.file [] (newMode S.umask (fs.get (comps dest)) m))) := by
    unfold sysCreate
    rw [resolve_ready hv hr true (Or.inr hnl)]
    dsimp only
    rcases hd with h | h
    · rw [h]; rfl
    · cases hn : fs.get (comps dest) with
      | none => rw [hn] at h; simp [isFile] at h
      | some n =>
        cases n with
        | file c0 k => rfl
        | _ => rw [hn] at h; simp [isFile] at h
  unfold fsCopyFile
  rw [hs]
  simp only [hsf, hcr]
  refine ⟨_, rfl, ?_⟩
  intro q
  have hc : contentAt (fs.set (comps dest) (.file [] (newMode S.umask (fs.get (comps dest)) m))) ls = c := by
    unfold contentAt
    rw [get_set, if_neg hne, hsf]
  rw [hc]
  unfold writeAll
  rw [get_set, if_pos rfl]
  dsimp only
  rw [get_set, get_set]
  by_cases h : q = comps dest
  · simp [h]
  · simp [h]

theorem chmod_file {fs : FS} {p : Bytes} {c : Bytes} {k mode : Nat} (hv : Valid p) (hr : Ready fs (comps p)) (hf : fs.get (comps p) = some (.file c k)) (hm : mode &&& 0o1000 = 0) :
    fsChmod p mode fs = (true, fs.set (comps p) (.file c mode)) := by
  unfold fsChmod fsSymlinkExists lstat
  rw [if_neg (fun h => h.1 hm), resolve_ready hv hr false (Or.inl rfl), resolve_ready hv hr true (Or.inr (by rw [hf]; rfl))]
  simp [hf, isLink]

theorem chmod_dir {fs : FS} {p : Bytes} {k mode : Nat} (hv : Valid p) (hr : Ready fs (comps p)) (hf : fs.get (comps p) = some (.dir k)) :
    fsChmod p mode fs = (true, fs.set (comps p) (.dir mode)) := by
  unfold fsChmod fsSymlinkExists lstat stat
  rw [resolve_ready hv hr false (Or.inl rfl), resolve_ready hv hr true (Or.inr (by rw [hf]; rfl))]
  simp [hf, isLink, isDir]

theorem addDirs.ready {m : Nat} {d : List Bytes} {fs gs : FS} (h : addDirs m d.dropLast fs gs) (hok : ∀ q, q <+: d.dropLast → fs.get q = none ∨ isDir (fs.get q) = true) : Ready gs d := by
  intro q h1 h2
  have hq : q <+: d.dropLast := by
    refine List.prefix_of_prefix_length_le h1 (List.dropLast_prefix d) ?_
    rw [List.length_dropLast]
    have : q.length ≠ d.length := fun h => h2 (h1.eq_of_length h)
    have := h1.length_le
    omega
  rw [h q]
  rcases hok q hq with h | h
  · rw [if_pos ⟨hq, h⟩]; rfl
  · by_cases hn : fs.get q = none
    · rw [if_pos ⟨hq, hn⟩]; rfl
    · rw [if_neg (fun h => hn h.2)]; exact h

/-- The way to a destination can be made. -/
theorem inParent_ok (S : Sys) (act : Act) {dest : Bytes} {fs : FS} (hv : Valid dest) (hroot : isDir (fs.get []) = true)
    (hok : ∀ q, q <+: (comps dest).dropLast → fs.get q = none ∨ isDir (fs.get q) = true) :
    ∃ gs, addDirs (masked S.umask 0o755) (comps dest).dropLast fs gs ∧ Ready gs (comps dest) ∧ inParent S dest act fs = act gs := by
  obtain ⟨d1, d2⟩ := hv.dirname
  have hcheck : (fsExists fs (dirname dest) && !fsDirExists fs (dirname dest)) = false := by
    unfold fsExists fsDirExists stat
    rw [resolve_eq fs true (dirname dest) d1.1.2 (fun q h1 _ => notLink_of (hok q (by rw [← d2]; exact h1))) (Or.inr (Or.inr (notLink_of (hok _ (by rw [d2]; exact List.prefix_refl _)))))]
    split
    · simp only [Option.bind_some]
      rcases hok (comps (dirname dest)) (by rw [d2]; exact List.prefix_refl _) with h | h
      · rw [h]; rfl
      · rw [h]; simp
    · rfl
  obtain ⟨m1, m2⟩ := mkdirP_ok S d1 hroot (by rw [d2]; exact hok)
  rw [d2] at m2
  refine ⟨_, m2, m2.ready hok, ?_⟩
  unfold inParent
  rw [hcheck]
  simp only [Bool.false_eq_true, if_false, Act.seq, m1, if_true]

theorem prefix_dropLast {d q : List Bytes} (hd : d ≠ []) : q <+: d.dropLast ↔ q <+: d ∧ q ≠ d := by
  constructor
  · intro h
    refine ⟨h.trans (List.dropLast_prefix d), ?_⟩
    rintro rfl
    have := h.length_le
    rw [List.length_dropLast] at this
    have : q.length ≠ 0 := by simpa using hd
    omega
  · rintro ⟨h1, h2⟩
    refine List.prefix_of_prefix_length_le h1 (List.dropLast_prefix d) ?_
    rw [List.length_dropLast]
    have : q.length ≠ d.length := fun h => h2 (h1.eq_of_length h)
    have := h1.length_le
    omega

theorem self_not_prefix_dropLast {d : List Bytes} (hd : d ≠ []) : ¬ d <+: d.dropLast := fun h => ((prefix_dropLast hd).1 h).2 rfl

/-- The files after a target has been installed: `n` at its destination, and the directories on the way to it. -/
def Spec.Installed (S : Sys) (d : List Bytes) (n : Node) (fs gs : FS) : Prop :=
  gs.get d = some n ∧ ∀ q, q ≠ d → gs.get q = if q <+: d ∧ fs.get q = none then some (.dir (masked S.umask 0o755)) else fs.get q

theorem ready_of_get {fs gs : FS} {d : List Bytes} (h : Ready fs d) (he : ∀ q, q ≠ d → gs.get q = fs.get q) : Ready gs d := by
  intro q h1 h2
  rw [he q h2]; exact h q h1 h2

/-- C90: a file is installed with its content (for built files after removing the run paths of the build) and the permissions that were given, or those of the file that was there before, or those of
the source without the bits of the umask. -/
theorem installed_file_partial (S : Sys) (t : Target) (dest : Bytes) (fs : FS) (c : Bytes) (m : Nat) (hk : t.kind = .default) (hv : Valid dest) (hd : comps dest ≠ []) (hroot : isDir (fs.get []) = true)
    (hway : ∀ q, q <+: comps dest → q ≠ comps dest → fs.get q = none ∨ isDir (fs.get q) = true) (hold : fs.get (comps dest) = none ∨ isFile (fs.get (comps dest)) = true)
    (hsrc : lstat fs t.src = some (.file c m)) (hother : resolve fs false t.src ≠ some (comps dest)) (hsticky : ∀ p, t.perm = some p → p &&& 0o1000 = 0) (hfix : t.build = true → (S.fix c).1 = true) :
    ∃ gs, installTarget S t dest fs = (true, gs) ∧
      Spec.Installed S (comps dest) (.file (if t.build then (S.fix c).2 else c) (t.perm.getD (newMode S.umask (fs.get (comps dest)) m))) fs gs := by
  have hok : ∀ q, q <+: (comps dest).dropLast → fs.get q = none ∨ isDir (fs.get q) = true := fun q hq => hway q ((prefix_dropLast hd).1 hq).1 ((prefix_dropLast hd).1 hq).2
  obtain ⟨ls, hls, hget⟩ : ∃ ls, resolve fs false t.src = some ls ∧ fs.get ls = some (.file c m) := by
    unfold lstat at hsrc
    cases h : resolve fs false t.src with
    | none => rw [h] at hsrc; cases hsrc
    | some ls => rw [h] at hsrc; exact ⟨ls, rfl, hsrc⟩
  obtain ⟨gs, a1, a2, a3⟩ := inParent_ok S ((copyAny S t.src dest).seq (if t.build then fixFile S dest else Act.pass)) hv hroot hok
  have hls' := resolve_ext a1.extends hls (by rw [hget]; simp)
  have hget' : gs.get ls = some (.file c m) := by rw [a1.extends ls (by rw [hget]; simp), hget]
  have hgd : gs.get (comps dest) = fs.get (comps dest) := by
    rw [a1 (comps dest), if_neg (fun h => self_not_prefix_dropLast hd h.1)]
  have hnd : fsDirExists gs t.src = false := by
    unfold fsDirExists stat
    rw [resolve_file hls' (by rw [hget']; rfl)]
    simp [hget', isDir]
  obtain ⟨ks, k1, k2⟩ := copyFile_ok S hls' hget' hv a2 (fun h => hother (by rw [hls, h])) (by rw [hgd]; exact hold)
  have hka : copyAny S t.src dest gs = (true, ks) := by unfold copyAny; rw [hnd]; exact k1
  have hkr : Ready ks (comps dest) := ready_of_get a2 fun q hq => by rw [k2 q, if_neg hq]
  have hkd : ks.get (comps dest) = some (.file c (newMode S.umask (fs.get (comps dest)) m)) := by rw [k2, if_pos rfl, hgd]
  -- removing run paths
  obtain ⟨xs, x1, x2, x3⟩ : ∃ xs, ((copyAny S t.src dest).seq (if t.build then fixFile S dest else Act.pass)) gs = (true, xs) ∧
      xs.get (comps dest) = some (.file (if t.build then (S.fix c).2 else c) (newMode S.umask (fs.get (comps dest)) m)) ∧ ∀ q, q ≠ comps dest → xs.get q = gs.get q := by
    simp only [Act.seq, hka, if_true]
    cases hb : t.build with
    | false => exact ⟨ks, rfl, hkd, fun q hq => by rw [k2 q, if_neg hq]⟩
    | true =>
      refine ⟨ks.set (comps dest) (.file (S.fix c).2 (newMode S.umask (fs.get (comps dest)) m)), ?_, ?_, ?_⟩
      · simp only [if_true]
        unfold fixFile
        rw [resolve_ready hv hkr true (Or.inr (by rw [hkd]; rfl))]
        simp only [hkd, hfix hb]
      · rw [get_set, if_pos rfl]; rfl
      · intro q hq; rw [get_set, if_neg hq, k2 q, if_neg hq]
  have hxr : Ready xs (comps dest) := ready_of_get a2 x3
  have hbody : installBody S t dest fs = (true, xs) := by
    unfold installBody
    rw [hk]
    dsimp only
    rw [a3, x1]
  unfold installTarget
  simp only [Act.seq, hbody, if_true]
  have hrest : ∀ q, q ≠ comps dest → xs.get q = if q <+: comps dest ∧ fs.get q = none then some (.dir (masked S.umask 0o755)) else fs.get q := by
    intro q hq
    rw [x3 q hq, a1 q]
    by_cases hp : q <+: comps dest
    · simp only [(prefix_dropLast hd).2 ⟨hp, hq⟩, hp, true_and]
    · have : ¬ q <+: (comps dest).dropLast := fun h => hp ((prefix_dropLast hd).1 h).1
      simp only [this, hp, false_and]
  cases hp : t.perm with
  | none => exact ⟨xs, rfl, x2, hrest⟩
  | some p =>
    refine ⟨_, chmod_file hv hxr x2 (hsticky p hp), ?_, ?_⟩
    · rw [get_set, if_pos rfl]; rfl
    · intro q hq; rw [get_set, if_neg hq]; exact hrest q hq

/-- C90: a link is made with the target that was given, also if there was a file or a link before. -/
theorem installed_link_partial (S : Sys) (t : Target) (dest : Bytes) (fs : FS) (hk : t.kind = .symlink) (hp : t.perm = none) (hv : Valid dest) (hd : comps dest ≠ []) (hroot : isDir (fs.get []) = true)
    (hway : ∀ q, q <+: comps dest → q ≠ comps dest → fs.get q = none ∨ isDir (fs.get q) = true) (hold : isDir (fs.get (comps dest)) = false) (ht : t.src ≠ []) :
    ∃ gs, installTarget S t dest fs = (true, gs) ∧ Spec.Installed S (comps dest) (.link t.src) fs gs := by
  have hok : ∀ q, q <+: (comps dest).dropLast → fs.get q = none ∨ isDir (fs.get q) = true := fun q hq => hway q ((prefix_dropLast hd).1 hq).1 ((prefix_dropLast hd).1 hq).2
  obtain ⟨gs, a1, a2, a3⟩ := inParent_ok S (fsMakeSymlink t.src dest) hv hroot hok
  have hgd : gs.get (comps dest) = fs.get (comps dest) := by
    rw [a1 (comps dest), if_neg (fun h => self_not_prefix_dropLast hd h.1)]
  have hres := resolve_ready hv a2 false (Or.inl rfl)
  obtain ⟨xs, x1, x2, x3⟩ : ∃ xs, (if fsLexists gs dest then sysRemove dest else Act.pass) gs = (true, xs) ∧ xs.get (comps dest) = none ∧ ∀ q, q ≠ comps dest → xs.get q = gs.get q := by
    cases hn : gs.get (comps dest) with
    | none =>
      have : fsLexists gs dest = false := by
        unfold fsLexists fsExists fsSymlinkExists stat lstat
        rw [hres, resolve_ready hv a2 true (Or.inr (by rw [hn]; rfl))]
        simp [hn, isLink]
      rw [this]
      exact ⟨gs, rfl, hn, fun _ _ => rfl⟩
    | some n =>
      have hne : fsLexists gs dest = true := by
        unfold fsLexists fsExists fsSymlinkExists stat lstat
        rw [hres]
        cases hl : isLink (gs.get (comps dest)) with
        | true => simp [hl]
        | false => rw [resolve_ready hv a2 true (Or.inr hl)]; simp [hn]
      rw [hne]
      simp only [if_true]
      refine ⟨gs.erase (comps dest), ?_, by rw [get_erase, if_pos rfl], fun q hq => by rw [get_erase, if_neg hq]⟩
      unfold sysRemove
      rw [hres]
      simp only [hn]
      cases n with
      | dir k => rw [← hgd, hn] at hold; simp [isDir] at hold
      | _ => rfl
  have hxr : Ready xs (comps dest) := ready_of_get a2 x3
  have hbody : installBody S t dest fs = (true, xs.set (comps dest) (.link t.src)) := by
    unfold installBody
    rw [hk]
    dsimp only
    rw [a3]
    unfold fsMakeSymlink
    simp only [Act.seq, x1, if_true]
    unfold sysSymlink
    rw [if_neg ht, resolve_ready hv hxr false (Or.inl rfl)]
    simp [x2]
  unfold installTarget
  simp only [Act.seq, hbody, if_true, hp, chmodOpt, Act.pass]
  refine ⟨_, rfl, by rw [get_set, if_pos rfl], ?_⟩
  intro q hq
  rw [get_set, if_neg hq, x3 q hq, a1 q]
  by_cases hp : q <+: comps dest
  · simp only [(prefix_dropLast hd).2 ⟨hp, hq⟩, hp, true_and]
  · have : ¬ q <+: (comps dest).dropLast := fun h => hp ((prefix_dropLast hd).1 h).1
    simp only [this, hp, false_and]

/-- C90: an empty directory is made, with the permissions that were given; if it was there it stays, with what is in it. -/
theorem installed_emptydir_partial (S : Sys) (t : Target) (dest : Bytes) (fs : FS) (hk : t.kind = .emptydir) (hv : Valid dest) (hroot : isDir (fs.get []) = true)
    (hway : ∀ q, q <+: comps dest → fs.get q = none ∨ isDir (fs.get q) = true) :
    ∃ gs m, installTarget S t dest fs = (true, gs) ∧ Spec.Installed S (comps dest) (.dir m) fs gs ∧
      m = t.perm.getD (match fs.get (comps dest) with
        | some (.dir k) => k
        | _ => masked S.umask 0o755) := by
  obtain ⟨m1, m2⟩ := mkdirP_ok S hv hroot hway
  have hready : Ready (mkdirP S dest fs).2 (comps dest) := by
    intro q h1 h2
    rw [m2 q]
    rcases hway q h1 with h | h
    · rw [if_pos ⟨h1, h⟩]; rfl
    · by_cases hn : fs.get q = none
      · rw [if_pos ⟨h1, hn⟩]; rfl
      · rw [if_neg (fun h => hn h.2)]; exact h
  have hdir : (mkdirP S dest fs).2.get (comps dest) = some (.dir (match fs.get (comps dest) with
        | some (.dir k) => k
        | _ => masked S.umask 0o755)) := by
    rw [m2]
    rcases hway _ (List.prefix_refl _) with h | h
    · rw [if_pos ⟨List.prefix_refl _, h⟩, h]
    · rw [if_neg (fun hh => by rw [hh.2] at h; simp [isDir] at h)]
      cases hn : fs.get (comps dest) with
      | none => rw [hn] at h; simp [isDir] at h
      | some n =>
        cases n with
        | dir k => rfl
        | _ => rw [hn] at h; simp [isDir] at h
  unfold installTarget installBody
  rw [hk]
  simp only [Act.seq, m1, if_true]
  cases hp : t.perm with
  | none => exact ⟨_, _, rfl, ⟨hdir, fun q _ => m2 q⟩, rfl⟩
  | some p =>
    refine ⟨_, p, chmod_dir hv hready hdir, ⟨by rw [get_set, if_pos rfl], ?_⟩, rfl⟩
    intro q hq
    rw [get_set, if_neg hq]; exact m2 q

end Muon.Install
