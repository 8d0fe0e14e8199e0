import Verif.Install.RunFile
import Verif.Install.RunSub
import Verif.Install.RunLinks
import Verif.Install.DestProps
/-
C90: what an installation changes.
-/
namespace Muon.Install
open Muon Path Path.Spec

/-! ### Specification -/

/-- A location is as before, or is now a directory where nothing was. -/
def Spec.KeptOrDir (S : Sys) (fs gs : FS) (q : List Bytes) : Prop :=
  gs.get q = fs.get q ∨ (fs.get q = none ∧ gs.get q = some (.dir (masked S.umask 0o755)))

/-- Neither location is inside the other. -/
def Spec.Apart (a b : List Bytes) : Prop := ¬ a <+: b ∧ ¬ b <+: a

/-- The location a target is installed at. -/
def Spec.place (destdir : Option Bytes) (t : Target) : List Bytes := match destdir with
  | none => comps t.dest
  | some d => comps d ++ comps t.dest

/-- A target that makes no links: no link is on the way to its source or in it. -/
def Spec.Plain (fs : FS) (t : Target) : Prop := t.kind = .emptydir ∨ t.kind ≠ .symlink ∧ PathOk t.src ∧ Free fs (comps t.src)

/-- A target whose destination has no `..`, with no links on the way to it or in it (a link that is to be made may already be there). Built files are no links. -/
structure Spec.Safe (destdir : Option Bytes) (fs : FS) (t : Target) : Prop where
  dest : PathOk t.dest
  absolute : isAbs t.dest = true
  place : Free fs (Spec.place destdir t) ∨ t.kind = .symlink ∧ Above fs (Spec.place destdir t)
  source : t.kind = .default → t.build = true → PathOk t.src ∧ Free fs (comps t.src)

/-- Targets that make links are apart from those that are installed later, and from what those install. -/
def Spec.Ordered (destdir : Option Bytes) (fs : FS) : List Target → Prop
  | [] => True
  | t :: ts => (Spec.Plain fs t ∨ ∀ u ∈ ts, Spec.Apart (Spec.place destdir t) (Spec.place destdir u) ∧ (u.kind = .emptydir ∨ u.kind = .symlink ∨ Spec.Apart (Spec.place destdir t) (comps u.src))) ∧
    Spec.Ordered destdir fs ts

/-! ### One target -/

/-- C90: whether or not installing a target succeeds, everything that is not at its destination or below stays as it is, other than that directories on the way to the destination are made. -/
theorem install_frame_partial (S : Sys) (t : Target) (dest : Bytes) (fs : FS) (hw : Wf fs) (hp : PathOk dest) (hne : dest ≠ []) (hf : Free fs (comps dest) ∨ t.kind = .symlink ∧ Above fs (comps dest))
    (hb : t.kind = .default → t.build = true → PathOk t.src ∧ Free fs (comps t.src)) (q : List Bytes) (hq : ¬ comps dest <+: q) :
    (installTarget S t dest fs).2.get q = fs.get q ∨ (q <+: comps dest ∧ fs.get q = none ∧ (installTarget S t dest fs).2.get q = some (.dir (masked S.umask 0o755))) := by
  have h := target_ch S t dest fs hp hne hw hf hb
  by_cases hb : q <+: comps dest
  · rcases h.made hq with h | ⟨h1, h2⟩
    · exact Or.inl h
    · exact Or.inr ⟨hb, h1, h2⟩
  · exact Or.inl (h.keep hq hb)

/-! ### All targets -/

theorem fullDest_facts {destdir : Option Bytes} {t : Target} (hd : ∀ d, destdir = some d → PathOk d) (ht : PathOk t.dest) (ha : isAbs t.dest = true) :
    comps (fullDest destdir t.dest) = Spec.place destdir t ∧ PathOk (fullDest destdir t.dest) ∧ fullDest destdir t.dest ≠ [] := by
  cases destdir with
  | none =>
    refine ⟨rfl, ht, ?_⟩
    intro h
    have : t.dest = [] := h
    rw [this] at ha; simp [isAbs] at ha
  | some d =>
    have hd := hd d rfl
    have hc : comps (joinAbsolute d t.dest) = comps d ++ comps t.dest := joinAbsolute_comps d t.dest hd.1 ht.1
    have h0 : 0 ∉ normalize false d := by rw [normalize_canon _ d hd.1]; exact canon_no0 _ d hd.1
    have hm0 : 0 ∉ normalize false d ++ [47] ++ t.dest := by
      simp only [List.mem_append, List.mem_singleton]
      rintro ((h | h) | h)
      · exact h0 h
      · exact absurd h (by decide)
      · exact ht.1 h
    have hj0 : 0 ∉ joinAbsolute d t.dest := by
      unfold joinAbsolute copy
      rw [normalize_canon _ _ hm0]
      exact canon_no0 _ _ hm0
    refine ⟨hc, ⟨hj0, ?_⟩, ?_⟩
    · show dotdot ∉ comps (joinAbsolute d t.dest)
      rw [hc]
      simp only [List.mem_append, not_or]
      exact ⟨hd.2, ht.2⟩
    · show joinAbsolute d t.dest ≠ []
      unfold joinAbsolute copy
      rw [normalize_canon _ _ hm0]
      intro h
      have := (canon_ne _ _ hm0).1 h
      simp at this

theorem Spec.Safe.ch {destdir : Option Bytes} {fs : FS} {t : Target} (h : Spec.Safe destdir fs t) (hd : ∀ d, destdir = some d → PathOk d) (hw : Wf fs) (S : Sys) :
    Ch (masked S.umask 0o755) (Spec.place destdir t <+: ·) (· <+: Spec.place destdir t) fs (installIter S destdir false t fs).2 := by
  obtain ⟨f1, f2, f3⟩ := fullDest_facts hd h.dest h.absolute
  rw [← f1]
  exact target_ch S t _ fs f2 f3 hw (by rw [f1]; exact h.place) h.source

/-- What holds for a later target still holds after an earlier one. -/
theorem Spec.Ordered.step {destdir : Option Bytes} {fs gs : FS} : ∀ {ts : List Target}, Spec.Ordered destdir fs ts → (∀ u ∈ ts, Spec.Plain fs u → Spec.Plain gs u) → Spec.Ordered destdir gs ts
  | [], _, _ => trivial
  | _ :: _, h, hp => ⟨h.1.imp (hp _ (by simp)) (fun x => x), Spec.Ordered.step h.2 fun u hu => hp u (by simp [hu])⟩

theorem apart_compare {a b q : List Bytes} (h : Spec.Apart a b) (hq : q <+: b ∨ b <+: q) : ¬ a <+: q := by
  intro ha
  rcases hq with hq | hq
  · exact h.1 (ha.trans hq)
  · rcases Nat.le_total a.length b.length with hl | hl
    · exact h.1 (List.prefix_of_prefix_length_le ha hq hl)
    · exact h.2 (List.prefix_of_prefix_length_le hq ha hl)

theorem install_step {destdir : Option Bytes} {fs : FS} {t : Target} {ts : List Target} (S : Sys) (hd : ∀ d, destdir = some d → PathOk d) (hw : Wf fs) (hs : ∀ u ∈ t :: ts, Spec.Safe destdir fs u)
    (ho : Spec.Ordered destdir fs (t :: ts)) : let gs := (installIter S destdir false t fs).2; (∀ u ∈ ts, Spec.Safe destdir gs u) ∧ Spec.Ordered destdir gs ts := by
  intro gs
  have h1 := hs t (by simp)
  obtain ⟨f1, f2, f3⟩ := fullDest_facts hd h1.dest h1.absolute
  have hch := h1.ch hd hw S
  rcases ho.1 with hp | hp
  · have hnew : NoNew fs gs := by
      refine target_new S t _ fs f2 f3 hw ?_ hp
      rw [f1]
      rcases h1.place with h | h
      · exact h
      · rcases hp with hp | hp
        · exact absurd (hp.symm.trans h.1) (by simp)
        · exact absurd h.1 hp.1
    refine ⟨fun u hu => ?_, ho.2.step fun u hu h => ?_⟩
    · have h := hs u (by simp [hu])
      exact ⟨h.dest, h.absolute, h.place.imp (hnew.free) (fun x => ⟨x.1, hnew.above x.2⟩), fun hk hb => ⟨(h.source hk hb).1, hnew.free (h.source hk hb).2⟩⟩
    · exact h.imp (fun x => x) fun x => ⟨x.1, x.2.1, hnew.free x.2.2⟩
  · have keep : ∀ l, Spec.Apart (Spec.place destdir t) l → (Free fs l → Free gs l) ∧ (Above fs l → Above gs l) := fun l hl =>
      ⟨fun hf => hf.ch hch fun q hq => apart_compare hl hq, fun ha => ha.ch hch fun q hq _ => apart_compare hl (Or.inl hq)⟩
    refine ⟨fun u hu => ?_, ho.2.step fun u hu h => ?_⟩
    · have h := hs u (by simp [hu])
      obtain ⟨p1, p2⟩ := hp u hu
      refine ⟨h.dest, h.absolute, h.place.imp (keep _ p1).1 (fun x => ⟨x.1, (keep _ p1).2 x.2⟩), fun hk hb => ⟨(h.source hk hb).1, ?_⟩⟩
      have hsf := (h.source hk hb).2
      rcases p2 with p2 | p2 | p2
      · exact absurd (hk.symm.trans p2) (by simp)
      · exact absurd (hk.symm.trans p2) (by simp)
      · exact (keep _ p2).1 hsf
    · rcases h with h | h
      · exact Or.inl h
      · rcases (hp u hu).2 with p2 | p2 | p2
        · exact Or.inl p2
        · exact absurd p2 h.1
        · exact Or.inr ⟨h.1, h.2.1, (keep _ p2).1 h.2.2⟩

/-- C90: whether or not the installation succeeds, everything that is not at the destination of a target or below stays as it is, other than that directories on the way to destinations are made. -/
theorem installAll_frame_partial (S : Sys) (destdir : Option Bytes) (hd : ∀ d, destdir = some d → PathOk d) (q : List Bytes) (ts : List Target) : ∀ (fs : FS), Wf fs → (∀ t ∈ ts, Spec.Safe destdir fs t) →
    Spec.Ordered destdir fs ts → (∀ t ∈ ts, ¬ Spec.place destdir t <+: q) →
    (installAll S destdir false ts fs).2.get q = fs.get q ∨
      (fs.get q = none ∧ (installAll S destdir false ts fs).2.get q = some (.dir (masked S.umask 0o755)) ∧ ∃ t ∈ ts, q <+: Spec.place destdir t) := by
  induction ts with
  | nil => intro fs _ _ _ _; exact Or.inl rfl
  | cons t ts ih =>
    intro fs hw hs ho hq
    have h1 := hs t (by simp)
    have hch := h1.ch hd hw S
    have hnow : (installIter S destdir false t fs).2.get q = fs.get q ∨
        (fs.get q = none ∧ (installIter S destdir false t fs).2.get q = some (.dir (masked S.umask 0o755)) ∧ q <+: Spec.place destdir t) := by
      by_cases hb : q <+: Spec.place destdir t
      · rcases hch.made (hq t (by simp)) with h | ⟨h1, h2⟩
        · exact Or.inl h
        · exact Or.inr ⟨h1, h2, hb⟩
      · exact Or.inl (hch.keep (hq t (by simp)) hb)
    obtain ⟨s1, s2⟩ := install_step S hd hw hs ho
    have hrest := ih _ (hch.wf hw) s1 s2 fun u hu => hq u (by simp [hu])
    rw [installAll]
    unfold Act.seq
    dsimp only
    split
    · rcases hrest with hr | ⟨hr1, hr2, u, hu, hr3⟩
      · rw [hr]
        rcases hnow with h | ⟨a, b, c⟩
        · exact Or.inl h
        · exact Or.inr ⟨a, b, t, by simp, c⟩
      · rcases hnow with h | ⟨a, b, c⟩
        · rw [h] at hr1
          exact Or.inr ⟨hr1, hr2, u, by simp [hu], hr3⟩
        · rw [b] at hr1; cases hr1
    · rcases hnow with h | ⟨a, b, c⟩
      · exact Or.inl h
      · exact Or.inr ⟨a, b, t, by simp, c⟩

theorem scripts_keep {dry : Bool} {q : List Bytes} (ss : List Script) (h : ∀ s ∈ ss, ∀ fs, (s.run dry fs).2.get q = fs.get q) : ∀ fs, (installScripts dry ss fs).2.get q = fs.get q := by
  induction ss with
  | nil => intro fs; rfl
  | cons s ss ih =>
    intro fs
    rw [installScripts]
    unfold Act.seq
    have h1 : ((if dry && !s.dryRun then Act.pass else s.run dry) fs).2.get q = fs.get q := by
      split
      · rfl
      · exact h s (by simp) fs
    dsimp only
    generalize (if dry && !s.dryRun then Act.pass else s.run dry) fs = r at h1 ⊢
    split
    · rw [ih (fun x hx => h x (by simp [hx])), h1]
    · exact h1

/-- C90: with DESTDIR (relative to the current directory or absolute), nothing outside it is changed, other than that directories on the way to it are made. -/
theorem destdir_frame_partial (S : Sys) (cwd d : Bytes) (ts : List Target) (ss : List Script) (fs : FS) (hw : Wf fs) (hcwd : PathOk cwd) (hcabs : isAbs cwd = true) (hd : PathOk d)
    (hs : ∀ t ∈ ts, Spec.Safe (some (makeAbsolute cwd d)) fs t) (ho : Spec.Ordered (some (makeAbsolute cwd d)) fs ts) (q : List Bytes)
    (hscripts : ∀ s ∈ ss, ∀ gs, (s.run false gs).2.get q = gs.get q) (hq : ¬ (if isAbs d then comps d else comps cwd ++ comps d) <+: q) :
    (installRun S cwd (some d) false ts ss fs).2.get q = fs.get q ∨
      (q <+: (if isAbs d then comps d else comps cwd ++ comps d) ∧ fs.get q = none ∧ (installRun S cwd (some d) false ts ss fs).2.get q = some (.dir (masked S.umask 0o755))) := by
  obtain ⟨-, hc⟩ := makeAbsolute_spec cwd d hcwd.1 hd.1 hcabs
  have h0 : 0 ∉ makeAbsolute cwd d := by
    unfold makeAbsolute copy
    split
    · rw [normalize_canon _ d hd.1]; exact canon_no0 _ d hd.1
    · exact (join_facts cwd d hcwd.1 hd.1).2.2
  have hok : PathOk (makeAbsolute cwd d) := by
    refine ⟨h0, ?_⟩
    rw [hc]
    split
    · exact hd.2
    · simp only [List.mem_append, not_or]; exact ⟨hcwd.2, hd.2⟩
  rw [← hc] at hq ⊢
  have hrun : (installRun S cwd (some d) false ts ss fs).2.get q = (installAll S (some (makeAbsolute cwd d)) false ts fs).2.get q := by
    unfold installRun
    dsimp only [Option.map_some]
    exact scripts_keep ss hscripts _
  rw [hrun]
  have key := installAll_frame_partial S (some (makeAbsolute cwd d)) (fun x hx => by cases hx; exact hok) q ts fs hw hs ho (fun t _ h => hq ((List.prefix_append _ _).trans h))
  rcases key with h | ⟨h1, h2, t, _, h3⟩
  · exact Or.inl h
  · refine Or.inr ⟨?_, h1, h2⟩
    unfold Spec.place at h3
    dsimp only at h3
    rcases Nat.le_total (comps (makeAbsolute cwd d)).length q.length with hl | hl
    · exact absurd (List.prefix_of_prefix_length_le (List.prefix_append _ _) h3 hl) hq
    · exact List.prefix_of_prefix_length_le h3 (List.prefix_append _ _) hl

/-- C90: a dry run changes nothing, unless scripts do that can be run for a dry run. -/
theorem dry_run (S : Sys) (cwd : Bytes) (destdir : Option Bytes) (ts : List Target) (ss : List Script) (fs : FS) (hss : ∀ s ∈ ss, s.dryRun = true → ∀ gs, (s.run true gs).2 = gs) :
    (installRun S cwd destdir true ts ss fs).2 = fs := by
  have h1 : ∀ (dd : Option Bytes) (ts : List Target) (fs : FS), installAll S dd true ts fs = (true, fs) := by
    intro dd ts
    induction ts with
    | nil => intro fs; rfl
    | cons t ts ih => intro fs; rw [installAll]; simp [Act.seq, installIter, Act.pass, ih]
  have h2 : ∀ (ss : List Script), (∀ s ∈ ss, s.dryRun = true → ∀ gs, (s.run true gs).2 = gs) → ∀ fs, (installScripts true ss fs).2 = fs := by
    intro ss
    induction ss with
    | nil => intro _ fs; rfl
    | cons s ss ih =>
      intro h fs
      rw [installScripts]
      have hh : ((if true && !s.dryRun then Act.pass else s.run true) fs).2 = fs := by
        cases hd : s.dryRun with
        | false => rfl
        | true => exact h s (by simp) hd fs
      unfold Act.seq
      dsimp only
      generalize (if true && !s.dryRun then Act.pass else s.run true) fs = r at hh ⊢
      split
      · rw [hh]; exact ih (fun x hx => h x (by simp [hx])) fs
      · exact hh
  unfold installRun
  dsimp only
  rw [h1]
  exact h2 ss hss fs

/-! ### What does not hold -/

/-- Files: a directory for the build with a file, and one for DESTDIR. -/
def demoFs : FS := [([], .dir 0o755), ([ascii "b"], .dir 0o755), ([ascii "b", ascii "x"], .file (ascii "new") 0o755), ([ascii "d"], .dir 0o755), ([ascii "e"], .dir 0o755)]
def demoSys : Sys := ⟨0o22, fun c => (true, c)⟩
def demoTarget (src dest : String) : Target := ⟨ascii src, ascii dest, none, .default, false, [], []⟩

/-- Success is reported although a target could not be installed (its source does not exist), and those after it were not. -/
theorem failure_counterexample : (installRun demoSys (ascii "/b") none false [demoTarget "/b/missing" "/d/y", demoTarget "/b/x" "/d/x"] [] demoFs).1 = true ∧
    (installRun demoSys (ascii "/b") none false [demoTarget "/b/missing" "/d/y", demoTarget "/b/x" "/d/x"] [] demoFs).2 = demoFs := by decide +kernel

/-- `..` in a destination leads out of DESTDIR. -/
theorem dotdot_counterexample : (installRun demoSys (ascii "/b") (some (ascii "/d")) false [demoTarget "/b/x" "/../e/x"] [] demoFs).2.get [ascii "e", ascii "x"] = some (.file (ascii "new") 0o755) := by
  decide +kernel

/-- A link in DESTDIR is followed: if one that points to `/e` was made by the installation itself, a later file is written there. -/
theorem link_counterexample : (installRun demoSys (ascii "/b") (some (ascii "/d")) false [{ demoTarget "/e" "/lib64" with kind := .symlink }, demoTarget "/b/x" "/lib64/x"] [] demoFs).2.get [ascii "e", ascii "x"]
      = some (.file (ascii "new") 0o755) := by decide +kernel

/-- A file that is replaced keeps its permissions, also if the new one can be executed and it could not. -/
theorem mode_counterexample : (installRun demoSys (ascii "/b") none false [demoTarget "/b/x" "/d/x"] [] (demoFs.set [ascii "d", ascii "x"] (.file (ascii "old") 0o600))).2.get [ascii "d", ascii "x"]
      = some (.file (ascii "new") 0o600) := by decide +kernel

/-- A file that is installed where it is loses its content. -/
theorem itself_counterexample : (installRun demoSys (ascii "/b") none false [demoTarget "/b/x" "/b/x"] [] demoFs).2.get [ascii "b", ascii "x"] = some (.file [] 0o755) := by decide +kernel

/-- If a built file is a link, the run paths of the file the installed link points to are changed, wherever that is. -/
theorem built_link_counterexample : (installRun { demoSys with fix := fun c => (true, c.drop 1) } (ascii "/b") (some (ascii "/d")) false [{ demoTarget "/b/l" "/l" with build := true }] []
      (demoFs.set [ascii "b", ascii "l"] (.link (ascii "/b/x")))).2.get [ascii "b", ascii "x"] = some (.file (ascii "ew") 0o755) := by decide +kernel

/-- The sticky bit is refused for files, after they have been installed. -/
theorem sticky_counterexample : (installTarget demoSys { demoTarget "/b/x" "/d/x" with perm := some 0o1755 } (ascii "/d/x") demoFs).1 = false ∧
    (installTarget demoSys { demoTarget "/b/x" "/d/x" with perm := some 0o1755 } (ascii "/d/x") demoFs).2.get [ascii "d", ascii "x"] = some (.file (ascii "new") 0o755) := by decide +kernel

/-- In a directory that is installed, links to directories become directories. -/
theorem link_to_dir_counterexample : (installRun demoSys (ascii "/b") (some (ascii "/d")) false [{ demoTarget "/b" "/s" with kind := .subdir }] []
      ((demoFs.set [ascii "b", ascii "l"] (.link (ascii "/e"))).set [ascii "b", ascii "m"] (.link (ascii "/b/x")))).2.get [ascii "d", ascii "s", ascii "l"] = some (.dir 0o755) ∧
    (installRun demoSys (ascii "/b") (some (ascii "/d")) false [{ demoTarget "/b" "/s" with kind := .subdir }] []
      ((demoFs.set [ascii "b", ascii "l"] (.link (ascii "/e"))).set [ascii "b", ascii "m"] (.link (ascii "/b/x")))).2.get [ascii "d", ascii "s", ascii "m"] = some (.link (ascii "/b/x")) := by decide +kernel

/-! ### Examples -/

theorem free_of {fs : FS} (h : ∀ e ∈ fs, isLink (some e.2) = false) (d : List Bytes) : Free fs d := by
  intro q _
  cases hq : fs.get q with
  | none => rfl
  | some n =>
    have : (q, n) ∈ fs := by
      clear h
      unfold FS.get at hq
      induction fs with
      | nil => simp at hq
      | cons e l ih =>
        rw [List.lookup_cons] at hq
        split at hq
        · rename_i he
          have he : q = e.1 := by simpa using he
          simp only [Option.some.injEq] at hq
          subst he hq
          simp
        · simp [ih hq]
    exact h _ this

theorem demo_wf : Wf demoFs := by
  have hall : ∀ k ∈ demoFs.map (·.1), ∀ c ∈ k, (c ≠ [] ∧ c ≠ [46] ∧ (47 : UInt8) ∉ c ∧ (0 : UInt8) ∉ c) ∧ c ≠ dotdot := by decide +kernel
  exact ⟨by decide +kernel, hall⟩

/-- A file that was built, an empty directory, a link and a directory that is installed where the empty directory was made. -/
def demoPlan : List Target :=
  [{ demoTarget "/b/x" "/usr/bin/x" with build := true, perm := some 0o700 }, { demoTarget "" "/usr/share/y" with kind := .emptydir }, { demoTarget "x" "/usr/bin/z" with kind := .symlink },
   { demoTarget "/b" "/usr/share/y" with kind := .subdir }]

theorem demo_free (d : List Bytes) : Free demoFs d := free_of (by decide +kernel) d

theorem demo_safe : ∀ t ∈ demoPlan, Spec.Safe (some (makeAbsolute (ascii "/b") (ascii "/d"))) demoFs t := by
  have h : ∀ t ∈ demoPlan, (0 ∉ t.dest ∧ dotdot ∉ comps t.dest) ∧ isAbs t.dest = true ∧ 0 ∉ t.src ∧ dotdot ∉ comps t.src := by decide +kernel
  intro t ht
  obtain ⟨h1, h2, h3⟩ := h t ht
  exact ⟨h1, h2, Or.inl (demo_free _), fun _ _ => ⟨h3, demo_free _⟩⟩

theorem demo_ordered : Spec.Ordered (some (makeAbsolute (ascii "/b") (ascii "/d"))) demoFs demoPlan := by
  refine ⟨Or.inl (Or.inr ⟨by decide, ⟨by decide +kernel, by decide +kernel⟩, demo_free _⟩), Or.inl (Or.inl rfl), Or.inr ?_, Or.inl (Or.inr ⟨by decide, ⟨by decide +kernel, by decide +kernel⟩, demo_free _⟩), trivial⟩
  intro u hu
  simp only [List.mem_singleton] at hu
  subst hu
  exact ⟨⟨by decide +kernel, by decide +kernel⟩, Or.inr (Or.inr ⟨by decide +kernel, by decide +kernel⟩)⟩

example (q : List Bytes) (hq : ¬ [ascii "d"] <+: q) :
    (installRun demoSys (ascii "/b") (some (ascii "/d")) false demoPlan [] demoFs).2.get q = demoFs.get q ∨
      (q <+: [ascii "d"] ∧ demoFs.get q = none ∧ (installRun demoSys (ascii "/b") (some (ascii "/d")) false demoPlan [] demoFs).2.get q = some (.dir 0o755)) := by
  have hc : (if isAbs (ascii "/d") then comps (ascii "/d") else comps (ascii "/b") ++ comps (ascii "/d")) = [ascii "d"] := by decide +kernel
  have := destdir_frame_partial demoSys (ascii "/b") (ascii "/d") demoPlan [] demoFs demo_wf ⟨by decide +kernel, by decide +kernel⟩ (by decide +kernel) ⟨by decide +kernel, by decide +kernel⟩ demo_safe demo_ordered q
    (by simp) (by rw [hc]; exact hq)
  rw [hc] at this
  exact this

/-- The files below DESTDIR afterwards. -/
example : let gs := (installRun demoSys (ascii "/b") (some (ascii "/d")) false demoPlan [] demoFs).2
    gs.get [ascii "d", ascii "usr"] = some (.dir 0o755) ∧ gs.get [ascii "d", ascii "usr", ascii "bin", ascii "x"] = some (.file (ascii "new") 0o700) ∧
      gs.get [ascii "d", ascii "usr", ascii "bin", ascii "z"] = some (.link (ascii "x")) ∧ gs.get [ascii "d", ascii "usr", ascii "share", ascii "y", ascii "x"] = some (.file (ascii "new") 0o755) := by
  decide +kernel

theorem demo_way {p : Bytes} (h : ∀ n ≤ (comps p).length, demoFs.get ((comps p).take n) = none ∨ isDir (demoFs.get ((comps p).take n)) = true) : ∀ q, q <+: comps p → demoFs.get q = none ∨ isDir (demoFs.get q) = true := by
  intro q hq
  have := h q.length hq.length_le
  rwa [← List.prefix_iff_eq_take.1 hq] at this

theorem demo_valid {p : Bytes} (h : (0 ∉ p ∧ dotdot ∉ comps p) ∧ isAbs p = true ∧ p.length < 4096) : Valid p := h

example : ∃ gs, installTarget demoSys { demoTarget "/b/x" "/usr/x" with build := true, perm := some 0o4755 } (ascii "/d/usr/x") demoFs = (true, gs) ∧
    Spec.Installed demoSys (comps (ascii "/d/usr/x")) (.file (ascii "new") 0o4755) demoFs gs :=
  installed_file_partial demoSys { demoTarget "/b/x" "/usr/x" with build := true, perm := some 0o4755 } (ascii "/d/usr/x") demoFs (ascii "new") 0o755 rfl (demo_valid (by decide +kernel)) (by decide +kernel)
    (by decide +kernel) (fun q hq _ => demo_way (by decide +kernel) q hq) (Or.inl (by decide +kernel)) (by decide +kernel) (by decide +kernel) (by simp) (fun _ => rfl)

example : ∃ gs, installTarget demoSys { demoTarget "../x" "/usr/x" with kind := .symlink } (ascii "/d/usr/x") demoFs = (true, gs) ∧
    Spec.Installed demoSys (comps (ascii "/d/usr/x")) (.link (ascii "../x")) demoFs gs :=
  installed_link_partial demoSys { demoTarget "../x" "/usr/x" with kind := .symlink } (ascii "/d/usr/x") demoFs rfl rfl (demo_valid (by decide +kernel)) (by decide +kernel)
    (by decide +kernel) (fun q hq _ => demo_way (by decide +kernel) q hq) (by decide +kernel) (by decide +kernel)

example : ∃ gs m, installTarget demoSys { demoTarget "" "/usr/x" with kind := .emptydir, perm := some 0o1777 } (ascii "/d/usr/x") demoFs = (true, gs) ∧
    Spec.Installed demoSys (comps (ascii "/d/usr/x")) (.dir m) demoFs gs ∧ m = 0o1777 :=
  installed_emptydir_partial demoSys { demoTarget "" "/usr/x" with kind := .emptydir, perm := some 0o1777 } (ascii "/d/usr/x") demoFs rfl (demo_valid (by decide +kernel))
    (by decide +kernel) (demo_way (by decide +kernel))

theorem tree_of {fs : FS} {s d : List Bytes} (h : ∀ k ∈ fs.map (·.1), s <+: k → (∀ n < k.length, isDir (fs.get (k.take n)) = true) ∧ (isDir (fs.get k) = true ∨ isFile (fs.get k) = true) ∧ lens k < 4096 ∧
    lens (d ++ k.drop s.length) < 4096) : Spec.Tree fs s d := by
  intro z hz
  have hk : s ++ z ∈ fs.map (·.1) := by
    rw [← get_isSome]
    cases hh : fs.get (s ++ z) with
    | none => exact absurd hh hz
    | some _ => rfl
  obtain ⟨h1, h2, h3, h4⟩ := h _ hk (List.prefix_append _ _)
  refine ⟨?_, h2, h3, by simpa using h4⟩
  intro q a b
  have hl : q.length < (s ++ z).length := by
    have := a.length_le
    have : q.length ≠ (s ++ z).length := fun hh => b (a.eq_of_length hh)
    omega
  have := h1 q.length hl
  rwa [← List.prefix_iff_eq_take.1 a] at this

/-- A directory with directories `k` and `l`, both with a file `f`. -/
def subFs : FS := demoFs ++ [([ascii "b", ascii "k"], .dir 0o700), ([ascii "b", ascii "k", ascii "f"], .file (ascii "1") 0o644), ([ascii "b", ascii "l"], .dir 0o700),
  ([ascii "b", ascii "l", ascii "f"], .file (ascii "2") 0o666)]

theorem sub_wf : Wf subFs := by
  have hall : ∀ k ∈ subFs.map (·.1), ∀ c ∈ k, (c ≠ [] ∧ c ≠ [46] ∧ (47 : UInt8) ∉ c ∧ (0 : UInt8) ∉ c) ∧ c ≠ dotdot := by decide +kernel
  exact ⟨by decide +kernel, hall⟩

/-- Without `k` and `l/f`: only `x` and `l` are installed. -/
def subTarget : Target := ⟨ascii "/b", ascii "/usr/s", some 0o755, .subdir, false, [ascii "k"], [ascii "l/f", ascii "f"]⟩

example : ∃ gs m, installTarget demoSys subTarget (ascii "/d/usr/s") subFs = (true, gs) ∧ gs.get (comps (ascii "/d/usr/s")) = some (.dir m) ∧ m = 0o755 ∧
    (∀ z, z ≠ [] → (Spec.Excluded subFs (comps (ascii "/b")) [ascii "k"] [ascii "l/f", ascii "f"] z → gs.get (comps (ascii "/d/usr/s") ++ z) = none) ∧
      (¬ Spec.Excluded subFs (comps (ascii "/b")) [ascii "k"] [ascii "l/f", ascii "f"] z →
        gs.get (comps (ascii "/d/usr/s") ++ z) = (subFs.get (comps (ascii "/b") ++ z)).map (Spec.copyNode 0o22 (some 0o755)))) ∧
    ∀ q, ¬ comps (ascii "/d/usr/s") <+: q → gs.get q = if q <+: comps (ascii "/d/usr/s") ∧ subFs.get q = none then some (.dir 0o755) else subFs.get q := by
  refine installed_subdir_partial demoSys subTarget (ascii "/d/usr/s") subFs rfl sub_wf (demo_valid (by decide +kernel)) (by decide +kernel) (by decide +kernel) (tree_of (by decide +kernel))
    (demo_valid (by decide +kernel)) (by decide +kernel) ?_ ?_ ⟨by decide +kernel, by decide +kernel⟩ (by simp [subTarget])
  · intro q hq
    have h : ∀ n ≤ (comps (ascii "/d/usr/s")).length, subFs.get ((comps (ascii "/d/usr/s")).take n) = none ∨ isDir (subFs.get ((comps (ascii "/d/usr/s")).take n)) = true := by decide +kernel
    have := h q.length hq.length_le
    rwa [← List.prefix_iff_eq_take.1 hq] at this
  · intro q hq _
    have h : ∀ k ∈ subFs.map (·.1), ¬ comps (ascii "/d/usr/s") <+: k := by decide +kernel
    cases hh : subFs.get q with
    | none => rfl
    | some _ => exact absurd hq (h q ((get_isSome _ _).1 (by rw [hh]; rfl)))

example : let gs := (installTarget demoSys subTarget (ascii "/d/usr/s") subFs).2
    gs.get [ascii "d", ascii "usr", ascii "s", ascii "x"] = some (.file (ascii "new") 0o755) ∧ gs.get [ascii "d", ascii "usr", ascii "s", ascii "l"] = some (.dir 0o755) ∧
      gs.get [ascii "d", ascii "usr", ascii "s", ascii "l", ascii "f"] = none ∧ gs.get [ascii "d", ascii "usr", ascii "s", ascii "k"] = none := by decide +kernel

example : (installRun demoSys (ascii "/b") (some (ascii "/d")) true demoPlan [⟨false, fun _ _ => (true, [])⟩] demoFs).2 = demoFs := dry_run _ _ _ _ _ _ (by simp)

/-- C90: the permissions that are left of `m` under the umask `um` are those of `m` that are not in `um`. -/
theorem umask_bits (um m i : Nat) : (masked um m).testBit i = (m.testBit i && !um.testBit i) := by
  unfold masked
  rw [Nat.testBit_xor, Nat.testBit_and]
  cases m.testBit i <;> cases um.testBit i <;> rfl

end Muon.Install
