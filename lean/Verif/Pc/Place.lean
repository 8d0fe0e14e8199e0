import Verif.Pc.Generate
import Verif.Path.Props
/-
C98: the name and the place of the file, the directory of the libraries.
-/
namespace Muon.Pc
open Muon
open Muon.Path.Spec

/-- C98: the name is the one that was given, else that of the main library; without both it is an error. -/
theorem name_iff (c : Call) (n : Bytes) :
    nameOf c = .ok n ↔ c.name = some n ∨ (c.name = none ∧ c.main ≠ none ∧ c.mainName = n) := by
  unfold nameOf
  cases c.name <;> cases c.main <;> simp

theorem name_error_iff (c : Call) : nameOf c = .error ↔ c.name = none ∧ c.main = none := by
  unfold nameOf
  cases c.name <;> cases c.main <;> simp

/-- C98: the file is `filebase` (else the name) with the extension `pc`, in `install_dir`, else in the directory `pkgconfig` below
the option `libdir`, or `datadir` if the file is for data only. -/
theorem generate_place {R : Roots} {opt : Bytes → Bytes} {added : List Bytes} {c : Call} {m : Made} (h : generate R opt added c = .ok m)
    (hi : ∀ d, c.installDir = some d → d ≠ [] ∧ 0 ∉ d) (ho : ∀ o, 0 ∉ opt o) (hf : m.filebase ≠ [] ∧ 0 ∉ m.filebase ∧ isAbs m.filebase = false) :
    (∃ n, (c.name = some n ∨ (c.name = none ∧ c.main ≠ none ∧ c.mainName = n)) ∧ m.filebase = c.filebase.getD n) ∧
    ∃ dir, m.dest = render (isAbs dir) (comps dir ++ comps m.filebase) ++ ascii ".pc" ∧
      ((c.installDir = some dir) ∨
       (c.installDir = none ∧ comps dir = comps (opt (if c.dataonly = true then ascii "datadir" else ascii "libdir")) ++ [ascii "pkgconfig"] ∧
        isAbs dir = isAbs (opt (if c.dataonly = true then ascii "datadir" else ascii "libdir")))) := by
  unfold generate at h
  obtain ⟨f, h1, h⟩ := (Res.bind_eq_ok (x := contents R opt added c)).1 h
  obtain ⟨t, _, h⟩ := (Res.bind_eq_ok (x := write f.1)).1 h
  cases h
  have hn : nameOf c = .ok f.1.name := by
    unfold contents at h1
    obtain ⟨name, hn, h1⟩ := (Res.bind_eq_ok (x := nameOf c)).1 h1
    obtain ⟨pc, _, h1⟩ := (Res.bind_eq_ok (x := collect R c)).1 h1
    obtain ⟨_, _, h1⟩ := (Res.bind_eq_ok (x := withLibdir _ _ _ _)).1 h1
    obtain ⟨_, _, h1⟩ := (Res.bind_eq_ok (x := withLibdir _ _ _ _)).1 h1
    obtain ⟨_, _, h1⟩ := (Res.bind_eq_ok (x := procReqs _ _)).1 h1
    obtain ⟨_, _, h1⟩ := (Res.bind_eq_ok (x := procReqs _ _)).1 h1
    obtain ⟨_, _, h1⟩ := (Res.bind_eq_ok (x := variables _ _ _ _)).1 h1
    cases h1
    exact hn
  refine ⟨⟨f.1.name, (name_iff _ _).1 hn, rfl⟩, ?_⟩
  simp only at hf
  unfold destOf
  cases hd : c.installDir with
  | some d =>
    refine ⟨d, ?_, .inl rfl⟩
    simp only
    rw [Path.join_text d _ (hi d hd).2 hf.2.1 (hi d hd).1 hf.2.2, if_neg hf.1]
  | none =>
    simp only
    have hp0 : (0 : UInt8) ∉ ascii "pkgconfig" := by decide +kernel
    have hpa : isAbs (ascii "pkgconfig") = false := by decide +kernel
    have hpc : comps (ascii "pkgconfig") = [ascii "pkgconfig"] := by decide +kernel
    obtain ⟨e1, e2⟩ := Path.join_relative (opt (if c.dataonly = true then ascii "datadir" else ascii "libdir")) _ (ho _) hp0 hpa
    obtain ⟨_, _, e3⟩ := Path.join_facts (opt (if c.dataonly = true then ascii "datadir" else ascii "libdir")) _ (ho _) hp0
    refine ⟨_, ?_, .inr ⟨trivial, by rw [e1, hpc], e2⟩⟩
    have hne : Path.join (opt (if c.dataonly = true then ascii "datadir" else ascii "libdir")) (ascii "pkgconfig") ≠ [] := by
      intro h
      rw [h, hpc] at e1
      have : comps [] = [] := by decide
      rw [this] at e1
      simp at e1
    rw [Path.join_text _ _ e3 hf.2.1 hne hf.2.2, if_neg hf.1]

example : (match generate exRoots exOpt [] exCall with | .ok m => (m.filebase, m.dest) | _ => ([], [])) =
    (ascii "foo", Path.join (Path.join (exOpt (ascii "libdir")) (ascii "pkgconfig")) (ascii "foo") ++ ascii ".pc") := by decide +kernel

/-- C98: the directory of the libraries: `libdir`, or `install_dir` written below the prefix. An absolute directory outside the
prefix is an error. -/
theorem libdir_spec (pre : Bytes) (i : Option Bytes) (hp : isAbs pre = true ∧ 0 ∉ pre) (hi : ∀ d, i = some d → d ≠ [] ∧ 0 ∉ d) :
    match i with
    | none => libdirFlag pre i = .ok (ascii "-L${libdir}")
    | some d =>
      if isAbs d = true then
        if comps pre <+: comps d then
          ∃ r, libdirFlag pre i = .ok (ascii "-L${prefix}/" ++ r) ∧ walk [] (comps (Path.join pre r)) = walk [] (comps d)
        else libdirFlag pre i = .error
      else libdirFlag pre i = .ok (ascii "-L${prefix}/" ++ d) := by
  cases i with
  | none => rfl
  | some d =>
    obtain ⟨hd, h0⟩ := hi d rfl
    simp only [libdirFlag]
    rw [Path.isSubpath_iff_partial pre d hp.2 h0 hd (.inl hp.1)]
    rw [hp.1]
    by_cases ha : isAbs d = true
    · rw [if_pos ha]
      by_cases hs : comps pre <+: comps d
      · rw [if_pos hs]
        obtain ⟨r, h1, _, h3⟩ := Path.relativeTo_walk pre d hp.2 h0 hp.1 ha
        refine ⟨r, ?_, h3⟩
        show (if decide _ = true then _ else _) = _
        rw [if_pos (by simp [ha, hs]), h1]; rfl
      · rw [if_neg hs]
        show (if decide _ = true then _ else _) = _
        rw [if_neg (by simp [hs]), Path.isAbsolute_eq, if_pos ha]
    · rw [if_neg ha]
      have ha' : isAbs d = false := by simpa using ha
      show (if decide _ = true then _ else _) = _
      rw [if_neg (by simp [ha']), Path.isAbsolute_eq, if_neg ha]

example : libdirFlag (ascii "/usr") (some (ascii "/usr/lib/x")) = .ok (ascii "-L${prefix}/lib/x") ∧
    libdirFlag (ascii "/usr") (some (ascii "/opt")) = .error ∧ libdirFlag (ascii "/usr") (some (ascii "l")) = .ok (ascii "-L${prefix}/l") := by
  decide +kernel

/-- C98: the directories that can be declared are the options for directories of Meson. -/
theorem dirs_spec (d : Bytes) : d ∈ dirs ↔ d = ascii "prefix" ∨ ∃ s ∈ ["bin", "data", "include", "info", "lib", "libexec", "locale", "localstate",
    "man", "sbin", "sharedstate", "sysconf"], d = ascii s ++ ascii "dir" := by
  have h : dirs = ascii "prefix" :: ["bin", "data", "include", "info", "lib", "libexec", "locale", "localstate",
    "man", "sbin", "sharedstate", "sysconf"].map (fun s => ascii s ++ ascii "dir") := by decide +kernel
  rw [h, List.mem_cons, List.mem_map]
  simp only [eq_comm]

end Muon.Pc
