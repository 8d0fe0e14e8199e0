import Verif.Ctgt.Outs
/-
C105: the command lines and dependency files of whole targets.
-/
namespace Muon.Ctgt
open Muon Muon.Ctgt.Spec
open Muon.Names.Spec (Place FileName)
open Muon.Path.Spec (comps render sepJoin isAbs dotdot)

theorem make_parts {E : Env} {m : Make} {t : Tgt} (h : make E m = .ok t) :
    t.input = m.input ∧ makeOutputs m = .ok t.output ∧ makeDepfile m = .ok t.depfile ∧
      command E (makeOpts m t.output t.depfile) m.command = .ok (t.args, t.depends) := by
  unfold make at h
  rw [Res.bind_eq_ok] at h
  obtain ⟨out, h1, h⟩ := h
  rw [Res.bind_eq_ok] at h
  obtain ⟨dep, h2, h⟩ := h
  rw [Res.bind_eq_ok] at h
  obtain ⟨c, h3, h⟩ := h
  cases h
  exact ⟨rfl, h1, h2, h3⟩

/-- C105, for texts whose keys are all known: the command line of a target is made with its inputs, with its outputs and its dependency file
as they are called in the end, and with paths relative to the build directory. -/
theorem target_command_partial (E : Env) (m : Make) (t : Tgt) (h : make E m = .ok t)
    (hz : (∀ l, m.input = some l → l.length < 2 ^ 32) ∧ ∀ l, t.output = some l → l.length < 2 ^ 32)
    (hc : ∀ a ∈ m.command, CleanArg ⟨true, m.name, m.input, t.output, t.depfile, m.buildDir, m.extraValid, m.extra⟩ a) :
    t.input = m.input ∧ t.args ≠ [] ∧
      All E ⟨true, m.name, m.input, t.output, t.depfile, m.buildDir, m.extraValid, m.extra⟩ m.command t.args t.depends := by
  obtain ⟨h1, _, _, h4⟩ := make_parts h
  obtain ⟨a, b⟩ := command_words_partial E (makeOpts m t.output t.depfile) hz m.command hc _ _ h4
  exact ⟨h1, b, a⟩

/-- C105, for texts whose keys are all known: the command line of a generated file is made with the source as the only input, the directory of
the target for `@BUILD_DIR@`, and the extra arguments; the file depends on what the command names and on what the generator depends on. -/
theorem generated_command_partial (E : Env) (g : Gen) (dir src : Bytes) (t : Tgt) (h : genOne E g dir src = .ok t)
    (hz : ∀ l, t.output = some l → l.length < 2 ^ 32)
    (hc : ∀ a ∈ g.command, CleanArg ⟨true, none, some [src], t.output, t.depfile, some dir, true, g.extra⟩ a) :
    ∃ ds, t.depends = ds ++ g.depends ∧ t.args ≠ [] ∧
      All E ⟨true, none, some [src], t.output, t.depfile, some dir, true, g.extra⟩ g.command t.args ds := by
  unfold genOne at h
  rw [Res.bind_eq_ok] at h
  obtain ⟨d, _, h⟩ := h
  rw [Res.bind_eq_ok] at h
  obtain ⟨u, h1, h2⟩ := h
  cases h2
  obtain ⟨_, a, b⟩ := target_command_partial E _ u h1 ⟨fun l hl => by cases hl; exact Nat.lt_of_lt_of_le (by decide : 1 < 2) (by decide), hz⟩ hc
  exact ⟨u.depends, rfl, a, b⟩

/-- C105, for a directory without `@` and one input: the dependency file is in the directory of the outputs, with the name that is given, its
keys filled in. -/
theorem depfile_place_partial (E : Env) (m : Make) (t : Tgt) (src : Bytes) (h : make E m = .ok t) (hi : m.input = some [src])
    (hd : Place m.outDir) (h64 : ∀ c ∈ comps m.outDir, 64 ∉ c) (ps : List Piece) (hp : m.depfile = some (written ps)) (hc : OutClean ps)
    (hf : FileName (written ps)) : ∃ name, Filled (OutValue src) ps name ∧ t.depfile = some (slashed m.outDir ++ name) := by
  obtain ⟨_, _, h3, _⟩ := make_parts h
  obtain ⟨name, h4, h5, _⟩ := format_output (src := src) hd h64 hc hf
  unfold makeDepfile at h3
  rw [hp] at h3
  simp only [output, isBasename_name hf, hi, h5, Bool.not_true, Bool.false_eq_true, if_false, Res.ok_bind] at h3
  exact ⟨name, h4, (Res.ok.inj h3).symm⟩

/-- C105: a dependency file is not given with a directory; without `depfile` there is none. -/
theorem depfile_plain (E : Env) (m : Make) (t : Tgt) (h : make E m = .ok t) :
    (∀ d, m.depfile = some d → 47 ∉ d) ∧ (m.depfile = none ↔ t.depfile = none) := by
  obtain ⟨_, _, h3, _⟩ := make_parts h
  unfold makeDepfile at h3
  split at h3
  · next hn =>
    have := Res.ok.inj h3
    simp [hn, ← this]
  · next d hd =>
    rw [Res.bind_eq_ok] at h3
    obtain ⟨f, h4, h5⟩ := h3
    have h5 : some f = t.depfile := Res.ok.inj h5
    rw [hd, ← h5]
    refine ⟨?_, by simp⟩
    rintro d' ⟨⟩
    unfold output at h4
    split at h4
    · cases h4
    · next hb => simpa [Path.isBasename] using hb

/-- C105: `preserve_path_from` is an absolute path. -/
theorem preserve_absolute (g : Gen) (b : Bytes) (hb : g.preserve = some b) (h : checkPreserve g = .ok ()) : Path.Spec.isAbs b = true := by
  unfold checkPreserve at h
  rw [hb] at h
  simp only at h
  split at h
  · cases h
  · next hn =>
    rw [← Path.isAbsolute_eq]
    simpa using hn

example : ∃ t, make exE { input := some [ascii "/w/s/a.in"], output := some [ascii "a.c"], outDir := ascii "/w/b", command := [.str (ascii "tool"), .str (ascii "@OUTPUT@")], depfile := some (ascii "a.d") } = .ok t ∧ t.args = [ascii "tool", ascii "a.c"] ∧ t.depfile = some (ascii "/w/b/a.d") :=
  ⟨⟨[ascii "tool", ascii "a.c"], some [ascii "/w/s/a.in"], some [ascii "/w/b/a.c"], some (ascii "/w/b/a.d"), []⟩, by decide +kernel, rfl, rfl⟩

end Muon.Ctgt
