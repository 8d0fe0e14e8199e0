import Verif.Ctgt.Lemmas
import Verif.Cmdline.Props
import Verif.Names.Props
/-
C105: command lines and outputs of custom targets and generators.
-/
namespace Muon.Ctgt
open Muon Muon.Ctgt.Spec

/-! ## Words -/

/-- C105: where paths are made relative, a word for an absolute path leads from the build directory to the same file. -/
theorem word_leads {build p w : Bytes} (hb : Cmdline.Spec.Abs build) (hp : Cmdline.Spec.Abs p) (h : Word build true p w) :
    Cmdline.Spec.Leads build w p := by
  have hh : p.head? = some 47 := by simpa [Path.Spec.isAbs] using hp.1
  unfold Word at h
  rw [if_pos ⟨rfl, hh⟩] at h
  obtain ⟨r, h1, h2⟩ := h
  obtain ⟨r', h3, h4⟩ := Cmdline.relative_leads build p hb hp
  rw [h1] at h3; cases h3
  rcases h2 with rfl | rfl
  · exact h4
  · have h0 : 0 ∉ r := by
      rcases Path.relativeTo_cases build p hb.2 hp.2 hb.1 hp.1 with ⟨_, h⟩ | h | ⟨_, _, _, t, _, _, h, t0, _⟩
      · rw [h] at h1; cases h1; decide
      · rw [h] at h1; cases h1; exact Path.canon_no0 _ _ (Path.canon_no0 _ _ hp.2)
      · rw [h] at h1; cases h1; exact Path.canon_no0 _ _ t0
    unfold Cmdline.Spec.Leads at h4 ⊢
    have ha : Path.Spec.isAbs (Path.executable r) = Path.Spec.isAbs r := by
      unfold Path.executable Path.copy
      split
      · next hbn =>
        have hm : 47 ∉ r := by simpa [Path.isBasename] using hbn
        have : Path.Spec.isAbs r = false := by
          cases r with
          | nil => rfl
          | cons c r => simp [Path.Spec.isAbs]; rintro rfl; simp at hm
        rw [this]
        rfl
      · rw [Path.normalize_canon _ _ h0]
        exact Path.canon_isAbs _ _ h0
    rw [ha, Path.executable_comps r h0]
    exact h4

/-- C105: so it leads to every path there is a word for. -/
example : Cmdline.Spec.Abs (ascii "/w/b") ∧ Word (ascii "/w/b") true (ascii "/w/b/tool") (ascii "./tool") ∧
    Word (ascii "/w/b") true (ascii "/w/s/a.c") (ascii "../s/a.c") := by
  refine ⟨by unfold Cmdline.Spec.Abs; decide +kernel, ?_, ?_⟩
  · exact ⟨ascii "tool", by decide +kernel, .inr (by decide +kernel)⟩
  · exact ⟨ascii "../s/a.c", by decide +kernel, .inl rfl⟩

/-! ## Commands -/

/-- Lists of inputs and outputs of possible sizes. -/
def Sized (o : Opts) : Prop := (∀ l, o.input = some l → l.length < 2 ^ 32) ∧ (∀ l, o.output = some l → l.length < 2 ^ 32)

theorem written_whole {o : Opts} {s : Bytes} (h : ¬ Whole o s) : ¬ (s = ascii "@INPUT@" ∧ o.input.isSome = true) ∧
    ¬ (s = ascii "@OUTPUT@" ∧ o.output.isSome = true) ∧ ¬ (o.extraValid = true ∧ s = ascii "@EXTRA_ARGS@") := by
  refine ⟨fun ⟨h1, h2⟩ => h ?_, fun ⟨h1, h2⟩ => h ?_, fun ⟨h1, h2⟩ => h ?_⟩
  · exact .inl ⟨h1, Option.isSome_iff_exists.mp h2⟩
  · exact .inr (.inl ⟨h1, Option.isSome_iff_exists.mp h2⟩)
  · exact .inr (.inr ⟨h2, h1⟩)

theorem str_text {E : Env} {o : Opts} {s : Bytes} (h : ¬ Whole o s) (st : St) :
    str E o s st = format (value E o (st.i = 0)) s >>= fun w => .ok (st.push w false) := by
  obtain ⟨h1, h2, h3⟩ := written_whole h
  unfold str
  rw [if_neg h1, if_neg h2, if_neg h3]

theorem str_sound {E : Env} {o : Opts} (hz : Sized o) {s : Bytes} (hs : CleanStr o s) {st st' : St} (h : str E o s st = .ok st') :
    ∃ ws, Str' E o s ws ∧ st'.res = st.res ++ ws ∧ st'.deps = st.deps := by
  by_cases hw : Whole o s
  · unfold str at h
    by_cases c1 : s = ascii "@INPUT@" ∧ o.input.isSome = true
    · rw [if_pos c1] at h
      obtain ⟨ws, h1, h2, h3⟩ := files_words h
      obtain ⟨l, hl⟩ := Option.isSome_iff_exists.mp c1.2
      rw [hl] at h1
      exact ⟨ws, c1.1 ▸ .input hl h1, h2, by simpa using h3⟩
    rw [if_neg c1] at h
    by_cases c2 : s = ascii "@OUTPUT@" ∧ o.output.isSome = true
    · rw [if_pos c2, Res.bind_eq_ok] at h
      obtain ⟨st1, h, h'⟩ := h
      cases h'
      obtain ⟨ws, h1, h2, h3⟩ := files_words h
      obtain ⟨l, hl⟩ := Option.isSome_iff_exists.mp c2.2
      rw [hl] at h1
      exact ⟨ws, c2.1 ▸ .output hl h1, h2, by simpa [St.tick] using h3⟩
    rw [if_neg c2] at h
    by_cases c3 : o.extraValid = true ∧ s = ascii "@EXTRA_ARGS@"
    · rw [if_pos c3] at h
      cases h
      exact ⟨_, c3.2 ▸ .extra c3.1, rfl, rfl⟩
    · rcases hw with ⟨h1, h2⟩ | ⟨h1, h2⟩ | ⟨h1, h2⟩
      · exact absurd ⟨h1, Option.isSome_iff_exists.mpr h2⟩ c1
      · exact absurd ⟨h1, Option.isSome_iff_exists.mpr h2⟩ c2
      · exact absurd ⟨h2, h1⟩ c3
  · rcases hs with hs | ⟨ps, hc, rfl⟩
    · exact absurd hs hw
    · rw [str_text hw, Res.bind_eq_ok] at h
      obtain ⟨w, h1, h2⟩ := h
      cases h2
      have hkey : ∀ k, Piece.key k ∈ ps → value E o (st.i = 0) k ≠ .ok none := fun k hk => value_some E o hz.1 hz.2 ((hc _ hk).2 k rfl)
      rw [format_pieces _ ps (fun p hp => (hc p hp).1) hkey] at h1
      refine ⟨[w], .text hc hw ?_, rfl, rfl⟩
      exact fill_filled _ _ ps (fun k v hk hv => value_sound E o hz.1 hz.2 ((hc _ hk).2 k rfl) hv) hkey w h1

theorem files_length {E : Env} {o : Opts} {dep : Bool} {l : List Bytes} {st st' : St} (h : files E o dep l st = .ok st') :
    st'.res.length = st.res.length + l.length := by
  induction l generalizing st with
  | nil => simp [files] at h; subst h; rfl
  | cons p l ih =>
    rw [files, Res.bind_eq_ok] at h
    obtain ⟨w, _, h2⟩ := h
    rw [ih h2]
    simp [St.push]; omega

theorem words_length {b : Bytes} {r : Bool} {l ws : List Bytes} (h : Words b r l ws) : ws.length = l.length := by
  induction h with
  | nil => rfl
  | cons _ _ ih => simp [ih]

theorem str_complete {E : Env} {o : Opts} (hz : Sized o) {s : Bytes} {ws : List Bytes} (h : Str' E o s ws) (st : St) :
    ∃ st', str E o s st = .ok st' ∧ st'.res.length = st.res.length + ws.length := by
  cases h with
  | input hl hw =>
    obtain ⟨st', h'⟩ := words_files (dep := false) hw st
    refine ⟨st', ?_, by rw [files_length h', words_length hw]⟩
    unfold str
    rw [if_pos ⟨rfl, by simp [hl]⟩, hl]
    exact h'
  | output hl hw =>
    obtain ⟨st', h'⟩ := words_files (dep := false) hw st
    refine ⟨st'.tick, ?_, by rw [words_length hw, ← files_length h']; rfl⟩
    unfold str
    rw [if_neg (fun h => absurd h.1 (by decide +kernel)), if_pos ⟨rfl, by simp [hl]⟩, hl]
    simp [h']
  | extra hx =>
    refine ⟨⟨st.i + 1, st.res ++ o.extra.getD [], st.deps⟩, ?_, ?_⟩
    · unfold str
      rw [if_neg (fun h => absurd h.1 (by decide +kernel)), if_neg (fun h => absurd h.1 (by decide +kernel)), if_pos ⟨hx, rfl⟩]
    · simp
  | @text ps w hc hw hf =>
    obtain ⟨t', ht⟩ := filled_fill (value E o (st.i = 0)) _ hf (fun k v hv => value_complete E o hz.1 hz.2 _ hv)
    refine ⟨st.push t' false, ?_, by simp [St.push]⟩
    have hkey : ∀ k, Piece.key k ∈ ps → value E o (st.i = 0) k ≠ .ok none := fun k hk => value_some E o hz.1 hz.2 ((hc _ hk).2 k rfl)
    rw [str_text hw, format_pieces _ ps (fun p hp => (hc p hp).1) hkey, ht]
    rfl

theorem strs_sound {E : Env} {o : Opts} (hz : Sized o) : ∀ {l : List Bytes}, (∀ s ∈ l, CleanStr o s) → ∀ {st st' : St},
    strs E o l st = .ok st' → ∃ ws, Strs E o l ws ∧ st'.res = st.res ++ ws ∧ st'.deps = st.deps := by
  intro l
  induction l with
  | nil => intro _ st st' h; simp [strs] at h; subst h; exact ⟨[], .nil, by simp, rfl⟩
  | cons s l ih =>
    intro hc st st' h
    rw [strs, Res.bind_eq_ok] at h
    obtain ⟨st1, h1, h2⟩ := h
    obtain ⟨ws, a1, a2, a3⟩ := str_sound hz (hc s (by simp)) h1
    obtain ⟨vs, b1, b2, b3⟩ := ih (fun s hs => hc s (by simp [hs])) h2
    exact ⟨ws ++ vs, .cons a1 b1, by rw [b2, a2]; simp, by rw [b3, a3]⟩

theorem strs_complete {E : Env} {o : Opts} (hz : Sized o) {l ws : List Bytes} (h : Strs E o l ws) : ∀ (st : St),
    ∃ st', strs E o l st = .ok st' ∧ st'.res.length = st.res.length + ws.length := by
  induction h with
  | nil => intro st; exact ⟨st, rfl, rfl⟩
  | cons hs _ ih =>
    intro st
    obtain ⟨st1, h1, h2⟩ := str_complete hz hs st
    obtain ⟨st2, h3, h4⟩ := ih st1
    exact ⟨st2, by rw [strs, h1]; exact h3, by rw [h4, h2]; simp; omega⟩

theorem arg_sound {E : Env} {o : Opts} (hz : Sized o) {a : Arg} (hc : CleanArg o a) {st st' : St} (h : arg E o a st = .ok st') :
    ∃ ws ds, Means E o a ws ds ∧ st'.res = st.res ++ ws ∧ st'.deps = st.deps ++ ds := by
  have one : ∀ {p : Bytes} {l : List Bytes}, Words E.build o.relativize [p] l → ∃ w, l = [w] ∧ Word E.build o.relativize p w := by
    intro p l hw
    cases hw with
    | cons h1 h2 => cases h2; exact ⟨_, rfl, h1⟩
  cases a with
  | str s =>
    obtain ⟨ws, h1, h2, h3⟩ := str_sound hz hc h
    exact ⟨ws, [], .str h1, h2, by simp [h3]⟩
  | file p =>
    obtain ⟨ws, h1, h2, h3⟩ := files_words h
    obtain ⟨w, rfl, hw⟩ := one h1
    exact ⟨[w], [w], .file hw, h2, by simpa using h3⟩
  | prog found cmd =>
    cases found with
    | false => simp [arg] at h
    | true =>
      simp only [arg, Bool.not_true, Bool.false_eq_true, if_false] at h
      cases cmd with
      | nil => simp [program] at h
      | cons c as =>
        rw [program, Res.bind_eq_ok] at h
        obtain ⟨w, h1, h2⟩ := h
        refine ⟨w :: as, [w], .prog (relative_word h1), ?_, ?_⟩
        · by_cases ha : as = []
          · rw [if_pos ha] at h2; cases h2; simp [St.push, ha]
          · rw [if_neg ha] at h2; cases h2; rfl
        · by_cases ha : as = []
          · rw [if_pos ha] at h2; cases h2; simp [St.push]
          · rw [if_neg ha] at h2; cases h2; rfl
  | target d n =>
    rw [arg, Res.bind_eq_ok] at h
    obtain ⟨f, h1, h2⟩ := h
    rw [targetFile, Res.bind_eq_ok] at h1
    obtain ⟨r, h1, h3⟩ := h1
    cases h3
    obtain ⟨ws, h4, h5, h6⟩ := files_words h2
    obtain ⟨w, rfl, hw⟩ := one h4
    exact ⟨[w], [w], .target h1 hw, h5, by simpa using h6⟩
  | custom outs =>
    rw [arg, Res.bind_eq_ok] at h
    obtain ⟨st1, h1, h2⟩ := h
    cases h2
    obtain ⟨ws, h4, h5, h6⟩ := files_words h1
    exact ⟨ws, ws, .custom h4, h5, by simpa [St.tick] using h6⟩
  | compiler cmd =>
    rw [arg, Res.bind_eq_ok] at h
    obtain ⟨st1, h1, h2⟩ := h
    cases h2
    obtain ⟨ws, h4, h5, h6⟩ := strs_sound hz hc h1
    exact ⟨ws, [], .compiler h4, h5, by simpa [St.tick] using h6⟩

theorem arg_complete {E : Env} {o : Opts} (hz : Sized o) {a : Arg} {ws ds : List Bytes} (h : Means E o a ws ds) (st : St) :
    ∃ st', arg E o a st = .ok st' ∧ st'.res.length = st.res.length + ws.length := by
  cases h with
  | str h => exact str_complete hz h st
  | file hw =>
    obtain ⟨st', h'⟩ := words_files (dep := true) (.cons hw .nil) st
    exact ⟨st', h', by rw [files_length h']; rfl⟩
  | @prog c w as hw =>
    obtain ⟨w', h'⟩ := word_relative hw (st.i = 0)
    simp only [arg, Bool.not_true, Bool.false_eq_true, if_false, program, h', Res.ok_bind]
    refine ⟨_, rfl, ?_⟩
    split
    · next h => simp [St.push, h]
    · simp
  | target hr hw =>
    obtain ⟨st', h'⟩ := words_files (dep := true) (.cons hw .nil) st
    refine ⟨st', ?_, by rw [files_length h']; rfl⟩
    simp [arg, targetFile, hr, h']
  | custom hw =>
    obtain ⟨st', h'⟩ := words_files (dep := true) hw st
    refine ⟨st'.tick, by simp [arg, h'], ?_⟩
    rw [words_length hw, ← files_length h']; rfl
  | compiler hs =>
    obtain ⟨st', h1, h2⟩ := strs_complete hz hs st
    exact ⟨st'.tick, by simp [arg, h1], h2⟩

theorem args_sound {E : Env} {o : Opts} (hz : Sized o) : ∀ {l : List Arg}, (∀ a ∈ l, CleanArg o a) → ∀ {st st' : St},
    args E o l st = .ok st' → ∃ ws ds, All E o l ws ds ∧ st'.res = st.res ++ ws ∧ st'.deps = st.deps ++ ds := by
  intro l
  induction l with
  | nil => intro _ st st' h; simp [args] at h; subst h; exact ⟨[], [], .nil, by simp, by simp⟩
  | cons a l ih =>
    intro hc st st' h
    rw [args, Res.bind_eq_ok] at h
    obtain ⟨st1, h1, h2⟩ := h
    obtain ⟨ws, ds, a1, a2, a3⟩ := arg_sound hz (hc a (by simp)) h1
    obtain ⟨vs, es, b1, b2, b3⟩ := ih (fun s hs => hc s (by simp [hs])) h2
    exact ⟨ws ++ vs, ds ++ es, .cons a1 b1, by rw [b2, a2]; simp, by rw [b3, a3]; simp⟩

theorem args_complete {E : Env} {o : Opts} (hz : Sized o) {l : List Arg} {ws ds : List Bytes} (h : All E o l ws ds) : ∀ (st : St),
    ∃ st', args E o l st = .ok st' ∧ st'.res.length = st.res.length + ws.length := by
  induction h with
  | nil => intro st; exact ⟨st, rfl, rfl⟩
  | cons hs _ ih =>
    intro st
    obtain ⟨st1, h1, h2⟩ := arg_complete hz hs st
    obtain ⟨st2, h3, h4⟩ := ih st1
    exact ⟨st2, by rw [args, h1]; exact h3, by rw [h4, h2]; simp; omega⟩

/-- C105, for texts whose keys are all known: the words of a command line are those its elements stand for, in their order, and
the target depends on the programs, files and targets among them. -/
theorem command_words_partial (E : Env) (o : Opts) (hz : Sized o) (l : List Arg) (hc : ∀ a ∈ l, CleanArg o a) (ws ds : List Bytes)
    (h : command E o l = .ok (ws, ds)) : All E o l ws ds ∧ ws ≠ [] := by
  rw [command, Res.bind_eq_ok] at h
  obtain ⟨st, h1, h2⟩ := h
  by_cases hr : st.res = []
  · rw [if_pos hr] at h2; cases h2
  · rw [if_neg hr] at h2
    cases h2
    obtain ⟨ws, ds, a1, a2, a3⟩ := args_sound hz hc h1
    simp only [List.nil_append] at a2 a3
    rw [a2, a3]
    exact ⟨a1, a2 ▸ hr⟩

/-- C105: and if all elements stand for something, and are not nothing together, there is a command line. -/
theorem command_made (E : Env) (o : Opts) (hz : Sized o) (l : List Arg) (ws ds : List Bytes) (h : All E o l ws ds) (hn : ws ≠ []) :
    ∃ ws' ds', command E o l = .ok (ws', ds') := by
  obtain ⟨st, h1, h2⟩ := args_complete hz h ⟨0, [], []⟩
  have hr : st.res ≠ [] := by
    intro hr
    rw [hr] at h2
    cases ws with
    | nil => exact hn rfl
    | cons _ _ => simp at h2
  exact ⟨st.res, st.deps, by rw [command, h1]; simp [hr]⟩

theorem args_mono {E : Env} {o : Opts} {l : List Arg} : ∀ {st st' : St}, args E o l st = .ok st' → st.res <+: st'.res := by
  have hf : ∀ {dep : Bool} {l : List Bytes} {st st' : St}, files E o dep l st = .ok st' → st.res <+: st'.res := by
    intro dep l st st' h
    obtain ⟨ws, _, h2, _⟩ := files_words h
    exact ⟨ws, h2.symm⟩
  have hs : ∀ {s : Bytes} {st st' : St}, str E o s st = .ok st' → st.res <+: st'.res := by
    intro s st st' h
    unfold str at h
    split at h
    · exact hf h
    split at h
    · rw [Res.bind_eq_ok] at h
      obtain ⟨st1, h1, h2⟩ := h
      cases h2
      have hh := hf h1
      exact hh
    split at h
    · cases h; exact ⟨_, rfl⟩
    · rw [Res.bind_eq_ok] at h
      obtain ⟨w, _, h2⟩ := h
      cases h2
      exact ⟨[w], rfl⟩
  have hss : ∀ {l : List Bytes} {st st' : St}, strs E o l st = .ok st' → st.res <+: st'.res := by
    intro l
    induction l with
    | nil => intro st st' h; simp [strs] at h; subst h; exact List.prefix_rfl
    | cons s l ih =>
      intro st st' h
      rw [strs, Res.bind_eq_ok] at h
      obtain ⟨st1, h1, h2⟩ := h
      exact (hs h1).trans (ih h2)
  induction l with
  | nil => intro st st' h; simp [args] at h; subst h; exact List.prefix_rfl
  | cons a l ih =>
    intro st st' h
    rw [args, Res.bind_eq_ok] at h
    obtain ⟨st1, h1, h2⟩ := h
    refine List.IsPrefix.trans ?_ (ih h2)
    cases a with
    | str s => exact hs h1
    | file p => exact hf h1
    | prog found cmd =>
      cases found with
      | false => simp [arg] at h1
      | true =>
        simp only [arg, Bool.not_true, Bool.false_eq_true, if_false] at h1
        cases cmd with
        | nil => simp [program] at h1
        | cons c as =>
          rw [program, Res.bind_eq_ok] at h1
          obtain ⟨w, _, h3⟩ := h1
          cases h3
          split
          · exact ⟨[w], rfl⟩
          · exact ⟨w :: as, rfl⟩
    | target d n =>
      rw [arg, Res.bind_eq_ok] at h1
      obtain ⟨_, _, h3⟩ := h1
      exact hf h3
    | custom outs =>
      rw [arg, Res.bind_eq_ok] at h1
      obtain ⟨_, h3, h4⟩ := h1
      cases h4
      have hh := hf h3
      exact hh
    | compiler cmd =>
      rw [arg, Res.bind_eq_ok] at h1
      obtain ⟨_, h3, h4⟩ := h1
      cases h4
      have hh := hss h3
      exact hh

/-- C105: a program or file that the command begins with is written as a path, never as a bare name that would be searched for. -/
theorem command_runs (E : Env) (o : Opts) (l : List Arg) (p : Bytes) (a : Arg) (ha : a = .file p ∨ ∃ as, a = .prog true (p :: as))
    (hr : o.relativize = true) (hp : p.head? = some 47) (ws ds : List Bytes) (h : command E o (a :: l) = .ok (ws, ds)) :
    ∃ r, Path.relativeTo E.build p = .ok r ∧ ws.head? = some (Path.executable r) := by
  rw [command, args, Res.bind_eq_ok] at h
  obtain ⟨st, h1, h2⟩ := h
  rw [Res.bind_eq_ok] at h1
  obtain ⟨st1, h1, h3⟩ := h1
  have hpre := args_mono h3
  have hws : ws = st.res := by
    by_cases hr : st.res = []
    · rw [if_pos hr] at h2; cases h2
    · rw [if_neg hr] at h2; cases h2; rfl
  have hrel : ∀ w, relative E o true p = .ok w → ∃ r, Path.relativeTo E.build p = .ok r ∧ w = Path.executable r := by
    intro w h
    unfold relative at h
    rw [hr, (abs_iff p).mpr hp] at h
    simp only [Bool.not_true, Bool.false_eq_true, if_false, if_true] at h
    rw [Res.bind_eq_ok] at h
    obtain ⟨r, h1, h2⟩ := h
    cases h2
    exact ⟨r, h1, rfl⟩
  have hst1 : ∃ w as, relative E o true p = .ok w ∧ st1.res = w :: as := by
    rcases ha with rfl | ⟨as, rfl⟩
    · simp only [arg, files] at h1
      rw [Res.bind_eq_ok] at h1
      obtain ⟨w, h1, h4⟩ := h1
      cases h4
      exact ⟨w, [], by simpa using h1, by simp [St.push]⟩
    · simp only [arg, Bool.not_true, Bool.false_eq_true, if_false, program] at h1
      rw [Res.bind_eq_ok] at h1
      obtain ⟨w, h1, h4⟩ := h1
      cases h4
      refine ⟨w, as, by simpa using h1, ?_⟩
      split
      · next h => simp [St.push, h]
      · simp
  obtain ⟨w, as, h4, h5⟩ := hst1
  obtain ⟨r, h6, rfl⟩ := hrel w h4
  refine ⟨r, h6, ?_⟩
  rw [h5] at hpre
  obtain ⟨t, ht⟩ := hpre
  rw [hws, ← ht]
  rfl

/-- A target `gen` of `/w/s` with two inputs and an output, built in `/w/b`. -/
def exE : Env := ⟨ascii "/w/s", ascii "/w/b", ascii "/w/b", ascii "/w/s"⟩
def exO : Opts := { relativize := true, name := some (ascii "gen"), input := some [ascii "/w/s/a.in", ascii "/w/s/b.in"], output := some [ascii "/w/b/o.c"] }
def exArgs : List Arg := [.prog true [ascii "/w/b/tool", ascii "-q"], .str (ascii "--first=@INPUT1@"), .str (ascii "@INPUT@"), .str (ascii "-o"),
  .str (ascii "@OUTPUT@"), .file (ascii "/w/s/dat")]

/-- The command of a target with two inputs. -/
example : Sized exO ∧ (∀ a ∈ exArgs, CleanArg exO a) ∧ command exE exO exArgs =
    .ok ([ascii "./tool", ascii "-q", ascii "--first=../s/b.in", ascii "../s/a.in", ascii "../s/b.in", ascii "-o", ascii "o.c", ascii "../s/dat"],
      [ascii "./tool", ascii "../s/dat"]) := by
  refine ⟨⟨?_, ?_⟩, ?_, by decide +kernel⟩
  · intro l h; cases h; decide
  · intro l h; cases h; decide
  · intro a ha
    simp only [exArgs, List.mem_cons, List.not_mem_nil, or_false] at ha
    rcases ha with rfl | rfl | rfl | rfl | rfl | rfl
    · trivial
    · refine .inr ⟨[.text (ascii "--first="), .key (ascii "INPUT1")], ?_, by decide +kernel⟩
      intro p hp
      simp only [List.mem_cons, List.not_mem_nil, or_false] at hp
      rcases hp with rfl | rfl
      · exact ⟨by unfold Piece.Ok; decide +kernel, fun k h => by cases h⟩
      · refine ⟨by unfold Piece.Ok; decide +kernel, fun k h => ?_⟩
        cases h
        exact .inr ⟨ascii "1", by decide +kernel, by decide +kernel, .inl (by decide +kernel)⟩
    · exact .inl (.inl ⟨rfl, _, rfl⟩)
    · refine .inr ⟨[.text (ascii "-o")], ?_, by decide +kernel⟩
      intro p hp
      simp only [List.mem_cons, List.not_mem_nil, or_false] at hp
      subst hp
      exact ⟨by unfold Piece.Ok; decide +kernel, fun k h => by cases h⟩
    · exact .inl (.inr (.inl ⟨rfl, _, rfl⟩))
    · trivial

end Muon.Ctgt
