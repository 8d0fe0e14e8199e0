import Verif.Path.Comps
/-
Properties C14-C18 and C60: path manipulation. C strings contain no NUL byte, hence the hypotheses `0 ∉ _`.
-/
namespace Muon.Path
open Muon Spec

/-! ## C14: normalisation -/

/-- C14, in memory: in a buffer with at least two more bytes after the terminator, normalisation writes the canonical
form and its length. The result is again terminated unless it is `.` and the memory after the old terminator was not
zero. -/
theorem normalize_spec_partial (optimize : Bool) (s junk : Bytes) (h0 : 0 ∉ s) (hs : s ≠ []) (hj : 2 ≤ junk.length) :
    ∃ b t, normalizeMem (s ++ 0 :: junk) s.length optimize = .ok (canon optimize s ++ b :: t, (canon optimize s).length) ∧
      (canon optimize s ≠ [46] ∨ junk.head? = some 0 → b = 0) := by
  obtain ⟨j, jt, rfl⟩ : ∃ j jt, junk = j :: jt := by
    cases junk with
    | nil => simp at hj
    | cons j jt => exact ⟨j, jt, rfl⟩
  obtain ⟨b, t, h1, h2⟩ := normalizeMem_ok j optimize s (j :: jt) h0 hs ⟨hj, by simp⟩
  refine ⟨b, t, h1, ?_⟩
  rintro (h | h)
  · rcases h2 with h2 | h2
    · exact h2
    · exact absurd h2.2 h
  · simp only [List.head?_cons, Option.some.injEq] at h
    rcases h2 with h2 | h2
    · exact h2
    · rw [h2.1, h]

/-- The result is the canonical form. -/
theorem normalize_eq_canon (optimize : Bool) (s : Bytes) (h0 : 0 ∉ s) : normalize optimize s = canon optimize s :=
  normalize_canon optimize s h0

/-- C14: normalisation is idempotent. -/
theorem normalize_idempotent (optimize : Bool) (s : Bytes) (h0 : 0 ∉ s) :
    normalize optimize (normalize optimize s) = normalize optimize s := by
  rw [normalize_canon _ s h0, normalize_canon _ _ (canon_no0 _ s h0), canon_canon _ s h0]

/-- C14: the result is an optional leading slash and components separated by single slashes (`.` if there is nothing),
none of them empty or `.`. -/
theorem normalize_shape (optimize : Bool) (s : Bytes) (h0 : 0 ∉ s) (hs : s ≠ []) :
    ∃ cs, normalize optimize s = render (isAbs s) cs ∧ ∀ c ∈ cs, c ≠ [] ∧ c ≠ [46] ∧ 47 ∉ c := by
  refine ⟨if optimize then cancel (comps s) else comps s, ?_, fun c hc => ?_⟩
  · rw [normalize_canon _ s h0]; unfold canon; rw [if_neg hs]
  · have := canon_good optimize s h0 c hc
    exact ⟨this.1, this.2.1, this.2.2.1⟩

/-- C14: absolute paths stay absolute and relative ones relative. -/
theorem normalize_isAbs (optimize : Bool) (s : Bytes) (h0 : 0 ∉ s) : isAbs (normalize optimize s) = isAbs s := by
  rw [normalize_canon _ s h0, canon_isAbs _ s h0]

/-- C14: without optimisation the components are kept. -/
theorem normalize_comps (s : Bytes) (h0 : 0 ∉ s) : comps (normalize false s) = comps s := by
  rw [normalize_canon _ s h0, canon_comps _ s h0]; simp

/-- C14: with optimisation no `..` follows a component other than `..`. -/
theorem normalize_no_pair (s : Bytes) (h0 : 0 ∉ s) (a b : List Bytes) (x : Bytes)
    (h : comps (normalize true s) = a ++ [x, dotdot] ++ b) : x = dotdot := by
  rw [normalize_canon _ s h0, canon_comps _ s h0] at h
  simp only [if_true] at h
  obtain ⟨dd, nn, h1, h2, h3⟩ := nf_cancel (comps s)
  rw [h1] at h
  apply Classical.byContradiction
  intro hx
  -- `x` is not among the leading `..`, so the `..` after it is not either
  have hlen : dd.length ≤ a.length := by
    apply Classical.byContradiction
    intro hl
    have : (dd ++ nn)[a.length]? = some x := by rw [h]; simp
    rw [List.getElem?_append_left (by omega)] at this
    exact hx (h2 x (List.mem_of_getElem? this))
  have : (dd ++ nn)[a.length + 1]? = some dotdot := by rw [h]; simp
  rw [List.getElem?_append_right (by omega)] at this
  exact h3 _ (List.mem_of_getElem? this) rfl

/-- C14: the result leads to the same place as the original, from every directory. -/
theorem normalize_walk (optimize : Bool) (s : Bytes) (h0 : 0 ∉ s) (start : List Bytes) :
    walk start (comps (normalize optimize s)) = walk start (comps s) := by
  rw [normalize_canon _ s h0, canon_comps _ s h0]
  cases optimize with
  | true => simp [walk_cancel]
  | false => simp

/-- C14 fails in memory: a buffer that held longer text before leaves `.` followed by an old byte, so that the C
string in the buffer is not `.`. -/
theorem normalize_stale_counterexample :
    normalizeMem (ascii "./" ++ [0] ++ ascii "xyz" ++ [0]) 2 false = .ok (ascii ".x" ++ [0] ++ ascii "xyz" ++ [0], 1) := by decide +kernel

/-- C14 fails in memory: normalisation reads up to two bytes past the terminator. -/
theorem normalize_overread_counterexample : normalizeMem (ascii "./" ++ [0]) 2 false = .bad := by decide +kernel

example : normalize true (ascii "/a//b/./../../../c/") = ascii "/../c" ∧ normalize false (ascii "/a//b/./../c/") = ascii "/a/b/../c" ∧
    normalize true (ascii "a/..") = ascii "." ∧ 0 ∉ ascii "/a//b/./../c/" := by decide +kernel

/-! ## C15: joining -/

/-- C15: an absolute right operand replaces the left one. -/
theorem join_absolute (a b : Bytes) (h1 : 0 ∉ a) (h2 : 0 ∉ b) (hb : isAbs b = true) : join a b = normalize false b := by
  unfold join
  rw [push_spec _ b (push_comps [] a (by simp) h1).2.2 h2, if_pos (Or.inl hb), normalize_canon _ b h2]

/-- C15: otherwise the result has the components of both, and is absolute exactly if the left operand is. -/
theorem join_relative (a b : Bytes) (h1 : 0 ∉ a) (h2 : 0 ∉ b) (hb : isAbs b = false) :
    comps (join a b) = comps a ++ comps b ∧ isAbs (join a b) = isAbs a := by
  obtain ⟨p, q, _⟩ := join_facts a b h1 h2
  rw [p, q, hb]; simp

/-- C15: the text of the result is canonical, except that joining with the empty string adds a slash. -/
theorem join_text (a b : Bytes) (h1 : 0 ∉ a) (h2 : 0 ∉ b) (ha : a ≠ []) (hb : isAbs b = false) :
    join a b = if b = [] then render (isAbs a) (comps a) ++ [47] else render (isAbs a) (comps a ++ comps b) := by
  have hca : canon false a = render (isAbs a) (comps a) := by unfold canon; rw [if_neg ha]; simp
  have hp : push [] a = canon false a := by rw [push_spec _ a (by simp) h1, if_pos (Or.inr rfl)]
  have hne : canon false a ≠ [] := fun h => ha ((canon_ne _ _ h1).1 h)
  have hn0 := canon_no0 false a h1
  unfold join
  rw [hp, push_spec _ b hn0 h2, if_neg (by simp [hb, hne])]
  split
  · rw [canon_canon _ a h1, hca]
  · have hx : canon false a ++ [47] ++ b ≠ [] := by simp
    have hu : canon false (canon false a ++ [47] ++ b) =
        render (isAbs (canon false a ++ [47] ++ b)) (comps (canon false a ++ [47] ++ b)) := by
      rw [canon, if_neg hx]; simp
    rw [hu, List.append_assoc, isAbs_append _ _ hne, canon_isAbs _ a h1, List.singleton_append, comps_append, canon_comps _ a h1]
    simp

/-- Joining with an empty left operand gives the right one. -/
theorem join_empty (b : Bytes) (h2 : 0 ∉ b) : join [] b = normalize false b := by
  have hp : push [] [] = [] := by decide +kernel
  unfold join
  rw [hp, push_spec _ b (by simp) h2, if_pos (Or.inr rfl), normalize_canon _ b h2]

/-- `path_join_absolute` always appends, even an absolute path. -/
theorem joinAbsolute_comps (a b : Bytes) (h1 : 0 ∉ a) (h2 : 0 ∉ b) :
    comps (joinAbsolute a b) = comps a ++ comps b := by
  unfold joinAbsolute copy
  have hn0 : 0 ∉ normalize false a := by rw [normalize_canon _ a h1]; exact canon_no0 _ a h1
  rw [normalize_comps _ (no0_append hn0 h2), List.append_assoc, List.singleton_append, comps_append, normalize_comps a h1]

/-- `path_make_absolute` is absolute if the current directory is, and does not change an absolute path. -/
theorem makeAbsolute_spec (cwd p : Bytes) (h1 : 0 ∉ cwd) (h2 : 0 ∉ p) (hc : isAbs cwd = true) :
    isAbs (makeAbsolute cwd p) = true ∧
    comps (makeAbsolute cwd p) = if isAbs p then comps p else comps cwd ++ comps p := by
  unfold makeAbsolute copy
  rw [isAbsolute_eq]
  by_cases h : isAbs p = true
  · rw [if_pos h, if_pos h, normalize_isAbs _ p h2, normalize_comps p h2]; exact ⟨h, rfl⟩
  · obtain ⟨q1, q2, _⟩ := join_facts cwd p h1 h2
    rw [if_neg h, if_neg h, q1, q2, if_neg h, hc]; simp

example : join (ascii "a/b/") (ascii "./c") = ascii "a/b/c" ∧ join (ascii "a") (ascii "/c/") = ascii "/c" ∧
    join (ascii "a") [] = ascii "a/" ∧ isAbs (ascii "./c") = false ∧ isAbs (ascii "/c/") = true ∧
    joinAbsolute (ascii "a") (ascii "/c") = ascii "a/c" := by decide +kernel

/-! ## C16: relative paths -/

/-- C16: for absolute paths a relative path is always found, and following it from `base` leads to `p`. -/
theorem relativeTo_walk (base p : Bytes) (h1 : 0 ∉ base) (h2 : 0 ∉ p) (hb : isAbs base = true) (hp : isAbs p = true) :
    ∃ r, relativeTo base p = .ok r ∧ isAbs (join base r) = true ∧ walk [] (comps (join base r)) = walk [] (comps p) := by
  have hpn : 0 ∉ canon true p := canon_no0 _ p h2
  rcases relativeTo_cases base p h1 h2 hb hp with ⟨he, h⟩ | h | ⟨C, B', P', t, e1, e2, h, t0, tn, ta, tc⟩
  · refine ⟨[46], h, ?_⟩
    obtain ⟨q1, q2, _⟩ := join_facts base [46] h1 (by decide)
    rw [q1, q2, hb]
    have hx : isAbs [46] = false := by decide
    have hy : comps [46] = [] := by decide
    refine ⟨by simp, ?_⟩
    rw [hx, hy]
    have := congrArg comps he
    rw [canon_comps _ _ h1, canon_comps _ _ h2] at this
    simp only [if_true] at this
    rw [← walk_cancel [] (comps p), ← this, walk_cancel]; simp
  · have hn := canon_no0 false _ hpn
    refine ⟨_, h, ?_⟩
    obtain ⟨q1, q2, _⟩ := join_facts base _ h1 hn
    have ha : isAbs (canon false (canon true p)) = true := by rw [canon_isAbs _ _ hpn, canon_isAbs _ _ h2, hp]
    rw [q1, q2, ha]
    refine ⟨by simp, ?_⟩
    rw [if_pos rfl, canon_comps _ _ hpn, canon_comps _ _ h2]
    simp [walk_cancel]
  · have hn := canon_no0 false t t0
    refine ⟨_, h, ?_⟩
    obtain ⟨q1, q2, _⟩ := join_facts base _ h1 hn
    have ha : isAbs (canon false t) = false := by rw [canon_isAbs _ _ t0, ta]
    rw [q1, q2, ha, hb]
    refine ⟨by simp, ?_⟩
    rw [if_neg (by decide), canon_comps _ _ t0, if_neg (by decide), tc, walk_append, ← walk_cancel [] (comps base), e1,
      walk_append, walk_back C B' (e1 ▸ nf_cancel _), ← walk_append, ← e2, walk_cancel]

/-- C16: unless the base leads above the root, the text of `p` is recovered too. -/
theorem relativeTo_text (base p : Bytes) (h1 : 0 ∉ base) (h2 : 0 ∉ p) (hb : isAbs base = true) (hp : isAbs p = true)
    (hd : dotdot ∉ comps (normalize true base)) :
    ∃ r, relativeTo base p = .ok r ∧ normalize true (join base r) = normalize true p := by
  have hpn : 0 ∉ canon true p := canon_no0 _ p h2
  have hpe : p ≠ [] := by rintro rfl; simp [isAbs] at hp
  rw [normalize_canon _ _ h1, canon_comps _ _ h1] at hd
  simp only [if_true] at hd
  have key : ∀ r, 0 ∉ r → isAbs (join base r) = true → cancel (comps (join base r)) = cancel (comps p) →
      normalize true (join base r) = normalize true p := by
    intro r hr ha hc
    have hj := (join_facts base r h1 hr).2.2
    have hjn : join base r ≠ [] := by intro h; rw [h] at ha; simp [isAbs] at ha
    rw [normalize_canon _ _ hj, normalize_canon _ _ h2]
    unfold canon
    rw [if_neg hjn, if_neg hpe, ha, hp]
    simp [hc]
  rcases relativeTo_cases base p h1 h2 hb hp with ⟨he, h⟩ | h | ⟨C, B', P', t, e1, e2, h, t0, tn, ta, tc⟩
  · obtain ⟨q1, q2, _⟩ := join_facts base [46] h1 (by decide)
    have hx : isAbs [46] = false := by decide
    have hy : comps [46] = [] := by decide
    refine ⟨[46], h, key _ (by decide) (by rw [q2, hb]; simp) ?_⟩
    have := congrArg comps he
    rw [canon_comps _ _ h1, canon_comps _ _ h2] at this
    simp only [if_true] at this
    rw [q1, hx, hy]; simp [this]
  · have hn := canon_no0 false _ hpn
    obtain ⟨q1, q2, _⟩ := join_facts base _ h1 hn
    have ha : isAbs (canon false (canon true p)) = true := by rw [canon_isAbs _ _ hpn, canon_isAbs _ _ h2, hp]
    refine ⟨_, h, key _ hn (by rw [q2, ha]; simp) ?_⟩
    rw [q1, ha, if_pos rfl, canon_comps _ _ hpn, canon_comps _ _ h2]
    simp [cancel_nf _ (nf_cancel _)]
  · have hn := canon_no0 false t t0
    obtain ⟨q1, q2, _⟩ := join_facts base _ h1 hn
    have ha : isAbs (canon false t) = false := by rw [canon_isAbs _ _ t0, ta]
    refine ⟨_, h, key _ hn (by rw [q2, ha, hb]; simp) ?_⟩
    rw [q1, ha, if_neg (by decide), canon_comps _ _ t0, if_neg (by decide), tc, cancel_eq, List.foldl_append, ← cancel_eq, e1,
      List.foldl_append]
    have hB : ∀ c ∈ B', c ≠ dotdot := fun c hc e => hd (by rw [e1, ← e]; simp [hc])
    have hC : ∀ c ∈ C, c ≠ dotdot := fun c hc e => hd (by rw [e1, ← e]; simp [hc])
    rw [cancelFold_pops B'.length C B' rfl hB]
    have h3 : cancel (C ++ P') = C ++ P' := cancel_nf _ (e2 ▸ nf_cancel _)
    rw [cancel_eq, List.foldl_append, cancelFold_nn C hC] at h3
    simp only [List.nil_append] at h3
    rw [h3, e2]

/-- The text is not recovered from a base above the root, only the place. -/
theorem relativeTo_above_root_counterexample :
    relativeTo (ascii "/../..") (ascii "/../a") = .ok (ascii "../a") ∧
    normalize true (join (ascii "/../..") (ascii "../a")) = ascii "/../../../a" := by decide +kernel

example : isAbs (ascii "/a/b/c") = true ∧ dotdot ∉ comps (normalize true (ascii "/a/b/c")) ∧
    relativeTo (ascii "/a/b/c") (ascii "/a/d") = .ok (ascii "../../d") := by decide +kernel

/-! ## C17: sub-paths -/

/-- C17, for a base that is absolute or has a component: the test holds exactly if both are absolute or both relative
and the components of the base are a prefix. -/
theorem isSubpath_iff_partial (base sub : Bytes) (h1 : 0 ∉ base) (h2 : 0 ∉ sub) (hs : sub ≠ [])
    (hb : isAbs base = true ∨ comps base ≠ []) :
    isSubpath base sub = .ok (decide (isAbs base = isAbs sub ∧ comps base <+: comps sub)) := by
  have hbn : base ≠ [] := by
    rintro rfl
    rcases hb with h | h
    · simp [isAbs] at h
    · exact h (by decide)
  unfold isSubpath copy
  rw [if_neg hbn, normalize_canon _ _ h1, normalize_canon _ _ h2,
    subLoop_spec _ _ (canon_no0 _ _ h1) (canon_no0 _ _ h2) (fun h => hbn ((canon_ne _ _ h1).1 h)) _ 0 rfl (by omega) rfl]
  have e1 : canon false base = render (isAbs base) (comps base) := by unfold canon; rw [if_neg hbn]; simp
  have e2 : canon false sub = render (isAbs sub) (comps sub) := by unfold canon; rw [if_neg hs]; simp
  rw [e1, e2]
  congr 1
  exact decide_eq_decide.2 (subpath_render _ _ _ _ (comps_good _ h1) (comps_good _ h2) hb.symm)

/-- C17 fails for the current directory as base: only paths equal to it are under it. -/
theorem isSubpath_dot_counterexample :
    isSubpath (ascii ".") (ascii "a") = .ok false ∧ isAbs (ascii ".") = isAbs (ascii "a") ∧
    comps (ascii ".") <+: comps (ascii "a") := by
  decide +kernel

example : (isAbs (ascii "/a/b") = true ∨ comps (ascii "/a/b") ≠ []) ∧
    (comps (ascii "/a/b") <+: comps (ascii "/a//b/c")) ∧ ¬ (comps (ascii "/a/b") <+: comps (ascii "/a/bc")) := by decide +kernel

/-! ## C18: dirname and basename -/

/-- C18: `path_dirname` drops the last component. -/
theorem dirname_spec (p : Bytes) (h0 : 0 ∉ p) (hp : p ≠ []) : dirname p = render (isAbs p) (comps p).dropLast :=
  (base_dir p h0 hp).1

/-- C18: `path_basename` is the last component; without one it is empty for the root and `.` for the current directory. -/
theorem basename_spec (p : Bytes) (h0 : 0 ∉ p) (hp : p ≠ []) :
    basename p = match (comps p).getLast? with
      | some c => c
      | none => if isAbs p then [] else [46] := (base_dir p h0 hp).2

/-- C18: the base name contains no separator. -/
theorem basename_no_sep (p : Bytes) (h0 : 0 ∉ p) : 47 ∉ basename p := by
  by_cases hp : p = []
  · subst hp; simp [basename]
  · rw [basename_spec p h0 hp]
    split
    · next c hc => exact (comps_good p h0 c (List.mem_of_getLast? hc)).2.2.1
    · split <;> simp

/-- C18: joining the directory and the base name gives the path back. -/
theorem dirname_basename (p : Bytes) (h0 : 0 ∉ p) (hc : comps p ≠ []) :
    join (dirname p) (basename p) = normalize false p := by
  have hp : p ≠ [] := by rintro rfl; exact hc (by decide)
  have hg := comps_good p h0
  rw [dirname_spec p h0 hp, basename_spec p h0 hp]
  rcases List.eq_nil_or_concat (comps p) with he | ⟨l, z, he⟩
  · exact absurd he hc
  · rw [List.concat_eq_append] at he
    have hz := hg z (by rw [he]; simp)
    have hl : ∀ c ∈ l, Comp c := fun c hc => hg c (by rw [he]; simp [hc])
    have hza : isAbs z = false := by
      cases z with
      | nil => rfl
      | cons x z =>
        have := hz.2.2.1
        simp only [List.mem_cons, not_or] at this
        simp only [isAbs, List.head?_cons, beq_eq_false_iff_ne, ne_eq, Option.some.injEq]
        exact fun e => this.1 e.symm
    rw [he]
    simp only [List.dropLast_concat, List.getLast?_append, List.getLast?_singleton, Option.some_or]
    rw [join_text _ _ (render_no0 _ l hl) hz.2.2.2 (render_ne _ l hl) hza, if_neg hz.1, render_isAbs _ l hl,
      render_comps _ l hl, comps_self z hz, ← he, normalize_canon _ p h0, canon, if_neg hp]
    simp

example : dirname (ascii "/a//b/c/") = ascii "/a/b" ∧ basename (ascii "/a//b/c/") = ascii "c" ∧
    comps (ascii "/a//b/c/") ≠ [] ∧ dirname (ascii "a") = ascii "." ∧ dirname (ascii "/a") = ascii "/" := by decide +kernel

/-! ## C60: extensions -/

/-- C60, for names that do not begin with the dot of the extension: only the extension of the last component goes. -/
theorem withoutExt_partial (p : Bytes) (h0 : 0 ∉ p) (l : List Bytes) (stem ext : Bytes)
    (hc : comps p = l ++ [stem ++ 46 :: ext]) (he : 46 ∉ ext) (hs : stem ≠ []) (hs1 : stem ≠ [46]) :
    withoutExt p = render (isAbs p) (l ++ [stem]) := by
  have hp : p ≠ [] := by rintro rfl; exact absurd hc (by simp [comps, pieces])
  have hg := comps_good p h0
  have hz := hg (stem ++ 46 :: ext) (by rw [hc]; simp)
  have hl : ∀ c ∈ l, Comp c := fun c h => hg c (by rw [hc]; simp [h])
  have hstem : Comp stem := by
    refine ⟨hs, hs1, ?_, ?_⟩
    · intro h; exact hz.2.2.1 (by simp [h])
    · intro h; exact hz.2.2.2 (by simp [h])
  have hext : 47 ∉ ext := by intro h; exact hz.2.2.1 (by simp [h])
  have hg' : ∀ c ∈ l ++ [stem], Comp c := by
    intro c h
    rw [List.mem_append, List.mem_singleton] at h
    rcases h with h | h
    · exact hl c h
    · rw [h]; exact hstem
  unfold withoutExt copy
  rw [if_neg hp, normalize_canon _ p h0]
  have : canon false p = render (isAbs p) (l ++ [stem ++ 46 :: ext]) := by unfold canon; rw [if_neg hp, hc]; simp
  rw [this, render_snoc, ← List.append_assoc]
  simp only []
  rw [extPos_some _ _ _ he hext]
  simp only []
  rw [List.take_left, ← render_snoc, normalize_canon _ _ (render_no0 _ _ hg'), canon_render _ _ hg']

/-- C60: a path whose last component has no dot is only normalised. -/
theorem withoutExt_none (p : Bytes) (h0 : 0 ∉ p) (l : List Bytes) (name : Bytes) (hc : comps p = l ++ [name])
    (hn : 46 ∉ name) : withoutExt p = normalize false p := by
  have hp : p ≠ [] := by rintro rfl; exact absurd hc (by simp [comps, pieces])
  have hg := comps_good p h0
  have hz := hg name (by rw [hc]; simp)
  unfold withoutExt copy
  rw [if_neg hp, normalize_canon _ p h0]
  simp only []
  rw [normalize_canon _ _ (canon_no0 _ p h0), canon_canon _ p h0, normalize_canon _ _ (canon_no0 _ p h0), canon_canon _ p h0]
  have : canon false p = render (isAbs p) (l ++ [name]) := by unfold canon; rw [if_neg hp, hc]; simp
  rw [this, render_snoc]
  rw [extPos_none _ _ _ hn hz.2.2.1]
  by_cases hl : l = []
  · rw [if_pos hl]
    cases isAbs p
    · left; rfl
    · right; exact ⟨[], rfl⟩
  · rw [if_neg hl]; right; exact ⟨_, rfl⟩

/-- C60 fails for names beginning with a dot: the whole component is lost. -/
theorem withoutExt_dotfile_counterexample :
    withoutExt (ascii "a/.foo") = ascii "a" ∧ withoutExt (ascii ".foo") = [] ∧ withoutExt (ascii "a/..foo") = ascii "a" := by
  decide +kernel

example : comps (ascii "a//b.tar.gz/") = [ascii "a"] ++ [ascii "b.tar" ++ 46 :: ascii "gz"] ∧
    withoutExt (ascii "a//b.tar.gz/") = ascii "a/b.tar" ∧ withoutExt (ascii "a.b/c") = ascii "a.b/c" := by decide +kernel

/-! ## C61: paths of commands -/

/-- C61: the path made for running `p` denotes the same file. -/
theorem executable_comps (p : Bytes) (h0 : 0 ∉ p) : comps (executable p) = comps p := by
  unfold executable copy
  split
  · exact comps_append [46] p
  · exact normalize_comps p h0

/-- C61, except for paths such as `./x` (next theorem): the path made for running `p` contains a separator, so it is
not searched for in PATH. -/
theorem executable_sep_partial (p : Bytes) (h0 : 0 ∉ p)
    (h : 47 ∉ p ∨ isAbs p = true ∨ 2 ≤ (comps p).length) : 47 ∈ executable p := by
  unfold executable copy
  by_cases hb : isBasename p = true
  · rw [if_pos hb]; simp
  · rw [if_neg hb]
    have hm : 47 ∈ p := by simpa [isBasename] using hb
    have hp : p ≠ [] := by rintro rfl; simp at hm
    rw [normalize_canon _ p h0, canon, if_neg hp]
    simp only [Bool.false_eq_true, if_false]
    rcases h with h | h | h
    · exact absurd hm h
    · rw [h]; simp [render]
    · match hc : comps p with
      | [] => rw [hc] at h; simp at h
      | [a] => rw [hc] at h; simp at h
      | a :: b :: r => cases isAbs p <;> simp [render, sepJoin]

/-- C61 fails for `./x`: normalisation removes the `./`, and the bare name is searched for in PATH. -/
theorem executable_dot_counterexample : executable (ascii "./x") = ascii "x" := by decide +kernel

example : executable (ascii "x") = ascii "./x" ∧ executable (ascii "bin/x") = ascii "bin/x" ∧
    2 ≤ (comps (ascii "bin/x")).length := by decide +kernel

end Muon.Path
