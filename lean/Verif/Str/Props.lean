import Verif.Str.Format
import Verif.Str.Glob
/-!
Properties of the string methods: C05-C13 and C59.
-/
namespace Muon.Str
open Muon

/-! ### C05 -/

/-- C05: for a non-empty separator, `split` terminates; the pieces are those obtained by cutting at successive leftmost
occurrences, there is at least one, none contains the separator, and joining them gives the string back. -/
theorem split_join (s sep : Bytes) (hsep : sep ≠ []) :
    ∃ r, SplitsInto s sep r ∧ r ≠ [] ∧ join sep r = s ∧ (∀ p ∈ r, ¬ sep <:+: p) ∧ Spec.FirstSplit sep s r := by
  obtain ⟨r, hl, hs⟩ := split_loop s sep hsep _ 0 0 [] (Nat.le_refl _) (Nat.zero_le _) (Nat.le_refl _) (by intros; omega)
  simp only [List.nil_append, List.drop_zero] at hl hs
  refine ⟨r, hl, firstSplit_ne_nil hs, ?_, firstSplit_no_sep hsep hs, hs⟩
  rw [join_eq]; exact firstSplit_join hs

/-- The result of `split` is unique. -/
theorem split_unique (s sep : Bytes) (r r' : List Bytes) (h : SplitsInto s sep r) (h' : SplitsInto s sep r') : r = r' :=
  Loop.det h h'

/-- `join` is joining with the separator between consecutive elements. -/
theorem join_spec (sep : Bytes) (l : List Bytes) : join sep l = Spec.join sep l := join_eq sep l

/-- Overlapping candidates: the leftmost one is taken. -/
example : SplitsInto (ascii "aaab") (ascii "aa") [[], ascii "ab"] :=
  Loop.of_exec (n := 10) (by decide +kernel)
example : ascii "," ≠ [] ∧ SplitsInto (ascii "a,b,,c") (ascii ",") [ascii "a", ascii "b", [], ascii "c"] :=
  ⟨by decide, Loop.of_exec (n := 10) (by decide +kernel)⟩

/-- An empty separator makes `split` run forever on every non-empty string. -/
theorem split_empty_separator_diverges (s : Bytes) (hs : s ≠ []) : ¬ ∃ r, SplitsInto s [] r := by
  apply Loop.diverges (fun st => st.i = 0)
  · rintro ⟨i, start, res⟩ h
    simp only at h
    subst h
    have : 0 < s.length := List.length_pos_iff.2 hs
    exact ⟨⟨0, 0, res ++ [slice s start (0 - start)]⟩, by simp [splitStep, this, startswith], rfl⟩
  · rfl

/-- `split()` without a separator gives the maximal runs of bytes other than space, tab, newline, carriage return (and
NUL). -/
theorem split_whitespace (s : Bytes) :
    ∃ r, SplitsWsInto s r ∧ Spec.Words (fun c => decide (c ∈ [32, 9, 10, 13, 0])) s r := by
  obtain ⟨r, hl, hw⟩ := splitWs_loop s _ 0 0 [] (Nat.le_refl _) (Nat.zero_le _)
  simp only [List.nil_append, List.drop_zero] at hl hw
  have : isSplitWs = fun c => decide (c ∈ [32, 9, 10, 13, 0]) := by
    funext c; revert c; exact forall_byte (by decide +kernel)
  exact ⟨r, hl, this ▸ hw⟩

example : SplitsWsInto (ascii "  ab c\n") [ascii "ab", ascii "c"] := Loop.of_exec (n := 10) (by decide +kernel)

/-! ### C06 -/

/-- C06 for a non-empty needle: `replace` terminates, and its result is the pieces between successive leftmost
occurrences joined with the replacement. Missing for the full property: the empty needle, for which the code does not
terminate (next theorem). -/
theorem replace_partial (s find repl : Bytes) (hf : find ≠ []) :
    ∃ r ps, ReplacesTo s find repl r ∧ Spec.FirstSplit find s ps ∧ r = Spec.join repl ps := by
  obtain ⟨ps, hl, hs⟩ := replace_loop s find repl hf _ 0 0 [] (Nat.le_refl _) (Nat.zero_le _) (Nat.le_refl _) (by intros; omega)
  simp only [List.nil_append, List.drop_zero, Nat.sub_self] at hl hs
  exact ⟨_, ps, hl, hs, rfl⟩

/-- C06: a string without the needle is unchanged. -/
theorem replace_absent (s find repl : Bytes) (hf : find ≠ []) (h : ¬ find <:+: s) : ReplacesTo s find repl s := by
  obtain ⟨r, ps, hl, hs, hr⟩ := replace_partial s find repl hf
  cases hs with
  | last => rw [hr] at hl; exact hl
  | cons pre rest ps => exact absurd ⟨pre, rest, rfl⟩ h

/-- C06 is false of an empty needle: the call never returns. -/
theorem replace_empty_needle_diverges (s repl : Bytes) (hs : s ≠ []) : ¬ ∃ r, ReplacesTo s [] repl r := by
  apply Loop.diverges (fun st => st.i = 0)
  · rintro ⟨i, a, b, res⟩ h
    simp only at h
    subst h
    have : 0 < s.length := List.length_pos_iff.2 hs
    exact ⟨⟨0, 0, 0, res ++ slice s a b ++ repl⟩, by simp [replStep, this, startswith], rfl⟩
  · rfl

example : ascii "aa" ≠ [] ∧ ReplacesTo (ascii "aaaxaa") (ascii "aa") (ascii "b") (ascii "baxb") :=
  ⟨by decide, Loop.of_exec (n := 10) (by decide +kernel)⟩

/-! ### C07 -/

/-- C07: `strip` never fails its assertion and returns what remains after removing all leading and trailing bytes of the
pad set (blank, newline and tab by default). -/
theorem strip_spec (s : Bytes) (set : Option Bytes) :
    ∃ mid, strip s set = .ok mid ∧ Spec.Stripped (set.getD [32, 10, 9]) s mid := strip_spec' s set

/-- Stripping is idempotent. -/
theorem strip_idempotent (s mid : Bytes) (set : Option Bytes) (h : strip s set = .ok mid) : strip mid set = .ok mid := by
  obtain ⟨m, hm, _, _, _, _, _, hh, hl⟩ := strip_spec s set
  rw [hm] at h
  have hmm : m = mid := by simpa using h
  subst hmm
  obtain ⟨m2, hm2, pre, post, he, hp, hq, hh2, hl2⟩ := strip_spec m set
  rw [hm2]
  have hpre : pre = [] := by
    cases pre with
    | nil => rfl
    | cons c pre => exact absurd (hp c (by simp)) (hh c (by rw [he]; rfl))
  have hpost : post = [] := by
    rcases List.eq_nil_or_concat post with h | ⟨q, c, h⟩
    · exact h
    · subst h
      refine absurd (hq c (by simp)) (hl c ?_)
      rw [he]; simp
  subst hpre hpost
  simp at he
  rw [he]

example : strip (ascii " \t a b \n") none = .ok (ascii "a b") := by decide +kernel
example : strip (ascii "xyx") (some (ascii "xy")) = .ok [] := by decide +kernel

/-! ### C08 -/

/-- C08: `startswith` decides the prefix relation. -/
theorem startswith_iff (s t : Bytes) : startswith s t = true ↔ t <+: s := startswith_iff' s t
/-- C08: `endswith` decides the suffix relation. -/
theorem endswith_iff (s t : Bytes) : endswith s t = true ↔ t <:+ s := endswith_iff' s t

theorem range_all {a b : Bytes} (f g : UInt8 → UInt8) (h : a.length = b.length) :
    ((List.range b.length).all fun i => f (at' a i) == g (at' b i)) = true ↔ a.map f = b.map g := by
  rw [List.all_eq_true]
  constructor
  · intro hi
    apply List.ext_getElem (by simp [h])
    intro i h1 h2
    simp only [List.length_map] at h1 h2
    have := hi i (List.mem_range.2 h2)
    simpa [at', h1, h2] using this
  · intro he i hi
    have h2 := List.mem_range.1 hi
    have h1 : i < a.length := by omega
    have := congrArg (fun l => l[i]?) he
    simpa [at', h1, h2] using this

theorem lower_fn : (fun c : UInt8 => if 65 ≤ c && c ≤ 90 then c + 32 else c) = charToLower := by
  funext c; revert c; exact forall_byte (by decide +kernel)

/-- C08: the case-insensitive prefix test (used for TAP directives) is the prefix relation on lower-cased text. -/
theorem startswithi_iff (s t : Bytes) : startswithi s t = true ↔ toLower t <+: toLower s := by
  unfold startswithi toLower
  rw [lower_fn]
  by_cases hl : s.length < t.length
  · rw [if_pos hl]
    constructor
    · intro h; cases h
    · intro h; have := h.length_le; simp at this; omega
  · rw [if_neg hl]
    have hlen : (s.take t.length).length = t.length := by simp; omega
    have := range_all (a := s.take t.length) (b := t) charToLower charToLower hlen
    rw [List.prefix_iff_eq_take, List.length_map, ← List.map_take, eq_comm (a := List.map _ t), ← this]
    rw [List.all_eq_true, List.all_eq_true]
    apply forall_congr'; intro i
    apply imp_congr_right; intro hi
    have := List.mem_range.1 hi
    simp [at', this]

/-- C08: the case-insensitive suffix test (used for `.exe`) is the suffix relation on lower-cased text. -/
theorem endswithi_iff (s t : Bytes) : endswithi s t = true ↔ toLower t <:+ toLower s := by
  unfold endswithi toLower
  rw [lower_fn]
  by_cases hl : s.length < t.length
  · rw [if_pos hl]
    constructor
    · intro h; cases h
    · intro h; have := h.length_le; simp at this; omega
  · rw [if_neg hl]
    have hlen : (s.drop (s.length - t.length)).length = t.length := by simp; omega
    have := range_all (a := s.drop (s.length - t.length)) (b := t) charToLower charToLower hlen
    rw [List.suffix_iff_eq_drop, List.length_map, List.length_map, ← List.map_drop, eq_comm (a := List.map _ t), ← this]
    rw [List.all_eq_true, List.all_eq_true]
    constructor
    · intro h i hi
      have hi' := List.mem_range.1 hi
      have := h (t.length - i - 1) (List.mem_range.2 (by omega))
      have e1 : s.length - (t.length - i - 1) - 1 = s.length - t.length + i := by omega
      have e2 : t.length - (t.length - i - 1) - 1 = i := by omega
      rw [e1, e2] at this
      simpa [at'] using this
    · intro h i hi
      have hi' := List.mem_range.1 hi
      have := h (t.length - i - 1) (List.mem_range.2 (by omega))
      have e1 : s.length - i - 1 = s.length - t.length + (t.length - i - 1) := by omega
      rw [e1]
      simpa [at'] using this

example : startswithi (ascii "TODO later") (ascii "todo") = true ∧ endswithi (ascii "A.EXE") (ascii ".exe") = true ∧
    endswithi (ascii "exe") (ascii ".exe") = false := by decide +kernel

/-- C08 for `contains`, except for an empty string searched in an empty string (next theorem). -/
theorem contains_iff_partial (s t : Bytes) (h : s ≠ [] ∨ t ≠ []) : contains s t = true ↔ t <:+: s := by
  unfold contains
  rw [containsFrom_iff s t _ 0 rfl, infix_iff_drop]
  constructor
  · rintro ⟨j, _, h1, h2⟩; exact ⟨j, by omega, h2⟩
  · rintro ⟨j, h1, h2⟩
    by_cases hj : j = s.length
    · subst hj
      rw [List.drop_length] at h2
      have ht : t = [] := by simpa using h2
      rcases h with h | h
      · have : 0 < s.length := List.length_pos_iff.2 h
        exact ⟨0, by omega, this, by rw [ht]; simp⟩
      · exact absurd ht h
    · exact ⟨j, by omega, by omega, h2⟩

/-- The missing case is answered wrongly by the code. -/
theorem contains_empty_counterexample : contains [] [] = false ∧ ([] : Bytes) <:+: [] :=
  ⟨by simp [contains, containsFrom], by simp⟩

example : contains (ascii "foobar") (ascii "oba") = true ∧ startswith (ascii "foo") (ascii "fo") = true ∧
    endswith (ascii "foo") (ascii "fo") = false := by
  refine ⟨(contains_iff_partial _ _ (Or.inl (by decide))).2 ⟨ascii "fo", ascii "r", by decide⟩, by decide, by decide⟩

/-! ### C09 -/

/-- C09 where the start is not before the beginning and the end is not after the end: exactly the requested slice, and
no read outside the string. Missing: the other positions, for which the code gives wrong results or reads outside the
string (next theorems). -/
theorem substring_partial (s : Bytes) (a b : Option Int) (hs : s.length < 2 ^ 32)
    (ha : -(s.length : Int) ≤ a.getD 0) (hb : b.getD s.length ≤ s.length) :
    substring s a b = .ok (Spec.slice s (a.getD 0) (b.getD s.length)) := by
  unfold substring
  generalize a.getD 0 = x at *
  generalize b.getD (s.length : Int) = y at *
  have hx0 : 0 ≤ fromEnd s.length x := by unfold fromEnd; split <;> omega
  have hx : Spec.clampPos s.length x = min (fromEnd s.length x).toNat s.length := by
    unfold Spec.clampPos fromEnd
    simp only []
    split <;> omega
  have hy : Spec.clampPos s.length y = (fromEnd s.length y).toNat := by
    unfold Spec.clampPos fromEnd
    simp only []
    split <;> omega
  have hyl : fromEnd s.length y ≤ s.length := by unfold fromEnd; split <;> omega
  unfold Spec.slice
  rw [hx, hy]
  generalize fromEnd s.length x = st at *
  generalize fromEnd s.length y = en at *
  simp only []
  unfold substringCopy int64Max
  by_cases hlt : en < st
  · rw [if_pos hlt, if_neg (by omega)]
    simp only [Int.sub_self]
    have hn : (min 0 (s.length : Int)).toNat = 0 := by omega
    rw [hn, if_pos rfl]
    congr 1
    rw [List.drop_of_length_le]
    simp; omega
  · rw [if_neg hlt, if_neg (by omega)]
    simp only []
    obtain ⟨i, rfl⟩ : ∃ i : Nat, st = i := ⟨st.toNat, by omega⟩
    obtain ⟨j, rfl⟩ : ∃ j : Nat, en = j := ⟨en.toNat, by omega⟩
    have e1 : (min ((j : Int) - i) s.length).toNat = j - i := by omega
    have e2 : (max 0 (i : Int)).toNat = i := by omega
    rw [e1, e2]
    simp only [Int.toNat_natCast]
    rw [show min i s.length = i by omega]
    by_cases hz : j - i = 0
    · rw [if_pos hz]
      congr 1
      rw [List.drop_of_length_le]
      simp; omega
    · rw [if_neg hz, if_pos (by omega)]
      congr 1
      rw [List.drop_append_of_le_length (by omega), List.take_append_of_le_length (by simp; omega), List.drop_take]

/-- C09 is false for an end after the end of the string: the NUL terminator becomes part of the result. -/
theorem substring_past_end_counterexample :
    substring (ascii "foo") (some 1) (some 100) = .ok (ascii "oo" ++ [0]) ∧
    Spec.slice (ascii "foo") 1 100 = ascii "oo" := by decide +kernel

/-- C09 is false for an end after the end of the string: memory after the string is read. -/
theorem substring_overread_counterexample : substring (ascii "foo") (some 2) (some 100) = .bad := by decide +kernel

/-- C09 is false for a start before the beginning of the string. -/
theorem substring_before_start_counterexample :
    substring (ascii "foo") (some (-5)) (some 1) = .ok (ascii "foo") ∧
    Spec.slice (ascii "foo") (-5) 1 = ascii "f" := by decide +kernel

example : (ascii "foobar").length < 2 ^ 32 ∧ -((ascii "foobar").length : Int) ≤ (some (-3) : Option Int).getD 0 ∧
    substring (ascii "foobar") (some (-3)) (some (-1)) = .ok (ascii "ba") := by decide +kernel

/-! ### C10 -/

/-- C10 for indices not below `-len`: the element at `i` (counted from the end if negative), or a reported error
exactly when `i` is past the end. Missing: smaller indices (next theorem). -/
theorem indexArray_partial {α : Type} (a : List α) (i : Int) (h : -(a.length : Int) ≤ i) :
    indexArray a i = (match a[(if i < 0 then i + a.length else i).toNat]? with | some v => .ok v | none => .error) ∧
    ∀ d, arrayGet a i d = (match a[(if i < 0 then i + a.length else i).toNat]? with
      | some v => .ok v
      | none => match d with | some v => .ok v | none => .error) := by
  have hj : 0 ≤ (if i < 0 then i + a.length else i) := by split <;> omega
  unfold indexArray arrayGet boundsAdjust arrayIndex
  simp only []
  generalize (if i < 0 then i + a.length else i) = j at *
  by_cases hlt : j < a.length
  · have hn : j.toNat < a.length := by omega
    simp [hlt, hj]
  · have hn : ¬ j.toNat < a.length := by omega
    rw [List.getElem?_eq_none (by omega)]
    simp only [hlt, decide_false]
    exact ⟨by simp, fun d => by cases d <;> simp⟩

/-- C10 for strings, with the same restriction. -/
theorem indexString_partial (s : Bytes) (i : Int) (h : -(s.length : Int) ≤ i) :
    indexString s i = (match s[(if i < 0 then i + s.length else i).toNat]? with | some c => .ok [c] | none => .error) := by
  have hj : 0 ≤ (if i < 0 then i + s.length else i) := by split <;> omega
  unfold indexString boundsAdjust
  simp only []
  generalize (if i < 0 then i + s.length else i) = j at *
  by_cases hlt : j < s.length
  · have hn : j.toNat < s.length := by omega
    simp [hlt, hj, at'_eq s _ hn]
  · have hn : ¬ j.toNat < s.length := by omega
    rw [List.getElem?_eq_none (by omega)]
    simp [hlt]

/-- C10 is false for every index below `-len`: the check passes and the access is out of bounds (assertion failure for
arrays, a read before the start of the string for strings). -/
theorem index_below_counterexample {α : Type} (a : List α) (s : Bytes) (i : Int) (ha : i < -(a.length : Int)) (hs : i < -(s.length : Int)) :
    indexArray a i = .bad ∧ indexString s i = .bad := by
  have hi : i < 0 := by omega
  constructor
  · unfold indexArray boundsAdjust arrayIndex
    simp only [hi, if_true]
    have h1 : i + (a.length : Int) < a.length := by omega
    have h2 : ¬ (0 ≤ i + (a.length : Int)) := by omega
    simp [h1, h2]
  · unfold indexString boundsAdjust
    simp only [hi, if_true]
    have h1 : i + (s.length : Int) < s.length := by omega
    have h2 : ¬ (0 ≤ i + (s.length : Int)) := by omega
    simp [h1, h2]

example : (-([1, 2, 3] : List Nat).length : Int) ≤ -1 ∧ indexArray [1, 2, 3] (-1) = .ok 3 ∧
    indexArray [1, 2, 3] 3 = .error ∧ indexArray [1, 2, 3] (-5) = .bad := by decide

/-! ### C11 -/

/-- Formatting terminates for every template and argument list. -/
theorem format_terminates (s : Bytes) (args : List Bytes) : ∃ r, FormatsTo s args r :=
  (fmt_term s (formatCb s args) (2 * s.length + 1)).1 s.length 0 0 0 [] (by omega) (by omega)

/-- C11 for templates without odd keys (no text between two consecutive `@` is a number with a sign or leading white
space) in which no candidate reference is interrupted by `\@`: the result replaces exactly the references `@N@` (`N` a
decimal number) by the `N`-th argument, `\@` stands for `@`, everything else is copied, substituted text is not scanned
again, and the call fails exactly when some `N` is not less than the number of arguments. Missing: the excluded templates
(next theorems). -/
theorem format_partial (s : Bytes) (args : List Bytes) (hlen : args.length < 2 ^ 32)
    (hodd : Spec.hasOddKey s = false)
    (hint : Spec.interrupted Spec.decimal s = false) :
    FormatsTo s args (Spec.subst (fun n => args[n.toNat]?) (Spec.segs Spec.decimal s)) := by
  have hcb : CbOk s (formatCb s args) Spec.decimal (fun n => args[n.toNat]?) := by
    exact formatCb_ok s args (by unfold int64Max; omega) hodd
  have := (fmt_main s (formatCb s args) Spec.decimal _ hcb (by decide) (2 * s.length + 1)).1 0 0 0 [] (by omega)
    (Nat.le_refl _) (Nat.zero_le _) (by simpa using hint)
  unfold FormatsTo
  simpa [slice] using this

example : let s := ascii "a@0@ \\@1@@x@1@"
    Spec.hasOddKey s = false ∧
    Spec.interrupted Spec.decimal s = false ∧
    Spec.subst (fun n => [ascii "@1@", ascii "B"][n.toNat]?) (Spec.segs Spec.decimal s) = some (ascii "a@1@ @1@@xB") := by
  decide +kernel

/-- C11 is false in general: `@-1@` is taken as a reference to the last argument. -/
theorem format_negative_counterexample :
    FormatsTo (ascii "@-1@") [ascii "x", ascii "y"] (some (ascii "y")) ∧
    Spec.subst (fun n => [ascii "x", ascii "y"][n.toNat]?) (Spec.segs Spec.decimal (ascii "@-1@")) = some (ascii "@-1@") :=
  ⟨Loop.of_exec (n := 20) (by decide +kernel), by decide +kernel⟩

/-- C11 is false in general: text before an unclosed `@` that is followed by `\@` is copied twice. -/
theorem format_duplicates_counterexample :
    FormatsTo (ascii "ab@c\\@d") [] (some (ascii "ab@ab@c@d")) ∧
    Spec.subst (fun _ => none) (Spec.segs Spec.decimal (ascii "ab@c\\@d")) = some (ascii "ab@c@d") :=
  ⟨Loop.of_exec (n := 20) (by decide +kernel), by decide +kernel⟩

/-! ### C12 -/

/-- C12: the three methods keep the length and act byte by byte: `to_upper` (`to_lower`) replaces exactly the lower
(upper) case ASCII letters by the letter of the other case, `underscorify` replaces exactly the bytes that are not ASCII
letters or digits by `_`. -/
theorem bytewise (s : Bytes) :
    (toUpper s).length = s.length ∧ (toLower s).length = s.length ∧ (underscorify s).length = s.length ∧
    ∀ i (h : i < s.length),
      (toUpper s)[i]? = some (if isLower s[i] then UInt8.ofNat (s[i].toNat - 32) else s[i]) ∧
      (toLower s)[i]? = some (if isUpper s[i] then UInt8.ofNat (s[i].toNat + 32) else s[i]) ∧
      (underscorify s)[i]? = some (if isAlnum s[i] then s[i] else 95) := by
  refine ⟨by simp [toUpper], by simp [toLower], by simp [underscorify], ?_⟩
  intro i h
  have key : ∀ c : UInt8, (if 97 ≤ c && c ≤ 122 then c - 32 else c) = (if isLower c then UInt8.ofNat (c.toNat - 32) else c) ∧
      (if 65 ≤ c && c ≤ 90 then c + 32 else c) = (if isUpper c then UInt8.ofNat (c.toNat + 32) else c) ∧
      (if !((97 ≤ c && c ≤ 122) || (65 ≤ c && c ≤ 90) || (48 ≤ c && c ≤ 57)) then 95 else c) = (if isAlnum c then c else 95) :=
    forall_byte (by decide +kernel)
  obtain ⟨k1, k2, k3⟩ := key s[i]
  unfold toUpper toLower underscorify
  simp only [List.getElem?_map, List.getElem?_eq_getElem h, Option.map_some]
  exact ⟨congrArg some k1, congrArg some k2, congrArg some k3⟩

/-- C12: the three methods are idempotent. -/
theorem bytewise_idempotent (s : Bytes) :
    toUpper (toUpper s) = toUpper s ∧ toLower (toLower s) = toLower s ∧ underscorify (underscorify s) = underscorify s := by
  have key : ∀ c : UInt8,
      (let d := (if 97 ≤ c && c ≤ 122 then c - 32 else c); (if 97 ≤ d && d ≤ 122 then d - 32 else d) = d) ∧
      (let d := (if 65 ≤ c && c ≤ 90 then c + 32 else c); (if 65 ≤ d && d ≤ 90 then d + 32 else d) = d) ∧
      (let d := (if !((97 ≤ c && c ≤ 122) || (65 ≤ c && c ≤ 90) || (48 ≤ c && c ≤ 57)) then 95 else c)
       (if !((97 ≤ d && d ≤ 122) || (65 ≤ d && d ≤ 90) || (48 ≤ d && d ≤ 57)) then 95 else d) = d) :=
    forall_byte (by decide +kernel)
  unfold toUpper toLower underscorify
  simp only [List.map_map]
  refine ⟨?_, ?_, ?_⟩ <;> apply List.map_congr_left <;> intro c _ <;> have := key c
  · exact this.1
  · exact this.2.1
  · exact this.2.2

example : toUpper (ascii "aZ-1") = ascii "AZ-1" ∧ toLower (ascii "aZ-1") = ascii "az-1" ∧
    underscorify (ascii "aZ-1.é") = ascii "aZ_1__" := by decide +kernel

/-! ### C13 -/

/-- C13, first half: every 64-bit integer is read back from its printed form. -/
theorem toInt_toString (n : Int) (h1 : -2 ^ 63 ≤ n) (h2 : n < 2 ^ 63) : toInt (numToString n) = some n :=
  toInt_numToString n (by unfold int64Min; omega) (by unfold int64Max; omega)

/-- C13, second half, restricted: what `to_int` accepts is blank, or an optionally signed decimal number surrounded by
white space, whose value it returns if that value fits into 64 bits. Missing: blank strings should be rejected, and
values that do not fit are silently clamped (next theorems). -/
theorem toInt_partial (s : Bytes) (v : Int) (h : toInt s = some v) :
    ((∀ c ∈ s, isWhitespace c = true) ∧ v = 0) ∨
    ∃ pre sign ds post, s = pre ++ sign ++ ds ++ post ∧ (∀ c ∈ pre, isSpace c = true) ∧
      (sign = [] ∨ sign = [43] ∨ sign = [45]) ∧ ds ≠ [] ∧ (∀ c ∈ ds, isDigit c = true) ∧
      (∀ c ∈ post, isWhitespace c = true) ∧
      v = max (-2 ^ 63) (min (2 ^ 63 - 1) (if sign = [45] then -(Spec.natVal ds : Int) else Spec.natVal ds)) := by
  unfold toInt strToI at h
  simp only [if_true] at h
  split at h
  case isFalse => cases h
  case isTrue he =>
  have hv : (strtol (s.drop (s.takeWhile isWhitespace).length)).1 = v := by simpa using h
  have hsplit : s = s.takeWhile isWhitespace ++ s.dropWhile isWhitespace := by simp
  have hdr : s.drop (s.takeWhile isWhitespace).length = s.dropWhile isWhitespace := by
    have := congrArg (List.drop (s.takeWhile isWhitespace).length) hsplit
    rw [this, List.drop_left]
  have hall : ∀ t : Bytes, ∀ c ∈ t.takeWhile isWhitespace, isWhitespace c = true := by
    intro t; have := List.all_takeWhile (p := isWhitespace) (l := t); rwa [List.all_eq_true] at this
  have hsub : ∀ c, isWhitespace c = true → isSpace c = true := forall_byte (by decide +kernel)
  have hdd : ∀ n, s.drop ((s.takeWhile isWhitespace).length + n) = (s.dropWhile isWhitespace).drop n := by
    intro n; rw [← List.drop_drop, hdr]
  rw [hdr] at he hv
  rw [hdd] at he
  by_cases hz : (strtol (s.dropWhile isWhitespace)).2 = 0
  · left
    rw [hz] at he
    have hnil : (s.dropWhile isWhitespace).takeWhile isWhitespace = [] := by
      apply takeWhile_none
      intro c hc
      have := List.head?_dropWhile_not isWhitespace s
      rw [hc] at this; simpa using this
    simp only [Nat.add_zero, List.drop_zero, hnil, List.length_nil] at he
    refine ⟨?_, ?_⟩
    · have : s.takeWhile isWhitespace = s :=
        List.IsPrefix.eq_of_length (List.takeWhile_prefix _) he
      rw [← this]; exact hall s
    · rw [← hv]; exact strtol_zero _ hz
  · right
    obtain ⟨ws, sign, ds, rest, e, h1, h2, h3, h4, h5, h6, _⟩ := strtol_accepts _ hz
    have hrest : (s.dropWhile isWhitespace).drop (strtol (s.dropWhile isWhitespace)).2 = rest := by
      rw [h5, e]
      have : ws.length + sign.length + ds.length = (ws ++ sign ++ ds).length := by simp; omega
      rw [this, List.drop_left]
    rw [hrest, h5] at he
    refine ⟨s.takeWhile isWhitespace ++ ws, sign, ds, rest, ?_, ?_, h2, h3, h4, ?_, ?_⟩
    · conv => lhs; rw [hsplit, e]
      simp
    · intro c hc
      rcases List.mem_append.1 hc with hc | hc
      · exact hsub c (hall s c hc)
      · exact h1 c hc
    · have hl : s.length = (s.takeWhile isWhitespace).length + (s.dropWhile isWhitespace).length := by
        rw [← List.length_append, ← hsplit]
      rw [e] at hl
      simp only [List.length_append] at hl
      have : rest.takeWhile isWhitespace = rest :=
        List.IsPrefix.eq_of_length (List.takeWhile_prefix _) (by omega)
      rw [← this]; exact hall rest
    · rw [← hv, h6, natVal_eq]
      rfl

/-- C13 is false in general: the empty string is read as 0, and numbers that do not fit are read as another number. -/
theorem toInt_counterexample :
    toInt [] = some 0 ∧ toInt (ascii "9223372036854775808") = some 9223372036854775807 := by decide +kernel

example : toInt (ascii " -42\n") = some (-42) ∧ toInt (ascii "4 2") = none ∧ toInt (ascii "0x10") = none := by
  decide +kernel

/-! ### C59 -/

/-- C59 for patterns with at most one `*`, and without NUL, on non-empty strings. A pattern without `*` matches exactly
itself. With one `*` a match is always correct, and every string `p ++ mid ++ q` is matched provided the literal part
`q` after the star does not already occur earlier in the text after `p`. Missing: everything else, see the
counterexamples. -/
theorem glob_partial (p q s : Bytes) (hs : s ≠ []) (hp : 42 ∉ p ∧ 0 ∉ p) (hq : 42 ∉ q ∧ 0 ∉ q) :
    (eqlGlob p s = true ↔ Spec.Matches p s) ∧
    (eqlGlob (p ++ 42 :: q) s = true → Spec.Matches (p ++ 42 :: q) s) ∧
    (∀ mid, s = p ++ mid ++ q → (∀ a b, mid ++ q = a ++ q ++ b → mid.length ≤ a.length) →
      eqlGlob (p ++ 42 :: q) s = true) := by
  refine ⟨?_, ?_, ?_⟩
  · rw [eqlGlob_lit p s hs hp.1 hp.2, matches_lit p s hp.1]
  · intro h
    obtain ⟨mid, e, _⟩ := (eqlGlob_star p q s hs hp hq).1 h
    rw [e, List.append_assoc]
    exact matches_pre p _ _ hp.1 (.star q mid q ((matches_lit q q hq.1).2 rfl))
  · intro mid e hmin
    exact (eqlGlob_star p q s hs hp hq).2 ⟨mid, e, fun _ => hmin⟩

/-- C59 is false in general: a match is missed when the text after the star occurs twice. -/
theorem glob_misses_counterexample :
    eqlGlob (ascii "*a") (ascii "aa") = false ∧ Spec.Matches (ascii "*a") (ascii "aa") :=
    ⟨by simp [eqlGlob, globImpl, globLoop, starSearch, at', ascii], .star _ [97] [97] (.char 97 _ _ (by decide) .nil)⟩

/-- C59 is false in general: names that do not match are accepted: the empty name by every pattern, and some other
names by patterns with two stars. -/
theorem glob_accepts_counterexample :
    (∀ p, eqlGlob p [] = true) ∧ ¬ Spec.Matches [97] [] ∧
    eqlGlob (ascii "*a*a") (ascii "aab") = true ∧ ¬ Spec.Matches (ascii "*a*a") (ascii "aab") := by
  refine ⟨fun p => by simp [eqlGlob, globImpl], fun h => (by cases h),
    by simp [eqlGlob, globImpl, globLoop, starSearch, at', ascii], ?_⟩
  intro h
  have key : ∀ p s, Spec.Matches p s → p.getLast? = some 97 → s.getLast? = some 97 := by
    intro p s hm
    induction hm with
    | nil => simp
    | char c p s hc hm ih =>
      intro hl
      cases p with
      | nil => cases hm; simpa using hl
      | cons d p =>
        have h1 := ih (by simpa using hl)
        cases s with
        | nil => simp at h1
        | cons e s => simpa using h1
    | star p s t hm ih =>
      intro hl
      cases p with
      | nil => simp at hl
      | cons d p =>
        have h1 := ih (by simpa using hl)
        rw [List.getLast?_append, h1]; rfl
  have := key _ _ h (by decide +kernel)
  revert this; decide +kernel

example : ascii "foobar" ≠ [] ∧ (42 ∉ ascii "fo" ∧ 0 ∉ ascii "fo") ∧ (42 ∉ ascii "ar" ∧ 0 ∉ ascii "ar") ∧
    eqlGlob (ascii "fo*ar") (ascii "foobar") = true ∧ eqlGlob (ascii "fo*az") (ascii "foobar") = false :=
  ⟨by decide +kernel, by decide +kernel, by decide +kernel, by simp [eqlGlob, globImpl, globLoop, starSearch, at', ascii],
    by simp [eqlGlob, globImpl, globLoop, starSearch, at', ascii]⟩

end Muon.Str
