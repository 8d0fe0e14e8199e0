import Verif.Rpath.Elf
/-
C87: run paths of installed programs.
-/
namespace Muon.Rpath
open Muon Spec

theorem takeWhile_stop (a b : Bytes) : (a ++ 0 :: b).takeWhile (· ≠ 0) = a.takeWhile (· ≠ 0) := by
  induction a with
  | nil => simp
  | cons c a ih =>
    rw [List.cons_append, List.takeWhile_cons, List.takeWhile_cons, ih]

theorem takeWhile_all (a : Bytes) (h : 0 ∉ a) : a.takeWhile (· ≠ 0) = a := by
  induction a with
  | nil => rfl
  | cons c a ih =>
    simp only [List.mem_cons, not_or] at h
    rw [List.takeWhile_cons, if_pos (by simpa using Ne.symm h.1), ih h.2]

theorem takeWhile_len (p : UInt8 → Bool) (a : Bytes) : (a.takeWhile p).length ≤ a.length := by
  induction a with
  | nil => simp
  | cons c a ih => rw [List.takeWhile_cons]; split <;> simp <;> omega

theorem kept_sub {build : Bytes} {ds : List Bytes} : ∀ d ∈ kept build ds, d ∈ ds := fun _ h => (List.mem_filter.1 h).1

/-- The directories of a run path that are in the build directory are removed: for every list of directories `ds` (not longer than the
buffer of the code), the code changes only the bytes of the text, says whether nothing is left, and the new text is that of the directories
to be kept if and only if these are at most one. -/
theorem remove_paths_exact (build : Bytes) (h0 : 0 ∉ build) (ha : Path.Spec.isAbs build = true) (pre post : Bytes) (ds : List Bytes) (hn : ds ≠ [])
    (hd : ∀ d ∈ ds, 58 ∉ d ∧ 0 ∉ d ∧ d.length < 4096) :
    ∃ m, m.length = (text ds).length + 1 ∧
      removePaths build (pre ++ text ds ++ 0 :: post) pre.length = .ok (pre ++ m ++ post, decide (kept build ds = [])) ∧
      (stringAt (pre ++ m ++ post) pre.length = text (kept build ds) ↔ (kept build ds).length ≤ 1) := by
  obtain ⟨M, h1, h2, h3, h4⟩ := loop_text h0 ha pre post ds hn hd [] [] false ⟨by simp [total], by simp, by simp⟩
    ((pre ++ text ds ++ 0 :: post).length + 1) (by simp; omega)
  simp only [List.nil_append] at h2 h3 h4
  refine ⟨_, (mid_length M [0] _ h3).trans (by simpa using h1), ?_, ?_⟩
  · unfold removePaths
    have e : (⟨pre ++ text ds ++ 0 :: post, pre.length, [], pre.length, false, false, true⟩ : RP) = between pre [] (text ds ++ 0 :: post) [] false := by
      simp [between, total]
    rw [e, h2]
    cases kept build ds <;> rfl
  · have e : stringAt (pre ++ (M.take (total (kept build ds)) ++ [0] ++ M.drop (total (kept build ds) + [0].length)) ++ post) pre.length =
        (M.take (total (kept build ds))).takeWhile (· ≠ 0) := by
      unfold stringAt
      rw [List.append_assoc, List.drop_left, List.append_assoc, List.append_assoc, List.singleton_append, takeWhile_stop]
    refine Eq.to_iff (congrArg (· = text (kept build ds)) e) |>.trans ?_
    rcases hk : kept build ds with _ | ⟨x, _ | ⟨y, l⟩⟩
    · simp [total, text]
    · obtain ⟨r, rfl⟩ := h4 x hk
      have hx := (hd x (kept_sub x (by rw [hk]; simp))).2.1
      have e5 : (x ++ r).take (total [x]) = x := by simp [total]
      rw [e5, takeWhile_all x hx]
      simp [text]
    · constructor
      · intro h
        have e1 := congrArg List.length h
        have e2 := takeWhile_len (· ≠ 0) (M.take (total (x :: y :: l)))
        have e3 := text_length (x :: y :: l) (by simp)
        rw [List.length_take] at e2
        simp only [List.length_cons] at e3
        omega
      · intro h
        simp at h

/-- The hypotheses of `remove_paths_exact` can be met: the build directory is removed, another directory stays. -/
example : (∀ d ∈ [ascii "/b/lib", ascii "/usr/lib"], 58 ∉ d ∧ 0 ∉ d ∧ d.length < 4096) ∧
    kept (ascii "/b") [ascii "/b/lib", ascii "/usr/lib"] = [ascii "/usr/lib"] ∧
    (removePaths (ascii "/b") (ascii "x/b/lib:/usr/lib" ++ [0, 7]) 1) = .ok (ascii "x/usr/lib" ++ 0 :: ascii "sr/lib" ++ [0, 7], false) := by decide +kernel

/-- A run path with two directories outside of the build directory is damaged, even if there is nothing to remove. -/
theorem two_kept_counterexample :
    kept (ascii "/b") [ascii "/opt/a", ascii "/opt/c"] = [ascii "/opt/a", ascii "/opt/c"] ∧
    removePaths (ascii "/b") (ascii "/opt/a:/opt/c" ++ [0]) 0 = .ok (ascii "/opt/a:/opt/" ++ [0, 0], false) := by decide +kernel

/-- A directory with a name of 4096 characters overflows the buffer. -/
theorem long_path_counterexample (build d : Bytes) (h0 : 0 ∉ d) (h58 : 58 ∉ d) (hl : d.length = 4096) : removePaths build (d ++ [0]) 0 = .bad := by
  have hdn : d ≠ [] := by intro h; rw [h] at hl; simp at hl
  obtain ⟨e, c, rfl⟩ : ∃ e c, d = e ++ [c] := ⟨d.dropLast, d.getLast hdn, (List.dropLast_concat_getLast hdn).symm⟩
  simp only [List.mem_append, List.mem_singleton, not_or] at h0 h58
  have hel : e.length = 4095 := by simpa using hl
  unfold removePaths
  have hfu : List.length (e ++ [c] ++ [0]) + 1 = 3 + e.length := by simp; omega
  rw [hfu,
    loop_chars build e _ [c, 0] 3 h0.1 h58.1 (by simp [hel]) (by simp), loop]
  simp only [List.nil_append, Nat.zero_add, List.append_assoc]
  rw [List.getElem?_append_right (by omega), Nat.sub_self]
  simp only [List.cons_append, List.getElem?_cons_zero, List.nil_append]
  rw [if_neg (Ne.symm h0.2), if_neg (Ne.symm h58.2), if_neg (by omega), loop]
  simp only
  rw [List.getElem?_append_right (by omega), show e.length + 1 - e.length = 1 by omega]
  simp only [List.getElem?_cons_succ, List.getElem?_cons_zero]
  rw [if_pos trivial]
  unfold entry
  rw [if_pos (by simp [hel])]
  rfl

example : 0 ∉ List.replicate 4096 (97 : UInt8) ∧ 58 ∉ List.replicate 4096 (97 : UInt8) ∧ (List.replicate 4096 (97 : UInt8)).length = 4096 :=
  ⟨by rw [List.mem_replicate]; decide, by rw [List.mem_replicate]; decide, List.length_replicate⟩

/-! ### The whole file -/

theorem at_split {f : Bytes} {off : Nat} {b : Bytes} (h : At f off b) (hb : b ≠ []) : ∃ p q, f = p ++ b ++ q ∧ p.length = off := h.split hb

/-- What is read of an image. -/
theorem image_read {is64 : Bool} {f : Bytes} {tabOff strOff : Nat} {ds : List (Nat × Nat)} (hi : Image is64 f tabOff strOff ds) :
    ∃ e d s, parseElf f = some e ∧ sections e f = .ok (d, s) ∧ dynTable e d f = .ok ds ∧ e.is64 = is64 ∧ d.off = tabOff ∧
      d.entsize = 2 * word is64 ∧ d.len = ds.length ∧ s.off = strOff := by
  obtain ⟨⟨x, type, machine, version, entry, phoff, shoff, flags, ehsize, phentsize, phnum, shstrndx, hs, k1, k2, k3, k4, k5, k6, a, str, b, dyn, c, k7, k8, k9,
    k10, k11, k12, k13, k14⟩, k15, k16, k17⟩ := hi
  subst k7
  have hw : (2 * word is64) % 2 ^ 32 = 2 * word is64 := by cases is64 <;> rfl
  have hlen : (sect dyn).len = ds.length := by
    unfold sect
    dsimp only
    rw [k13, k14, hw, Nat.mul_div_cancel_left _ (by have := word_pos is64; omega), Nat.mod_eq_of_lt k17]
  have hent : (sect dyn).entsize = 2 * word is64 := by unfold sect; dsimp only; rw [k13, hw]
  refine ⟨_, sect dyn, sect str, parseElf_at k1 k2 k3 (by cases is64 <;> decide) k4, sections_at k5 k6 k8 k9 k11, ?_, rfl, k12, hent, hlen, k10⟩
  exact dynTable_at rfl hent hlen (by show At f dyn.offset _; rw [k12]; exact k15) k16

/-- Files that are not ELF files stay as they are. -/
theorem not_elf (build f : Bytes) (h : f.take 4 ≠ [127, 69, 76, 70]) : fixRpaths build f = .ok f := by
  have : parseElf f = none := by
    unfold parseElf readAt
    by_cases hl : 0 + 16 ≤ f.length
    · rw [if_neg (by decide), if_pos hl]
      dsimp only
      rw [if_pos]
      simpa [List.take_take] using h
    · rw [if_neg (by decide), if_neg hl]
  unfold fixRpaths
  rw [this]

/-- Programs and libraries without a run path stay as they are. -/
theorem no_rpath {is64 : Bool} {f : Bytes} {tabOff strOff : Nat} {ds : List (Nat × Nat)} (hi : Image is64 f tabOff strOff ds)
    (hn : ∀ d ∈ ds, d.1 ≠ DT_RPATH ∧ d.1 ≠ DT_RUNPATH) (build : Bytes) : fixRpaths build f = .ok f := by
  obtain ⟨e, d, s, h1, h2, h3, _⟩ := image_read hi
  unfold fixRpaths
  rw [h1]
  dsimp only
  rw [h2]
  simp only [Res.bind]
  rw [h3]
  simp only
  rw [find_none 15 ds 0 fun x hx => (hn x hx).1, find_none 29 ds 0 fun x hx => (hn x hx).2]
  rfl

theorem mid_get (p m m' q : Bytes) (h : m.length = m'.length) (i : Nat) (hi : i < p.length ∨ p.length + m.length ≤ i) :
    (p ++ m ++ q)[i]? = (p ++ m' ++ q)[i]? := by
  rcases hi with hi | hi
  · rw [List.append_assoc, List.append_assoc, List.getElem?_append_left hi, List.getElem?_append_left hi]
  · rw [List.getElem?_append_right (by simpa using hi), List.getElem?_append_right (by simp; omega)]
    simp [h]

theorem at_iff {f : Bytes} {off : Nat} {b : Bytes} (_hl : off + b.length ≤ f.length) : At f off b ↔ ∀ i, i < b.length → f[off + i]? = b[i]? := by
  unfold At
  constructor
  · intro h i hi
    rw [← h, List.getElem?_take, if_pos (by simpa using hi), List.getElem?_drop]
  · intro h
    refine List.ext_getElem? fun i => ?_
    by_cases hi : i < b.length
    · rw [List.getElem?_take, if_pos hi, List.getElem?_drop, h i hi]
    · rw [List.getElem?_eq_none (by simp; omega), List.getElem?_eq_none (by omega)]

theorem at_fits {f : Bytes} {off : Nat} {b : Bytes} (h : At f off b) (hb : b ≠ []) : off + b.length ≤ f.length := by
  obtain ⟨p, q, rfl, rfl⟩ := h.split hb
  simp

/-- Bytes at an offset stay if something else is changed. -/
theorem at_other {f f' : Bytes} {off lo hi : Nat} {b : Bytes} (h : At f off b) (hb : b ≠ []) (hlen : f'.length = f.length)
    (heq : ∀ i, i < lo ∨ hi ≤ i → f'[i]? = f[i]?) (hd : off + b.length ≤ lo ∨ hi ≤ off) : At f' off b := by
  have hl := at_fits h hb
  rw [at_iff (by omega)]
  intro i hi'
  rw [heq _ (by omega)]
  exact (at_iff hl).1 h i hi'

/-- The run path of an installed program has exactly the directories that are not in the build directory, if these are at most one. Nothing else
in the file changes, but for the entry of the run path: if no directory is left, it is taken out of the dynamic table, whose last entry is
then there twice. For files of both classes; `ds` are the directories of the run path. -/
theorem fix_rpaths_partial {is64 : Bool} {f : Bytes} {tabOff strOff : Nat} {ds1 ds2 : List (Nat × Nat)} {tag v : Nat} {ds : List Bytes}
    (hi : Image is64 f tabOff strOff (ds1 ++ (tag, v) :: ds2)) (hr : RunPath is64 f tabOff strOff ds1 ds2 tag v (text ds))
    (build : Bytes) (h0 : 0 ∉ build) (ha : Path.Spec.isAbs build = true) (hn : ds ≠ []) (hd : ∀ d ∈ ds, 58 ∉ d ∧ 0 ∉ d ∧ d.length < 4096)
    (hk : (kept build ds).length ≤ 1) :
    ∃ f', fixRpaths build f = .ok f' ∧ f'.length = f.length ∧ stringAt f' (strOff + v) = text (kept build ds) ∧
      At f' tabOff ((if kept build ds = [] then ds1 ++ ds2 ++ [((tag, v) :: ds2).getLast (by simp)] else ds1 ++ (tag, v) :: ds2).flatMap (dynBytes is64)) ∧
      ∀ i, (i < strOff + v ∨ strOff + v + (text ds).length + 1 ≤ i) → (i < tabOff ∨ tabOff + 2 * word is64 * (ds1 ++ (tag, v) :: ds2).length ≤ i) →
        f'[i]? = f[i]? := by
  obtain ⟨e, d, s, r1, r2, r3, r4, r5, r6, r7, r8⟩ := image_read hi
  obtain ⟨pre, post, hf, hpre⟩ := at_split hr.str (by simp)
  have hf' : f = pre ++ (text ds ++ [0]) ++ post := hf
  rw [show pre ++ (text ds ++ [0]) ++ post = pre ++ text ds ++ 0 :: post by simp] at hf
  obtain ⟨m, m1, m2, m3⟩ := remove_paths_exact build h0 ha pre post ds hn hd
  have m3 := m3.2 hk
  rw [← hf, hpre] at m2
  have hml : m.length = (text ds ++ [0]).length := by simp [m1]
  have hlen : (pre ++ m ++ post).length = f.length := by rw [hf']; simp only [List.length_append, hml]
  have hsame : ∀ i, i < strOff + v ∨ strOff + v + (text ds).length + 1 ≤ i → (pre ++ m ++ post)[i]? = f[i]? := by
    intro i hi
    rw [hf']
    refine mid_get pre m _ post hml i ?_
    rw [m1, hpre]
    omega
  have hwp := word_pos is64
  have htl : ((ds1 ++ (tag, v) :: ds2).flatMap (dynBytes is64)).length = 2 * word is64 * (ds1 ++ (tag, v) :: ds2).length :=
    flatMap_len (dynBytes is64) _ (dyn_length is64) _
  have htn : (ds1 ++ (tag, v) :: ds2).flatMap (dynBytes is64) ≠ [] := by
    intro h
    rw [h] at htl
    simp only [List.length_nil, List.length_append, List.length_cons] at htl
    have : 2 * word is64 * (ds1.length + (ds2.length + 1)) ≠ 0 := Nat.mul_ne_zero (by omega) (by omega)
    omega
  have htab : At (pre ++ m ++ post) tabOff ((ds1 ++ (tag, v) :: ds2).flatMap (dynBytes is64)) := by
    refine at_other hi.table htn hlen hsame ?_
    rw [htl]
    rcases hr.apart with h | h
    · exact .inr h
    · exact .inl h
  -- the entry
  have hone : ∃ f', fixOne build e d s (some (v, ds1.length)) f = .ok f' ∧ f'.length = f.length ∧ stringAt f' (strOff + v) = text (kept build ds) ∧
      At f' tabOff ((if kept build ds = [] then ds1 ++ ds2 ++ [((tag, v) :: ds2).getLast (by simp)] else ds1 ++ (tag, v) :: ds2).flatMap (dynBytes is64)) ∧
      ∀ i, (i < strOff + v ∨ strOff + v + (text ds).length + 1 ≤ i) → (i < tabOff ∨ tabOff + 2 * word is64 * (ds1 ++ (tag, v) :: ds2).length ≤ i) →
        f'[i]? = f[i]? := by
    unfold fixOne
    dsimp only
    rw [r8, m2]
    simp only [Res.bind]
    by_cases hke : kept build ds = []
    · rw [if_pos (by simpa using hke), if_pos hke]
      obtain ⟨P, Q, e1, e2⟩ := at_split htab htn
      have hsh := shift_at (is64 := is64) (d := d) r6 P Q (e2.trans r5.symm) ds2 ds1 (tag, v)
      have hl2 : ((ds1 ++ ds2 ++ [((tag, v) :: ds2).getLast (by simp)]).flatMap (dynBytes is64)).length =
          ((ds1 ++ (tag, v) :: ds2).flatMap (dynBytes is64)).length := by
        rw [flatMap_len (dynBytes is64) _ (dyn_length is64), flatMap_len (dynBytes is64) _ (dyn_length is64)]
        congr 1
        simp
      have hat2 : At (P ++ (ds1 ++ ds2 ++ [((tag, v) :: ds2).getLast (by simp)]).flatMap (dynBytes is64) ++ Q) tabOff
          ((ds1 ++ ds2 ++ [((tag, v) :: ds2).getLast (by simp)]).flatMap (dynBytes is64)) := e2 ▸ Spec.At.of_split _ _ _
      have hother : ∀ i, (i < tabOff ∨ tabOff + 2 * word is64 * (ds1 ++ (tag, v) :: ds2).length ≤ i) →
          (P ++ (ds1 ++ ds2 ++ [((tag, v) :: ds2).getLast (by simp)]).flatMap (dynBytes is64) ++ Q)[i]? = (pre ++ m ++ post)[i]? := by
        intro i hi
        rw [e1]
        refine mid_get P _ _ Q hl2 i ?_
        rw [hl2, htl, e2]
        exact hi
      have hlen2 : (P ++ (ds1 ++ ds2 ++ [((tag, v) :: ds2).getLast (by simp)]).flatMap (dynBytes is64) ++ Q).length = f.length := by
        rw [← hlen, e1]
        simp only [List.length_append, hl2]
      refine ⟨P ++ (ds1 ++ ds2 ++ [((tag, v) :: ds2).getLast (by simp)]).flatMap (dynBytes is64) ++ Q, ?_, hlen2, ?_, hat2, ?_⟩
      · unfold removeEntry
        rw [if_neg (by rw [r6]; cases is64 <;> simp [word]), r7]
        rw [show (ds1 ++ (tag, v) :: ds2).length - (ds1.length + 1) = ds2.length by simp; omega]
        rw [e1, hsh]
        simp only [Res.bind]
        rw [dynTable_at r4 r6 (l := ds1 ++ ds2 ++ [((tag, v) :: ds2).getLast (by simp)]) (by rw [r7]; simp) (by rw [r5]; exact hat2)]
        intro x hx
        refine hi.values x ?_
        simp only [List.mem_append, List.mem_singleton] at hx
        rcases hx with (hx | hx) | hx
        · simp [hx]
        · simp [hx]
        · subst hx
          exact List.mem_append_right _ (List.getLast_mem _)
      · rw [hke]
        -- the string begins with a NUL, which is not in the table
        have hz : (pre ++ m ++ post)[strOff + v]? = some 0 := by
          unfold stringAt at m3
          rw [hke, text, hpre] at m3
          have hlt : strOff + v < (pre ++ m ++ post).length := by rw [← hpre]; simp [m1]; omega
          rw [List.drop_eq_getElem_cons hlt, List.takeWhile_cons] at m3
          split at m3
          · simp at m3
          · next hz => rw [List.getElem?_eq_getElem hlt]; simpa using hz
        have hz2 := hother (strOff + v) (by rcases hr.apart with h | h <;> omega)
        rw [hz] at hz2
        unfold stringAt
        obtain ⟨hlt, hget⟩ := List.getElem?_eq_some_iff.1 hz2
        rw [List.drop_eq_getElem_cons hlt, List.takeWhile_cons, hget]
        rfl
      · intro i i1 i2
        rw [hother i i2, hsame i i1]
    · rw [if_neg (by simpa using hke), if_neg hke]
      exact ⟨_, rfl, hlen, by rw [hpre] at m3; exact m3, htab, fun i i1 _ => hsame i i1⟩
  obtain ⟨f', q1, q2⟩ := hone
  refine ⟨f', ?_, q2⟩
  unfold fixRpaths
  rw [r1]
  dsimp only
  rw [r2]
  simp only [Res.bind]
  rw [r3]
  simp only
  have hother : ∀ t, t = 15 ∨ t = 29 → t ≠ tag → find t (ds1 ++ (tag, v) :: ds2) 0 = none := by
    intro t ht hne
    refine find_none _ _ _ fun x hx => ?_
    simp only [List.mem_append, List.mem_cons] at hx
    rcases hx with hx | rfl | hx
    · have := hr.only x (by simp [hx])
      rcases ht with rfl | rfl
      · exact this.1
      · exact this.2
    · exact Ne.symm hne
    · have := hr.only x (by simp [hx])
      rcases ht with rfl | rfl
      · exact this.1
      · exact this.2
  have hthis : find tag (ds1 ++ (tag, v) :: ds2) 0 = some (v, ds1.length) := by
    rw [find_one tag v ds2 ?_ ds1 0, Nat.zero_add]
    intro x hx
    have := hr.only x (by simp [hx])
    rcases hr.kind with rfl | rfl
    · exact this.1
    · exact this.2
  rcases hr.kind with h | h
  · rw [show (15 : Nat) = tag from h.symm, hthis, q1]
    simp only
    rw [hother 29 (.inr rfl) (by rw [h]; decide)]
    rfl
  · rw [hother 15 (.inl rfl) (by rw [h]; decide)]
    show (fixOne build e d s (find 29 _ 0) f) = _
    rw [show (29 : Nat) = tag from h.symm, hthis, q1]

/-! ### Files -/

/-- A file of class 64: header, strings, dynamic table, and headers of the sections with strings and with the table. -/
def file (strings : Bytes) (ds : List (Nat × Nat)) : Bytes :=
  ehdr true (List.replicate 10 0) 3 62 1 0 0 (64 + strings.length + 16 * ds.length) 0 64 0 0 64 2 0 ++ strings ++ ds.flatMap (dynBytes true) ++
  Shdr.bytes true ⟨0, 3, 0, 0, 64, strings.length, 0, 0, 1, 0⟩ ++ Shdr.bytes true ⟨0, 6, 0, 0, 64 + strings.length, 16 * ds.length, 0, 0, 8, 16⟩

theorem file_image (strings : Bytes) (ds : List (Nat × Nat)) (h1 : strings.length < 2 ^ 30) (h2 : ds.length < 2 ^ 30) (hv : ∀ d ∈ ds, d.1 < 2 ^ 32 ∧ d.2 < 256 ^ 8) :
    Image true (file strings ds) (64 + strings.length) 64 ds := by
  have hl : (ehdr true (List.replicate 10 0) 3 62 1 0 0 (64 + strings.length + 16 * ds.length) 0 64 0 0 64 2 0).length = 64 := by
    simp [ehdr, num_length, word]
  have hd := flatMap_len (dynBytes true) _ (dyn_length true) ds
  refine ⟨⟨List.replicate 10 0, 3, 62, 1, 0, 0, 64 + strings.length + 16 * ds.length, 0, 64, 0, 0, 0,
    [⟨0, 3, 0, 0, 64, strings.length, 0, 0, 1, 0⟩, ⟨0, 6, 0, 0, 64 + strings.length, 16 * ds.length, 0, 0, 8, 16⟩], ?_, rfl, ?_, by simp, ?_, ?_,
    [], _, [], _, [], rfl, by simp, rfl, rfl, rfl, rfl, rfl, rfl⟩, ?_, hv, by omega⟩
  · have := Spec.At.of_split [] (ehdr true (List.replicate 10 0) 3 62 1 0 0 (64 + strings.length + 16 * ds.length) 0 64 0 0 64 2 0)
      (strings ++ ds.flatMap (dynBytes true) ++
      Shdr.bytes true ⟨0, 3, 0, 0, 64, strings.length, 0, 0, 1, 0⟩ ++ Shdr.bytes true ⟨0, 6, 0, 0, 64 + strings.length, 16 * ds.length, 0, 0, 8, 16⟩)
    simpa [file, shsize] using this
  · simp only [word, if_true]; omega
  · have := Spec.At.of_split (ehdr true (List.replicate 10 0) 3 62 1 0 0 (64 + strings.length + 16 * ds.length) 0 64 0 0 64 2 0 ++ strings ++ ds.flatMap (dynBytes true))
      (Shdr.bytes true ⟨0, 3, 0, 0, 64, strings.length, 0, 0, 1, 0⟩ ++ Shdr.bytes true ⟨0, 6, 0, 0, 64 + strings.length, 16 * ds.length, 0, 0, 8, 16⟩) []
    rw [List.length_append, List.length_append, hl, hd] at this
    simpa [file, word] using this
  · intro h hh
    simp only [List.mem_cons, List.not_mem_nil, or_false] at hh
    rcases hh with rfl | rfl <;> simp only [Shdr.Fits, word, if_true] <;> omega
  · have := Spec.At.of_split (ehdr true (List.replicate 10 0) 3 62 1 0 0 (64 + strings.length + 16 * ds.length) 0 64 0 0 64 2 0 ++ strings) (ds.flatMap (dynBytes true))
      (Shdr.bytes true ⟨0, 3, 0, 0, 64, strings.length, 0, 0, 1, 0⟩ ++ Shdr.bytes true ⟨0, 6, 0, 0, 64 + strings.length, 16 * ds.length, 0, 0, 8, 16⟩)
    rw [List.length_append, hl] at this
    simpa [file] using this

/-- The hypotheses of `fix_rpaths_partial` can be met, and the entry is removed. -/
example : Image true (file (0 :: ascii "/b/lib" ++ [0]) [(1, 9), (29, 1), (12, 77), (0, 0)]) 72 64 ([(1, 9)] ++ (29, 1) :: [(12, 77), (0, 0)]) ∧
    RunPath true (file (0 :: ascii "/b/lib" ++ [0]) [(1, 9), (29, 1), (12, 77), (0, 0)]) 72 64 [(1, 9)] [(12, 77), (0, 0)] 29 1 (text [ascii "/b/lib"]) ∧
    fixRpaths (ascii "/b") (file (0 :: ascii "/b/lib" ++ [0]) [(1, 9), (29, 1), (12, 77), (0, 0)]) =
      .ok (file (0 :: 0 :: ascii "b/lib" ++ [0]) [(1, 9), (12, 77), (0, 0), (0, 0)]) :=
  ⟨file_image _ _ (by decide +kernel) (by decide) (by decide), ⟨.inr rfl, by decide, by unfold At; decide +kernel, .inl (by decide +kernel)⟩, by decide +kernel⟩

/-- A program that is linked statically has no dynamic section: it cannot be installed. -/
theorem static_counterexample :
    fixRpaths (ascii "/b") (ehdr true (List.replicate 10 0) 2 62 1 0 0 64 0 64 0 0 64 1 0 ++ Shdr.bytes true ⟨0, 3, 0, 0, 0, 0, 0, 0, 1, 0⟩) = .error := by
  decide +kernel

/-- With both kinds of run paths, the entry that is removed in the end is another one, and one of the run paths stays. -/
theorem both_counterexample :
    fixRpaths (ascii "/b") (file (0 :: ascii "/b/lib" ++ [0]) [(15, 1), (29, 1), (12, 77), (0, 0)]) =
      .ok (file (0 :: 0 :: ascii "b/lib" ++ [0]) [(29, 1), (0, 0), (0, 0), (0, 0)]) := by
  decide +kernel

/-- The last section with strings before the dynamic section is taken for its strings, whichever it is. Here it is one after the right one,
and what is removed is a string of that section. -/
theorem section_counterexample :
    let f := ehdr true (List.replicate 10 0) 3 62 1 0 0 112 0 64 0 0 64 3 0 ++ (0 :: ascii "/b/lib" ++ [0]) ++ (0 :: ascii "/b/src" ++ [0]) ++
      [(29, 1), (0, 0)].flatMap (dynBytes true)
    let hs := Shdr.bytes true ⟨0, 3, 0, 0, 64, 8, 0, 0, 1, 0⟩ ++ Shdr.bytes true ⟨0, 3, 0, 0, 72, 8, 0, 0, 1, 0⟩ ++ Shdr.bytes true ⟨0, 6, 0, 0, 80, 32, 0, 0, 8, 16⟩
    (fixRpaths (ascii "/b") (f ++ hs)) = .ok (ehdr true (List.replicate 10 0) 3 62 1 0 0 112 0 64 0 0 64 3 0 ++ (0 :: ascii "/b/lib" ++ [0]) ++
      (0 :: 0 :: ascii "b/src" ++ [0]) ++ [(0, 0), (0, 0)].flatMap (dynBytes true) ++ hs) := by
  decide +kernel

end Muon.Rpath
