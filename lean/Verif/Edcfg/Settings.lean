import Verif.Edcfg.Props
import Verif.Nlog.Lemmas
import Verif.Path.Props
/-
C108: the values in `.editorconfig` files, and what `muon fmt` indents by.
-/
namespace Muon.Edcfg
open Muon Muon.Edcfg.Spec

/-- What a list of pairs adds to a context. -/
def addTo (m : Pair → Bool) (x : Ctx) (ps : List Pair) : Ctx :=
  { root := x.root || isRoot ps
    matched := x.matched || ps.any (Applies m)
    style := (lastVal m (ascii "indent_style") ps).or x.style
    size := (lastVal m (ascii "indent_size") ps).or x.size
    width := (lastVal m (ascii "tab_width") ps).or x.width }

theorem lastVal_cons (m : Pair → Bool) (key : Bytes) (p : Pair) (ps : List Pair) (o : Option Bytes) :
    (lastVal m key (p :: ps)).or o = (lastVal m key ps).or (if Applies m p && p.key = key then some p.val else o) := by
  unfold lastVal
  rw [List.filter_cons]
  split
  · rename_i h
    rw [List.getLast?_cons]
    cases (ps.filter fun p => Applies m p && p.key = key).getLast? <;> simp
  · simp

theorem pairs_sem (fuel : Nat) (path : Bytes) (m : Pair → Bool) : ∀ (ps : List Pair) (x : Ctx),
    (∀ p ∈ ps, ∀ s a, p.sect = some (s, a) → sectMatch fuel s a path = .ok (m p)) → pairs fuel path ps x = .ok (addTo m x ps)
  | [], x, _ => by
    simp [pairs, addTo, isRoot, lastVal]
  | p :: ps, x, h => by
    have hp : pair fuel path x p = .ok (addTo m x [p]) := by
      obtain ⟨sect, key, val⟩ := p
      cases sect with
      | none =>
        simp only [pair, addTo, isRoot, lastVal, Applies, List.any_cons, List.any_nil, List.filter_cons, List.filter_nil, Option.isSome_none,
          Bool.false_and, Bool.or_false, Bool.false_eq_true, if_false, List.getLast?_nil, Option.map_none, Option.none_or]
        by_cases h1 : key = ascii "root" <;> by_cases h2 : val = ascii "true" <;> simp [h1, h2]
      | some sa =>
        obtain ⟨s, a⟩ := sa
        have hm := h ⟨some (s, a), key, val⟩ (by simp) s a rfl
        simp only [pair]
        rw [hm]
        simp only [Res.ok_bind]
        cases hb : m ⟨some (s, a), key, val⟩ with
        | false => simp [addTo, isRoot, lastVal, Applies, hb]
        | true =>
          simp only [Bool.not_true, Bool.false_eq_true, if_false]
          by_cases h1 : key = ascii "indent_style"
          · subst h1
            rw [if_pos rfl]
            have e1 : ascii "indent_style" ≠ ascii "indent_size" := by decide
            have e2 : ascii "indent_style" ≠ ascii "tab_width" := by decide
            simp [addTo, isRoot, lastVal, Applies, hb, e1, e2]
          · rw [if_neg h1]
            by_cases h2 : key = ascii "indent_size"
            · subst h2
              rw [if_pos rfl]
              have e2 : ascii "indent_size" ≠ ascii "tab_width" := by decide
              simp [addTo, isRoot, lastVal, Applies, hb, h1, e2]
            · rw [if_neg h2]
              by_cases h3 : key = ascii "tab_width"
              · subst h3
                rw [if_pos rfl]
                simp [addTo, isRoot, lastVal, Applies, hb, h1, h2]
              · rw [if_neg h3]
                simp [addTo, isRoot, lastVal, Applies, hb, h1, h2, h3]
    rw [pairs, hp, Res.ok_bind, pairs_sem fuel path m ps _ (fun q hq => h q (by simp [hq]))]
    have hone : ∀ key (o : Option Bytes), (lastVal m key [p]).or o = if Applies m p && p.key = key then some p.val else o := by
      intro key o
      rw [lastVal_cons]; simp [lastVal]
    unfold addTo
    simp only [lastVal_cons m _ p ps, hone, isRoot, List.any_cons, List.any_nil, Bool.or_false, Bool.or_assoc]

theorem lastVal_any (m : Pair → Bool) (key : Bytes) (ps : List Pair) (h : ps.any (Applies m) = false) : lastVal m key ps = none := by
  unfold lastVal
  have : (ps.filter fun p => Applies m p && p.key = key) = [] := by
    rw [List.filter_eq_nil_iff]
    intro p hp
    have := List.any_eq_false.1 h p hp
    simp [this]
  rw [this]; rfl

theorem merge_sem (m : Pair → Bool) (ps : List Pair) (g : Found) : merge (addTo m {} ps) g =
    { style := g.style.or (lastVal m (ascii "indent_style") ps), size := g.size.or (lastVal m (ascii "indent_size") ps),
      width := g.width.or (lastVal m (ascii "tab_width") ps) } := by
  unfold merge addTo
  simp only [Bool.false_or, Option.or_none]
  split
  · rfl
  · rename_i h
    have h := Bool.eq_false_iff.2 h
    rw [lastVal_any m _ ps h, lastVal_any m _ ps h, lastVal_any m _ ps h]
    simp

theorem setting_cons (m : Pair → Bool) (key : Bytes) (ps : List Pair) (l : List (List Pair)) :
    setting m key (ps :: l) = (lastVal m key ps).or (if isRoot ps then none else setting m key l) := by
  unfold setting
  rw [upTo]
  split
  · simp only [List.findSome?_cons, List.findSome?_nil]
    cases lastVal m key ps <;> rfl
  · simp only [List.findSome?_cons]
    cases lastVal m key ps <;> rfl

/-- C108: a setting has the value which the nearest file gives it in a section that applies, the last such value in that file. Files above one
that says `root = true` before its first section do not count. -/
theorem settings (fuel : Nat) (path : Bytes) (m : Pair → Bool) : ∀ (files : List (Option (List Pair))) (g : Found),
    (∀ ps ∈ files.filterMap id, ∀ p ∈ ps, ∀ s a, p.sect = some (s, a) → sectMatch fuel s a path = .ok (m p)) →
    search fuel path (files.map fun x => x.map some) g = .ok (some
      { style := g.style.or (setting m (ascii "indent_style") (files.filterMap id)),
        size := g.size.or (setting m (ascii "indent_size") (files.filterMap id)),
        width := g.width.or (setting m (ascii "tab_width") (files.filterMap id)) })
  | [], g, _ => by simp [search, setting, upTo]
  | none :: l, g, h => by
    rw [List.map_cons, Option.map_none, search, settings fuel path m l g (fun ps hps => h ps (by simpa using hps))]
    simp
  | some ps :: l, g, h => by
    rw [List.map_cons, Option.map_some, search, pairs_sem fuel path m ps {} (h ps (by simp))]
    simp only [Res.ok_bind, merge_sem]
    have hr : (addTo m {} ps).root = isRoot ps := by simp [addTo]
    rw [hr]
    have hf : (some ps :: l).filterMap id = ps :: l.filterMap id := rfl
    rw [hf]
    simp only [setting_cons]
    cases hroot : isRoot ps with
    | true => simp
    | false =>
      rw [if_neg (by simp), settings fuel path m l _ (fun qs hqs => h qs (by rw [hf]; simp [hqs]))]
      simp [Option.or_assoc]

/-- C108: a file that cannot be parsed ends the search. -/
theorem broken_file (fuel : Nat) (path : Bytes) (l : List (Option (Option (List Pair)))) (g : Found) :
    search fuel path (some none :: l) g = .ok none := rfl

theorem sepJoin_length : ∀ (cs : List Bytes), (∀ c ∈ cs, c ≠ []) → cs.length ≤ (Path.Spec.sepJoin cs).length
  | [], _ => by simp
  | [c], h => by
    have : 0 < c.length := List.length_pos_iff.2 (h c (by simp))
    simp only [Path.Spec.sepJoin, List.length_cons, List.length_nil]
    omega
  | c :: d :: r, h => by
    have := sepJoin_length (d :: r) (fun e he => h e (by simp at he ⊢; exact .inr he))
    simp only [Path.Spec.sepJoin, List.length_append, List.length_cons, List.length_nil] at *
    omega

theorem ups_snoc (cs : List Bytes) (h : cs ≠ []) : ups cs = cs :: ups cs.dropLast := by
  have hpos : 0 < cs.length := List.length_pos_iff.2 h
  obtain ⟨n, hn⟩ : ∃ n, cs.length = n + 1 := ⟨cs.length - 1, by omega⟩
  unfold ups
  rw [List.length_dropLast, hn, List.range_succ, List.reverse_append]
  simp only [List.reverse_cons, List.reverse_nil, List.nil_append, List.cons_append, List.map_cons, Nat.add_sub_cancel]
  rw [List.take_of_length_le (by omega)]
  congr 1
  apply List.map_congr_left
  intro k hk
  simp at hk
  rw [List.dropLast_eq_take, List.take_take, hn]
  congr 1
  omega

theorem dirs_up : ∀ (n : Nat) (cs : List Bytes), (∀ c ∈ cs, Path.Comp c) → cs.length ≤ n →
    dirsUp n (Path.Spec.render true cs) = (ups cs).map (Path.Spec.render true) := by
  intro n
  induction n with
  | zero =>
    intro cs _ h
    have : cs = [] := List.length_eq_zero_iff.1 (by omega)
    subst this
    rfl
  | succ n ih =>
    intro cs hc hn
    rw [dirsUp]
    by_cases he : cs = []
    · subst he; rfl
    · have hlen := sepJoin_length cs (fun c h => (hc c h).1)
      have hpos : 0 < cs.length := List.length_pos_iff.2 he
      have hne : (Path.Spec.render true cs).length ≠ 1 := by
        simp only [Path.Spec.render, if_true, List.length_cons]
        omega
      rw [if_neg hne, Path.dirname_spec _ (Path.render_no0 true cs hc) (by simp [Path.Spec.render]),
        Path.render_isAbs true cs hc, Path.render_comps true cs hc, ih cs.dropLast (fun c h => hc c (List.dropLast_subset cs h)) (by rw [List.length_dropLast]; omega),
        ups_snoc cs he]
      rfl

/-- C108: the files looked for are those in the directory of the file and in all directories above it, the nearest first. -/
theorem files_looked_for (cs : List Bytes) (c : Bytes) (hc : ∀ d ∈ cs ++ [c], Path.Comp d) :
    cfgPaths (Path.Spec.render true (cs ++ [c])) = (ups cs).map fun d => Path.Spec.render true (d ++ [ascii ".editorconfig"]) := by
  have hcs : ∀ d ∈ cs, Path.Comp d := fun d h => hc d (by simp [h])
  unfold cfgPaths
  rw [Path.dirname_spec _ (Path.render_no0 true _ hc) (by simp [Path.Spec.render]), Path.render_isAbs true _ hc, Path.render_comps true _ hc,
    List.dropLast_concat, dirs_up _ cs hcs (by
      have := sepJoin_length (cs ++ [c]) (fun d h => (hc d h).1)
      simp only [Path.Spec.render, if_true, List.length_cons, List.length_append, List.length_nil] at *
      omega), List.map_map]
  apply List.map_congr_left
  intro d hd
  simp only [ups, List.mem_map, List.mem_reverse] at hd
  obtain ⟨k, _, rfl⟩ := hd
  have hd : ∀ e ∈ cs.take k, Path.Comp e := fun e h => hcs e (List.mem_of_mem_take h)
  show Path.join _ _ = _
  rw [Path.join_text _ _ (Path.render_no0 true _ hd) (by decide) (by simp [Path.Spec.render]) (by decide), if_neg (by decide),
    Path.render_isAbs true _ hd, Path.render_comps true _ hd]
  rfl

/-- C108: the text to indent by is as many tabs (with `indent_style = tab`) or spaces as `indent_size` says, or as `tab_width` says if that is
`tab`; without `indent_size`, one tab or four spaces; without `tab_width`, 8. -/
theorem indent_text (g : Found) (n : Nat) (h : n < 1023)
    (hs : (let size := g.size.getD (if g.style = some (ascii "tab") then ascii "1" else ascii "4")
      if size = ascii "tab" then g.width.getD (ascii "8") else size) = Nlog.dec n) :
    indentBy g = .ok (List.replicate n (if g.style = some (ascii "tab") then 9 else 32)) := by
  have hst : (g.style.getD (ascii "space") = ascii "tab") ↔ g.style = some (ascii "tab") := by
    cases g.style with
    | none => simp; decide
    | some v => simp
  have hcol : columns (Nlog.dec n) = n := by
    unfold columns
    rw [Nlog.strtol_dec]
    simp only
    omega
  have hsz : sizeText g = Nlog.dec n := by
    unfold sizeText
    simp only [hst]
    exact hs
  unfold indentBy
  simp only [hst]
  rw [hsz, hcol]
  have : (n + 1) % 2 ^ 32 = n + 1 := by omega
  rw [this]
  simp only [show n + 1 < 1024 by omega, decide_true, Bool.not_true, Bool.false_eq_true, if_false]
  rw [if_neg (by omega)]

example : indentBy { size := some (Nlog.dec 2) } = .ok (ascii "  ") := by
  rw [indent_text _ 2 (by decide) (by decide +kernel)]; decide +kernel

/-- C108: whatever the files say, the text to indent by is blank and short. -/
theorem indent_blank (g : Found) (b : Bytes) (h : indentBy g = .ok b) : (∀ c ∈ b, c = 9 ∨ c = 32) ∧ b.length < 1024 := by
  unfold indentBy at h
  simp only at h
  split at h
  · cases h
  · split at h
    · cases h
    · rename_i h1 h2
      cases h
      refine ⟨?_, by simp; omega⟩
      intro c hc
      have := (List.mem_replicate.1 hc).2
      split at this <;> simp [this]

/-- C108: without any `.editorconfig` file, code is indented by four spaces. -/
theorem indent_default (fuel : Nat) (file : Bytes → Option (Option (List Pair))) (path : Bytes) (e : Bool) (h : ∀ p ∈ cfgPaths path, file p = none) :
    fmtIndent e fuel file path = .ok (ascii "    ") := by
  unfold fmtIndent
  cases e with
  | false => rfl
  | true =>
    rw [if_neg (by simp)]
    unfold tryParse
    have : ∀ (l : List Bytes), (∀ p ∈ l, file p = none) → search fuel path (l.map file) {} = .ok (some {}) := by
      intro l
      induction l with
      | nil => intro _; rfl
      | cons a l ih =>
        intro h
        rw [List.map_cons, h a (by simp), search]
        exact ih (fun p hp => h p (by simp [hp]))
    rw [this _ h]
    decide +kernel

/-- C108: with files that can be parsed, what `muon fmt` indents by comes from the settings. -/
theorem fmt_indent (fuel : Nat) (path : Bytes) (m : Pair → Bool) (file : Bytes → Option (List Pair))
    (h : ∀ p ∈ cfgPaths path, ∀ ps, file p = some ps → ∀ q ∈ ps, ∀ s a, q.sect = some (s, a) → sectMatch fuel s a path = .ok (m q)) :
    let files := (cfgPaths path).filterMap file
    fmtIndent true fuel (fun p => (file p).map some) path = indentBy
      { style := setting m (ascii "indent_style") files, size := setting m (ascii "indent_size") files, width := setting m (ascii "tab_width") files } := by
  intro files
  have hfm : ((cfgPaths path).map file).filterMap id = files := by simp [files, List.filterMap_map]
  have hs := settings fuel path m ((cfgPaths path).map file) {} (by
    intro ps hps
    rw [hfm, List.mem_filterMap] at hps
    obtain ⟨p, hp, hps⟩ := hps
    exact h p hp ps hps)
  rw [hfm, List.map_map] at hs
  unfold fmtIndent tryParse
  rw [if_neg (by simp), show (fun p => (file p).map some) = (fun x : Option (List Pair) => x.map some) ∘ file from rfl, hs]
  simp only [Res.ok_bind, Option.none_or]
  cases indentBy _ <;> rfl

/-- C108 fails: if a file cannot be parsed, `muon fmt` looks at a pointer that was never set. -/
theorem broken_counterexample : fmtIndent true 90 (fun p => if p = ascii "/src/.editorconfig" then some none else none) (ascii "/src/meson.build") = .bad := by
  decide +kernel

/-- C108 fails: with `indent_size = -1` the text is written after the end of its buffer. -/
theorem negative_counterexample : indentBy { size := some (ascii "-1") } = .bad := by decide +kernel

/-- C108 fails: with `indent_size = 2000`, the program ends in an assertion. -/
theorem large_counterexample : indentBy { size := some (ascii "2000") } = .error := by decide +kernel

/-- C108 fails: with a size that is not a number, such as `unset`, code is not indented. -/
theorem unset_counterexample : indentBy { size := some (ascii "unset") } = .ok [] := by decide +kernel

end Muon.Edcfg
