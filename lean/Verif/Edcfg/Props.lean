import Verif.Edcfg.Lemmas
/-
C108: to which files a section of an `.editorconfig` file applies.
-/
namespace Muon.Edcfg
open Muon Muon.Edcfg.Spec

theorem longest_unique {l : List Item} {path : Bytes} {a b : List Item} (ha : Longest l path a) (hb : Longest l path b) : a = b := by
  obtain ⟨q, q1, q2, q3, q4⟩ := ha
  obtain ⟨r, r1, r2, r3, r4⟩ := hb
  have e : q.length = r.length := by
    have := q4 r r1 r2 (by rw [r3]; rfl)
    have := r4 q q1 q2 (by rw [q3]; rfl)
    omega
  have : q = r := by
    rcases List.suffix_or_suffix_of_suffix q2 r2 with h | h
    · exact h.eq_of_length e
    · exact (h.eq_of_length e.symm).symm
  rw [this, r3] at q3
  exact (Option.some.inj q3).symm

theorem verdict_iff (after : Bytes) (ha : after ≠ []) (rest : List Item) :
    ∃ b, verdict after rest = .ok b ∧ (b = true ↔ (rest = [] ∧ after.head? = some 0) ∨ rest.length = 1) := by
  obtain ⟨x, t, rfl⟩ := List.exists_cons_of_ne_nil ha
  match rest with
  | [] => exact ⟨decide (x = 0), rfl, by simp⟩
  | [_] => exact ⟨true, rfl, by simp⟩
  | _ :: _ :: _ => exact ⟨false, rfl, by simp⟩

theorem glob_iff (after : Bytes) (slash : Bool) (l : List Item) (hne : l ≠ []) (hg : Good l) (hl : (text l).length < 2 ^ 32) (ha : after ≠ [])
    (path : Bytes) (fuel : Nat) (hp : path ≠ []) (h0 : 0 ∉ path) (h47 : slash = true ∨ 47 ∉ path) (hf : path.length + l.length + 5 ≤ fuel) :
    ∃ b, mainLoop fuel (.glob slash) (text l ++ 0 :: after) path = .ok b ∧
      (b = true ↔ ∃ rest, Longest l path rest ∧ ((rest = [] ∧ after.head? = some 0) ∨ rest.length = 1)) := by
  obtain ⟨i, l, rfl⟩ := List.exists_cons_of_ne_nil hne
  rcases glob_items after slash i l hg hl path fuel hp h0 h47 (by simp at hf; omega) with ⟨rest, h1, h2⟩ | ⟨h1, h2⟩
  · obtain ⟨b, hb1, hb2⟩ := verdict_iff after ha rest
    refine ⟨b, by rw [h2, hb1], ?_⟩
    rw [hb2]
    exact ⟨fun h => ⟨rest, h1, h⟩, fun ⟨r, hr, h⟩ => longest_unique hr h1 ▸ h⟩
  · refine ⟨false, h2, ?_⟩
    constructor
    · intro h; cases h
    · rintro ⟨r, ⟨q, q1, q2, q3, _⟩, _⟩
      rw [h1 q q1 q2] at q3
      cases q3

/-- C108: a section without stars applies to a file if the longest end of its path that the section can eat from its start leaves nothing
of the section, and the section is at the end of its line, or leaves just one part, which then does not matter. -/
theorem section_iff (l : List Item) (hne : l ≠ []) (hg : Good l) (hl : (text l).length < 2 ^ 32) (after : Bytes) (ha : after ≠ [])
    (path : Bytes) (hp : path ≠ []) (h0 : 0 ∉ path) (fuel : Nat) (hf : path.length + l.length + 5 ≤ fuel) :
    ∃ b, sectMatch fuel (text l) after path = .ok b ∧
      (b = true ↔ ∃ rest, Longest l path rest ∧ ((rest = [] ∧ after.head? = some 0) ∨ rest.length = 1)) :=
  glob_iff after true l hne hg hl ha path fuel hp h0 (.inl rfl) hf

/-- C108: a section of a star and parts that are not `/` applies to a file if the parts would, for its name without directories. -/
theorem star_iff (l : List Item) (hne : l ≠ []) (hg : Good l) (hn : NoSlash l) (hl : (text l).length < 2 ^ 32) (after : Bytes) (ha : after ≠ [])
    (dir name : Bytes) (hname : name ≠ []) (h47 : 47 ∉ name) (h0 : 0 ∉ dir ++ 47 :: name) (fuel : Nat)
    (hf : dir.length + name.length + l.length + 9 ≤ fuel) :
    ∃ b, sectMatch fuel (42 :: text l) after (dir ++ 47 :: name) = .ok b ∧
      (b = true ↔ ∃ rest, Longest l name rest ∧ ((rest = [] ∧ after.head? = some 0) ∨ rest.length = 1)) := by
  have e : dir ++ 47 :: name = (dir ++ [47]) ++ name := by simp
  rw [e] at h0 ⊢
  obtain ⟨g, hg1, hg2⟩ := star_items after l hg hn hl name hname h47 (dir ++ [47]) fuel h0 (.inr (by simp)) (by simp; omega)
  obtain ⟨b, hb1, hb2⟩ := glob_iff after false l hne hg hl ha name g hname (fun e => h0 (by simp [e])) (.inr h47) (by omega)
  exact ⟨b, by rw [← hb1, ← hg2]; rfl, hb2⟩

/-- C108: `[*]` applies to every file. -/
theorem star_all (after dir name : Bytes) (hname : name ≠ []) (h47 : 47 ∉ name) (h0 : 0 ∉ dir ++ 47 :: name) (fuel : Nat)
    (hf : dir.length + name.length + 9 ≤ fuel) : sectMatch fuel (ascii "*") after (dir ++ 47 :: name) = .ok true := by
  have e : dir ++ 47 :: name = (dir ++ [47]) ++ name := by simp
  rw [e] at h0 ⊢
  obtain ⟨g, hg1, hg2⟩ := star_items after [] trivial (by intro i hi; cases hi) (by simp [text]) name hname h47 (dir ++ [47]) fuel h0
    (.inr (by simp)) (by simp; omega)
  have : sectMatch fuel (ascii "*") after ((dir ++ [47]) ++ name) = mainLoop fuel (.glob true) (42 :: (text [] ++ 0 :: after)) ((dir ++ [47]) ++ name) := rfl
  rw [this, hg2]
  exact glob_nil after false name g hname (fun e => h0 (by simp [e])) (.inr h47) (by simp at hg1; omega)

/-- C108: a section with nothing in it applies to every file. -/
theorem empty_all (after path : Bytes) (hp : path ≠ []) (h0 : 0 ∉ path) (fuel : Nat) (hf : path.length + 6 ≤ fuel) :
    sectMatch fuel [] after path = .ok true := glob_nil after true path fuel hp h0 (.inl rfl) hf

/-! ### Names -/

/-- Bytes as parts. -/
def lits (s : Bytes) : List Item := s.map Item.lit

theorem text_lits (s : Bytes) : text (lits s) = s := by
  induction s with
  | nil => rfl
  | cons c s ih =>
    show text (.lit c :: lits s) = _
    rw [text_cons, ih]; rfl

theorem good_lits : ∀ (s : Bytes), Plain s → Good (lits s)
  | [], _ => trivial
  | c :: s, h => ⟨h c (by simp), good_lits s (fun d hd => h d (by simp [hd]))⟩

theorem run_lits : ∀ (s q : Bytes), q ≠ [] → run (lits s) q = if q <+: s then some (lits (s.drop q.length)) else none
  | [], q, h => by
    rw [if_neg (fun e => h (List.prefix_nil.1 e))]; rfl
  | c :: s, [], h => absurd rfl h
  | c :: s, y :: q, _ => by
    show run (.lit c :: lits s) (y :: q) = _
    rw [run]
    by_cases hyc : y = c
    · subst hyc
      simp only [eat, List.head?_cons, if_true, List.tail_cons]
      cases q with
      | nil => simp
      | cons z q =>
        simp only
        rw [run_lits s (z :: q) (by simp)]
        simp [List.cons_prefix_cons]
    · simp only [eat, List.head?_cons, Option.some.injEq, hyc, if_false, List.cons_prefix_cons, false_and]

/-- What the longest part says for plain text. -/
theorem lits_iff (s path : Bytes) (P : Prop) (hs : s ≠ []) :
    (∃ rest, Longest (lits s) path rest ∧ ((rest = [] ∧ P) ∨ rest.length = 1)) ↔
      (s <:+ path ∧ P) ∨ (¬s <:+ path ∧ s.dropLast ≠ [] ∧ s.dropLast <:+ path) := by
  have hpos : 0 < s.length := by
    cases s with
    | nil => exact absurd rfl hs
    | cons => simp
  have hpre : ∀ q, q ≠ [] → ((run (lits s) q).isSome ↔ q <+: s) := by
    intro q hq
    rw [run_lits s q hq]
    split <;> simp [*]
  have hdl : s.dropLast <+: s := List.dropLast_prefix s
  constructor
  · rintro ⟨rest, ⟨q, q1, q2, q3, q4⟩, h⟩
    rw [run_lits s q q1] at q3
    split at q3
    · rename_i hq
      simp only [Option.some.injEq] at q3
      subst q3
      have hle := hq.length_le
      rcases h with ⟨h, hP⟩ | h
      · left
        have : s.length ≤ q.length := by simpa [lits] using h
        have : q = s := hq.eq_of_length (by omega)
        exact ⟨this ▸ q2, hP⟩
      · right
        have hql : q.length = s.length - 1 := by simp [lits] at h; omega
        have hqd : q = s.dropLast := by
          have := List.prefix_iff_eq_take.1 hq
          rw [this, hql, List.dropLast_eq_take]
        refine ⟨?_, hqd ▸ q1, hqd ▸ q2⟩
        intro hsp
        have := q4 s hs hsp ((hpre s hs).2 (List.prefix_refl s))
        omega
    · cases q3
  · rintro (⟨h, hP⟩ | ⟨h1, h2, h3⟩)
    · refine ⟨[], ⟨s, hs, h, ?_, ?_⟩, .inl ⟨rfl, hP⟩⟩
      · rw [run_lits s s hs, if_pos (List.prefix_refl s)]; simp [lits]
      · intro r hr _ hrr; exact ((hpre r hr).1 hrr).length_le
    · refine ⟨lits (s.drop s.dropLast.length), ⟨s.dropLast, h2, h3, ?_, ?_⟩, .inr ?_⟩
      · rw [run_lits s _ h2, if_pos hdl]
      · intro r hr hrs hrr
        have hrp := (hpre r hr).1 hrr
        have hle := hrp.length_le
        rw [List.length_dropLast]
        by_cases hlen : r.length = s.length
        · exact absurd (hrp.eq_of_length hlen ▸ hrs) h1
        · omega
      · simp [lits]; omega

/-- C108: a section without special bytes at the end of its line applies to a file if its path ends with the section, or with the section
without its last byte. -/
theorem name_iff (s : Bytes) (hne : s ≠ []) (hs : Plain s) (hl : s.length < 2 ^ 32) (after : Bytes) (ha : after.head? = some 0)
    (path : Bytes) (hp : path ≠ []) (h0 : 0 ∉ path) (fuel : Nat) (hf : path.length + s.length + 5 ≤ fuel) :
    ∃ b, sectMatch fuel s after path = .ok b ∧ (b = true ↔ s <:+ path ∨ (s.dropLast ≠ [] ∧ s.dropLast <:+ path)) := by
  have hane : after ≠ [] := by intro e; rw [e] at ha; cases ha
  have h := section_iff (lits s) (by simp [lits, hne]) (good_lits s hs) (by rw [text_lits]; exact hl) after hane path hp h0 fuel
    (by simp [lits]; omega)
  rw [text_lits] at h
  obtain ⟨b, h1, h2⟩ := h
  refine ⟨b, h1, h2.trans ((lits_iff s path _ hne).trans ?_)⟩
  by_cases h : s <:+ path <;> simp [h, ha]

/-- C108: so a section that is the name of the file applies to it. -/
theorem name_applies (s : Bytes) (hne : s ≠ []) (hs : Plain s) (hl : s.length < 2 ^ 32) (after : Bytes) (ha : after.head? = some 0)
    (dir : Bytes) (h0 : 0 ∉ dir) (fuel : Nat) (hf : dir.length + 2 * s.length + 6 ≤ fuel) :
    sectMatch fuel s after (dir ++ 47 :: s) = .ok true := by
  have h0s : 0 ∉ s := fun e => (hs 0 e) (by simp)
  obtain ⟨b, h1, h2⟩ := name_iff s hne hs hl after ha (dir ++ 47 :: s) (by simp) (by simp [h0, h0s]) fuel (by simp; omega)
  rw [h1, h2.2 (.inl ⟨dir ++ [47], by simp⟩)]

/-- C108: text after the section, on its line, makes it apply to files whose path ends with the section without its last byte, and to no
others; `\r` before the end of the line is such a text. -/
theorem name_dirty (s : Bytes) (hne : s ≠ []) (hs : Plain s) (hl : s.length < 2 ^ 32) (x : UInt8) (hx : x ≠ 0) (after path : Bytes)
    (hp : path ≠ []) (h0 : 0 ∉ path) (fuel : Nat) (hf : path.length + s.length + 5 ≤ fuel) :
    ∃ b, sectMatch fuel s (x :: after) path = .ok b ∧
      (b = true ↔ ¬s <:+ path ∧ s.dropLast ≠ [] ∧ s.dropLast <:+ path) := by
  have h := section_iff (lits s) (by simp [lits, hne]) (good_lits s hs) (by rw [text_lits]; exact hl) (x :: after) (by simp) path hp h0 fuel
    (by simp [lits]; omega)
  rw [text_lits] at h
  obtain ⟨b, h1, h2⟩ := h
  refine ⟨b, h1, h2.trans ((lits_iff s path _ hne).trans ?_)⟩
  simp [hx]

/-- C108: `[*.build]` and the like, at the end of the line: the name of the file ends with the text after the star, or with that text
without its last byte. -/
theorem star_name_iff (s : Bytes) (hne : s ≠ []) (hs : Plain s) (h47s : 47 ∉ s) (hl : s.length < 2 ^ 32) (after : Bytes)
    (ha : after.head? = some 0) (dir name : Bytes) (hname : name ≠ []) (h47 : 47 ∉ name) (h0 : 0 ∉ dir ++ 47 :: name) (fuel : Nat)
    (hf : dir.length + name.length + s.length + 9 ≤ fuel) :
    ∃ b, sectMatch fuel (42 :: s) after (dir ++ 47 :: name) = .ok b ∧
      (b = true ↔ s <:+ name ∨ (s.dropLast ≠ [] ∧ s.dropLast <:+ name)) := by
  have hane : after ≠ [] := by intro e; rw [e] at ha; cases ha
  have h := star_iff (lits s) (by simp [lits, hne]) (good_lits s hs) (by
    intro i hi
    simp only [lits, List.mem_map] at hi
    obtain ⟨c, hc, rfl⟩ := hi
    exact fun (e : c = 47) => h47s (e ▸ hc)) (by rw [text_lits]; exact hl) after hane dir name hname h47 h0 fuel
    (by simp [lits]; omega)
  rw [text_lits] at h
  obtain ⟨b, h1, h2⟩ := h
  refine ⟨b, h1, h2.trans ((lits_iff s name _ hne).trans ?_)⟩
  by_cases h : s <:+ name <;> simp [h, ha]

/-- The longest name that the path ends with. -/
theorem longest_name (path : Bytes) : ∀ (ps : List Bytes) (p : Bytes), p ∈ ps → p <:+ path →
    ∃ q, q ∈ ps ∧ q <:+ path ∧ ∀ r ∈ ps, r <:+ path → r.length ≤ q.length := by
  intro ps
  induction ps with
  | nil => intro p hpm; cases hpm
  | cons a l ih =>
    intro p hpm hps'
    by_cases hex : ∃ p ∈ l, p <:+ path
    · obtain ⟨p', hp', hp''⟩ := hex
      obtain ⟨q, q1, q2, q3⟩ := ih p' hp' hp''
      by_cases haq : a <:+ path ∧ q.length ≤ a.length
      · refine ⟨a, by simp, haq.1, fun r hr hrs => ?_⟩
        rcases List.mem_cons.1 hr with e | e
        · rw [e]; exact Nat.le_refl _
        · exact Nat.le_trans (q3 r e hrs) haq.2
      · refine ⟨q, by simp [q1], q2, fun r hr hrs => ?_⟩
        rcases List.mem_cons.1 hr with e | e
        · subst e
          have : ¬q.length ≤ r.length := fun h => haq ⟨hrs, h⟩
          omega
        · exact q3 r e hrs
    · rcases List.mem_cons.1 hpm with e | e
      · subst e
        refine ⟨p, by simp, hps', fun r hr hrs => ?_⟩
        rcases List.mem_cons.1 hr with e | e
        · rw [e]; exact Nat.le_refl _
        · exact absurd ⟨r, e, hrs⟩ hex
      · exact absurd ⟨p, e, hps'⟩ hex

/-- C108: `[{a,b}]` at the end of the line, where no name is the start of another: the path ends with one of them. -/
theorem names_iff (ps : List Bytes) (hne : ps ≠ []) (hps : ∀ p ∈ ps, p ≠ [] ∧ 0 ∉ p ∧ 44 ∉ p ∧ 125 ∉ p)
    (hdots : ¬[46, 46] <:+: commas ps ++ [125]) (hpre : ∀ p ∈ ps, ∀ q ∈ ps, p <+: q → p = q)
    (hl : (commas ps).length + 2 < 2 ^ 32) (after : Bytes) (ha : after.head? = some 0)
    (path : Bytes) (hp : path ≠ []) (h0 : 0 ∉ path) (fuel : Nat) (hf : path.length + 6 ≤ fuel) :
    ∃ b, sectMatch fuel (123 :: (commas ps ++ [125])) after path = .ok b ∧ (b = true ↔ ∃ p ∈ ps, p <:+ path) := by
  have hane : after ≠ [] := by intro e; rw [e] at ha; cases ha
  have ht : text [.alt ps] = 123 :: (commas ps ++ [125]) := by simp [text, Item.text]
  have h := section_iff [.alt ps] (by simp) ⟨hne, fun p hp => (hps p hp).2, by simpa [text] using hdots, by simp [text], trivial⟩
    (by rw [ht]; simp; omega) after hane path hp h0 fuel (by simp; omega)
  rw [ht] at h
  obtain ⟨b, h1, h2⟩ := h
  refine ⟨b, h1, h2.trans ?_⟩
  have hrun : ∀ q, q ≠ [] → (run [.alt ps] q = some [] ↔ q ∈ ps) ∧ ∀ r, run [.alt ps] q = some r → r = [] := by
    intro q hq
    rw [run]
    simp only [eat]
    cases hf : ps.find? (fun p => p.isPrefixOf q) with
    | none =>
      simp only [Option.map_none]
      refine ⟨⟨fun h => absurd h (by simp), fun h => ?_⟩, fun r h => absurd h (by simp)⟩
      have := List.find?_eq_none.1 hf q h
      simp at this
    | some p =>
      have hm := List.mem_of_find?_eq_some hf
      have hpq : p.isPrefixOf q = true := List.find?_some (p := fun p => List.isPrefixOf p q) hf
      have hpq := List.isPrefixOf_iff_prefix.1 hpq
      obtain ⟨t, rfl⟩ := hpq
      simp only [Option.map_some, List.drop_left]
      cases t with
      | nil => simp [hm]
      | cons y t =>
        simp only [run, reduceCtorEq, false_iff, false_implies, implies_true, and_true]
        intro hq'
        have := hpre p hm _ hq' ⟨y :: t, rfl⟩
        have := congrArg List.length this
        simp at this
  constructor
  · rintro ⟨rest, ⟨q, q1, q2, q3, _⟩, _⟩
    have := (hrun q q1).2 _ q3
    subst this
    exact ⟨q, (hrun q q1).1.1 q3, q2⟩
  · rintro ⟨p, hpm, hps'⟩
    obtain ⟨q, q1, q2, q3⟩ := longest_name path ps p hpm hps'
    have hqne := (hps q q1).1
    refine ⟨[], ⟨q, hqne, q2, (hrun q hqne).1.2 q1, fun r hr hrs hrr => ?_⟩, .inl ⟨rfl, ha⟩⟩
    obtain ⟨x, hx⟩ := Option.isSome_iff_exists.1 hrr
    have := (hrun r hr).2 x hx
    subst this
    exact q3 r ((hrun r hr).1.1 hx) hrs

example : sectMatch 90 (ascii "meson.build") [0] (ascii "/src/meson.build") = .ok true := by decide +kernel
example : sectMatch 90 (ascii "*.build") [0] (ascii "/src/meson.build") = .ok true := by decide +kernel
example : sectMatch 90 (ascii "*.build") [0] (ascii "/src/meson.txt") = .ok false := by decide +kernel
example : sectMatch 90 (ascii "{meson.build,meson_options.txt}") [0] (ascii "/src/meson_options.txt") = .ok true := by decide +kernel
example : sectMatch 90 (ascii "m?son.{build,txt}") [0] (ascii "/src/meson.txt") = .ok true := by decide +kernel

/-- C108 fails: a section applies to a file whose name is one byte shorter. -/
theorem longer_name_counterexample : sectMatch 90 (ascii "meson.builds") [0] (ascii "/src/meson.build") = .ok true := by decide +kernel

/-- C108 fails: a section that is the end of a name applies to the file. -/
theorem end_of_name_counterexample : sectMatch 90 (ascii "options.txt") [0] (ascii "/src/meson_options.txt") = .ok true := by decide +kernel

/-- C108 fails: with `\r` at the end of the line a section does not apply to the file it names. -/
theorem crlf_counterexample : sectMatch 90 (ascii "meson.build") [13, 0] (ascii "/src/meson.build") = .ok false := by decide +kernel

/-- C108 fails: of several alternatives only the first that fits is tried. -/
theorem alternatives_counterexample : sectMatch 90 (ascii "{meson,meson.build}") [0] (ascii "/src/meson.build") = .ok false := by decide +kernel

/-- C108 fails: of the bytes in brackets only the first counts. (A section ends at the first `]`, so this is `[meson.buil[de]]`, of which the
last bracket is what comes after the section.) -/
theorem brackets_counterexample : sectMatch 90 (ascii "meson.buil[de") [93, 0] (ascii "/src/meson.build") = .ok true ∧
    sectMatch 90 (ascii "meson.buil[ed") [93, 0] (ascii "/src/meson.build") = .ok false := by decide +kernel

/-- C108 fails: a comma after alternatives makes the end of the alternatives unknown, and the pointer into the path wild. -/
theorem wild_counterexample : sectMatch 90 (ascii "{meson},build") [0] (ascii "/src/build") = .bad := by decide +kernel

/-! ### Ranges and double stars -/

theorem dots_found (b : Bytes) : ∀ (x y : Bytes), 0 ∉ x → hasDots (x ++ 46 :: 46 :: y ++ b) = true
  | [], y, _ => by simp [hasDots]
  | c :: x, y, h => by
    rw [List.cons_append, List.cons_append, hasDots.eq_def]
    split
    · rfl
    · rename_i d s' _ e
      simp only [List.cons.injEq] at e
      obtain ⟨rfl, rfl⟩ := e
      rw [if_neg (fun e => h (by simp [e])), ← dots_found b x y (fun e => h (by simp [e]))]
    · rename_i e
      simp at e

theorem main_num (c r : Bytes) (hr : parsePat (123 :: c) = .ok (.num, r)) : ∀ (path : Bytes) (f : Nat), path ≠ [] → path.length + 3 ≤ f →
    mainLoop f (.glob true) (123 :: c) path = .ok false := by
  intro path
  induction path with
  | nil => intro f h; exact absurd rfl h
  | cons x p ih =>
    intro f _ hf
    obtain ⟨f, rfl⟩ : ∃ g, f = g + 4 := ⟨f - 4, by simp at hf; omega⟩
    rw [mainLoop, patMatch, hr]
    simp only [Res.ok_bind, look, patMatch, reduceCtorEq, if_false, step, Bool.not_true, Bool.and_false, Bool.false_eq_true]
    by_cases hp : p = []
    · rw [if_pos hp]; simp [fin]
    · rw [if_neg hp]
      exact ih (f + 3) hp (by simp at hf; omega)

/-- C108 fails: a section that begins with a range of numbers, `{1..3}` say, applies to no file. -/
theorem numbers_counterexample (x y after path : Bytes) (hx : 0 ∉ x) (hp : path ≠ []) (fuel : Nat) (hf : path.length + 3 ≤ fuel) :
    sectMatch fuel (123 :: (x ++ 46 :: 46 :: y)) after path = .ok false := by
  unfold sectMatch
  rw [List.cons_append]
  have hr : ∃ r, parsePat (123 :: ((x ++ 46 :: 46 :: y) ++ 0 :: after)) = .ok (.num, r) := by
    simp only [parsePat]
    rw [if_neg (by decide), if_neg (by decide), if_neg (by decide), if_pos trivial, parseAlt, dots_found (0 :: after) x y hx]
    exact ⟨_, rfl⟩
  obtain ⟨r, hr⟩ := hr
  exact main_num _ r hr path fuel hp hf

example : sectMatch 90 (ascii "{1..3}") [0] (ascii "/src/2") = .ok false :=
  numbers_counterexample (ascii "1") (ascii "3}") [0] (ascii "/src/2") (by decide) (by decide) 90 (by decide)

theorem parse_stars (c : Bytes) : parsePat (42 :: 42 :: c) = .ok (.glob true, c) := rfl

/-- Looking behind `**` at the end of a section: it eats the whole path. -/
theorem look_stars (after : Bytes) : ∀ (q : Bytes) (f : Nat), q ≠ [] → 0 ∉ q → q.length + 5 ≤ f →
    look f (.glob true) q (0 :: after) = .ok (some []) := by
  intro q
  induction q with
  | nil => intro f h; exact absurd rfl h
  | cons y p ih =>
    intro f _ h0 hf
    obtain ⟨f, rfl⟩ : ∃ g, f = g + 4 := ⟨f - 4, by simp at hf; omega⟩
    rw [look, patMatch, show parsePat (0 :: after) = .ok (.lit 0, after) from parse_end after]
    simp only [Res.ok_bind]
    rw [look_nul f after (y :: p) (by simp) h0]
    simp only [reduceCtorEq, if_false, Bool.not_true, Bool.and_false, Bool.false_eq_true, step, Res.ok_bind]
    by_cases hp : p = []
    · rw [if_pos hp]
    · rw [if_neg hp]
      exact ih (f + 3) hp (fun e => h0 (by simp [e])) (by simp at hf; omega)

/-- `**` goes over directories: the section `d**`, for a directory `d`, applies to the files below it. -/
theorem look_below (after q : Bytes) (hq : q ≠ []) : ∀ (d : Bytes) (c : UInt8) (f : Nat), Plain (c :: d) → 0 ∉ c :: d ++ q → (c :: d ++ q).length + 8 ≤ f →
    look f (.lit c) (c :: d ++ q) (d ++ 42 :: 42 :: 0 :: after) = .ok (some [])
  | [], c, f, _, h0, hf => by
    obtain ⟨f, rfl⟩ : ∃ g, f = g + 2 := ⟨f - 2, by simp at hf; omega⟩
    rw [look, patMatch]
    simp only [List.cons_append, List.headD_cons, if_true, step, Res.ok_bind, List.nil_append]
    rw [if_neg hq, parse_stars]
    exact look_stars after q (f + 1) hq (fun e => h0 (by simp [e])) (by simp at hf; omega)
  | e :: d, c, f, hp, h0, hf => by
    obtain ⟨f, rfl⟩ : ∃ g, f = g + 2 := ⟨f - 2, by simp at hf; omega⟩
    rw [look, patMatch]
    simp only [List.cons_append, List.headD_cons, if_true, step, Res.ok_bind]
    have he := hp e (by simp)
    simp at he
    rw [if_neg (by simp), parse_lit e _ (by simp [he])]
    exact look_below after q hq d e (f + 1) (fun x hx => hp x (List.mem_cons_of_mem _ hx)) (fun x => h0 (List.mem_cons_of_mem _ x)) (by simp at hf ⊢; omega)

theorem main_below (after q : Bytes) (hq : q ≠ []) : ∀ (d : Bytes) (c : UInt8) (f : Nat), Plain (c :: d) → 0 ∉ c :: d ++ q → (c :: d ++ q).length + 8 ≤ f →
    mainLoop f (.lit c) (d ++ 42 :: 42 :: 0 :: after) (c :: d ++ q) = .ok true
  | [], c, f, _, h0, hf => by
    obtain ⟨f, rfl⟩ : ∃ g, f = g + 2 := ⟨f - 2, by simp at hf; omega⟩
    rw [mainLoop, patMatch]
    simp only [List.cons_append, List.headD_cons, if_true, step, Res.ok_bind, List.nil_append]
    rw [parse_stars]
    simp only [Res.ok_bind]
    rw [if_neg hq]
    exact glob_nil after true q (f + 1) hq (fun e => h0 (by simp [e])) (.inl rfl) (by simp at hf; omega)
  | e :: d, c, f, hp, h0, hf => by
    obtain ⟨f, rfl⟩ : ∃ g, f = g + 2 := ⟨f - 2, by simp at hf; omega⟩
    rw [mainLoop, patMatch]
    simp only [List.cons_append, List.headD_cons, if_true, step, Res.ok_bind]
    have he := hp e (by simp)
    simp at he
    rw [parse_lit e _ (by simp [he])]
    simp only [Res.ok_bind]
    rw [if_neg (by simp)]
    exact main_below after q hq d e (f + 1) (fun x hx => hp x (List.mem_cons_of_mem _ hx)) (fun x => h0 (List.mem_cons_of_mem _ x)) (by simp at hf ⊢; omega)

/-- C108: `[d**]` applies to every file whose path begins with `d`, in whatever directory below it is. -/
theorem below_applies (d : Bytes) (hd : d ≠ []) (hp : Plain d) (after q : Bytes) (hq : q ≠ []) (h0 : 0 ∉ d ++ q) (fuel : Nat)
    (hf : (d ++ q).length + 10 ≤ fuel) : sectMatch fuel (d ++ [42, 42]) after (d ++ q) = .ok true := by
  obtain ⟨c, d, rfl⟩ := List.exists_cons_of_ne_nil hd
  obtain ⟨f, rfl⟩ : ∃ g, fuel = g + 2 := ⟨fuel - 2, by omega⟩
  have hc := hp c (by simp)
  simp at hc
  have hh := parse_lit c (d ++ 42 :: 42 :: 0 :: after) (by simp [hc])
  unfold sectMatch
  rw [show c :: d ++ [42, 42] ++ 0 :: after = c :: (d ++ 42 :: 42 :: 0 :: after) by simp, mainLoop, patMatch, hh]
  simp only [Res.ok_bind]
  rw [look_below after q hq d c f hp h0 (by omega)]
  simp only [if_true, Res.ok_bind]
  rw [if_neg (by simp)]
  exact main_below after q hq d c (f + 1) hp h0 (by omega)

example : sectMatch 90 (ascii "/src/**") [0] (ascii "/src/a/b/meson.build") = .ok true :=
  below_applies (ascii "/src/") (by decide) (by unfold Plain; decide) [0] (ascii "a/b/meson.build") (by decide) (by decide) 90 (by decide)
example : sectMatch 90 (ascii "/src/**.build") [0] (ascii "/src/a/meson.build") = .ok true := by decide +kernel
example : sectMatch 90 (ascii "/src/*.build") [0] (ascii "/src/a/meson.build") = .ok false := by decide +kernel

/-- C108 fails: a brace that is not closed does not stand for itself; the section applies to the file named by what follows it. -/
theorem unclosed_counterexample : sectMatch 90 (ascii "{meson.build") [0, 0] (ascii "/src/meson.build") = .ok true ∧
    sectMatch 90 (ascii "{meson.build") [0, 0] (ascii "/src/{meson.build") = .ok true ∧
    sectMatch 90 (ascii "{meson.build") [0, 0] (ascii "/src/meson.txt") = .ok false ∧
    sectMatch 90 (ascii "{meson.build") [0, 0] (ascii "/src/xeson.build") = .ok false := by
  refine ⟨?_, ?_, ?_, ?_⟩ <;> decide +kernel

end Muon.Edcfg
