import Verif.Ccdetect.Spec
import Verif.Machine.Props
import Verif.Str.Props
/-
C119: what a compiler says about itself.
-/
namespace Muon.Ccdetect
open Muon
open Muon.Ccdetect.Spec

theorem cstr_text (out : Bytes) : Text out (cstr out) := by
  unfold Text cstr
  induction out with
  | nil => exact ⟨by simp, .inl rfl⟩
  | cons c r ih =>
    by_cases h : c = 0
    · subst h
      rw [List.takeWhile_cons, if_neg (by simp)]
      exact ⟨by simp, .inr ⟨r, rfl⟩⟩
    · rw [List.takeWhile_cons, if_pos (by simpa using h)]
      refine ⟨?_, ?_⟩
      · rw [List.mem_cons, not_or]; exact ⟨fun e => h e.symm, ih.1⟩
      · rcases ih.2 with e | ⟨q, e⟩
        · left; rw [← e]
        · right; exact ⟨q, by rw [List.cons_append, ← e]⟩

theorem text_unique (out t t' : Bytes) (h : Text out t) (h' : Text out t') : t = t' := by
  induction out generalizing t t' with
  | nil =>
    obtain ⟨_, h | ⟨r, h⟩⟩ := h <;> obtain ⟨_, h' | ⟨r', h'⟩⟩ := h'
    · rw [← h, ← h']
    all_goals simp at *
  | cons c o ih =>
    by_cases hc : c = 0
    · have : ∀ t, Text (c :: o) t → t = [] := by
        rintro t ⟨h0, e | ⟨r, e⟩⟩
        · rw [← e, hc] at h0; exact absurd (by simp) h0
        · cases t with
          | nil => rfl
          | cons d t =>
            simp only [List.cons_append, List.cons.injEq] at e
            rw [← e.1, hc] at h0
            exact absurd (by simp) h0
      rw [this t h, this t' h']
    · have : ∀ t, Text (c :: o) t → ∃ u, t = c :: u ∧ Text o u := by
        rintro t ⟨h0, e | ⟨r, e⟩⟩
        · exact ⟨o, e.symm, fun m => h0 (by rw [← e]; simp [m]), .inl rfl⟩
        · cases t with
          | nil => simp at e; exact absurd e.1 hc
          | cons d t =>
            simp only [List.cons_append, List.cons.injEq] at e
            exact ⟨t, by rw [e.1], fun m => h0 (by simp [m]), .inr ⟨r, e.2⟩⟩
      obtain ⟨u, rfl, hu⟩ := this t h
      obtain ⟨u', rfl, hu'⟩ := this t' h'
      rw [ih u u' hu hu']

theorem says_iff (out t : Bytes) (h : Text out t) (w : String) : says out w = true ↔ Word t w := by
  unfold says Word
  rw [Machine.hasInfix_iff, text_unique out _ _ (cstr_text out) h]

/-- C119: the kind of every compiler, by the text that it prints. -/
theorem kind_iff (out t : Bytes) (h : Text out t) : KindIs t (kindOf out) := by
  unfold kindOf
  have s := says_iff out t h
  by_cases a : (says out "Apple" && says out "clang") = true
  · rw [if_pos a]
    rw [Bool.and_eq_true, s, s] at a
    exact .apple a.1 a.2
  rw [if_neg a]
  rw [Bool.and_eq_true, s, s] at a
  by_cases b : (says out "clang" || says out "Clang") = true
  · rw [if_pos b]
    rw [Bool.or_eq_true, s, s] at b
    by_cases c : says out "msvc" = true
    · rw [if_pos c]; exact .clangCl a b ((s _).1 c)
    · rw [if_neg c]; exact .clang a b (fun x => c ((s _).2 x))
  rw [if_neg b]
  rw [Bool.or_eq_true, s, s, not_or] at b
  by_cases c : says out "Free Software Foundation" = true
  · rw [if_pos c]; exact .gcc b.1 b.2 ((s _).1 c)
  rw [if_neg c]
  rw [s] at c
  by_cases d : says out "Microsoft" = true
  · rw [if_pos d]; exact .msvc b.1 b.2 c ((s _).1 d)
  · rw [if_neg d]; exact .other b.1 b.2 c (fun x => d ((s _).2 x))

/-- C119: a command that can be run is a compiler: of the kind that its text says, with the version found in it (C106), or a POSIX compiler if it fails or does not say it. -/
theorem detect_kind (r : Option Ran) :
    (detect r = none ↔ r = none) ∧
    (∀ x, r = some x → x.status ≠ 0 → detect r = some (.posix, ascii "unknown")) ∧
    (∀ x t, r = some x → x.status = 0 → Text x.out t → ∃ k v, detect r = some (k, v) ∧
      (KindIs t (some k) ∧ (∀ t', Text (if k = .msvc then x.err else x.out) t' → v = (Prog.guessVersion t').getD (ascii "unknown")) ∨ k = .posix ∧ v = ascii "unknown" ∧ KindIs t none)) := by
  refine ⟨?_, ?_, ?_⟩
  · cases r <;> simp [detect]
  · rintro x rfl h
    simp [detect, h]
  · rintro x t rfl h ht
    have key := kind_iff x.out t ht
    match hk : kindOf x.out with
    | none =>
      rw [hk] at key
      exact ⟨.posix, ascii "unknown", by simp [detect, h, hk], .inr ⟨rfl, rfl, key⟩⟩
    | some k =>
      rw [hk] at key
      refine ⟨k, _, by simp only [detect, h, hk, Option.map_some, ne_eq, not_true_eq_false, if_false]; rfl, .inl ⟨key, fun t' ht' => ?_⟩⟩
      rw [text_unique _ _ _ (cstr_text _) ht']

/-- Whether a line begins after `pre`, if the text begins at the beginning of a line or not. -/
def Start (b : Bool) (pre : Bytes) : Prop := (pre = [] ∧ b = true) ∨ ∃ q, pre = q ++ [10]

theorem start_cons (b : Bool) (c : UInt8) (p : Bytes) : Start b (c :: p) ↔ Start (c == 10) p := by
  unfold Start
  constructor
  · rintro (⟨h, _⟩ | ⟨q, h⟩)
    · cases h
    · cases q with
      | nil => simp at h; exact .inl ⟨h.2, by simp [h.1]⟩
      | cons d q => simp only [List.cons_append, List.cons.injEq] at h; exact .inr ⟨q, h.2⟩
  · rintro (⟨rfl, h⟩ | ⟨q, rfl⟩)
    · exact .inr ⟨[], by simpa using h⟩
    · exact .inr ⟨c :: q, rfl⟩

theorem key_ne : ascii "libraries: " ≠ [] := by decide +kernel

theorem libLoop_some (s : Bytes) : ∀ (b : Bool) (v : Bytes), libLoop b s = some v →
    ∃ pre rest, s = pre ++ ascii "libraries: " ++ rest ∧ Start b pre ∧ (∀ p' r', s = p' ++ ascii "libraries: " ++ r' → Start b p' → pre.length ≤ p'.length) ∧ v = lineAt rest := by
  induction s with
  | nil => intro b v h; cases h
  | cons c r ih =>
    intro b v h
    unfold libLoop at h
    by_cases hm : (b && (ascii "libraries: ").isPrefixOf (c :: r)) = true
    · rw [if_pos hm] at h
      rw [Bool.and_eq_true, List.isPrefixOf_iff_prefix] at hm
      obtain ⟨hb, rest, e⟩ := hm
      cases h
      refine ⟨[], rest, by simp [e], .inl ⟨rfl, hb⟩, fun _ _ _ _ => Nat.zero_le _, ?_⟩
      rw [← e, List.drop_left]
    · rw [if_neg hm] at h
      obtain ⟨pre, rest, e, hs, hmin, hv⟩ := ih _ _ h
      refine ⟨c :: pre, rest, by rw [e]; rfl, (start_cons b c pre).2 hs, ?_, hv⟩
      intro p' r' e' hs'
      cases p' with
      | nil =>
        rcases hs' with ⟨_, hb⟩ | ⟨q, hq⟩
        · exact absurd (by rw [Bool.and_eq_true, List.isPrefixOf_iff_prefix]; exact ⟨hb, r', by simp [e']⟩) hm
        · simp at hq
      | cons d p' =>
        simp only [List.cons_append, List.cons.injEq] at e'
        obtain ⟨rfl, e'⟩ := e'
        have := hmin p' r' e' ((start_cons b c p').1 hs')
        simp only [List.length_cons]
        omega

theorem libLoop_none (s : Bytes) : ∀ (b : Bool), libLoop b s = none → ∀ p' r', s = p' ++ ascii "libraries: " ++ r' → ¬ Start b p' := by
  induction s with
  | nil =>
    intro b _ p' r' e
    have : ascii "libraries: " = [] := by
      have := e.symm
      simp only [List.append_eq_nil_iff] at this
      exact this.1.2
    exact absurd this key_ne
  | cons c r ih =>
    intro b h p' r' e hs
    unfold libLoop at h
    by_cases hm : (b && (ascii "libraries: ").isPrefixOf (c :: r)) = true
    · rw [if_pos hm] at h; cases h
    · rw [if_neg hm] at h
      cases p' with
      | nil =>
        rcases hs with ⟨_, hb⟩ | ⟨q, hq⟩
        · exact absurd (by rw [Bool.and_eq_true, List.isPrefixOf_iff_prefix]; exact ⟨hb, r', by simp [e]⟩) hm
        · simp at hq
      | cons d p' =>
        simp only [List.cons_append, List.cons.injEq] at e
        obtain ⟨rfl, e⟩ := e
        exact ih _ h p' r' e ((start_cons b c p').1 hs)

theorem start_true (p : Bytes) : Start true p ↔ LineStart p := by simp [Start, LineStart]

theorem takeLine (s : Bytes) : 10 ∉ s.takeWhile (· ≠ 10) ∧ ∃ tail, s = s.takeWhile (· ≠ 10) ++ tail ∧ (tail = [] ∨ ∃ q, tail = 10 :: q) := by
  induction s with
  | nil => exact ⟨by simp, [], rfl, .inl rfl⟩
  | cons c r ih =>
    by_cases h : c = 10
    · subst h
      rw [List.takeWhile_cons, if_neg (by simp)]
      exact ⟨by simp, 10 :: r, rfl, .inr ⟨r, rfl⟩⟩
    · rw [List.takeWhile_cons, if_pos (by simpa using h)]
      obtain ⟨h1, tail, e, ht⟩ := ih
      refine ⟨?_, tail, by rw [List.cons_append, ← e], ht⟩
      rw [List.mem_cons, not_or]
      exact ⟨fun x => h x.symm, h1⟩

theorem lineAt_value (rest : Bytes) : Value rest (lineAt rest) := by
  unfold lineAt
  by_cases h : rest.head? = some 61
  · rw [if_pos h]
    cases rest with
    | nil => simp at h
    | cons c r =>
      simp only [List.head?_cons, Option.some.injEq] at h
      subst h
      obtain ⟨h1, tail, e, ht⟩ := takeLine r
      exact ⟨[61], tail, by rw [List.append_assoc, List.tail_cons, ← e]; rfl, .inl rfl, h1, ht⟩
  · rw [if_neg h]
    obtain ⟨h1, tail, e, ht⟩ := takeLine rest
    exact ⟨[], tail, by rw [List.nil_append, ← e], .inr ⟨rfl, h⟩, h1, ht⟩

/-- C119: where a compiler searches for libraries, for everything that it can print; there is one such list. -/
theorem library_directories (r : Option Ran) : ∃ dirs, Libdirs r dirs ∧ (∀ d', Libdirs r d' → d' = dirs) ∧ Dirs r dirs := by
  match r with
  | none => exact ⟨usual, rfl, fun _ h => h, .notRun⟩
  | some r =>
    unfold Libdirs
    by_cases h : r.status = 0
    · simp only [ne_eq, h, not_true_eq_false, if_false]
      match hl : libLoop true (cstr r.out) with
      | none =>
        exact ⟨usual, rfl, fun _ h => h, .unsaid r _ (cstr_text r.out) (fun ⟨p, r', e, hp⟩ => libLoop_none _ _ hl p r' e ((start_true p).2 hp))⟩
      | some v =>
        obtain ⟨pre, rest, e, hs, hmin, rfl⟩ := libLoop_some _ _ _ hl
        obtain ⟨dirs, h1, h2, h3, h4, _⟩ := Str.split_join (lineAt rest) (ascii ":") (by decide +kernel)
        refine ⟨dirs, h1, fun d' h' => Str.split_unique _ _ _ _ h' h1, ?_⟩
        refine .said r h _ rest _ (cstr_text r.out) ⟨pre, e, (start_true pre).1 hs, fun p' r' e' hp => hmin p' r' e' ((start_true p').2 hp)⟩ (lineAt_value rest) dirs h2 ?_ ?_
        · rw [← Str.join_spec]; exact h3
        · intro d hd hm
          apply h4 d hd
          obtain ⟨a, b, rfl⟩ := List.append_of_mem hm
          exact ⟨a, b, by rw [show ascii ":" = [58] from by decide +kernel]; simp⟩
    · simp only [ne_eq, h, not_false_eq_true, if_true]
      exact ⟨usual, rfl, fun _ h => h, .failed r h⟩

example : libLoop true (ascii "install: /x\nlibraries: =/a:/b\nlibraries: /c\n") = some (ascii "/a:/b") := by decide +kernel
example : libLoop true (ascii "my libraries: =/a\n") = none := by decide +kernel
example : detect (some ⟨0, ascii "cc (GCC) 13.2.0\nCopyright (C) 2023 Free Software Foundation, Inc.\n", []⟩) = some (.gcc, ascii "13.2.0") := by decide +kernel
example : kindOf (ascii "Apple clang version 15.0.0") = some .appleClang ∧ kindOf (ascii "clang version 17") = some .clang ∧ kindOf (ascii "tcc version 0.9") = none := by decide +kernel

end Muon.Ccdetect
