import Verif.Ccdetect.Chain
import Verif.Ccdetect.Props
/-
C120: which commands are the compiler and the linkers.
-/
namespace Muon.Ccdetect
open Muon
open Muon.Ccdetect.Spec

/-- The command that is chosen: the one that was set, which must work; or the first that works of those with the usual names. -/
inductive Chosen (opt : Option (List Bytes)) (names : List Bytes) (works : List Bytes → Prop) : List Bytes → Prop
  | set (c : List Bytes) (h : opt = some c) (w : works c) : Chosen opt names works c
  | first (a : List Bytes) (e : Bytes) (b : List Bytes) (h : opt = none) (n : names = a ++ e :: b) (w : works [e]) (no : ∀ x ∈ a, ¬ works [x]) : Chosen opt names works [e]

/-- The usual names of compilers, in the order in which they are tried. -/
def usualNames : Lang → Bool → List String
  | .c, false => ["cc", "gcc", "clang"]
  | .c, true => ["cl", "cc", "gcc", "clang", "clang-cl"]
  | .cpp, false => ["c++", "g++", "clang++"]
  | .cpp, true => ["cl", "c++", "g++", "clang++", "clang-cl"]
  | .objc, false => ["cc", "gcc", "clang"]
  | .objc, true => ["cc", "gcc"]

theorem names_usual (win : Bool) (lang : Lang) : compilerNames win lang = (usualNames lang win).map ascii := by
  cases lang <;> cases win <;> rfl

/-- A command can be run with an argument. -/
def Runs (T : Tools) (arg : Bytes) (c : List Bytes) : Prop := ∃ r, T.run c arg = some r

/-- How a compiler is asked for its version: Microsoft's, if it is called `cl`, in another way. -/
def AsksCl (c : List Bytes) (arg : Bytes) : Prop := (ascii "cl" ∈ c ∧ arg = ascii "/?") ∨ (ascii "cl" ∉ c ∧ arg = ascii "--version")

theorem asks_iff (c : List Bytes) (arg : Bytes) : AsksCl c arg ↔ arg = versionArg (c.contains (ascii "cl")) := by
  unfold AsksCl versionArg
  by_cases h : ascii "cl" ∈ c
  · simp [h]
  · simp [h]

theorem exeDetect_iff {α : Type} (opt : Option (List Bytes)) (l : List Bytes) (cb : List Bytes → Option α) (x : α) :
    exeDetect opt l cb = some x ↔ ∃ c, Chosen opt l (fun c => (cb c).isSome = true) c ∧ cb c = some x := by
  cases opt with
  | some c =>
    constructor
    · intro h
      exact ⟨c, .set c rfl (by rw [show cb c = some x from h]; rfl), h⟩
    · rintro ⟨d, h, e⟩
      cases h with
      | set _ h _ => cases h; exact e
      | first _ _ _ h => cases h
  | none =>
    constructor
    · intro h
      obtain ⟨a, e, b, h1, h2, h3⟩ := List.findSome?_eq_some_iff.1 (show l.findSome? (fun e => cb [e]) = some x from h)
      exact ⟨[e], .first a e b rfl h1 (by rw [h2]; rfl) (fun y hy => by rw [h3 y hy]; simp), h2⟩
    · rintro ⟨d, h, e⟩
      cases h with
      | set _ h _ => cases h
      | first a n b _ h1 _ h3 =>
        exact List.findSome?_eq_some_iff.2 ⟨a, n, b, h1, e, fun y hy => by simpa using h3 y hy⟩

theorem tryCompiler_iff (T : Tools) (c c' : List Bytes) (d : Kind × Bytes) : tryCompiler T c = some (c', d) ↔ c' = c ∧ ∃ arg, AsksCl c arg ∧ detect (T.run c arg) = some d := by
  unfold tryCompiler
  simp only [asks_iff, Option.map_eq_some_iff, exists_eq_left]
  constructor
  · rintro ⟨y, h, e⟩; cases e; exact ⟨rfl, h⟩
  · rintro ⟨rfl, h⟩; exact ⟨d, h, rfl⟩

theorem tryCompiler_works (T : Tools) (c : List Bytes) : (tryCompiler T c).isSome = true ↔ ∃ arg, AsksCl c arg ∧ Runs T arg c := by
  unfold tryCompiler Runs
  simp only [asks_iff, exists_eq_left, detect, Option.isSome_map, Option.isSome_iff_exists]

theorem chosen_congr (opt : Option (List Bytes)) (l : List Bytes) (p q : List Bytes → Prop) (h : ∀ c, p c ↔ q c) (c : List Bytes) : Chosen opt l p c ↔ Chosen opt l q c := by
  have : p = q := funext fun c => propext (h c)
  rw [this]

/-- The argument with which the linkers are tried. -/
def linkArg (k : Kind) (arg : Bytes) : Prop := (k = .msvc ∧ arg = ascii "/?") ∨ (k ≠ .msvc ∧ arg = ascii "--version")

theorem linkArg_iff (k : Kind) (arg : Bytes) : linkArg k arg ↔ arg = versionArg (k == .msvc) := by
  unfold linkArg versionArg
  cases k <;> simp

/-- The kind of a static linker. -/
inductive ArIs (k : Kind) (r : Ran) (t : Bytes) : ArKind → Prop
  | gcc (h : r.status = 0) (w : Word t "Free Software Foundation") : ArIs k r t .gcc
  | msvc (h : r.status ≠ 0 ∨ ¬ Word t "Free Software Foundation") (m : k = .msvc) : ArIs k r t .msvc
  | posix (h : r.status ≠ 0 ∨ ¬ Word t "Free Software Foundation") (m : k ≠ .msvc) : ArIs k r t .posix

/-- C120: the commands that are used: a compiler, a linker and a static linker are found, each the one that was set or the first that can be run; the kind and the version are those of the compiler
(C119). If one of them is not found there is no compiler. -/
theorem toolchain_iff (T : Tools) (win : Bool) (lang : Lang) (cc ld ar : Option (List Bytes)) (x : Chain) :
    toolchain T win lang cc ld ar = some x ↔
      Chosen cc ((usualNames lang win).map ascii) (fun c => ∃ arg, AsksCl c arg ∧ Runs T arg c) x.cc ∧
      (∃ arg, AsksCl x.cc arg ∧ detect (T.run x.cc arg) = some (x.kind, x.ver)) ∧
      ∃ arg, linkArg x.kind arg ∧
        Chosen ld [T.ldName x.kind, ascii "ld"] (Runs T arg) x.ld ∧
        Chosen ar [if x.kind = .msvc then ascii "lib" else ascii "ar"] (Runs T arg) x.ar ∧
        ∃ r, T.run x.ar arg = some r ∧ ArIs x.kind r (cstr r.out) x.arKind := by
  have arIs : ∀ k r a, ArIs k r (cstr r.out) a ↔ a = (if r.status = 0 && says r.out "Free Software Foundation" then .gcc else if k = .msvc then .msvc else .posix) := by
    intro k r a
    have w := says_iff r.out _ (cstr_text r.out) "Free Software Foundation"
    by_cases h : (decide (r.status = 0) && says r.out "Free Software Foundation") = true
    · rw [if_pos h]
      rw [Bool.and_eq_true, decide_eq_true_eq, w] at h
      constructor
      · intro i
        cases i with
        | gcc => rfl
        | msvc n => exact absurd n (by rintro (n | n); exact n h.1; exact n h.2)
        | posix n => exact absurd n (by rintro (n | n); exact n h.1; exact n h.2)
      · rintro rfl; exact .gcc h.1 h.2
    · rw [if_neg h]
      rw [Bool.and_eq_true, decide_eq_true_eq, w] at h
      have h' : r.status ≠ 0 ∨ ¬ Word (cstr r.out) "Free Software Foundation" := by
        by_cases e : r.status = 0
        · exact .inr fun q => h ⟨e, q⟩
        · exact .inl e
      by_cases m : k = .msvc
      · rw [if_pos m]
        constructor
        · intro i
          cases i with
          | gcc a b => exact absurd ⟨a, b⟩ h
          | msvc => rfl
          | posix _ n => exact absurd m n
        · rintro rfl; exact .msvc h' m
      · rw [if_neg m]
        constructor
        · intro i
          cases i with
          | gcc a b => exact absurd ⟨a, b⟩ h
          | msvc _ n => exact absurd n m
          | posix => rfl
        · rintro rfl; exact .posix h' m
  unfold toolchain
  rw [names_usual]
  simp only [Option.bind_eq_some_iff, Option.map_eq_some_iff, exeDetect_iff]
  have ldw : ∀ k c, (tryLinker T k c).isSome = true ↔ Runs T (versionArg (k == .msvc)) c := by
    intro k c; simp only [tryLinker, Runs, Option.isSome_map, Option.isSome_iff_exists]
  have arw : ∀ k c, (tryAr T k c).isSome = true ↔ Runs T (versionArg (k == .msvc)) c := by
    intro k c; simp only [tryAr, Runs, Option.isSome_map, Option.isSome_iff_exists]
  constructor
  · rintro ⟨⟨c, k, v⟩, ⟨c1, h1, e1⟩, l, ⟨c2, h2, e2⟩, ⟨a, ak⟩, ⟨c3, h3, e3⟩, rfl⟩
    rw [tryCompiler_iff] at e1
    obtain ⟨rfl, e1⟩ := e1
    simp only [tryLinker, Option.map_eq_some_iff] at e2
    obtain ⟨_, _, rfl⟩ := e2
    simp only [tryAr, Option.map_eq_some_iff] at e3
    obtain ⟨r, e3, e4⟩ := e3
    cases e4
    refine ⟨(chosen_congr _ _ _ _ (tryCompiler_works T) _).1 h1, e1, versionArg (k == .msvc), (linkArg_iff _ _).2 rfl, ?_, ?_, r, e3, (arIs k r _).2 rfl⟩
    · exact (chosen_congr _ _ _ _ (ldw k) _).1 h2
    · exact (chosen_congr _ _ _ _ (arw k) _).1 h3
  · rintro ⟨h1, e1, arg, ha, h2, h3, r, e3, e4⟩
    obtain ⟨c, k, v, l, a, ak⟩ := x
    dsimp only at *
    rw [linkArg_iff] at ha
    subst ha
    have e4 := (arIs k r ak).1 e4
    have h2' := (chosen_congr _ _ _ _ (ldw k) _).2 h2
    have r2 : Runs T (versionArg (k == .msvc)) l := by cases h2 <;> assumption
    obtain ⟨r2, e2⟩ := r2
    exact ⟨(c, k, v), ⟨c, (chosen_congr _ _ _ _ (tryCompiler_works T) _).2 h1, (tryCompiler_iff T c c (k, v)).2 ⟨rfl, e1⟩⟩, l,
      ⟨l, h2', by simp [tryLinker, e2]⟩, (a, ak), ⟨a, (chosen_congr _ _ _ _ (arw k) _).2 h3, by simp [tryAr, e3, e4]⟩, rfl⟩

/-- A machine where `gcc` and `ar` are the only commands besides `ld`. -/
def gccTools : Tools where
  run c _ := if c = [ascii "gcc"] then some ⟨0, ascii "gcc 13.2.0 Free Software Foundation", []⟩
    else if c = [ascii "ld"] then some ⟨0, [], []⟩ else if c = [ascii "ar"] then some ⟨1, [], []⟩ else none
  ldName _ := ascii "lld"

example : toolchain gccTools false .c none none none = some ⟨[ascii "gcc"], .gcc, ascii "13.2.0", [ascii "ld"], [ascii "ar"], .posix⟩ := by decide +kernel
example : toolchain gccTools false .c (some [ascii "cc"]) none none = none := by decide +kernel
example : toolchain gccTools false .cpp none none none = none := by decide +kernel

end Muon.Ccdetect
