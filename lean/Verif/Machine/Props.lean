import Verif.Machine.Spec
/-
C118: the names of machines.
-/
namespace Muon.Machine
open Muon
open Muon.Machine.Spec

theorem starts_iff (s : Bytes) (p : String) : starts s p = true ↔ ascii p <+: s := by simp [starts]

theorem hasInfix_iff (p : Bytes) (s : Bytes) : hasInfix p s = true ↔ p <:+: s := by
  induction s with
  | nil => simp [hasInfix]
  | cons c r ih => rw [hasInfix, Bool.or_eq_true, ih, List.isPrefixOf_iff_prefix, List.infix_cons_iff]

theorem find_cons (a b : String) (m : List (String × String)) (s : Bytes) : find ((a, b) :: m) s = if s = ascii a then some (ascii b) else find m s := by
  unfold find
  rw [List.find?_cons]
  by_cases h : s = ascii a
  · rw [if_pos h, h]; simp
  · rw [if_neg h]
    have : (ascii a == s) = false := by simpa using fun e => h e.symm
    simp only [this]

theorem find_nil (s : Bytes) : find [] s = none := rfl

theorem x86_iff (s : Bytes) (hs : s ≠ ascii "bepc") : (starts s "i" && ends s "86") = true ↔ X86 s := by
  rw [Bool.and_eq_true, starts_iff, ends, List.isSuffixOf_iff_suffix]
  constructor
  · rintro ⟨⟨a, rfl⟩, ⟨b, e⟩⟩
    left
    cases b with
    | nil => exact absurd (congrArg List.head? e) (by simp [show ascii "86" = [56, 54] from by decide +kernel, show ascii "i" = [105] from by decide +kernel])
    | cons c b =>
      rw [show ascii "i" = [105] from by decide +kernel] at *
      simp only [List.cons_append, List.nil_append, List.cons.injEq] at e
      exact ⟨b, by rw [← e.2]; rfl⟩
  · rintro (⟨m, rfl⟩ | h)
    · exact ⟨⟨m ++ ascii "86", by simp⟩, ⟨ascii "i" ++ m, rfl⟩⟩
    · exact absurd h hs

/-- C118: the family of every machine's name. Missing: `arm64`, `ip30` and `ip35`, see `arm64_counterexample` and `sgi_counterexample`. -/
theorem family_partial (s : Bytes) (h1 : s ≠ ascii "arm64") (h2 : s ≠ ascii "ip30") (h3 : s ≠ ascii "ip35") : Family s (family (some s)) := by
  have e : nameOf (some s) = s := rfl
  unfold family
  rw [e]
  by_cases b0 : s = ascii "bepc"
  · subst b0
    rw [show base (ascii "bepc") = none from by decide +kernel, show other (ascii "bepc") = some (ascii "x86") from by decide +kernel]
    exact .x86 _ (.inr rfl)
  unfold base
  by_cases a1 : starts s "aarch64" = true
  · rw [if_pos a1]; exact .arm64 _ (.inl ⟨_, by simp [Spec.arm64], (starts_iff _ _).1 a1⟩)
  have n64 : ¬ Spec.arm64.Has s := by
    rintro (⟨p, hp, h⟩ | ⟨t, ht, h⟩)
    · simp [Spec.arm64] at hp; subst hp; exact a1 ((starts_iff _ _).2 h)
    · simp [Spec.arm64] at ht; subst ht; exact h1 h
  rw [if_neg a1]
  by_cases a2 : starts s "earm" = true
  · rw [if_pos a2]; exact .arm _ (.inl ⟨_, by simp [Spec.arm], (starts_iff _ _).1 a2⟩) n64
  rw [if_neg a2]
  by_cases a3 : starts s "mips" = true
  · rw [if_pos a3]
    have hm : Spec.mips.Has s := .inl ⟨_, by simp [Spec.mips], (starts_iff _ _).1 a3⟩
    by_cases a4 : hasInfix (ascii "64") s = true
    · rw [if_pos a4]; exact .mips64 _ hm ((hasInfix_iff _ _).1 a4)
    · rw [if_neg a4]; exact .mips _ hm (fun h => a4 ((hasInfix_iff _ _).2 h))
  rw [if_neg a3]
  simp only [find_cons, find_nil]
  by_cases c1 : s = ascii "amd64"
  · rw [if_pos c1]; exact .x86_64 _ (.inr ⟨_, by simp [Spec.x86_64], c1⟩)
  rw [if_neg c1]
  by_cases c2 : s = ascii "x64"
  · rw [if_pos c2]; exact .x86_64 _ (.inr ⟨"x64", by simp [Spec.x86_64], c2⟩)
  rw [if_neg c2]
  by_cases c3 : s = ascii "i86pc"
  · rw [if_pos c3]; exact .x86_64 _ (.inr ⟨"i86pc", by simp [Spec.x86_64], c3⟩)
  rw [if_neg c3]
  dsimp only
  unfold other
  by_cases d1 : (starts s "i" && ends s "86") = true
  · rw [if_pos d1]; exact .x86 _ ((x86_iff s b0).1 d1)
  have nx : ¬ X86 s := fun h => d1 ((x86_iff s b0).2 h)
  rw [if_neg d1]
  by_cases d2 : starts s "arm" = true
  · rw [if_pos d2]; exact .arm _ (.inl ⟨"arm", by simp [Spec.arm], (starts_iff _ _).1 d2⟩) n64
  rw [if_neg d2]
  by_cases d3 : (starts s "powerpc64" || starts s "ppc64") = true
  · rw [if_pos d3]
    rcases Bool.or_eq_true_iff.1 d3 with h | h
    · exact .ppc64 _ (.inl ⟨"powerpc64", by simp [Spec.ppc64], (starts_iff _ _).1 h⟩)
    · exact .ppc64 _ (.inl ⟨"ppc64", by simp [Spec.ppc64], (starts_iff _ _).1 h⟩)
  have n6 : ¬ Spec.ppc64.Has s := by
    rintro (⟨p, hp, h⟩ | ⟨t, ht, h⟩)
    · simp [Spec.ppc64] at hp
      rcases hp with rfl | rfl
      · exact d3 (Bool.or_eq_true_iff.2 (.inl ((starts_iff _ _).2 h)))
      · exact d3 (Bool.or_eq_true_iff.2 (.inr ((starts_iff _ _).2 h)))
    · simp [Spec.ppc64] at ht
  rw [if_neg d3]
  by_cases d4 : (starts s "powerpc" || starts s "ppc") = true
  · rw [if_pos d4]
    rcases Bool.or_eq_true_iff.1 d4 with h | h
    · exact .ppc _ (.inl ⟨"powerpc", by simp [Spec.ppc], (starts_iff _ _).1 h⟩) n6
    · exact .ppc _ (.inl ⟨"ppc", by simp [Spec.ppc], (starts_iff _ _).1 h⟩) n6
  rw [if_neg d4]
  simp only [find_cons, find_nil, if_neg b0, if_neg h1, if_neg c1, if_neg c2, if_neg c3, if_neg h2, if_neg h3]
  by_cases e1 : s = ascii "macppc"
  · rw [if_pos e1]; exact .ppc _ (.inr ⟨"macppc", by simp [Spec.ppc], e1⟩) n6
  rw [if_neg e1]
  by_cases e2 : s = ascii "power macintosh"
  · rw [if_pos e2]; exact .ppc _ (.inr ⟨"power macintosh", by simp [Spec.ppc], e2⟩) n6
  rw [if_neg e2]
  by_cases e3 : s = ascii "sun4u"
  · rw [if_pos e3]; exact .sparc64 _ (.inr ⟨"sun4u", by simp [Spec.sparc64], e3⟩)
  rw [if_neg e3]
  by_cases e4 : s = ascii "sun4v"
  · rw [if_pos e4]; exact .sparc64 _ (.inr ⟨"sun4v", by simp [Spec.sparc64], e4⟩)
  rw [if_neg e4]
  refine .same s ?_ nx
  rw [starts_iff] at a1 a2 a3 d2
  rw [Bool.or_eq_true, starts_iff, starts_iff, not_or] at d4
  intro n hn
  simp only [List.mem_cons, List.not_mem_nil, or_false] at hn
  rcases hn with rfl | rfl | rfl | rfl | rfl | rfl | rfl | rfl
  · exact n64
  · rintro (⟨p, hp, h⟩ | ⟨t, ht, h⟩)
    · simp [Spec.arm] at hp; rcases hp with rfl | rfl; exact a2 h; exact d2 h
    · simp [Spec.arm] at ht
  · exact n6
  · rintro (⟨p, hp, h⟩ | ⟨t, ht, h⟩)
    · simp [Spec.ppc] at hp; rcases hp with rfl | rfl; exact d4.1 h; exact d4.2 h
    · simp [Spec.ppc] at ht; rcases ht with rfl | rfl; exact e1 h; exact e2 h
  · rintro (⟨p, hp, h⟩ | ⟨t, ht, h⟩)
    · simp [Spec.x86_64] at hp
    · simp [Spec.x86_64] at ht; rcases ht with rfl | rfl | rfl; exact c1 h; exact c2 h; exact c3 h
  · rintro (⟨p, hp, h⟩ | ⟨t, ht, h⟩)
    · simp [Spec.sparc64] at hp
    · simp [Spec.sparc64] at ht; rcases ht with rfl | rfl; exact e3 h; exact e4 h
  · rintro (⟨p, hp, h⟩ | ⟨t, ht, h⟩)
    · simp [Spec.sgi] at hp
    · simp [Spec.sgi] at ht; rcases ht with rfl | rfl; exact h2 h; exact h3 h
  · rintro (⟨p, hp, h⟩ | ⟨t, ht, h⟩)
    · simp [Spec.mips] at hp; subst hp; exact a3 h
    · simp [Spec.mips] at ht

/-- C118: how wide addresses are, by the family. Missing: the same names. -/
theorem address_bits_partial (s : Bytes) (h1 : s ≠ ascii "arm64") (h2 : s ≠ ascii "ip30") (h3 : s ≠ ascii "ip35") :
    ∃ f, Family s f ∧ ((∃ w ∈ wide, f = ascii w) → addressBits (some s) = 64) ∧ ((∀ w ∈ wide, f ≠ ascii w) → addressBits (some s) = 32) := by
  refine ⟨_, family_partial s h1 h2 h3, ?_, ?_⟩
  · rintro ⟨w, hw, e⟩
    exact if_pos (by rw [e]; exact List.mem_map.2 ⟨w, hw, rfl⟩)
  · intro h
    refine if_neg fun hm => ?_
    obtain ⟨w, hw, e⟩ := List.mem_map.1 hm
    exact h w hw e.symm

theorem base_values (s n : Bytes) (h : base s = some n) : n ∈ ["aarch64", "arm", "mips64", "mips", "x86_64"].map ascii := by
  unfold base at h
  simp only [find_cons, find_nil] at h
  repeat' split at h
  all_goals first | cases h | skip
  all_goals simp

/-- C118: `cpu()` names the same family as the machine's own name. -/
theorem cpu_same_family (m : Option Bytes) : family (some (cpu m)) = family m := by
  unfold cpu
  match h : base (nameOf m) with
  | none =>
    rw [Option.getD_none]
    unfold family
    rfl
  | some n =>
    have : family m = n := by unfold family; rw [h]
    rw [this, Option.getD_some]
    exact (by decide +kernel : ∀ n ∈ ["aarch64", "arm", "mips64", "mips", "x86_64"].map ascii, family (some n) = n) n (base_values _ n h)

/-- C118: the system's name, for every name that `uname` gives. -/
theorem system_iff (s : Bytes) : System s (system (some s)) := by
  unfold system
  by_cases a : starts s "cygwin_nt" = true
  · simp only [a, if_true]; exact .cygwin _ ((starts_iff _ _).1 a)
  by_cases b : starts s "msys_nt" = true
  · simp only [a, b, if_true]; exact .msys2 _ ((starts_iff _ _).1 b)
  simp only [a, b]
  by_cases h : s ∈ systems
  · have e : ∀ s ∈ systems, find [("darwin", "darwin"), ("dragonfly", "dragonfly"), ("freebsd", "freebsd"), ("gnu", "gnu"), ("haiku", "haiku"), ("linux", "linux"), ("netbsd", "netbsd"),
      ("openbsd", "openbsd"), ("sunos", "sunos"), ("android", "android"), ("emscripten", "emscripten"), ("windows", "windows")] s = some s := by decide +kernel
    rw [e s h]
    exact .same s h
  · have e : find [("darwin", "darwin"), ("dragonfly", "dragonfly"), ("freebsd", "freebsd"), ("gnu", "gnu"), ("haiku", "haiku"), ("linux", "linux"), ("netbsd", "netbsd"),
      ("openbsd", "openbsd"), ("sunos", "sunos"), ("android", "android"), ("emscripten", "emscripten"), ("windows", "windows")] s = none := by
      simp only [systems, List.map_cons, List.map_nil, List.mem_cons, List.not_mem_nil, or_false, not_or] at h
      simp only [find_cons, find_nil, h, if_false]
    rw [e]
    exact .unknown s h (fun x => a ((starts_iff _ _).2 x)) (fun x => b ((starts_iff _ _).2 x))

/-- A machine that calls itself `arm64` gets the family of 32 bit machines: the entry of the table is after the test for names that begin with `arm`. -/
theorem arm64_counterexample : Spec.arm64.Has (ascii "arm64") ∧ family (some (ascii "arm64")) = ascii "arm" ∧ addressBits (some (ascii "arm64")) = 32 :=
  ⟨.inr ⟨"arm64", by simp [Spec.arm64], rfl⟩, by decide +kernel, by decide +kernel⟩

/-- Two names get a family that does not exist: `mips64` is misspelt in the table. -/
theorem sgi_counterexample (s : Bytes) (h : Spec.sgi.Has s) : family (some s) = ascii "mpis64" ∧ addressBits (some s) = 32 := by
  rcases h with ⟨p, hp, _⟩ | ⟨t, ht, rfl⟩
  · simp [Spec.sgi] at hp
  · simp [Spec.sgi] at ht
    rcases ht with rfl | rfl <;> decide +kernel

example : Family (ascii "i686") (ascii "x86") := .x86 _ (.inl ⟨ascii "6", by decide +kernel⟩)
example : family (some (ascii "mips64el")) = ascii "mips64" ∧ family (some (ascii "armv7l")) = ascii "arm" ∧ family (some (ascii "riscv64")) = ascii "riscv64" ∧ family none = ascii "unknown" := by
  decide +kernel
example : cpu (some (ascii "amd64")) = ascii "x86_64" ∧ cpu (some (ascii "i686")) = ascii "i686" := by decide +kernel
example : system (some (ascii "cygwin_nt-10.0")) = ascii "cygwin" ∧ system (some (ascii "linux")) = ascii "linux" ∧ system (some (ascii "plan9")) = ascii "unknown" := by decide +kernel

end Muon.Machine
