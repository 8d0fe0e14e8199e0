import Verif.Probe.More
import Verif.Str.Lemmas
import Verif.Probe.Cache
import Verif.Names.Props

/-!
C99: outputs that are not values.
-/

namespace Muon.Probe

open Muon.Probe.Spec

/-- C99: a program that prints a number and something after it is taken to have printed -1. -/
theorem sizeof_rest (W : World) (E : Env) (kw : Kw) (t ds rest : Bytes) (c : UInt8) (neg : Bool) (r : Run) (hr : kw.req = .auto)
    (hl : (sizeText kw t).length < 4096) (hacc : Accepts W (line E kw .run) (sizeText kw t))
    (hx : W.exe (line E kw .run) (sizeText kw t) = some r) (hout : r.out = (if neg then [45] else []) ++ ds ++ (c :: rest)) (h1 : ds ≠ [])
    (h2 : ∀ c ∈ ds, isDigit c = true) (hc : isDigit c = false) :
    direct W (sizeof E kw t) = .ok (.num (-1)) := by
  have hp : sizeof E kw t = single (check E kw .run .size (sizeText kw t)) := by
    unfold sizeof
    rw [prefixOf_eq, show ascii "#include <stdio.h>\n" ++ lines kw ++ ascii "\nint main(void) { printf(\"%ld\", (long)(sizeof(" ++ t ++ ascii "))); return 0; }\n" = sizeText kw t from rfl, fit_eq hl]
  have hv : parseInt r.out = -1 := by
    unfold parseInt
    rw [hout, Str.strtol_digits neg ds (c :: rest) h1 h2 (by intro d hd; simp at hd; rw [← hd]; exact hc)]
    rw [if_neg]
    cases neg <;> simp <;> omega
  rw [hp, direct_single]
  unfold carriedOut
  rw [if_neg (by simp [check, hr])]
  unfold attempt
  unfold Accepts at hacc
  simp only [check, textOf, Bool.false_eq_true, if_false, if_true, skipRun]
  simp only [show command E kw .run (testSource E) (testOutput E .run) = line E kw .run from rfl]
  rw [hacc]
  simp only [hx, answer]
  simp [hv]

/-- C99: a program that prints no number at all, but a letter first, is taken to have printed -1. -/
theorem sizeof_letter (W : World) (E : Env) (kw : Kw) (t rest : Bytes) (c : UInt8) (r : Run) (hr : kw.req = .auto)
    (hl : (sizeText kw t).length < 4096) (hacc : Accepts W (line E kw .run) (sizeText kw t))
    (hx : W.exe (line E kw .run) (sizeText kw t) = some r) (hout : r.out = c :: rest) (hc : 65 ≤ c.toNat) :
    direct W (sizeof E kw t) = .ok (.num (-1)) := by
  have hp : sizeof E kw t = single (check E kw .run .size (sizeText kw t)) := by
    unfold sizeof
    rw [prefixOf_eq, show ascii "#include <stdio.h>\n" ++ lines kw ++ ascii "\nint main(void) { printf(\"%ld\", (long)(sizeof(" ++ t ++ ascii "))); return 0; }\n" = sizeText kw t from rfl, fit_eq hl]
  have hv : parseInt r.out = -1 := by
    have hk : isSpace c = false ∧ isDigit c = false ∧ c ≠ 45 ∧ c ≠ 43 := by
      have key : ∀ c : UInt8, 65 ≤ c.toNat → isSpace c = false ∧ isDigit c = false ∧ c ≠ 45 ∧ c ≠ 43 := forall_byte (by decide +kernel)
      exact key c hc
    have hsg : Str.signOf (c :: rest) = (false, 0) := by
      unfold Str.signOf
      split <;> simp_all
    unfold parseInt
    rw [hout]
    unfold Str.strtol
    simp only [List.takeWhile_cons, hk.1, Bool.false_eq_true, if_false, List.length_nil, List.drop_zero, hsg, hk.2.1]
    simp
  rw [hp, direct_single]
  unfold carriedOut
  rw [if_neg (by simp [check, hr])]
  unfold attempt
  unfold Accepts at hacc
  simp only [check, textOf, Bool.false_eq_true, if_false, if_true, skipRun]
  simp only [show command E kw .run (testSource E) (testOutput E .run) = line E kw .run from rfl]
  rw [hacc]
  simp only [hx, answer]
  simp [hv]

theorem scan_line : ∀ (n : Nat) (q e j : Bool) (s : Bytes), 10 ∉ scan n q e j s := by
  intro n
  induction n with
  | zero => intro q e j s; simp [scan]
  | succ n ih =>
    intro q e j s
    cases s with
    | nil => simp [scan]
    | cons c s =>
      simp only [scan]
      have h34 : ¬ (10 : UInt8) = 34 := by decide
      have h92 : ¬ (10 : UInt8) = 92 := by decide
      split
      · next hc =>
        subst hc
        split
        · simp [ih]
        split
        · split
          · simp
          · split
            · simp
            · next h => simp [ih]; exact fun h' => h h'.symm
          · simp [ih]
        · simp [ih]
      split
      · next hc => subst hc; simp [ih]
      split
      · simp
      · next h => simp [ih]; exact fun h' => h h'.symm

theorem afterDelim_none (t : Bytes) (h : ∀ p q, t ≠ p ++ marker ++ q) : afterDelim t = none := by
  induction t with
  | nil => rfl
  | cons c t ih =>
    unfold afterDelim
    rw [if_neg]
    · exact ih (fun p q he => h (c :: p) q (by rw [he]; rfl))
    · intro hp
      obtain ⟨q, hq⟩ := List.isPrefixOf_iff_prefix.mp hp
      exact h [] q (by rw [← hq]; rfl)

/-- C99: whatever the preprocessor prints, the value of `get_define()` is at most one line, and empty if the marker is not
printed. -/
theorem get_define_line (W : World) (E : Env) (kw : Kw) (d out : Bytes) (hr : kw.req = .auto)
    (hl : (defineText kw d).length < 4096) (hacc : Accepts W (defineLine E kw) (defineText kw d))
    (hout : W.out (defineLine E kw) (defineText kw d) = some out) :
    ∃ v, direct W (getDefine E kw d) = .ok (.str v) ∧ 10 ∉ v ∧ ((∀ p q, out ≠ p ++ marker ++ q) → v = []) := by
  have hp : getDefine E kw d = single ⟨defineLine E kw, E.ver, defineText kw d, false, .preprocess, .define, .auto⟩ := by
    unfold getDefine
    rw [prefixOf_eq, show lines kw ++ ascii "\n#ifndef " ++ d ++ ascii "\n#define " ++ d ++ ascii "\n#endif \n" ++ delim ++ d ++ [10] = defineText kw d from rfl,
      fit_eq hl, hr]
    rfl
  refine ⟨defineOf out, ?_, ?_, ?_⟩
  · rw [hp, direct_single]
    unfold Accepts at hacc
    simp only [carriedOut, attempt, textOf, Bool.false_eq_true, if_false, hacc, answer, defineVal, hout, Option.map_some]
    rfl
  · unfold defineOf
    split
    · simp
    · exact scan_line _ _ _ _ _
  · intro h
    unfold defineOf
    rw [afterDelim_none _ h]

/-- C99: two literals of which the output ends with the opening quote of the second, and literals with a NUL between them. -/
theorem define_end_counterexample :
    defineOf (marker ++ ascii "\"a\" \"") = ascii "\"a" ++ [0] ∧
    defineOf (marker ++ ascii "\"a\"" ++ [0] ++ ascii "\"b\"\n") = ascii "\"ab\"" := by
  constructor <;> decide +kernel

/-- A world in which nothing compiles. -/
def exNone : World := ⟨fun _ _ => some 1, fun _ _ => none, fun _ _ => none, fun _ => []⟩

/-- C99: `has_members()` without members is an error. -/
theorem has_members_none (W : World) (E : Env) (kw : Kw) (t : Bytes) : direct W (hasMembers E kw t []) = .error := rfl

/-- C99: what a check knows of one version of the compiler is not used for another one. -/
theorem upgraded (H : Bytes → Bytes) (W : World) (S : Check → Prop) (hS : Clear H W S) (E E' : Env) (hv : E.ver ≠ E'.ver) (kw kw' : Kw)
    (mode mode' : Mode) (kind kind' : Kind) (t t' : Bytes) (h1 : S (check E kw mode kind t)) (h2 : S (check E' kw' mode' kind' t')) :
    key H (check E kw mode kind t) ≠ key H (check E' kw' mode' kind' t') := fun h => hv (key_inj hS h1 h2 h).2.1

/-- C99: and so for files. -/
theorem upgraded_file (H : Bytes → Bytes) (W : World) (S : Check → Prop) (hS : Clear H W S) (E E' : Env) (hv : E.ver ≠ E'.ver) (kw kw' : Kw)
    (mode mode' : Mode) (kind kind' : Kind) (t t' : Bytes) (h1 : S (checkFile E kw mode kind t)) (h2 : S (checkFile E' kw' mode' kind' t')) :
    key H (checkFile E kw mode kind t) ≠ key H (checkFile E' kw' mode' kind' t') := fun h => hv (key_inj hS h1 h2 h).2.1

open Muon.Names.Spec (Place FileName) in
open Muon.Path.Spec (comps) in
/-- C99: the files of a check are three files in the private directory. -/
theorem test_files (E : Env) (hp : Place E.priv) (he : 47 ∉ E.ext ∧ 0 ∉ E.ext) (ho : 47 ∉ E.objExt ∧ 0 ∉ E.objExt) (mode : Mode) :
    comps (testSource E) = comps E.priv ++ [ascii "test." ++ E.ext] ∧
    comps (testOutput E mode) = comps E.priv ++ [if mode = .run then ascii "compiler_check_exe" else ascii "test." ++ E.ext ++ E.objExt] := by
  have key : ∀ n x : Bytes, FileName n → 47 ∉ x ∧ 0 ∉ x → 3 ≤ n.length → comps (Path.join E.priv n ++ x) = comps E.priv ++ [n ++ x] := by
    intro n x hn hx hl
    have hnx : FileName (n ++ x) := by
      refine ⟨by simp [hn.1], ?_, ?_, ?_, ?_⟩
      · intro h; have := congrArg List.length h; simp at this; omega
      · intro h; have := congrArg List.length h; simp [Path.Spec.dotdot] at this; omega
      · simp only [List.mem_append, not_or]; exact ⟨hn.2.2.2.1, hx.1⟩
      · simp only [List.mem_append, not_or]; exact ⟨hn.2.2.2.2, hx.2⟩
    have hg : ∀ c ∈ comps E.priv ++ [n ++ x], Path.Comp c := by
      intro c hc
      rcases List.mem_append.mp hc with hc | hc
      · exact hp.comp c hc
      · rw [List.mem_singleton.mp hc]; exact hnx.comp
    have hsj : ∀ (cs : List Bytes), Path.Spec.sepJoin (cs ++ [n]) ++ x = Path.Spec.sepJoin (cs ++ [n ++ x]) := by
      intro cs
      induction cs with
      | nil => rfl
      | cons a cs ih =>
        cases cs with
        | nil => simp [Path.Spec.sepJoin]
        | cons b cs =>
          simp only [List.cons_append] at ih ⊢
          simp [Path.Spec.sepJoin, ih]
    have hj : Path.join E.priv n ++ x = Path.Spec.render true (comps E.priv ++ [n ++ x]) := by
      rw [Names.join_file hp hn]
      simp [Path.Spec.render, hsj]
    rw [hj, Path.render_comps true _ hg]
  have hn : FileName (ascii "test.") := by unfold FileName; decide +kernel
  have hm : FileName (ascii "compiler_check_exe") := by unfold FileName; decide +kernel
  refine ⟨key _ _ hn he (by decide), ?_⟩
  unfold testOutput
  split
  · have := key (ascii "compiler_check_exe") [] hm (by simp) (by decide)
    simpa using this
  · have := key (ascii "test.") (E.ext ++ E.objExt) hn (by simp only [List.mem_append, not_or]; exact ⟨⟨he.1, ho.1⟩, he.2, ho.2⟩) (by decide)
    simpa using this

/-! ### Cases that meet the hypotheses -/

example : Muon.Names.Spec.Place (ascii "/w/b/muon-private") ∧ (47 : UInt8) ∉ ascii "c" ∧ (0 : UInt8) ∉ ascii "c" ∧
    Path.join (ascii "/w/b/muon-private") (ascii "test.") ++ ascii "c" = ascii "/w/b/muon-private/test.c" := by
  unfold Muon.Names.Spec.Place; decide +kernel

/-- Two versions, for which the conditions hold. -/
example : ∃ (H : Bytes → Bytes) (a b : Check), a.ver ≠ b.ver ∧ Clear H exNone (fun c => c = a ∨ c = b) := by
  let a : Check := ⟨[[1], [2]], some [3], [4], false, .compile, .plain, .auto⟩
  let b : Check := ⟨[[1], [2]], some [5], [4], false, .compile, .plain, .auto⟩
  let H : Bytes → Bytes := fun x => if x.length = 96 then (x.drop 32).take 32 else if x.length < 32 then x ++ List.replicate (32 - x.length) 1 else x.take 32
  have hlen : ∀ x, (H x).length = 32 := by
    intro x
    simp only [H]
    split
    · rw [List.length_take, List.length_drop]; omega
    · split
      · rw [List.length_append, List.length_replicate]; omega
      · rw [List.length_take]; omega
  refine ⟨H, a, b, by decide, hlen, ?_, ?_, ?_, ?_, ?_, ?_, ?_⟩
  · rintro x y (rfl | rfl) (rfl | rfl) <;> decide +kernel
  · rintro x y (rfl | rfl) (rfl | rfl) <;> decide +kernel
  · rintro x (rfl | rfl) v h
    · have : v = [3] := by simp [a] at h; exact h.symm
      rw [this]; decide +kernel
    · have : v = [5] := by simp [b] at h; exact h.symm
      rw [this]; decide +kernel
  · rintro x (rfl | rfl) <;> decide +kernel
  · rintro x y (rfl | rfl) (rfl | rfl) _ _ <;> exact ⟨rfl, rfl, rfl⟩
  · rintro x (rfl | rfl) h <;> cases h
  · rintro x (rfl | rfl) <;> decide

example : Plain (ascii "a\\\"b") :=
  .char (by decide) (by decide) (by decide) (.quote (.char (by decide) (by decide) (by decide) .nil))
example : defineOf (marker ++ ascii "\"a\\\"b\" \"c\"\n") = ascii "\"a\\\"bc\"" := by decide +kernel
example : parseInt (ascii "12\n") = -1 := by decide +kernel
example : parseInt (ascii "error") = -1 := by decide +kernel

end Muon.Probe
