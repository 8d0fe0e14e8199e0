import Verif.Probe.Cache
import Verif.Probe.More
/-
C99: where checks do not say what they should, and cases that meet the hypotheses of the theorems.
-/
namespace Muon.Probe
open Muon Spec

/-- A compiler for the examples. -/
def exEnv (cpp : Bool) : Env where
  cmd := [ascii "cc"]
  std := []
  linkOpt := []
  compileOpt := []
  cpp := cpp
  ver := some (ascii "12")
  modeArgs m := if m = .run then [] else [ascii "-c"]
  output o := [ascii "-o", o]
  includes l := l
  werror := [ascii "-Werror"]
  priv := ascii "/b/p"
  ext := ascii "c"
  objExt := ascii ".o"
  attr a := if a = ascii "hot" then some (ascii "h") else none
  libdirs := [ascii "/lib"]

/-- One that rejects everything. -/
def exReject : World := ⟨fun _ _ => some 1, fun _ _ => none, fun _ _ => none, fun _ => []⟩

/-- One that accepts everything; programs print 4. -/
def exAccept : World := ⟨fun _ _ => some 0, fun _ _ => some ⟨0, [52], []⟩, fun _ _ => some (marker ++ [34, 97, 34, 32, 34, 98, 34, 10]), fun _ => []⟩

/-- C99: a required check that fails is no error if the same check was made before. -/
theorem required_cached_counterexample (H : Bytes → Bytes) :
    (execAll H exReject [hasHeader (exEnv false) {} (ascii "x.h"), hasHeader (exEnv false) { req := .required } (ascii "x.h")] (fun _ => none)).1 =
      [.ok (.bool false), .ok (.bool false)] ∧
    direct exReject (hasHeader (exEnv false) { req := .required } (ascii "x.h")) = .error := by
  constructor
  · simp [execAll, exec, hasHeader, single, headerCheck, check, perform, Cache.set, key, attempt, exReject, entry, answer, recall, orFail, command, prefixOf]
  · decide +kernel

/-- C99: a required symbol is an error for C++ although the second program would compile. -/
theorem symbol_required_counterexample : ∃ W : World,
    Accepts W (line (exEnv true) {} .compile) (usingText {} (ascii "x.h") (ascii "s")) ∧
    direct W (hasSymbol (exEnv true) {} (ascii "x.h") (ascii "s")) = .ok (.bool true) ∧
    direct W (hasSymbol (exEnv true) { req := .required } (ascii "x.h") (ascii "s")) = .error := by
  refine ⟨⟨fun _ t => if t = usingText {} (ascii "x.h") (ascii "s") then some 0 else some 1, fun _ _ => none, fun _ _ => none, fun _ => []⟩, ?_, ?_, ?_⟩
  · unfold Accepts; simp
  · decide +kernel
  · decide +kernel

/-- C99: a library whose required header is missing is found. -/
theorem header_required_counterexample :
    Rejects exReject (line (exEnv false) { req := .required } .preprocess) (headerText { req := .required } (ascii "x.h")) ∧
    direct exReject (findLibrary (exEnv false) (fun p => p = ascii "/lib/libz.so") .required false false [] [ascii "x.h"] { req := .required } (ascii "z")) =
      .ok (.lib (ascii "/lib/libz.so") false) := by
  refine ⟨⟨1, by simp, rfl⟩, ?_⟩
  decide +kernel

/-- C99: with a long prefix the program is cut off, and then has nothing to do with the type. -/
theorem long_prefix_counterexample (E : Env) (kw : Kw) (h : 4095 ≤ (lines kw).length) (t u : Bytes) :
    sizeof E kw t = sizeof E kw u ∧ hasType E kw t = hasType E kw u ∧ hasHeader E kw t = hasHeader E kw u := by
  have cut : ∀ (a x y : Bytes), 4095 ≤ a.length → (a ++ x).take 4095 = (a ++ y).take 4095 := by
    intro a x y ha
    rw [List.take_append_of_le_length ha, List.take_append_of_le_length ha]
  unfold sizeof hasType hasHeader headerCheck fit
  rw [prefixOf_eq]
  refine ⟨?_, ?_, ?_⟩
  · congr 2
    rw [List.append_assoc (ascii "#include <stdio.h>\n" ++ lines kw), List.append_assoc (ascii "#include <stdio.h>\n" ++ lines kw),
      List.append_assoc (ascii "#include <stdio.h>\n" ++ lines kw), List.append_assoc (ascii "#include <stdio.h>\n" ++ lines kw)]
    exact cut _ _ _ (by rw [List.length_append]; omega)
  · congr 2
    rw [List.append_assoc, List.append_assoc, List.append_assoc, List.append_assoc]
    exact cut _ _ _ h
  · congr 2
    rw [List.append_assoc, List.append_assoc, List.append_assoc, List.append_assoc]
    exact cut _ _ _ h

/-- C99: the result for a file stays the same when the file is changed. -/
theorem changed_file_counterexample (H : Bytes → Bytes) : ∃ W W' : World, W.cc = W'.cc ∧ W.exe = W'.exe ∧ W.out = W'.out ∧
    (exec H W' (checkPath (exEnv false) {} .compile (ascii "/s/a.c")) (exec H W (checkPath (exEnv false) {} .compile (ascii "/s/a.c")) (fun _ => none)).2).1 =
      .ok (.bool true) ∧
    direct W' (checkPath (exEnv false) {} .compile (ascii "/s/a.c")) = .ok (.bool false) := by
  refine ⟨⟨fun _ t => if t = [] then some 0 else some 1, fun _ _ => none, fun _ _ => none, fun _ => []⟩,
    ⟨fun _ t => if t = [] then some 0 else some 1, fun _ _ => none, fun _ _ => none, fun _ => [1]⟩, rfl, rfl, rfl, ?_, ?_⟩
  · simp [exec, checkPath, single, checkFile, perform, Cache.set, attempt, entry, answer, recall, orFail, textOf]
  · decide +kernel

/-- C99: `run()` of the program that `compute_int()` would make, followed by `compute_int()`, aborts muon. -/
theorem run_then_int_counterexample (H : Bytes → Bytes) :
    (execAll H exAccept [runText (exEnv false) {} (intText {} (ascii "4")), computeInt (exEnv false) {} (ascii "4")] (fun _ => none)).1 =
      [.ok (.run (some ⟨0, [52], []⟩)), .bad] ∧
    direct exAccept (computeInt (exEnv false) {} (ascii "4")) = .ok (.num 4) := by
  have hp : computeInt (exEnv false) {} (ascii "4") = single (check (exEnv false) {} .run .int (intText {} (ascii "4"))) := by
    unfold computeInt
    congr 2
  constructor
  · rw [hp]
    simp [execAll, exec, runText, single, check, perform, Cache.set, key, attempt, exAccept, entry, answer, recall, orFail, skipRun]
  · decide +kernel

/-- C99: an empty literal after another one, a backslash at the beginning of another one, and a backslash other than before
a quote keep literals from being joined. -/
theorem define_counterexample :
    defineOf (marker ++ ascii "\"a\" \"\" \"b\"\n") = ascii "\"a\" \"b\"" ∧
    defineOf (marker ++ ascii "\"a\" \"\\\"\" \"b\"\n") = ascii "\"a\\ \"b\"" ∧
    defineOf (marker ++ ascii "\"a\\n\" \"b\"\n") = ascii "\"a\\n\" \"b\"" := by
  refine ⟨?_, ?_, ?_⟩ <;> decide +kernel

/-! ### Cases that meet the hypotheses -/

example : direct exAccept (hasHeader (exEnv false) {} (ascii "x.h")) = .ok (.bool true) := by decide +kernel
example : direct exAccept (sizeof (exEnv false) {} (ascii "int")) = .ok (.num 4) := by decide +kernel
example : direct exAccept (getDefine (exEnv false) {} (ascii "X")) = .ok (.str (ascii "\"ab\"")) := by decide +kernel
example : (headerText {} (ascii "x.h")).length < 4096 ∧ (sizeText {} (ascii "int")).length < 4096 ∧ (intText {} (ascii "1")).length < 4096 ∧
    (alignText {} (ascii "int")).length < 4096 ∧ (typeText {} (ascii "int")).length < 4096 ∧ (memberText {} (ascii "struct s") (ascii "m")).length < 4096 ∧
    (symbolText {} (ascii "x.h") (ascii "s")).length < 4096 ∧ (usingText {} (ascii "x.h") (ascii "s")).length < 4096 := by decide +kernel
example : direct exAccept (supportedArguments (exEnv false) .compile [ascii "-a", ascii "-b"]) = .ok (.strs [ascii "-a", ascii "-b"]) := by decide +kernel
example : direct exAccept (supportedAttributes (exEnv false) [ascii "hot"]) = .ok (.strs [ascii "hot"]) := by decide +kernel

/-- The texts of `has_function()`. -/
theorem texts_exist : FunctionTexts {} (ascii "f") (declaredText {} (ascii "f"))
    (Spec.builtinText {} (ascii "1") (ascii "0") (ascii "f") (ascii "__builtin_f")) := by
  have h1 : ¬ ∃ p q, lines {} = p ++ ascii "#include" ++ q := by
    rintro ⟨p, q, h⟩
    have := congrArg List.length h
    simp [lines, ascii, List.intercalate] at this
  refine ⟨Or.inr ⟨h1, rfl⟩, ⟨_, _, _, Or.inr ⟨h1, rfl⟩, Or.inr ⟨?_, rfl, rfl⟩, rfl⟩, ?_⟩
  · rintro ⟨r, h⟩
    have := congrArg List.length h
    simp [ascii] at this
  · decide +kernel

/-- A hash for the example: the text itself, if it is short. -/
def exHash (x : Bytes) : Bytes := if x.length < 32 then x ++ List.replicate (32 - x.length) 1 else x.take 32

/-- Two checks with different sources, for which the conditions hold. -/
theorem clear_exists : ∃ (H : Bytes → Bytes) (a b : Check), a.src ≠ b.src ∧ Clear H exReject (fun c => c = a ∨ c = b) := by
  let a : Check := ⟨[[1], [2]], some [3], [4], false, .compile, .plain, .auto⟩
  let b : Check := ⟨[[1], [2]], some [3], [5], false, .compile, .plain, .auto⟩
  let H : Bytes → Bytes := fun x => if x.length = 96 then (x.drop 64) else exHash x
  have hlen : ∀ x, (H x).length = 32 := by
    intro x
    simp only [H, exHash]
    split
    · rw [List.length_drop]; omega
    · split
      · rw [List.length_append, List.length_replicate]; omega
      · rw [List.length_take]; omega
  refine ⟨H, a, b, by decide, hlen, ?_, ?_, ?_, ?_, ?_, ?_, ?_⟩
  · rintro x y (rfl | rfl) (rfl | rfl) <;> decide +kernel
  · rintro x y (rfl | rfl) (rfl | rfl) <;> decide +kernel
  · rintro x (rfl | rfl) v h
    · have : v = [3] := by simp [a] at h; exact h.symm
      rw [this]; decide +kernel
    · have : v = [3] := by simp [b] at h; exact h.symm
      rw [this]; decide +kernel
  · rintro x (rfl | rfl) <;> decide +kernel
  · rintro x y (rfl | rfl) (rfl | rfl) _ _ <;> exact ⟨rfl, rfl, rfl⟩
  · rintro x (rfl | rfl) h <;> cases h
  · rintro x (rfl | rfl) <;> decide

end Muon.Probe
