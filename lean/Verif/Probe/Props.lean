import Verif.Probe.Spec
import Verif.Tap.Props
/-
C99: what checks say.
-/
namespace Muon.Probe
open Muon Spec

theorem prefixOf_eq (kw : Kw) : prefixOf kw.pre = lines kw := by
  unfold lines
  have key : ∀ l : List Bytes, prefixOf l = [10].intercalate l := by
    intro l
    induction l with
    | nil => rfl
    | cons a l ih =>
      cases l with
      | nil => simp [prefixOf, List.intercalate]
      | cons b l =>
        simp only [prefixOf, ih]
        simp [List.intercalate]
  exact key _

theorem fit_eq {s : Bytes} (h : s.length < 4096) : fit s = s := by
  unfold fit
  exact List.take_of_length_le (by omega)

theorem direct_single (W : World) (c : Check) : direct W (single c) = carriedOut W c := by
  unfold single direct
  cases h : carriedOut W c <;> rfl

theorem carriedOut_plain (W : World) (c : Check) (hk : c.kind = .plain) (hm : c.mode ≠ .run) :
    carriedOut W c = verdict c.req (W.cc c.args (if c.isPath then W.file c.src else c.src)) := by
  have ht : (if c.isPath then W.file c.src else c.src) = textOf W c := rfl
  rw [ht]
  unfold carriedOut attempt
  simp only [hm, if_false]
  cases hr : c.req
  · simp [verdict]
  · cases W.cc c.args (textOf W c) with
    | none => simp [verdict, answer, hk]
    | some st => cases st <;> simp [verdict, answer, hk, hr]
  · cases W.cc c.args (textOf W c) with
    | none => simp [verdict, answer, hk]
    | some st => cases st <;> simp [verdict, answer, hk, hr]

/-- C99: `compiles()` and `links()` of a text. -/
theorem compiles_text (W : World) (E : Env) (kw : Kw) (mode : Mode) (hm : mode ≠ .run) (t : Bytes) :
    direct W (checkText E kw mode t) = verdict kw.req (W.cc (line E kw mode) t) := by
  unfold checkText
  rw [direct_single, carriedOut_plain _ _ rfl hm]
  rfl

/-- C99: and of a file. -/
theorem compiles_file (W : World) (E : Env) (kw : Kw) (mode : Mode) (hm : mode ≠ .run) (p : Bytes) :
    direct W (checkPath E kw mode p) = verdict kw.req (W.cc (command E kw mode p (testOutput E mode)) (W.file p)) := by
  unfold checkPath
  rw [direct_single, carriedOut_plain _ _ rfl hm]
  rfl

/-- C99: `has_header()` says whether a program with the header gets through the preprocessor. -/
theorem has_header_partial (W : World) (E : Env) (kw : Kw) (h : Bytes) (hl : (headerText kw h).length < 4096) :
    direct W (hasHeader E kw h) = verdict kw.req (W.cc (line E kw .preprocess) (headerText kw h)) := by
  unfold hasHeader headerCheck
  rw [direct_single, carriedOut_plain _ _ rfl (by simp [check]), prefixOf_eq]
  simp only [check]
  rw [show lines kw ++ ascii "\n#include <" ++ h ++ ascii ">\nint main(void) {}\n" = headerText kw h from rfl, fit_eq hl]
  rfl

/-- C99: `check_header()` whether it compiles. -/
theorem check_header_partial (W : World) (E : Env) (kw : Kw) (h : Bytes) (hl : (headerText kw h).length < 4096) :
    direct W (checkHeader E kw h) = verdict kw.req (W.cc (line E kw .compile) (headerText kw h)) := by
  unfold checkHeader headerCheck
  rw [direct_single, carriedOut_plain _ _ rfl (by simp [check]), prefixOf_eq]
  simp only [check]
  rw [show lines kw ++ ascii "\n#include <" ++ h ++ ascii ">\nint main(void) {}\n" = headerText kw h from rfl, fit_eq hl]
  rfl

/-- C99: `has_type()` says whether the size of the type can be taken. -/
theorem has_type_partial (W : World) (E : Env) (kw : Kw) (t : Bytes) (hl : (typeText kw t).length < 4096) :
    direct W (hasType E kw t) = verdict kw.req (W.cc (line E kw .compile) (typeText kw t)) := by
  unfold hasType
  rw [direct_single, carriedOut_plain _ _ rfl (by simp [check]), prefixOf_eq]
  simp only [check]
  rw [show lines kw ++ ascii "\nvoid bar(void) { sizeof(" ++ t ++ ascii "); }\n" = typeText kw t from rfl, fit_eq hl]
  rfl

theorem carriedOut_member (W : World) (E : Env) (kw : Kw) (t f : Bytes) (hl : (memberText kw t f).length < 4096) :
    carriedOut W (memberCheck E kw t f) = verdict kw.req (W.cc (line E kw .compile) (memberText kw t f)) := by
  rw [carriedOut_plain _ _ rfl (by simp [check, memberCheck])]
  simp only [check, memberCheck]
  rw [prefixOf_eq, show lines kw ++ ascii "\nvoid bar(void) {\n" ++ t ++ ascii " foo;\nfoo." ++ f ++ ascii ";\n}\n" = memberText kw t f from rfl, fit_eq hl]
  rfl

/-- C99: `has_member()` says whether the member can be named. -/
theorem has_member_partial (W : World) (E : Env) (kw : Kw) (t f : Bytes) (hl : (memberText kw t f).length < 4096) :
    direct W (hasMember E kw t f) = verdict kw.req (W.cc (line E kw .compile) (memberText kw t f)) := by
  unfold hasMember
  rw [direct_single]
  exact carriedOut_member W E kw t f hl

theorem verdict_auto (st : Option Nat) : verdict .auto st = .error ∧ st = none ∨ verdict .auto st = .ok (.bool true) ∧ st = some 0 ∨
    verdict .auto st = .ok (.bool false) ∧ ∃ s, s ≠ 0 ∧ st = some s := by
  cases st with
  | none => exact Or.inl ⟨rfl, rfl⟩
  | some s =>
    cases s with
    | zero => exact Or.inr (Or.inl ⟨rfl, rfl⟩)
    | succ n => exact Or.inr (Or.inr ⟨rfl, n + 1, by simp, rfl⟩)

/-- C99: `has_members()` is true exactly if the type has all members, and false exactly if it lacks one, but has those
before it. -/
theorem has_members_partial (W : World) (E : Env) (kw : Kw) (t : Bytes) (l : List Bytes) (hne : l ≠ []) (hr : kw.req = .auto)
    (hl : ∀ f ∈ l, (memberText kw t f).length < 4096) :
    (direct W (hasMembers E kw t l) = .ok (.bool true) ↔ ∀ f ∈ l, Accepts W (line E kw .compile) (memberText kw t f)) ∧
    (direct W (hasMembers E kw t l) = .ok (.bool false) ↔ ∃ p f r, l = p ++ f :: r ∧
      (∀ g ∈ p, Accepts W (line E kw .compile) (memberText kw t g)) ∧ Rejects W (line E kw .compile) (memberText kw t f)) := by
  have hrun : hasMembers E kw t l = membersFrom E kw t l := by
    cases l with
    | nil => exact absurd rfl hne
    | cons f l => rfl
  rw [hrun]
  clear hrun hne
  induction l with
  | nil => simp [membersFrom, direct]
  | cons f l ih =>
    obtain ⟨i1, i2⟩ := ih (fun g hg => hl g (by simp [hg]))
    have hc := carriedOut_member W E kw t f (hl f (by simp))
    rw [hr] at hc
    simp only [membersFrom, direct, hc]
    have hsplit : ∀ P Q : Bytes → Prop, (∃ p f' r, f :: l = p ++ f' :: r ∧ (∀ g ∈ p, P g) ∧ Q f') ↔
        Q f ∨ (P f ∧ ∃ p f' r, l = p ++ f' :: r ∧ (∀ g ∈ p, P g) ∧ Q f') := by
      intro P Q
      constructor
      · rintro ⟨p, f', r, h1, h2, h3⟩
        cases p with
        | nil => simp at h1; rw [h1.1]; exact Or.inl h3
        | cons g p =>
          simp only [List.cons_append, List.cons.injEq] at h1
          rw [h1.1]
          exact Or.inr ⟨h2 g (by simp), p, f', r, h1.2, fun g hg => h2 g (by simp [hg]), h3⟩
      · rintro (h | ⟨h, p, f', r, h1, h2, h3⟩)
        · exact ⟨[], f, l, rfl, by simp, h⟩
        · refine ⟨f :: p, f', r, by rw [h1]; rfl, ?_, h3⟩
          intro g hg
          rcases List.mem_cons.1 hg with rfl | hg
          · exact h
          · exact h2 g hg
    rw [hsplit]
    unfold Accepts Rejects at *
    rcases verdict_auto (W.cc (line E kw .compile) (memberText kw t f)) with ⟨e, hst⟩ | ⟨e, hst⟩ | ⟨e, s, hs, hst⟩
    · rw [e, hst]
      simp [hst]
    · rw [e]
      simp only [List.forall_mem_cons, i1, i2, hst]
      simp
    · rw [e]
      simp only [direct, List.forall_mem_cons, hst]
      refine ⟨by simp [hs], by simp [hs]⟩

/-- C99: `has_argument()` and the like say whether an empty program is accepted with the arguments. -/
theorem has_arguments (W : World) (E : Env) (mode : Mode) (hm : mode ≠ .run) (l : List Bytes) :
    direct W (hasArguments E mode l) =
      verdict .auto (W.cc (line E { args := l ++ E.werror } mode) (ascii "int main(void){}\n")) := by
  unfold hasArguments
  rw [direct_single, carriedOut_plain _ _ rfl hm]
  rfl

/-- An argument is supported. -/
def Spec.Supports (W : World) (E : Env) (mode : Mode) (a : Bytes) : Prop :=
  Accepts W (line E { args := [a] ++ E.werror } mode) (ascii "int main(void){}\n")

instance (W : World) (E : Env) (mode : Mode) (a : Bytes) : Decidable (Supports W E mode a) := by
  unfold Supports Accepts; infer_instance

/-- C99: `get_supported_arguments()` gives the arguments that are supported, in the order of the call. -/
theorem supported_arguments (W : World) (E : Env) (mode : Mode) (hm : mode ≠ .run) (l : List Bytes)
    (hs : ∀ a ∈ l, W.cc (line E { args := [a] ++ E.werror } mode) (ascii "int main(void){}\n") ≠ none) :
    direct W (supportedArguments E mode l) = .ok (.strs (l.filter (fun a => decide (Supports W E mode a)))) := by
  have key : ∀ (l acc : List Bytes), (∀ a ∈ l, W.cc (line E { args := [a] ++ E.werror } mode) (ascii "int main(void){}\n") ≠ none) →
      direct W (supported (fun a => some (argCheck E mode [a])) l acc) = .ok (.strs (acc ++ l.filter (fun a => decide (Supports W E mode a)))) := by
    intro l
    induction l with
    | nil => intro acc _; simp [supported, direct]
    | cons a l ih =>
      intro acc h
      have hc : carriedOut W (argCheck E mode [a]) = verdict .auto (W.cc (line E { args := [a] ++ E.werror } mode) (ascii "int main(void){}\n")) := by
        rw [carriedOut_plain _ _ rfl hm]
        rfl
      simp only [supported, direct, hc]
      rcases verdict_auto (W.cc (line E { args := [a] ++ E.werror } mode) (ascii "int main(void){}\n")) with ⟨e, hst⟩ | ⟨e, hst⟩ | ⟨e, s, hs, hst⟩
      · exact absurd hst (h a (by simp))
      · have hp : Supports W E mode a := hst
        rw [e]
        simp only
        rw [ih _ (fun b hb => h b (by simp [hb])), List.filter_cons_of_pos (by simpa using hp)]
        simp
      · have hp : ¬ Supports W E mode a := by unfold Supports Accepts; rw [hst]; simp [hs]
        rw [e]
        simp only
        rw [ih _ (fun b hb => h b (by simp [hb])), List.filter_cons_of_neg (by simpa using hp)]
  have := key l [] hs
  simpa [supportedArguments] using this

/-- C99: `first_supported_argument()` gives the first one, or none. -/
theorem first_supported (W : World) (E : Env) (mode : Mode) (hm : mode ≠ .run) (l : List Bytes)
    (hs : ∀ a ∈ l, W.cc (line E { args := [a] ++ E.werror } mode) (ascii "int main(void){}\n") ≠ none) :
    direct W (firstSupported E mode l) = .ok (.strs (l.filter (fun a => decide (Supports W E mode a))).head?.toList) := by
  induction l with
  | nil => simp [firstSupported, direct]
  | cons a l ih =>
    have hc : carriedOut W (argCheck E mode [a]) = verdict .auto (W.cc (line E { args := [a] ++ E.werror } mode) (ascii "int main(void){}\n")) := by
      rw [carriedOut_plain _ _ rfl hm]
      rfl
    simp only [firstSupported, direct, hc]
    rcases verdict_auto (W.cc (line E { args := [a] ++ E.werror } mode) (ascii "int main(void){}\n")) with ⟨e, hst⟩ | ⟨e, hst⟩ | ⟨e, s, hs', hst⟩
    · exact absurd hst (hs a (by simp))
    · have hp : Supports W E mode a := hst
      rw [e]
      simp only [direct]
      rw [List.filter_cons_of_pos (by simpa using hp)]
      rfl
    · have hp : ¬ Supports W E mode a := by unfold Supports Accepts; rw [hst]; simp [hs']
      rw [e]
      simp only
      rw [ih (fun b hb => hs b (by simp [hb])), List.filter_cons_of_neg (by simpa using hp)]

/-! ### Numbers -/

theorem parseInt_decimal {s : Bytes} {n : Int} (h : Decimal s n) (hn : -(2 ^ 63) ≤ n ∧ n < 2 ^ 63) : parseInt s = n := by
  obtain ⟨ds, h1, h2, hcase⟩ := h
  have hval : ∀ l : Bytes, ∀ a : Nat, l.foldl (fun v c => v * 10 + (c.toNat - 48)) a = l.foldl (fun v c => 10 * v + (c.toNat - 48)) a := by
    intro l
    induction l with
    | nil => intro a; rfl
    | cons c l ih => intro a; simp only [List.foldl_cons]; rw [ih, Nat.mul_comm]
  have hdv : Str.digitsVal ds = ds.foldl (fun v c => v * 10 + (c.toNat - 48)) 0 := by
    first | rfl | (rw [hval]; rfl)
  obtain ⟨d, ds', rfl⟩ := List.exists_cons_of_ne_nil h1
  have htw : (d :: ds').takeWhile isDigit = d :: ds' := by
    have : ∀ l : Bytes, (∀ c ∈ l, isDigit c = true) → l.takeWhile isDigit = l := by
      intro l
      induction l with
      | nil => intro _; rfl
      | cons c l ih => intro h; rw [List.takeWhile_cons, if_pos (h c (by simp)), ih (fun x hx => h x (by simp [hx]))]
    exact this _ h2
  have hd : isSpace d = false ∧ d ≠ 45 ∧ d ≠ 43 := by
    have key : ∀ c : UInt8, isDigit c = true → isSpace c = false ∧ c ≠ 45 ∧ c ≠ 43 := forall_byte (by decide +kernel)
    exact key d (h2 d (by simp))
  have h45 : isSpace 45 = false := by decide +kernel
  rcases hcase with ⟨rfl, hv⟩ | ⟨rfl, hv⟩
  · have hs : Str.strtol (d :: ds') = (max Str.int64Min (min Str.int64Max (Str.digitsVal (d :: ds') : Int)), 0 + 0 + (d :: ds').length) := by
      unfold Str.strtol
      have hws : (d :: ds').takeWhile isSpace = [] := by simp [hd.1]
      have hsg : Str.signOf (d :: ds') = (false, 0) := by
        unfold Str.signOf
        split <;> simp_all
      simp only [hws, List.length_nil, List.drop_zero, hsg, htw]
      simp
    unfold parseInt
    rw [hs]
    simp only [Nat.zero_add, if_true]
    rw [hdv, ← hv]
    unfold Str.int64Min Str.int64Max
    omega
  · have hs : Str.strtol (45 :: d :: ds') = (max Str.int64Min (min Str.int64Max (-(Str.digitsVal (d :: ds') : Int))), 0 + 1 + (d :: ds').length) := by
      unfold Str.strtol
      have hws : (45 :: d :: ds').takeWhile isSpace = [] := by simp [h45]
      have hsg : Str.signOf (45 :: d :: ds') = (true, 1) := by
        unfold Str.signOf
        rfl
      simp only [hws, List.length_nil, List.drop_zero, hsg, List.drop_one, List.tail_cons, htw]
      simp
    unfold parseInt
    rw [hs]
    rw [if_pos (by simp; omega)]
    simp only
    rw [hdv, ← hv]
    unfold Str.int64Min Str.int64Max
    omega

/-- C99: `sizeof()` is the number that the program prints; -1 if it does not compile. -/
theorem sizeof_partial (W : World) (E : Env) (kw : Kw) (t : Bytes) (hr : kw.req = .auto) (hl : (sizeText kw t).length < 4096) :
    (∀ r n, Accepts W (line E kw .run) (sizeText kw t) → W.exe (line E kw .run) (sizeText kw t) = some r → Decimal r.out n →
      -(2 ^ 63) ≤ n ∧ n < 2 ^ 63 → direct W (sizeof E kw t) = .ok (.num n)) ∧
    (¬ Accepts W (line E kw .run) (sizeText kw t) → direct W (sizeof E kw t) = .ok (.num (-1))) := by
  have hp : sizeof E kw t = single (check E kw .run .size (sizeText kw t)) := by
    unfold sizeof
    rw [prefixOf_eq, show ascii "#include <stdio.h>\n" ++ lines kw ++ ascii "\nint main(void) { printf(\"%ld\", (long)(sizeof(" ++ t ++ ascii "))); return 0; }\n" = sizeText kw t from rfl, fit_eq hl]
  rw [hp, direct_single]
  unfold carriedOut
  rw [if_neg (by simp [check, hr])]
  unfold attempt Accepts
  simp only [check, textOf, Bool.false_eq_true, if_false, if_true, skipRun]
  simp only [show command E kw .run (testSource E) (testOutput E .run) = line E kw .run from rfl]
  constructor
  · intro r n h1 h2 h3 h4
    rw [h1]
    simp only [h2]
    simp only [answer]
    simp [parseInt_decimal h3 h4]
  · intro h
    cases hcc : W.cc (line E kw .run) (sizeText kw t) with
    | none => simp [answer]
    | some st =>
      have : st ≠ 0 := fun e => h (by rw [hcc, e])
      simp [answer, this]

theorem int_partial (W : World) (E : Env) (kw : Kw) (text : Bytes) (hr : kw.req = .auto) :
    (∀ r n, Accepts W (line E kw .run) text → W.exe (line E kw .run) text = some r → r.status = 0 → Decimal r.out n →
      -(2 ^ 63) ≤ n ∧ n < 2 ^ 63 → direct W (single (check E kw .run .int text)) = .ok (.num n)) ∧
    (¬ Accepts W (line E kw .run) text → direct W (single (check E kw .run .int text)) = .error) ∧
    (∀ r, Accepts W (line E kw .run) text → W.exe (line E kw .run) text = some r → r.status ≠ 0 →
      direct W (single (check E kw .run .int text)) = .error) := by
  rw [direct_single]
  unfold carriedOut
  rw [if_neg (by simp [check, hr])]
  unfold attempt Accepts
  simp only [check, textOf, Bool.false_eq_true, if_false, if_true, skipRun]
  simp only [show command E kw .run (testSource E) (testOutput E .run) = line E kw .run from rfl]
  refine ⟨?_, ?_, ?_⟩
  · intro r n h1 h2 h3 h4 h5
    rw [h1]
    simp only [h2, h3]
    simp [answer, parseInt_decimal h4 h5]
  · intro h
    cases hcc : W.cc (line E kw .run) text with
    | none => simp [answer]
    | some st =>
      have : st ≠ 0 := fun e => h (by rw [hcc, e])
      simp [answer, this]
  · intro r h1 h2 h3
    rw [h1]
    simp only [h2]
    simp [answer, h3]

/-- C99: `compute_int()` is the number that the program prints, and an error if it does not compile or fails. -/
theorem compute_int_partial (W : World) (E : Env) (kw : Kw) (e : Bytes) (hr : kw.req = .auto) (hl : (intText kw e).length < 4096) :
    (∀ r n, Accepts W (line E kw .run) (intText kw e) → W.exe (line E kw .run) (intText kw e) = some r → r.status = 0 → Decimal r.out n →
      -(2 ^ 63) ≤ n ∧ n < 2 ^ 63 → direct W (computeInt E kw e) = .ok (.num n)) ∧
    (¬ Accepts W (line E kw .run) (intText kw e) → direct W (computeInt E kw e) = .error) ∧
    (∀ r, Accepts W (line E kw .run) (intText kw e) → W.exe (line E kw .run) (intText kw e) = some r → r.status ≠ 0 →
      direct W (computeInt E kw e) = .error) := by
  have hp : computeInt E kw e = single (check E kw .run .int (intText kw e)) := by
    unfold computeInt
    rw [prefixOf_eq, show ascii "#include <stdio.h>\n" ++ lines kw ++ ascii "\nint main(void) {\nprintf(\"%ld\", (long)(" ++ e ++ ascii "));\n}\n" = intText kw e from rfl, fit_eq hl]
  rw [hp]
  exact int_partial W E kw _ hr

/-- C99: `alignment()` likewise. -/
theorem alignment_partial (W : World) (E : Env) (kw : Kw) (t : Bytes) (hr : kw.req = .auto) (hl : (alignText kw t).length < 4096) :
    (∀ r n, Accepts W (line E kw .run) (alignText kw t) → W.exe (line E kw .run) (alignText kw t) = some r → r.status = 0 → Decimal r.out n →
      -(2 ^ 63) ≤ n ∧ n < 2 ^ 63 → direct W (alignment E kw t) = .ok (.num n)) ∧
    (¬ Accepts W (line E kw .run) (alignText kw t) → direct W (alignment E kw t) = .error) ∧
    (∀ r, Accepts W (line E kw .run) (alignText kw t) → W.exe (line E kw .run) (alignText kw t) = some r → r.status ≠ 0 →
      direct W (alignment E kw t) = .error) := by
  have hp : alignment E kw t = single (check E kw .run .int (alignText kw t)) := by
    unfold alignment
    rw [prefixOf_eq, show ascii "#include <stdio.h>\n#include <stddef.h>\n" ++ lines kw ++ ascii "\nstruct tmp { char c; " ++ t ++
      ascii " target; };\nint main(void) { printf(\"%d\", (int)(offsetof(struct tmp, target))); return 0; }\n" = alignText kw t from rfl, fit_eq hl]
  rw [hp]
  exact int_partial W E kw _ hr

/-- C99: `run()` gives the status and the output of the program, whatever they are, or says that it does not compile. -/
theorem run_text (W : World) (E : Env) (kw : Kw) (t : Bytes) (hr : kw.req = .auto) :
    (∀ r, Accepts W (line E kw .run) t → W.exe (line E kw .run) t = some r → direct W (runText E kw t) = .ok (.run (some r))) ∧
    (Rejects W (line E kw .run) t → direct W (runText E kw t) = .ok (.run none)) ∧
    (W.cc (line E kw .run) t = none → direct W (runText E kw t) = .error) := by
  unfold runText
  rw [direct_single]
  unfold carriedOut
  rw [if_neg (by simp [check, hr])]
  unfold attempt Accepts Rejects
  simp only [check, textOf, Bool.false_eq_true, if_false, if_true, skipRun]
  simp only [show command E kw .run (testSource E) (testOutput E .run) = line E kw .run from rfl]
  refine ⟨?_, ?_, ?_⟩
  · intro r h1 h2
    rw [h1]
    simp [h2, answer]
  · rintro ⟨st, h0, h1⟩
    rw [h1]
    simp [h0, answer]
  · intro h
    rw [h]
    simp [answer]

/-- C99: the same for a file. -/
theorem run_file (W : World) (E : Env) (kw : Kw) (p : Bytes) (hr : kw.req = .auto) :
    (∀ r, Accepts W (command E kw .run p (testOutput E .run)) (W.file p) → W.exe (command E kw .run p (testOutput E .run)) (W.file p) = some r →
      direct W (runPath E kw p) = .ok (.run (some r))) ∧
    (Rejects W (command E kw .run p (testOutput E .run)) (W.file p) → direct W (runPath E kw p) = .ok (.run none)) := by
  unfold runPath
  rw [direct_single]
  unfold carriedOut
  rw [if_neg (by simp [checkFile, hr])]
  unfold attempt Accepts Rejects
  simp only [checkFile, textOf, if_true, skipRun]
  refine ⟨?_, ?_⟩
  · intro r h1 h2
    rw [h1]
    simp [h2, answer]
  · rintro ⟨st, h0, h1⟩
    rw [h1]
    simp [h0, answer]

end Muon.Probe
