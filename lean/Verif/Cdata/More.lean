import Verif.Cdata.Props
import Verif.Conf.Props
import Verif.Fsmod.Props
import Verif.Names.Props
import Verif.Ini.Props
/-
Headers, `configure_file()` and `keyval.load()`.
-/
namespace Muon.Cdata
open Muon Muon.Cdata.Spec
open Muon.Conf (Val)
open Muon.Path Muon.Path.Spec

/-! ### Headers -/

theorem decimal_no10 (n : Int) : 10 ∉ Conf.Spec.decimal n := (Nlog.dec_no n).2.1

/-- The header that is made without a template says what the configuration means, entry by entry, if the keys have no
blanks and keys and values are one line. -/
theorem header_partial (c : UInt8) (m : Map) (hn : Conf.Spec.NoNul m) (hk : ∀ e ∈ m, 32 ∉ e.1 ∧ 10 ∉ e.1)
    (hv : ∀ e ∈ m, (∃ b, e.2 = .bool b) ∨ (∃ n, e.2 = .num n) ∨ ∃ s, e.2 = .str s ∧ 10 ∉ s) (hc : c ≠ 10) :
    ∃ out ds, Conf.genEntries c m = .ok (out, true) ∧ HeaderSays c out ds ∧ AllMean m ds := by
  have key : ∃ out ds, Conf.Spec.Header c m out ∧ HeaderSays c out ds ∧ AllMean m ds := by
    clear hn
    induction m with
    | nil => exact ⟨[], [], .nil, .nil, .nil⟩
    | cons e m ih =>
      obtain ⟨k, v⟩ := e
      obtain ⟨out, ds, h1, h2, h3⟩ := ih (fun e he => hk e (by simp [he])) (fun e he => hv e (by simp [he]))
      obtain ⟨k1, k2⟩ := hk (k, v) (by simp)
      have hd : 10 ∉ ascii "define " ∧ 10 ∉ ascii "undef " ∧ 10 ∉ ascii " " := by decide +kernel
      have hc' : ¬ 10 = c := fun e => hc e.symm
      rcases hv (k, v) (by simp) with ⟨b, hb⟩ | ⟨n, hb⟩ | ⟨s, hb, hs⟩
      · have hb : v = .bool b := hb
        subst hb
        cases b
        · refine ⟨_, _, .cons .no h1, .cons (l := [c] ++ ascii "undef " ++ k) ?_ (.undef k1) h2, .cons .no h3⟩
          simp only [List.mem_append, List.mem_singleton, hc', hd.2.1, k2, or_self, not_false_eq_true]
        · refine ⟨_, _, .cons .yes h1, .cons (l := [c] ++ ascii "define " ++ k) ?_ (.flag k1) h2, .cons .yes h3⟩
          simp only [List.mem_append, List.mem_singleton, hc', hd.1, k2, or_self, not_false_eq_true]
      · have hb : v = .num n := hb
        subst hb
        refine ⟨_, _, .cons .num h1, .cons (l := [c] ++ ascii "define " ++ k ++ ascii " " ++ Conf.Spec.decimal n) ?_ (.text k1) h2, .cons .num h3⟩
        simp only [List.mem_append, List.mem_singleton, hc', hd.1, hd.2.2, k2, decimal_no10, or_self, not_false_eq_true]
      · have hb : v = .str s := hb
        subst hb
        refine ⟨_, _, .cons .str h1, .cons (l := [c] ++ ascii "define " ++ k ++ ascii " " ++ s) ?_ (.text k1) h2, .cons .text h3⟩
        simp only [List.mem_append, List.mem_singleton, hc', hd.1, hd.2.2, k2, hs, or_self, not_false_eq_true]
  obtain ⟨out, ds, h1, h2, h3⟩ := key
  exact ⟨out, ds, (Conf.genEntries_iff c m hn out).2 h1, h2, h3⟩

theorem blank_split {k k' t t' : Bytes} (h : 32 ∉ k) (h' : 32 ∉ k') (e : k ++ 32 :: t = k' ++ 32 :: t') : k = k' ∧ t = t' := by
  have e1 := Ini.takeWhile_ne 32 k t h
  rw [e, Ini.takeWhile_ne 32 k' t' h'] at e1
  subst e1
  exact ⟨rfl, by simpa using List.append_cancel_left e⟩

theorem line_unique {c : UInt8} {l : Bytes} {d d' : Directive} (h : LineSays c l d) (h' : LineSays c l d') : d = d' := by
  have e1 : ascii "define " = [100, 101, 102, 105, 110, 101, 32] := by decide +kernel
  have e2 : ascii "undef " = [117, 110, 100, 101, 102, 32] := by decide +kernel
  have e3 : ascii " " = [32] := by decide +kernel
  have no : ∀ {k t : Bytes}, 32 ∉ k ++ [32] ++ t → False := fun h => h (by simp)
  generalize hl : l = l' at h'
  cases h with
  | flag h =>
    cases h' with
    | flag h' => simp [e1] at hl; rw [hl]
    | text h' => exfalso; simp [e1, e3] at hl; rw [hl] at h; simp at h
    | undef h' => simp [e1, e2] at hl
  | text h =>
    cases h' with
    | flag h' => exfalso; simp [e1, e3] at hl; rw [← hl] at h'; simp at h'
    | text h' =>
      simp [e1, e3] at hl
      obtain ⟨rfl, rfl⟩ := blank_split h h' hl
      rfl
    | undef h' => simp [e1, e2] at hl
  | undef h =>
    cases h' with
    | flag h' => simp [e1, e2] at hl
    | text h' => simp [e1, e2] at hl
    | undef h' => simp [e2] at hl; rw [hl]

/-- A header says one thing. -/
theorem header_unique {c : UInt8} {t : Bytes} {ds ds' : List Directive} (h : HeaderSays c t ds) (h' : HeaderSays c t ds') : ds = ds' := by
  induction h generalizing ds' with
  | nil =>
    generalize ht : ([] : Bytes) = t at h'
    cases h' with
    | nil => rfl
    | cons _ _ _ => simp at ht
  | cons h1 h2 h3 ih =>
    rename_i l r d ds0
    generalize ht : l ++ [10] ++ r = t at h'
    cases h' with
    | nil => simp at ht
    | cons g1 g2 g3 =>
      rename_i l' r' d' ds1
      have ht : l ++ 10 :: r = l' ++ 10 :: r' := by simpa using ht
      have e1 := Ini.takeWhile_ne 10 l r h1
      rw [ht, Ini.takeWhile_ne 10 l' r' g1] at e1
      subst e1
      have : r = r' := by simpa using ht
      subst this
      rw [line_unique h2 g2, ih g3]

example : ∃ out ds, Conf.genEntries 35 [(ascii "A", .bool true), (ascii "B", .num (-3)), (ascii "C", .str (ascii "x y"))] = .ok (out, true) ∧
    HeaderSays 35 out ds ∧ AllMean [(ascii "A", .bool true), (ascii "B", .num (-3)), (ascii "C", .str (ascii "x y"))] ds :=
  header_partial _ _ (by unfold Conf.Spec.NoNul; intro e he; simp at he; rcases he with rfl | rfl | rfl <;> simp <;> decide +kernel)
    (by decide +kernel)
    (by
      intro e he
      simp at he
      rcases he with rfl | rfl | rfl
      · exact .inl ⟨_, rfl⟩
      · exact .inr (.inl ⟨_, rfl⟩)
      · exact .inr (.inr ⟨_, rfl, by decide +kernel⟩)) (by decide)

/-- A value of two lines adds a line that is no part of the definition. -/
theorem header_counterexample : Conf.genEntries 35 [(ascii "A", .str (ascii "1\n#undef B"))] = .ok (ascii "#define A 1\n#undef B\n", true) ∧
    HeaderSays 35 (ascii "#define A 1\n#undef B\n") [.define (ascii "A") (some (ascii "1")), .undef (ascii "B")] := by
  refine ⟨by decide +kernel, ?_⟩
  have e : ascii "#define A 1\n#undef B\n" = ascii "#define A 1" ++ [10] ++ (ascii "#undef B" ++ [10] ++ []) := by decide +kernel
  have e1 : ascii "#define A 1" = [35] ++ ascii "define " ++ ascii "A" ++ ascii " " ++ ascii "1" := by decide +kernel
  have e2 : ascii "#undef B" = [35] ++ ascii "undef " ++ ascii "B" := by decide +kernel
  rw [e]
  refine .cons (by decide +kernel) (by rw [e1]; exact .text (by decide +kernel)) (.cons (by decide +kernel) (by rw [e2]; exact .undef (by decide +kernel)) .nil)

/-! ### `configure_file()` -/

theorem one_ok {i : Option (List Bytes)} {f : Bytes} : one i = .ok f ↔ i = some [f] := by
  unfold one
  split
  · simp
  · rename_i h
    constructor
    · intro e; cases e
    · intro e; exact absurd e (h f)

/-- A file that can be an input: its path has no NUL byte and a last component. -/
def IsFile (f : Bytes) : Prop := 0 ∉ f ∧ comps f ≠ []

theorem names_of {f : Bytes} (h : IsFile f) : ∃ n b, NameOf f n b ∧ Path.basename f = n ∧ Fsmod.cutDot n = b := by
  obtain ⟨h0, hc⟩ := h
  have hf : f ≠ [] := by
    rintro rfl; exact hc (by decide +kernel)
  obtain ⟨n, hn⟩ : ∃ n, (comps f).getLast? = some n := by
    cases e : (comps f).getLast? with
    | none => exact absurd (List.getLast?_eq_none_iff.1 e) hc
    | some n => exact ⟨n, rfl⟩
  have hb : Path.basename f = n := by rw [basename_spec f h0 hf, hn]
  by_cases hd : 46 ∈ n
  · have hr : 46 ∈ n.reverse := by simpa using hd
    obtain ⟨a, r, e, ha⟩ := Ini.split_at 46 n.reverse hr
    have e' : n = r.reverse ++ [46] ++ a.reverse := by
      have := congrArg List.reverse e
      simpa using this
    have ha' : 46 ∉ a.reverse := by simpa using ha
    refine ⟨n, r.reverse, ?_, hb, ?_⟩
    · rw [e'] at hn ⊢
      exact .dot hn ha'
    · rw [e', List.append_assoc]
      exact Fsmod.cutDot_dot _ _ ha'
  · exact ⟨n, n, .plain hn hd, hb, Fsmod.cutDot_none n hd⟩

theorem nameOf_unique {f n b n' b' : Bytes} (h : NameOf f n b) (h' : NameOf f n' b') : n = n' ∧ b = b' := by
  have e : (comps f).getLast? = some n ∧ Fsmod.cutDot n = b := by
    cases h with
    | dot h1 h2 => exact ⟨h1, by rw [List.append_assoc]; exact Fsmod.cutDot_dot _ _ h2⟩
    | plain h1 h2 => exact ⟨h1, Fsmod.cutDot_none _ h2⟩
  have e' : (comps f).getLast? = some n' ∧ Fsmod.cutDot n' = b' := by
    cases h' with
    | dot h1 h2 => exact ⟨h1, by rw [List.append_assoc]; exact Fsmod.cutDot_dot _ _ h2⟩
    | plain h1 h2 => exact ⟨h1, Fsmod.cutDot_none _ h2⟩
  rw [e.1] at e'
  obtain ⟨h1, h2⟩ := e'
  cases h1
  exact ⟨rfl, by rw [← e.2, h2]⟩

theorem outName_sound (input : Option (List Bytes)) (hi : ∀ f, input = some [f] → IsFile f) (n : Nat) (t o : Bytes) (hn : t.length ≤ n)
    (h : outName input n t = .ok o) : Output input t o := by
  have l1 : (ascii "@BASENAME@").length = 10 := by decide +kernel
  have l2 : (ascii "@PLAINNAME@").length = 11 := by decide +kernel
  induction n generalizing t o with
  | zero =>
    have : t = [] := List.length_eq_zero_iff.1 (by omega)
    subst this
    cases h; exact .nil
  | succ n ih =>
    cases t with
    | nil => cases h; exact .nil
    | cons c s =>
      unfold outName at h
      by_cases h1 : (ascii "@BASENAME@").isPrefixOf (c :: s)
      · rw [if_pos h1] at h
        obtain ⟨f, hf, h⟩ := Res.bind_eq_ok.1 h
        obtain ⟨o', ho, h⟩ := Res.bind_eq_ok.1 h
        cases h
        obtain ⟨x, e⟩ := List.isPrefixOf_iff_prefix.1 h1
        have hf := one_ok.1 hf
        obtain ⟨n', b, hb, hb1, hb2⟩ := names_of (hi f hf)
        rw [← e] at ho hn ⊢
        rw [show (10 : Nat) = (ascii "@BASENAME@").length from l1.symm, List.drop_left] at ho
        rw [List.length_append] at hn
        have := ih x o' (by omega) ho
        rw [hb1, hb2]
        exact .base hf hb this
      · rw [if_neg h1] at h
        by_cases h2 : (ascii "@PLAINNAME@").isPrefixOf (c :: s)
        · rw [if_pos h2] at h
          obtain ⟨f, hf, h⟩ := Res.bind_eq_ok.1 h
          obtain ⟨o', ho, h⟩ := Res.bind_eq_ok.1 h
          cases h
          obtain ⟨x, e⟩ := List.isPrefixOf_iff_prefix.1 h2
          have hf := one_ok.1 hf
          obtain ⟨n', b, hb, hb1, hb2⟩ := names_of (hi f hf)
          rw [← e] at ho hn ⊢
          rw [show (11 : Nat) = (ascii "@PLAINNAME@").length from l2.symm, List.drop_left] at ho
          rw [List.length_append] at hn
          have := ih x o' (by omega) ho
          rw [hb1]
          exact .name hf hb this
        · rw [if_neg h2] at h
          obtain ⟨o', ho, h⟩ := Res.bind_eq_ok.1 h
          cases h
          simp only [List.length_cons] at hn
          exact .char (fun e => h1 (List.isPrefixOf_iff_prefix.2 e)) (fun e => h2 (List.isPrefixOf_iff_prefix.2 e)) (ih s o' (by omega) ho)

theorem outName_complete (input : Option (List Bytes)) (hi : ∀ f, input = some [f] → IsFile f) (t o : Bytes) (h : Output input t o) :
    ∀ n, t.length ≤ n → outName input n t = .ok o := by
  have l1 : (ascii "@BASENAME@").length = 10 := by decide +kernel
  have l2 : (ascii "@PLAINNAME@").length = 11 := by decide +kernel
  have c1 : ∀ t, ascii "@BASENAME@" ++ t = 64 :: (ascii "BASENAME@" ++ t) := by
    intro t
    rw [show ascii "@BASENAME@" = 64 :: ascii "BASENAME@" from by decide +kernel]; rfl
  have c2 : ∀ t, ascii "@PLAINNAME@" ++ t = 64 :: (ascii "PLAINNAME@" ++ t) := by
    intro t
    rw [show ascii "@PLAINNAME@" = 64 :: ascii "PLAINNAME@" from by decide +kernel]; rfl
  have d : ∀ t, ¬ ascii "@BASENAME@" <+: ascii "@PLAINNAME@" ++ t := by
    rintro t ⟨x, e⟩
    rw [c1, c2, show ascii "BASENAME@" = 66 :: ascii "ASENAME@" from by decide +kernel,
      show ascii "PLAINNAME@" = 80 :: ascii "LAINNAME@" from by decide +kernel] at e
    simp at e
  induction h with
  | nil => intro n _; cases n <;> rfl
  | base hf hb _ ih =>
    rename_i f n' b t o _
    intro n hn
    rw [List.length_append] at hn
    obtain ⟨m, rfl⟩ : ∃ m, n = m + 1 := ⟨n - 1, by omega⟩
    obtain ⟨n2, b2, g, g1, g2⟩ := names_of (hi f hf)
    obtain ⟨rfl, rfl⟩ := nameOf_unique hb g
    rw [c1, outName, ← c1, if_pos (List.isPrefixOf_iff_prefix.2 ⟨t, rfl⟩), one_ok.2 hf, Res.ok_bind,
      show (10 : Nat) = (ascii "@BASENAME@").length from l1.symm, List.drop_left, ih m (by omega), Res.ok_bind, g1, g2]
  | name hf hb _ ih =>
    rename_i f n' b t o _
    intro n hn
    rw [List.length_append] at hn
    obtain ⟨m, rfl⟩ : ∃ m, n = m + 1 := ⟨n - 1, by omega⟩
    obtain ⟨n2, b2, g, g1, g2⟩ := names_of (hi f hf)
    obtain ⟨rfl, rfl⟩ := nameOf_unique hb g
    rw [c2, outName, ← c2, if_neg (fun e => d t (List.isPrefixOf_iff_prefix.1 e)), if_pos (List.isPrefixOf_iff_prefix.2 ⟨t, rfl⟩),
      one_ok.2 hf, Res.ok_bind, show (11 : Nat) = (ascii "@PLAINNAME@").length from l2.symm, List.drop_left, ih m (by omega),
      Res.ok_bind, g1]
  | char h1 h2 _ ih =>
    intro n hn
    simp only [List.length_cons] at hn
    obtain ⟨m, rfl⟩ : ∃ m, n = m + 1 := ⟨n - 1, by omega⟩
    rw [outName, if_neg (fun e => h1 (List.isPrefixOf_iff_prefix.1 e)), if_neg (fun e => h2 (List.isPrefixOf_iff_prefix.1 e)),
      ih m (by omega), Res.ok_bind]

theorem directiveChar_iff (f : Option Bytes) (d : UInt8) : directiveChar f = .ok d ↔ OutFormat f d := by
  constructor
  · intro h
    unfold directiveChar at h
    split at h
    · cases h; exact .none
    · split at h
      · rename_i e; subst e; cases h; exact .c
      · split at h
        · rename_i e; subst e; cases h; exact .nasm
        · cases h
  · intro h; cases h <;> decide +kernel

theorem syntaxOf_iff (f : Option Bytes) (x : Conf.Syntax) : syntaxOf f = .ok x ↔ Format f x := by
  constructor
  · intro h
    unfold syntaxOf at h
    split at h
    · cases h; exact .none
    · split at h
      · rename_i e; subst e; cases h; exact .meson
      · split at h
        · rename_i e; subst e; cases h; exact .cmake
        · split at h
          · rename_i e; subst e; cases h; exact .cmakeAt
          · cases h
  · intro h; cases h <;> decide +kernel

/-- What a call does, and whether it is accepted: the name of the output is what the text of `output` stands for, it has
no separator, the output format is one there is, and exactly one of a command, a configuration and `copy` is given, with
one input where one is needed. -/
theorem resolve_iff (build : Bytes) (c : Call) (h0 : 0 ∉ c.output) (hi : ∀ f, c.input = some [f] → IsFile f) (p : Bytes) (a : Act) :
    resolve build c = .ok (p, a) ↔
      ∃ name d, Output c.input c.output name ∧ 47 ∉ name ∧ p = Path.join build name ∧ OutFormat c.outputFormat d ∧ Asks c a := by
  have act_iff : ∀ d, OutFormat c.outputFormat d → xor false [c.command, c.conf.isSome, c.copy.isSome] = true → (act c d = .ok a ↔ Asks c a) := by
    intro d hd hx
    unfold act
    rcases hcm : c.command with _ | _ <;> rcases hcf : c.conf with _ | m <;> rcases hcp : c.copy with _ | b <;>
      simp only [hcm, hcf, hcp, xor, Option.isSome] at hx <;> simp at hx
    · -- copy
      simp only [Bool.false_eq_true, if_false, Option.isSome_some, if_true]
      constructor
      · intro h
        obtain ⟨f, hf, h⟩ := Res.bind_eq_ok.1 h
        cases h
        exact .copy hcm hcf hcp (one_ok.1 hf)
      · intro h
        cases h with
        | command h _ _ => rw [hcm] at h; cases h
        | copy _ _ _ h4 => rw [one_ok.2 h4, Res.ok_bind]
        | template _ h _ _ _ => rw [hcf] at h; cases h
        | header _ h _ _ _ => rw [hcf] at h; cases h
    · -- configuration
      simp only [Bool.false_eq_true, if_false, Option.isSome_none]
      cases hin : c.input with
      | none =>
        simp only [Option.isSome_none, Bool.false_eq_true, if_false]
        constructor
        · intro h; cases h; exact .header hcm hcf hcp hin hd
        · intro h
          cases h with
          | command h _ _ => rw [hcm] at h; cases h
          | copy _ h _ _ => rw [hcf] at h; cases h
          | template _ _ _ h _ => rw [hin] at h; cases h
          | header _ h _ _ h5 =>
            rw [hcf] at h; cases h
            have := (directiveChar_iff _ _).2 hd
            rw [(directiveChar_iff _ _).2 h5] at this
            cases this; rfl
      | some l =>
        simp only [Option.isSome_some, if_true]
        constructor
        · intro h
          obtain ⟨f, hf, h⟩ := Res.bind_eq_ok.1 h
          obtain ⟨x, hx, h⟩ := Res.bind_eq_ok.1 h
          cases h
          exact .template hcm hcf hcp (by rw [hin]; exact one_ok.1 hf) ((syntaxOf_iff _ _).1 hx)
        · intro h
          cases h with
          | command h _ _ => rw [hcm] at h; cases h
          | copy _ h _ _ => rw [hcf] at h; cases h
          | template _ h _ h4 h5 =>
            rw [hcf] at h; cases h
            rw [hin] at h4
            rw [one_ok.2 h4, Res.ok_bind, (syntaxOf_iff _ _).2 h5, Res.ok_bind]
          | header _ _ _ h _ => rw [hin] at h; cases h
    · -- command
      simp only [if_true]
      constructor
      · intro h; cases h; exact .command hcm hcf hcp
      · intro h
        cases h with
        | command _ _ _ => rfl
        | copy h _ _ _ => rw [hcm] at h; cases h
        | template h _ _ _ _ => rw [hcm] at h; cases h
        | header h _ _ _ _ => rw [hcm] at h; cases h
  have xor_asks : Asks c a → xor false [c.command, c.conf.isSome, c.copy.isSome] = true := by
    intro h
    cases h with
    | command h1 h2 h3 => rw [h1, h2, h3]; rfl
    | copy h1 h2 h3 _ => rw [h1, h2, h3]; rfl
    | template h1 h2 h3 _ _ => rw [h1, h2, h3]; rfl
    | header h1 h2 h3 _ _ => rw [h1, h2, h3]; rfl
  unfold resolve
  constructor
  · intro h
    obtain ⟨d, hd, h⟩ := Res.bind_eq_ok.1 h
    obtain ⟨o, ho, h⟩ := Res.bind_eq_ok.1 h
    obtain ⟨rfl, -⟩ := cstr_ok ho
    obtain ⟨name, hname, h⟩ := Res.bind_eq_ok.1 h
    have hd := (directiveChar_iff _ _).1 hd
    split at h
    · cases h
    · rename_i hb
      split at h
      · cases h
      · rename_i hx
        obtain ⟨a', ha, h⟩ := Res.bind_eq_ok.1 h
        cases h
        have hx : xor false [c.command, c.conf.isSome, c.copy.isSome] = true := by simpa using hx
        refine ⟨name, d, outName_sound _ hi _ _ _ (Nat.le_refl _) hname, ?_, rfl, hd, (act_iff d hd hx).1 ha⟩
        simpa [Path.isBasename] using hb
  · rintro ⟨name, d, h1, h2, rfl, h4, h5⟩
    have hb : Path.isBasename name = true := by simpa [Path.isBasename] using h2
    rw [(directiveChar_iff _ _).2 h4, Res.ok_bind, Conf.cstr, if_neg h0, Res.ok_bind, outName_complete _ hi _ _ h1 _ (Nat.le_refl _), Res.ok_bind,
      hb, xor_asks h5, (act_iff d h4 (xor_asks h5)).2 h5]
    rfl

/-- An accepted call has its output directly in the build directory, if the name is one of a file. -/
theorem output_place (build : Bytes) (c : Call) (p : Bytes) (a : Act) (hb : Names.Spec.Place build) (h0 : 0 ∉ c.output)
    (hi : ∀ f, c.input = some [f] → IsFile f) (h : resolve build c = .ok (p, a)) (name : Bytes) (hn : Output c.input c.output name)
    (hf : Names.Spec.FileName name) : comps p = comps build ++ [name] := by
  obtain ⟨name', d, h1, -, rfl, -⟩ := (resolve_iff build c h0 hi p a).1 h
  have : name' = name := by
    have e := outName_complete _ hi _ _ h1 c.output.length (Nat.le_refl _)
    rw [outName_complete _ hi _ _ hn c.output.length (Nat.le_refl _)] at e
    cases e; rfl
  subst this
  exact Names.join_comps hb hf

theorem installTo_iff (c : Call) (i : Option Bytes) : installTo c = .ok i ↔ Installs c i := by
  unfold installTo
  rcases h1 : c.install with _ | b <;> rcases h2 : c.installDir with _ | d
  · simp
    constructor
    · intro h; cases h; exact .nothing h1 h2
    · intro h; cases h with
      | nothing _ _ => rfl
      | asked h _ => rw [h1] at h; cases h
      | implied _ h => rw [h2] at h; cases h
      | no h => simp [h1] at h
  · simp
    constructor
    · intro h; cases h; exact .implied h1 h2
    · intro h; cases h with
      | nothing _ h => rw [h2] at h; cases h
      | asked h _ => rw [h1] at h; cases h
      | implied _ h => rw [h2] at h; exact h
      | no h => rw [h1] at h; cases h
  · cases b
    · simp
      constructor
      · intro h; cases h; exact .no h1
      · intro h; cases h with
        | nothing h _ => simp [h1] at h
        | asked h _ => rw [h1] at h; cases h
        | implied h _ => rw [h1] at h; cases h
        | no h => rfl
    · simp
      intro h; cases h with
      | nothing h _ => rw [h1] at h; cases h
      | asked _ h => rw [h2] at h; cases h
      | implied h _ => rw [h1] at h; cases h
      | no h => rw [h1] at h; cases h
  · cases b
    · simp
      constructor
      · intro h; cases h; exact .no h1
      · intro h; cases h with
        | nothing h _ => simp [h1] at h
        | asked h _ => rw [h1] at h; cases h
        | implied h _ => rw [h1] at h; cases h
        | no h => rfl
    · simp
      constructor
      · intro h; cases h; exact .asked h1 h2
      · intro h; cases h with
        | nothing h _ => rw [h1] at h; cases h
        | asked _ h => rw [h2] at h; exact h
        | implied h _ => rw [h1] at h; cases h
        | no h => rw [h1] at h; cases h

/-- The call succeeds exactly if it is accepted, what it asks for succeeds, and it says where to install what is to be
installed; then the file is the output, and it is installed there. -/
theorem configure_file_iff (build : Bytes) (perform : Bytes → Act → Bool) (c : Call) (h0 : 0 ∉ c.output)
    (hi : ∀ f, c.input = some [f] → IsFile f) (p : Bytes) (i : Option Bytes) :
    configureFile build perform c = .ok (p, i) ↔
      ∃ name d a, Output c.input c.output name ∧ 47 ∉ name ∧ p = Path.join build name ∧ OutFormat c.outputFormat d ∧ Asks c a ∧
        perform p a = true ∧ Installs c i := by
  unfold configureFile
  constructor
  · intro h
    obtain ⟨⟨p', a⟩, hr, h⟩ := Res.bind_eq_ok.1 h
    split at h
    · cases h
    · rename_i hp
      obtain ⟨i', hi', h⟩ := Res.bind_eq_ok.1 h
      cases h
      obtain ⟨name, d, h1, h2, h3, h4, h5⟩ := (resolve_iff build c h0 hi _ _).1 hr
      exact ⟨name, d, a, h1, h2, h3, h4, h5, by simpa using hp, (installTo_iff _ _).1 hi'⟩
  · rintro ⟨name, d, a, h1, h2, h3, h4, h5, h6, h7⟩
    rw [(resolve_iff build c h0 hi p a).2 ⟨name, d, h1, h2, h3, h4, h5⟩, Res.ok_bind]
    simp only [h6, Bool.not_true, Bool.false_eq_true, if_false, (installTo_iff _ _).2 h7, Res.ok_bind]

def exCall : Call :=
  { output := ascii "@BASENAME@-@PLAINNAME@.h", input := some [ascii "/s/a.tar.in"], conf := some [], format := some (ascii "cmake@"),
    installDir := some (ascii "include") }

example : configureFile (ascii "/b") (fun _ _ => true) exCall = .ok (ascii "/b/a.tar-a.tar.in.h", some (ascii "include")) ∧
    resolve (ascii "/b") exCall = .ok (ascii "/b/a.tar-a.tar.in.h", .template ⟨true, false⟩ (ascii "/s/a.tar.in") []) := by decide +kernel

/-- `copy: false` copies. -/
theorem copy_false_counterexample :
    resolve (ascii "/b") { output := ascii "x", input := some [ascii "/s/y"], copy := some false } = .ok (ascii "/b/x", .copy (ascii "/s/y")) := by
  decide +kernel

/-- The name `..` has no separator, so that the output is outside of the build directory. -/
theorem output_place_counterexample :
    resolve (ascii "/b/p") { output := ascii "..", conf := some [] } = .ok (ascii "/b/p/..", .header 35 []) := by decide +kernel

/-! ### `keyval.load()` -/

theorem says_ok {s : Option Bytes} {n : Nat} {ls : List Bytes} {es : List Ini.Event} {ok : Bool} (h : Ini.Spec.Says true s n ls es ok) :
    ok = true := by
  induction h with
  | nil => rfl
  | nothing _ _ ih => exact ih
  | sect _ _ ih => exact ih
  | pair _ _ ih => exact ih
  | invalid h =>
    exfalso
    generalize hi : Ini.Spec.Item.invalid = i at h
    cases h with
    | nothing _ => cases hi
    | sect h _ => cases h
    | noEnd h _ => cases h
    | pair => cases hi
    | noPair => simp at hi

theorem feed_load (es : List Ini.Event) (m : Map) : Ini.Spec.feed loadCb es m = (dmerge m (pairs es), true) := by
  induction es generalizing m with
  | nil => rfl
  | cons e es ih =>
    rw [Ini.Spec.feed]
    unfold pairs loadCb
    cases e.kv with
    | none => exact ih m
    | some kv => exact ih (dset m kv.1 (.str kv.2))

/-- A file with lines that all end in a line end, without NUL bytes, and whose first line is not `= value`, is loaded:
each key has the value of its last line, and the keys are in the order of their first lines. -/
theorem load_partial (ls : List Bytes) (es : List Ini.Event) (ok : Bool) (hne : ls ≠ []) (hls : ∀ l ∈ ls, Ini.Spec.Line l)
    (hf : ∀ l, ls.head? = some l → Ini.FirstOk true l) (h : Ini.Spec.Says true none 1 ls es ok) :
    ∃ m, load (some (Ini.Spec.file ls)) = .ok m ∧ (∀ k, dget m k = last (pairs es) k) ∧ keys m = add [] ((pairs es).map (·.1)) := by
  refine ⟨dmerge [] (pairs es), ?_, fun k => ?_, ?_⟩
  · have := Ini.parse_says_partial true loadCb [] ls es ok hne hls hf h
    rw [feed_load, says_ok h] at this
    simp only [load, this, Res.ok_bind]
    rfl
  · rw [dget_dmerge]; simp [dget]
  · rw [keys_dmerge]; rfl

/-- A file that cannot be read is not an empty one: what was loaded was in a file. -/
theorem load_reads {content : Option Bytes} {m : Map} (h : load content = .ok m) : ∃ t, content = some t := by
  cases content with
  | none => cases h
  | some t => exact ⟨t, rfl⟩

example : load (some (ascii "# c\nA = 1\nno pair\nB=x y \nA=2\n")) = .ok [(ascii "A", .str (ascii "2")), (ascii "B", .str (ascii "x y"))] := by
  decide +kernel

/-- A file without a line end at its end is read beyond its end. -/
theorem load_counterexample : load (some (ascii "A=1")) = .bad := by decide +kernel

end Muon.Cdata
