import Verif.Tap.Spec
import Verif.Str.Format
/-
Properties C47, C72.
-/
namespace Muon.Tap
open Muon Muon.Lines Muon.Str Muon.Tap.Spec

theorem after_some (pat s r : Bytes) (hp : pat ≠ []) (h : after pat s = some r) :
    ∃ a, s = a ++ pat ++ r ∧ ∀ a' r', s = a' ++ pat ++ r' → a.length ≤ a'.length := by
  induction s with
  | nil => rw [after, if_neg hp] at h; cases h
  | cons c s ih =>
    rw [after] at h
    by_cases hx : pat.isPrefixOf (c :: s) = true
    · rw [if_pos hx] at h
      obtain ⟨t, ht⟩ := List.isPrefixOf_iff_prefix.mp hx
      cases h
      refine ⟨[], ?_, by simp⟩
      rw [← ht, List.drop_left]; rfl
    · rw [if_neg hx] at h
      obtain ⟨a, rfl, ha⟩ := ih h
      refine ⟨c :: a, rfl, ?_⟩
      intro a' r' e
      cases a' with
      | nil => exact absurd (List.isPrefixOf_iff_prefix.mpr ⟨r', e.symm⟩) hx
      | cons d a' =>
        simp only [List.cons_append, List.cons.injEq] at e
        have := ha a' r' e.2
        simp only [List.length_cons]; omega

theorem after_none (pat s : Bytes) (h : after pat s = none) (a r : Bytes) : s ≠ a ++ pat ++ r := by
  induction s generalizing a with
  | nil =>
    intro e
    have := List.append_eq_nil_iff.mp e.symm
    have := List.append_eq_nil_iff.mp this.1
    rw [after, if_pos this.2] at h; cases h
  | cons c s ih =>
    intro e
    rw [after] at h
    by_cases hx : pat.isPrefixOf (c :: s) = true
    · rw [if_pos hx] at h; cases h
    · rw [if_neg hx] at h
      cases a with
      | nil => exact hx (List.isPrefixOf_iff_prefix.mpr ⟨r, e.symm⟩)
      | cons d a =>
        simp only [List.cons_append, List.cons.injEq] at e
        exact ih h a e.2

theorem toLower_eq : toLower = lower := by
  funext c
  have key : ∀ c : UInt8, toLower c = lower c := forall_byte (by decide +kernel)
  exact key c

theorem startsWithI_iff (s w : Bytes) : startsWithI s w = true ↔ ∃ b c, s = b ++ c ∧ b.map lower = w := by
  unfold startsWithI
  rw [toLower_eq, List.isPrefixOf_iff_prefix]
  constructor
  · rintro ⟨t, ht⟩
    refine ⟨s.take w.length, s.drop w.length, (List.take_append_drop _ _).symm, ?_⟩
    rw [List.map_take, ← ht, List.take_left]
  · rintro ⟨b, c, rfl, rfl⟩
    exact ⟨c.map lower, by rw [List.map_append]⟩

/-- The directive found is the one the line has. -/
theorem has_iff (rest w : Bytes) : Has rest w ↔ ∃ d, after (ascii " # ") rest = some d ∧ startsWithI d w = true := by
  constructor
  · rintro ⟨a, b, c, e, hb, hf⟩
    cases h : after (ascii " # ") rest with
    | none => rw [List.append_assoc] at e; exact absurd e (after_none _ _ h a _)
    | some d =>
      obtain ⟨a', e', hf'⟩ := after_some _ _ _ (by decide) h
      have h1 := hf' a (b ++ c) (by rw [← List.append_assoc]; exact e)
      have h2 := hf a' d e'
      have h3 : a.length = a'.length := by omega
      rw [e', List.append_assoc, List.append_assoc, List.append_assoc] at e
      have h4 := (List.append_inj e h3.symm).2
      have h5 := List.append_cancel_left h4
      exact ⟨d, rfl, (startsWithI_iff d w).mpr ⟨b, c, h5, hb⟩⟩
  · rintro ⟨d, h, hs⟩
    obtain ⟨a, e, hf⟩ := after_some _ _ _ (by decide) h
    obtain ⟨b, c, rfl, hb⟩ := (startsWithI_iff d w).mp hs
    exact ⟨a, b, c, by rw [List.append_assoc _ b]; exact e, hb, hf⟩

theorem startsWithI_todo_skip (d : Bytes) (h1 : startsWithI d (ascii "todo") = true) (h2 : startsWithI d (ascii "skip") = true) : False := by
  unfold startsWithI at h1 h2
  obtain ⟨t1, e1⟩ := List.isPrefixOf_iff_prefix.mp h1
  obtain ⟨t2, e2⟩ := List.isPrefixOf_iff_prefix.mp h2
  rw [← e1] at e2
  have := congrArg List.head? e2
  revert this
  rw [show ascii "skip" = 115 :: ascii "kip" from by decide, show ascii "todo" = 116 :: ascii "odo" from by decide]
  simp

theorem directive_skip (r : Bytes) : directive r = .skip ↔ Has r (ascii "skip") := by
  rw [has_iff]
  unfold directive
  cases h : after (ascii " # ") r with
  | none => simp
  | some d =>
    dsimp only
    by_cases h1 : startsWithI d (ascii "todo") = true
    · rw [if_pos h1]
      constructor
      · intro h; cases h
      · rintro ⟨d', e, hs⟩; cases e; exact (startsWithI_todo_skip d h1 hs).elim
    · rw [if_neg h1]
      by_cases h2 : startsWithI d (ascii "skip") = true
      · rw [if_pos h2]; exact ⟨fun _ => ⟨d, rfl, h2⟩, fun _ => rfl⟩
      · rw [if_neg h2]
        constructor
        · intro h; cases h
        · rintro ⟨d', e, hs⟩; cases e; exact absurd hs h2

theorem directive_todo (r : Bytes) : directive r = .todo ↔ Has r (ascii "todo") := by
  rw [has_iff]
  unfold directive
  cases h : after (ascii " # ") r with
  | none => simp
  | some d =>
    dsimp only
    by_cases h1 : startsWithI d (ascii "todo") = true
    · rw [if_pos h1]; exact ⟨fun _ => ⟨d, rfl, h1⟩, fun _ => rfl⟩
    · rw [if_neg h1]
      constructor
      · intro h; split at h <;> cases h
      · rintro ⟨d', e, hs⟩; cases e; exact absurd hs h1

/-- `strtol` on white space, an optional plus sign and digits. -/
theorem strtol_number (ws sign ds : Bytes) (hw : ∀ c ∈ ws, isSpace c = true) (hs : sign = [] ∨ sign = [43]) (h1 : ds ≠ [])
    (h2 : ∀ c ∈ ds, isDigit c = true) :
    strtol (ws ++ sign ++ ds) = (min int64Max (digitsVal ds : Int), ws.length + sign.length + ds.length) := by
  obtain ⟨d, ds', rfl⟩ := List.exists_cons_of_ne_nil h1
  have hd := h2 d (by simp)
  have hdn : isSpace d = false ∧ d ≠ 45 ∧ d ≠ 43 := by
    have key : ∀ c : UInt8, isDigit c = true → isSpace c = false ∧ c ≠ 45 ∧ c ≠ 43 := forall_byte (by decide +kernel)
    exact key d hd
  have htw : ∀ t : Bytes, (∀ c, t.head? = some c → isSpace c = false) → (ws ++ t).takeWhile isSpace = ws := by
    intro t ht
    induction ws with
    | nil =>
      cases t with
      | nil => rfl
      | cons c t => rw [List.nil_append, List.takeWhile_cons, if_neg (by rw [ht c rfl]; simp)]
    | cons c ws ih =>
      rw [List.cons_append, List.takeWhile_cons_of_pos (hw c (by simp)), ih (fun c hc => hw c (by simp [hc]))]
  have hall : (d :: ds').takeWhile isDigit = d :: ds' := by
    have : ∀ t : Bytes, (∀ c ∈ t, isDigit c = true) → t.takeWhile isDigit = t := by
      intro t ht
      induction t with
      | nil => rfl
      | cons c t ih => rw [List.takeWhile_cons_of_pos (ht c (by simp)), ih (fun c hc => ht c (by simp [hc]))]
    exact this _ h2
  have hmax : ∀ n : Nat, max int64Min (min int64Max (n : Int)) = min int64Max (n : Int) := by
    intro n; unfold int64Min int64Max; omega
  have hsg : signOf (sign ++ d :: ds') = (false, sign.length) ∧ ∀ c, (sign ++ d :: ds').head? = some c → isSpace c = false := by
    rcases hs with rfl | rfl
    · refine ⟨?_, fun c hc => by cases hc; exact hdn.1⟩
      rw [List.nil_append]
      unfold signOf
      split
      · next e => cases e; exact absurd rfl hdn.2.1
      · next e => cases e; exact absurd rfl hdn.2.2
      · rfl
    · exact ⟨rfl, fun c hc => by cases hc; decide⟩
  unfold strtol
  dsimp only
  rw [List.append_assoc, htw _ hsg.2, List.drop_left, hsg.1]
  dsimp only
  rw [List.drop_left, hall, if_neg (by simp)]
  simp only [Bool.false_eq_true, if_false, hmax]

theorem number_iff (d : Bytes) (n : Nat) : (∃ v : Int, strToI d d.length false = some v ∧ v > 0 ∧ n = v.toNat) ↔ Number d n := by
  have hst : strToI d d.length false = if (strtol d).2 = d.length then some (strtol d).1 else none := by
    unfold strToI; simp
  rw [hst]
  constructor
  · rintro ⟨v, hv, hp, hn⟩
    by_cases he : (strtol d).2 = d.length
    · rw [if_pos he] at hv
      cases hv
      have h0 : (strtol d).2 ≠ 0 := by
        intro h; have := strtol_zero d h; omega
      obtain ⟨ws, sign, ds, rest, e, hw, hs, h1, h2, h3, h4, -, -⟩ := strtol_accepts d h0
      have hrest : rest = [] := by
        have hl := congrArg List.length e
        simp only [List.length_append] at hl
        exact List.eq_nil_of_length_eq_zero (by omega)
      subst hrest
      rw [List.append_nil] at e
      have hs' : sign = [] ∨ sign = [43] := by
        rcases hs with h | h | h
        · exact .inl h
        · exact .inr h
        · rw [h4, if_pos h] at hp
          exfalso
          revert hp
          unfold int64Min int64Max; omega
      have h45 : sign ≠ [45] := by rcases hs' with h | h <;> rw [h] <;> decide
      rw [if_neg h45] at h4
      refine ⟨ws, sign, ds, e, hw, hs', h1, h2, ?_, ?_⟩
      · rw [hn, h4, natVal_eq]; unfold int64Min int64Max; omega
      · rw [hn]; omega
    · rw [if_neg he] at hv; cases hv
  · rintro ⟨ws, sign, ds, rfl, hw, hs, h1, h2, hn, hp⟩
    rw [strtol_number ws sign ds hw hs h1 h2]
    rw [natVal_eq] at hn
    refine ⟨min int64Max (digitsVal ds : Int), by rw [if_pos]; simp [Nat.add_assoc], ?_, ?_⟩
    · unfold int64Max; omega
    · unfold int64Max; omega

/-- What a line changes. -/
def apply (st : St) : Kind → St
  | .plan n => { st with havePlan := true, total := n % 2 ^ 32 }
  | .pass => { st with pass := st.pass + 1 }
  | .skip => { st with skip := st.skip + 1 }
  | .fail => { st with fail := st.fail + 1 }
  | .other => st

theorem pre (p r : Bytes) : p.isPrefixOf (p ++ r) = true := List.isPrefixOf_iff_prefix.mpr ⟨r, rfl⟩

theorem count_eq (st : St) (ok : Bool) (r : Bytes) :
    count st ok r = if directive r = .skip then { st with skip := st.skip + 1 }
      else if ok then { st with pass := st.pass + 1 }
      else if directive r = .todo then { st with skip := st.skip + 1 } else { st with fail := st.fail + 1 } := by
  unfold count
  cases directive r <;> simp

theorem line_ok (st : St) (r : Bytes) : line st (ascii "ok" ++ r) = count st true r := by
  have e : ascii "ok" ++ r = 111 :: 107 :: r := rfl
  unfold line
  rw [if_neg, if_neg, if_pos (pre _ _)]
  · rfl
  · rw [e]; simp [List.isPrefixOf, show ascii "Bail out!" = 66 :: ascii "ail out!" from by decide]
  · rw [e]; simp [List.isPrefixOf, show ascii "1.." = 49 :: ascii ".." from by decide]

theorem line_notok (st : St) (r : Bytes) : line st (ascii "not ok" ++ r) = count st false r := by
  have e : ascii "not ok" ++ r = 110 :: (ascii "ot ok" ++ r) := rfl
  unfold line
  rw [if_neg, if_neg, if_neg, if_pos (pre _ _)]
  · rfl
  · rw [e]; simp [List.isPrefixOf, show ascii "ok" = 111 :: ascii "k" from by decide]
  · rw [e]; simp [List.isPrefixOf, show ascii "Bail out!" = 66 :: ascii "ail out!" from by decide]
  · rw [e]; simp [List.isPrefixOf, show ascii "1.." = 49 :: ascii ".." from by decide]

/-- A line is counted as what it is. -/
theorem line_is (st : St) (l : Bytes) (k : Kind) (h : Is l k) : line st l = apply st k := by
  cases h with
  | @plan d n hn =>
    have hd : d ≠ [] := by
      obtain ⟨ws, sign, ds, rfl, -, -, h1, -⟩ := hn
      intro h; exact h1 (List.append_eq_nil_iff.mp h).2
    obtain ⟨v, hv, hp, hnv⟩ := (number_iff d n).mpr hn
    unfold line
    rw [if_pos]
    · rw [show (ascii "1.." ++ d).drop 3 = d from rfl]
      unfold plan
      rw [hv]
      dsimp only
      rw [if_pos hp, hnv]; rfl
    · rw [pre]
      have e : (ascii "1.." ++ d).length = 3 + d.length := by rw [List.length_append]; rfl
      have := List.length_pos_iff.mpr hd
      rw [e]; simp; omega
  | pass h => rw [line_ok, count_eq, if_neg (fun e => h ((directive_skip _).mp e)), if_pos rfl]; rfl
  | okSkip h => rw [line_ok, count_eq, if_pos ((directive_skip _).mpr h)]; rfl
  | @skip r h =>
    rw [line_notok, count_eq]
    by_cases hs : directive r = .skip
    · rw [if_pos hs]; rfl
    · have ht : directive r = .todo := by
        rcases h with h | h
        · exact absurd ((directive_skip r).mpr h) hs
        · exact (directive_todo r).mpr h
      rw [if_neg hs, if_neg (by simp), if_pos ht]; rfl
  | fail h1 h2 =>
    rw [line_notok, count_eq, if_neg (fun e => h1 ((directive_skip _).mp e)), if_neg (by simp),
      if_neg (fun e => h2 ((directive_todo _).mp e))]; rfl
  | other h1 h2 h3 =>
    unfold line
    by_cases hp : ((ascii "1..").isPrefixOf l && l.length > 3) = true
    · rw [if_pos hp]
      rw [Bool.and_eq_true] at hp
      obtain ⟨d, rfl⟩ := List.isPrefixOf_iff_prefix.mp hp.1
      rw [show (ascii "1.." ++ d).drop 3 = d from rfl]
      unfold plan
      split
      · next v hv =>
        rw [if_neg]
        · rfl
        · intro hpos
          exact h1 d v.toNat ((number_iff d _).mp ⟨v, hv, hpos, rfl⟩) rfl
      · rfl
    · rw [if_neg hp]
      split
      · rfl
      · rw [if_neg (fun e => h2 (List.isPrefixOf_iff_prefix.mp e)), if_neg (fun e => h3 (List.isPrefixOf_iff_prefix.mp e))]; rfl

/-- Every line is something. -/
theorem is_total (l : Bytes) : ∃ k, Is l k := by
  by_cases h1 : ∃ d n, Number d n ∧ l = ascii "1.." ++ d
  · obtain ⟨d, n, hn, rfl⟩ := h1; exact ⟨_, .plan hn⟩
  · by_cases h2 : ascii "ok" <+: l
    · obtain ⟨r, rfl⟩ := h2
      by_cases hs : Has r (ascii "skip")
      · exact ⟨_, .okSkip hs⟩
      · exact ⟨_, .pass hs⟩
    · by_cases h3 : ascii "not ok" <+: l
      · obtain ⟨r, rfl⟩ := h3
        by_cases hs : Has r (ascii "skip")
        · exact ⟨_, .skip (.inl hs)⟩
        · by_cases ht : Has r (ascii "todo")
          · exact ⟨_, .skip (.inr ht)⟩
          · exact ⟨_, .fail hs ht⟩
      · exact ⟨_, .other (fun d n hn e => h1 ⟨d, n, hn, e⟩) h2 h3⟩

theorem stream_total (ls : List Bytes) : ∃ ks, Stream ls ks := by
  induction ls with
  | nil => exact ⟨[], .nil⟩
  | cons l ls ih =>
    obtain ⟨ks, h⟩ := ih
    obtain ⟨k, hk⟩ := is_total l
    exact ⟨k :: ks, .cons hk h⟩

theorem runMem_fold (b : Bool) (ls : List Bytes) (st : St) :
    runMem (fun _ st l => .ok (line st l, true)) b ls st = .ok (ls.foldl line st) := by
  induction ls generalizing b st with
  | nil => rfl
  | cons l ls ih => rw [runMem, Res.ok_bind, if_neg (by simp), ih]; rfl

theorem fold_stream (ls : List Bytes) (ks : List Kind) (h : Stream ls ks) (st : St) :
    ls.foldl line st = ⟨st.havePlan || (lastPlan ks).isSome, (match lastPlan ks with | some n => n % 2 ^ 32 | none => st.total),
      st.pass + ks.count .pass, st.fail + ks.count .fail, st.skip + ks.count .skip⟩ := by
  induction h generalizing st with
  | nil => simp [lastPlan]
  | @cons l k ls ks hk _ ih =>
    rw [List.foldl_cons, line_is st l k hk, ih]
    cases hl : lastPlan ks with
    | some n => cases k <;> simp [lastPlan, hl, apply] <;> omega
    | none => cases k <;> simp [lastPlan, hl, apply] <;> omega

/-- What is counted, and the verdict: as many tests as in the last plan (modulo 2^32) have passed or were skipped; without
a plan, none has failed (modulo 2^32). The lines are those before the first NUL byte. -/
theorem tap_parse (out : Bytes) (ks : List Kind) (h : Stream (toLines (out.takeWhile (· ≠ 0))) ks) :
    ∃ st, parse out = .ok (st, match lastPlan ks with
        | some n => n % 2 ^ 32 == (ks.count .pass + ks.count .skip) % 2 ^ 32
        | none => (ks.count .pass + ks.count .skip + ks.count .fail) % 2 ^ 32 == (ks.count .pass + ks.count .skip) % 2 ^ 32) ∧
      st.pass = ks.count .pass ∧ st.skip = ks.count .skip ∧ st.fail = ks.count .fail := by
  unfold parse
  rw [eachLineMem_eq _ 1 _ _ _ _ (by simp) ⟨by omega, .inl (by simp)⟩]
  have e : (out ++ [0]).takeWhile (· ≠ 0) = out.takeWhile (· ≠ 0) := by
    clear h
    induction out with
    | nil => rfl
    | cons c out ih =>
      rw [List.cons_append, List.takeWhile_cons, List.takeWhile_cons]
      split
      · rw [ih]
      · rfl
  rw [e, runMem_fold, Res.ok_bind, fold_stream _ ks h]
  cases hl : lastPlan ks with
  | some n => exact ⟨⟨true, n % 2 ^ 32, ks.count .pass, ks.count .fail, ks.count .skip⟩, by simp, rfl, rfl, rfl⟩
  | none => exact ⟨_, by simp; rfl, by simp, by simp, by simp⟩

/-- The number of lines of a stream is small. -/
def Small (ks : List Kind) : Prop := ks.length < 2 ^ 32 ∧ ∀ n, lastPlan ks = some n → n < 2 ^ 32

theorem counts_le (ks : List Kind) : ks.count .pass + ks.count .skip + ks.count .fail ≤ ks.length := by
  induction ks with
  | nil => simp
  | cons k ks ih => cases k <;> simp <;> omega

/-- A good stream gets the verdict success. -/
theorem tap_good (out : Bytes) (ks : List Kind) (h : Stream (toLines (out.takeWhile (· ≠ 0))) ks) (hg : Good ks) :
    ∃ st, parse out = .ok (st, true) := by
  obtain ⟨st, hp, -⟩ := tap_parse out ks h
  refine ⟨st, ?_⟩
  rw [hp]
  have h0 := hg.1
  cases hl : lastPlan ks with
  | some n =>
    have := hg.2 n hl
    rw [h0, Nat.add_zero] at this
    simp [this]
  | none => simp [h0]

/-- The verdict is success exactly for good streams, if there are no more tests than planned (and fewer than 2^32). -/
theorem tap_verdict_partial (out : Bytes) (ks : List Kind) (h : Stream (toLines (out.takeWhile (· ≠ 0))) ks) (hs : Small ks)
    (hm : ∀ n, lastPlan ks = some n → ks.count .pass + ks.count .skip + ks.count .fail ≤ n) :
    ∃ st b, parse out = .ok (st, b) ∧ (b = true ↔ Good ks) := by
  obtain ⟨st, hp, -⟩ := tap_parse out ks h
  refine ⟨st, _, hp, ?_⟩
  have hc := counts_le ks
  have hlen := hs.1
  cases hl : lastPlan ks with
  | some n =>
    have h1 := hs.2 n hl
    have h2 := hm n hl
    dsimp only
    rw [beq_iff_eq, Nat.mod_eq_of_lt h1, Nat.mod_eq_of_lt (by omega)]
    unfold Good
    rw [hl]
    constructor
    · intro e; exact ⟨by omega, fun m hm => by cases hm; omega⟩
    · rintro ⟨e1, e2⟩; have := e2 n rfl; omega
  | none =>
    dsimp only
    rw [beq_iff_eq, Nat.mod_eq_of_lt (by omega), Nat.mod_eq_of_lt (by omega)]
    unfold Good
    rw [hl]
    constructor
    · intro e; exact ⟨by omega, fun m hm => by cases hm⟩
    · rintro ⟨e1, -⟩; omega

/-- Every stream without NUL bytes has lines that are something. -/
example : ∃ ks, Stream (toLines ((ascii "1..2\nok 1\nnot ok 2 # TODO x\n").takeWhile (· ≠ 0))) ks := stream_total _

example : (parse (ascii "1..2\nok 1\nnot ok 2 # TODO x\n") = .ok (⟨true, 2, 1, 0, 1⟩, true)) ∧
    (parse (ascii "ok\nnot ok 2") = .ok (⟨false, 2, 1, 1, 0⟩, false)) ∧
    (parse (ascii "1..3\nok\nok") = .ok (⟨true, 3, 2, 0, 0⟩, false)) := by
  decide +kernel

/-- A stream with a failed test beyond its plan gets the verdict success. -/
theorem tap_extra_counterexample : parse (ascii "1..1\nok 1\nnot ok 2\n") = .ok (⟨true, 1, 1, 1, 0⟩, true) := by
  decide +kernel

/-- A stream whose program gave up gets the verdict success. -/
theorem tap_bail_counterexample : parse (ascii "ok 1\nBail out!\n") = .ok (⟨false, 1, 1, 0, 0⟩, true) := by
  decide +kernel

/-- Only 32 bits of the plan are kept. -/
theorem tap_plan_counterexample : parse (ascii "1..4294967297\nok 1\n") = .ok (⟨true, 1, 1, 0, 0⟩, true) := by
  decide +kernel

/-- A NUL byte hides the rest of the output. -/
theorem tap_nul_counterexample : parse (ascii "ok 1\n" ++ [0] ++ ascii "\nnot ok 2\n") = .ok (⟨false, 1, 1, 0, 0⟩, true) := by
  decide +kernel

/-! ### C72 -/

/-- A test that is not TAP and whose program ends in time: success for exit code 0, skipped for 77, failure otherwise; a
test that should fail is not reported as failed by any exit code. -/
theorem exit_verdict (sf : Bool) (code : Nat) (out : Option Bytes) :
    collect ⟨false, sf⟩ .running (.exit code) out =
      .ok (if code = 0 then .ok else if code = 77 then .skipped else if sf then .ok else .failed) := by
  simp only [collect, checkExit]
  rw [if_neg (show ¬ (false = true) by simp), Res.ok_bind]
  by_cases h0 : code = 0
  · simp [h0]
  · by_cases h77 : code = 77
    · simp [h77]
    · cases sf <;> simp [h0, h77]

/-- A test that ran out of time, and one that was ended by a signal, is never a success. -/
theorem abnormal_verdict (t : Test) (e : End) (out : Option Bytes) :
    collect t .timedout e out = .ok .timedout ∧ collect t .running .error out = .ok .failed := by
  simp [collect]

/-- A TAP test that gave some output: the verdict on its output. -/
theorem tap_test_verdict (sf : Bool) (code : Nat) (o : Bytes) (ho : o ≠ []) (st : St) (b : Bool) (h : parse o = .ok (st, b)) :
    collect ⟨true, sf⟩ .running (.exit code) (some o) = .ok (if b || sf then .ok else .failed) := by
  obtain ⟨c, o, rfl⟩ := List.exists_cons_of_ne_nil ho
  simp only [collect, checkTap, h]
  cases b <;> cases sf <;> simp [Res.ok_bind]

/-- `muon test` succeeds exactly if no test failed or ran out of time. -/
theorem overall_iff (rs : List Status) : overall rs = true ↔ ∀ s ∈ rs, s ≠ .failed ∧ s ≠ .timedout := by
  unfold overall
  have key : ∀ (rs : List Status) (b : Bool),
      rs.foldl (fun ret s => if s = .failed then false else if s = .timedout then false else ret) b = true ↔
        b = true ∧ ∀ s ∈ rs, s ≠ .failed ∧ s ≠ .timedout := by
    intro rs
    induction rs with
    | nil => simp
    | cons s rs ih =>
      intro b
      rw [List.foldl_cons, ih]
      cases s <;> simp
  rw [key]; simp

/-- A test that should fail and does not is reported as a success. -/
theorem should_fail_counterexample : collect ⟨false, true⟩ .running (.exit 0) none = .ok .ok := by decide +kernel

/-- The exit code of a TAP program is not looked at. -/
theorem tap_exit_counterexample : collect ⟨true, false⟩ .running (.exit 1) (some (ascii "ok\n")) = .ok .ok := by decide +kernel

/-- A TAP test without output, or whose output is not captured, makes `muon test` read through a null pointer. -/
theorem tap_empty_counterexample : collect ⟨true, false⟩ .running (.exit 0) (some []) = .bad ∧
    collect ⟨true, false⟩ .running (.exit 0) none = .bad := by decide +kernel

end Muon.Tap
