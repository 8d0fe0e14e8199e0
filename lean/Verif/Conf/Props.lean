import Verif.Conf.Subst
/-
Properties C40, C41.
-/
namespace Muon.Conf
open Muon Muon.Conf.Spec

theorem loop_eq (x : Syntax) (conf : Conf) (n sol : Nat) (c : UInt8) (s : Bytes) :
    loop x conf (n + 1) sol (c :: s ++ [0]) =
      step x conf ((c :: s).length + 1 = (if c = 10 then s.length + 1 else sol)) (c :: s ++ [0]) >>= fun r =>
        loop x conf n (if c = 10 then s.length + 1 else sol) r.2 >>= fun o => .ok (r.1 ++ o) := by
  rw [loop, if_neg (by simp), rd_eq, Res.ok_bind]
  rw [show (c :: s).headD 0 = c from rfl]
  have : (c :: s ++ [0]).length - 1 = s.length + 1 := by simp
  have h2 : (c :: s ++ [0]).length = (c :: s).length + 1 := by simp
  dsimp only
  rw [this, h2]

theorem step_define (x : Syntax) (conf : Conf) (t : Bytes) :
    step x conf true (define x ++ t ++ [0]) = defineLine x conf (t ++ [0]) := by
  unfold step
  rw [if_pos rfl, cmpn_eq _ (define_no0 x), Res.ok_bind, if_pos (List.isPrefixOf_iff_prefix.mpr ⟨t, rfl⟩),
    List.append_assoc, List.drop_left]

theorem step_text (x : Syntax) (conf : Conf) (b : Bool) (s : Bytes) (h : b = true → ¬ define x <+: s) :
    step x conf b (s ++ [0]) = stepText x conf (s ++ [0]) := by
  unfold step
  cases b with
  | false => rw [if_neg (by simp), Res.ok_bind, if_neg (by simp)]
  | true => rw [if_pos rfl, cmpn_eq _ (define_no0 x), Res.ok_bind, if_neg (fun e => h rfl (List.isPrefixOf_iff_prefix.mp e))]

theorem token_shorter {x : Syntax} {conf : Conf} {s l r : Bytes} (h : Token x conf s l r) : r.length < s.length := by
  have := List.length_pos_iff.mpr (varStart_ne x)
  cases h <;> simp only [List.length_append, List.length_replicate, List.length_cons, List.length_nil] <;> omega

theorem token_nonempty {x : Syntax} {conf : Conf} {s l r : Bytes} (h : Token x conf s l r) : s ≠ [] := by
  have := token_shorter h
  rintro rfl; simp at this

/-- A token other than the end of a line. -/
theorem subst_token {x : Syntax} {conf : Conf} {s l r o : Bytes} (hc : s.head? ≠ some 10) (h : Token x conf s l r)
    (hs : SubstWith (define x) (varStart x) (varEnd x) x conf false r o) : SubstWith (define x) (varStart x) (varEnd x) x conf false s (l ++ o) := by
  cases h with
  | var h1 h2 h3 h4 => exact .var h1 h2 h3 h4 hs
  | literal h => exact .literal h hs
  | even h1 h2 => exact .even h1 h2 hs
  | odd => exact .odd hs
  | slashes h1 h2 h3 => exact .slashes h1 h2 h3 hs
  | copy h1 h2 => exact .copy (fun e => hc (by rw [e]; rfl)) h1 h2 hs

theorem newline_token (x : Syntax) (conf : Conf) (s : Bytes) : Token x conf (10 :: s) [10] s := by
  refine .copy (by decide) ?_
  intro h
  exact (prefix_head x _ h).2 rfl

theorem loop_sound (x : Syntax) (conf : Conf) (n sol : Nat) (s o : Bytes) (hsol : s.length + 1 ≤ sol)
    (h : loop x conf n sol (s ++ [0]) = .ok o) : SubstWith (define x) (varStart x) (varEnd x) x conf (decide (s.length + 1 = sol)) s o := by
  induction n generalizing sol s o with
  | zero => cases h
  | succ n ih =>
    have line : ∀ {s o : Bytes} {b : Bool}, (b = true → ¬ define x <+: s) → SubstWith (define x) (varStart x) (varEnd x) x conf false s o → SubstWith (define x) (varStart x) (varEnd x) x conf b s o := by
      intro s o b hb hs
      cases b with
      | false => exact hs
      | true => exact .line (hb rfl) hs
    have hnil : ¬ define x <+: [] := by
      rw [List.prefix_nil]; unfold define; split <;> decide
    cases s with
    | nil =>
      rw [loop, if_pos (by simp)] at h
      cases h
      exact line (fun _ => hnil) .nil
    | cons c s =>
      rw [loop_eq] at h
      obtain ⟨r, hr, h⟩ := Res.bind_eq_ok.mp h
      obtain ⟨o', ho, h⟩ := Res.bind_eq_ok.mp h
      cases h
      by_cases hc : c = 10
      · subst hc
        rw [if_pos rfl, show decide ((10 :: s).length + 1 = s.length + 1) = false from by simp] at hr
        rw [if_pos rfl] at ho
        rw [step_text _ _ _ _ (by simp), stepText_complete x conf _ _ _ (newline_token x conf s)] at hr
        cases hr
        have := ih _ s o' (Nat.le_refl _) ho
        rw [decide_eq_true rfl] at this
        refine line (fun _ hp => ?_) (.newline this)
        obtain ⟨t, ht⟩ := hp
        unfold define at ht
        split at ht <;> simp at ht
      · rw [if_neg hc] at hr ho
        by_cases hd : decide ((c :: s).length + 1 = sol) = true ∧ define x <+: c :: s
        · obtain ⟨h1, t, ht⟩ := hd
          rw [h1, ← ht] at hr ⊢
          rw [step_define] at hr
          obtain ⟨ln, k, s', rfl, hq, hl, he, hdef⟩ := (defineLine_iff x conf t r.1 r.2).mp hr
          rw [hq] at ho
          have hlt : s'.length + 1 < sol := by
            have := congrArg List.length ht
            simp only [List.length_append] at this
            have h0 : 0 < (define x).length := by unfold define; split <;> decide
            omega
          have := ih sol s' o' (by omega) ho
          rw [show decide (s'.length + 1 = sol) = false from by simp; omega] at this
          rw [← List.append_assoc]
          exact .define hl he hdef this
        · have hd' : decide ((c :: s).length + 1 = sol) = true → ¬ define x <+: c :: s := fun h1 h2 => hd ⟨h1, h2⟩
          rw [step_text _ _ _ _ hd'] at hr
          obtain ⟨q, hq, ht⟩ := stepText_sound x conf (c :: s) r.1 r.2 (by simp) hr
          rw [hq] at ho
          have hlt := token_shorter ht
          have := ih sol q o' (by omega) ho
          rw [show decide (q.length + 1 = sol) = false from by simp; omega] at this
          exact line hd' (subst_token (by simpa using hc) ht this)

theorem loop_complete (x : Syntax) (conf : Conf) (b : Bool) (s o : Bytes) (h : SubstWith (define x) (varStart x) (varEnd x) x conf b s o) (n sol : Nat)
    (hn : s.length < n) (hsol : s.length + 1 ≤ sol) (hb : b = true → sol = s.length + 1)
    (hb' : b = false → sol = s.length + 1 → ¬ define x <+: s) : loop x conf n sol (s ++ [0]) = .ok o := by
  have tok : ∀ {s l r o : Bytes} {n sol : Nat}, s.head? ≠ some 10 → s.length < n → s.length + 1 ≤ sol →
      (sol = s.length + 1 → ¬ define x <+: s) → Token x conf s l r →
      (∀ n sol, r.length < n → r.length + 1 ≤ sol → sol ≠ r.length + 1 → loop x conf n sol (r ++ [0]) = .ok o) →
      loop x conf n sol (s ++ [0]) = .ok (l ++ o) := by
    intro s l r o n sol hc hn hsol hd ht ih
    have hlt := token_shorter ht
    obtain ⟨n, rfl⟩ : ∃ m, n = m + 1 := ⟨n - 1, by omega⟩
    obtain ⟨c, s, rfl⟩ := List.exists_cons_of_ne_nil (token_nonempty ht)
    have hc' : c ≠ 10 := by simpa using hc
    rw [loop_eq, if_neg hc', step_text _ _ _ _ (fun e => hd (of_decide_eq_true e).symm), stepText_complete x conf _ _ _ ht, Res.ok_bind]
    dsimp only
    rw [ih n sol (by omega) (by omega) (by omega)]
    rfl
  induction h generalizing n sol with
  | nil =>
    obtain ⟨n, rfl⟩ : ∃ m, n = m + 1 := ⟨n - 1, by simp at hn; omega⟩
    rw [loop, if_pos (by simp)]
  | @newline s o hs ih =>
    obtain ⟨n, rfl⟩ : ∃ m, n = m + 1 := ⟨n - 1, by omega⟩
    rw [loop_eq, if_pos rfl, step_text _ _ _ _ (by simp), stepText_complete x conf _ _ _ (newline_token x conf s), Res.ok_bind]
    dsimp only
    rw [ih n (s.length + 1) (by simp at hn; omega) (Nat.le_refl _) (fun _ => rfl) (fun h => by cases h)]
    rfl
  | line hd hs ih => exact ih n sol hn hsol (fun h => by cases h) (fun _ _ => hd)
  | @define ln k s l o hl he hdef hs ih =>
    obtain ⟨n, rfl⟩ : ∃ m, n = m + 1 := ⟨n - 1, by omega⟩
    have h0 : ∃ c r, Muon.Conf.define x = c :: r ∧ c ≠ 10 := by
      unfold Muon.Conf.define; split
      · exact ⟨_, _, rfl, by decide⟩
      · exact ⟨_, _, rfl, by decide⟩
    obtain ⟨c, r, e, hc⟩ := h0
    have e1 : Muon.Conf.define x ++ ln ++ s = c :: (r ++ ln ++ s) := by rw [e]; simp
    have hd := (defineLine_iff x conf (ln ++ s) l (s ++ [0])).mpr ⟨ln, k, s, rfl, rfl, hl, he, hdef⟩
    have hso := hb rfl
    have hlen : s.length < (Muon.Conf.define x ++ ln ++ s).length := by rw [e1]; simp; omega
    have h3 : step x conf (decide ((c :: (r ++ ln ++ s)).length + 1 = sol)) (c :: (r ++ ln ++ s) ++ [0]) = .ok (l, s ++ [0]) := by
      rw [← e1, hso, decide_eq_true rfl, List.append_assoc (Muon.Conf.define x), step_define, hd]
    rw [e1, loop_eq, if_neg hc, h3, Res.ok_bind]
    dsimp only
    rw [ih n sol (by omega) (by omega) (fun h => by cases h) (fun _ h => by omega)]
    rfl
  | var h1 h2 h3 h4 hs ih =>
    refine tok ?_ hn hsol (hb' rfl) (.var h1 h2 h3 h4) (fun n sol a b c => ih n sol a b (fun h => by cases h) (fun _ h => absurd h c))
    rw [List.append_assoc, List.append_assoc]
    exact (prefix_head x _ ⟨_, rfl⟩).2
  | literal h hs ih =>
    exact tok (prefix_head x _ ⟨_, rfl⟩).2 hn hsol (hb' rfl) (.literal h) (fun n sol a b c => ih n sol a b (fun h => by cases h) (fun _ h => absurd h c))
  | @even m s o h1 h2 hs ih =>
    refine tok ?_ hn hsol (hb' rfl) (.even h1 h2) (fun n sol a b c => ih n sol a b (fun h => by cases h) (fun _ h => absurd h c))
    obtain ⟨j, hj⟩ : ∃ j, 2 * m = j + 1 := ⟨2 * m - 1, by omega⟩
    rw [hj, List.replicate_succ]; simp
  | odd hs ih =>
    refine tok ?_ hn hsol (hb' rfl) .odd (fun n sol a b c => ih n sol a b (fun h => by cases h) (fun _ h => absurd h c))
    rw [List.replicate_succ]; simp
  | @slashes m s o h1 h2 h3 hs ih =>
    refine tok ?_ hn hsol (hb' rfl) (.slashes h1 h2 h3) (fun n sol a b c => ih n sol a b (fun h => by cases h) (fun _ h => absurd h c))
    obtain ⟨j, hj⟩ : ∃ j, m = j + 1 := ⟨m - 1, by omega⟩
    rw [hj, List.replicate_succ]; simp
  | copy h1 h2 h3 hs ih =>
    exact tok (by simpa using h1) hn hsol (hb' rfl) (.copy h2 h3) (fun n sol a b c => ih n sol a b (fun h => by cases h) (fun _ h => absurd h c))

/-! ### C40 -/

theorem directive_eq (x : Syntax) : directive x = define x := by
  unfold directive define; split <;> decide

theorem opening_eq (x : Syntax) : opening x = varStart x := by
  unfold opening varStart; split <;> decide

theorem closing_eq (x : Syntax) : closing x = varEnd x := rfl

/-- A template is accepted exactly if it stands for something, and the result is what it stands for: each variable is
replaced by the text of its value, once (the text is not looked at again), each `#mesondefine` line becomes the
definition of its name, each run of backslashes before a variable is halved, and every other byte is copied. -/
theorem substitute_iff (x : Syntax) (conf : Conf) (src out : Bytes) :
    substitute x conf src = .ok out ↔ Subst x conf src out := by
  unfold substitute Subst
  rw [directive_eq, opening_eq, closing_eq]
  constructor
  · intro h
    have := loop_sound x conf _ _ src out (Nat.le_refl _) h
    rwa [decide_eq_true rfl] at this
  · intro h
    exact loop_complete x conf true src out h _ _ (by omega) (Nat.le_refl _) (fun _ => rfl) (fun h => by cases h)

/-- What a template stands for is determined. -/
theorem subst_unique (x : Syntax) (conf : Conf) (src out out' : Bytes) (h : Subst x conf src out) (h' : Subst x conf src out') :
    out = out' := by
  have := (substitute_iff x conf src out).mpr h
  rw [(substitute_iff x conf src out').mpr h'] at this
  cases this; rfl

theorem coerceString_nb (v : Val) : coerceString v ≠ .bad := by
  cases v <;> simp [coerceString]

theorem defineVal_nb (conf : Conf) (hc : ∀ k s, conf k = some (.str s) → 0 ∉ s) (k : Bytes) : defineVal conf k ≠ .bad := by
  unfold defineVal
  split <;> try simp
  rename_i s hs
  simp only [cstr, if_neg (hc k s hs)]
  simp [Res.ok_bind]

theorem bind_nb {α β : Type} {a : Res α} {f : α → Res β} (ha : a ≠ .bad) (hf : ∀ v, a = .ok v → f v ≠ .bad) : (a >>= f) ≠ .bad := by
  cases a with
  | ok v => exact hf v rfl
  | error => simp [bind, Res.bind]
  | bad => exact absurd rfl ha

theorem stepText_nb (x : Syntax) (conf : Conf) (s : Bytes) : stepText x conf (s ++ [0]) ≠ .bad := by
  unfold stepText
  rw [rd_eq, Res.ok_bind]
  split
  · cases s with
    | nil => rename_i h; cases h
    | cons c s =>
      rw [List.cons_append, List.drop_succ_cons, List.drop_zero, escape_eq]
      split
      · split <;> simp
      · simp
  · rw [cmpn_eq _ (varStart_no0 x), Res.ok_bind]
    by_cases hp : (varStart x).isPrefixOf s = true
    · rw [if_pos hp]
      obtain ⟨t, rfl⟩ := List.isPrefixOf_iff_prefix.mp hp
      rw [List.append_assoc, List.drop_left, varSub_eq]
      split
      · simp
      · split
        · simp
        · split
          · simp
          · exact bind_nb (coerceString_nb _) (by simp)
    · rw [if_neg hp]; simp

theorem step_nb (x : Syntax) (conf : Conf) (hc : ∀ k s, conf k = some (.str s) → 0 ∉ s) (b : Bool) (s : Bytes) :
    step x conf b (s ++ [0]) ≠ .bad := by
  by_cases hd : b = true ∧ define x <+: s
  · obtain ⟨rfl, t, rfl⟩ := hd
    rw [step_define, defineLine_eq]
    split
    · simp
    · split
      · simp
      · exact bind_nb (defineVal_nb conf hc _) (by simp)
  · rw [step_text _ _ _ _ (fun h1 h2 => hd ⟨h1, h2⟩)]
    exact stepText_nb x conf s

theorem step_shorter (x : Syntax) (conf : Conf) (b : Bool) (s : Bytes) (hs : s ≠ []) (r : Bytes × Bytes)
    (h : step x conf b (s ++ [0]) = .ok r) : ∃ q, r.2 = q ++ [0] ∧ q.length < s.length := by
  by_cases hd : b = true ∧ define x <+: s
  · obtain ⟨rfl, t, rfl⟩ := hd
    rw [step_define] at h
    obtain ⟨ln, k, s', rfl, hq, -⟩ := (defineLine_iff x conf t r.1 r.2).mp h
    refine ⟨s', hq, ?_⟩
    have h0 : 0 < (define x).length := by unfold define; split <;> decide
    simp only [List.length_append]; omega
  · rw [step_text _ _ _ _ (fun h1 h2 => hd ⟨h1, h2⟩)] at h
    obtain ⟨q, hq, ht⟩ := stepText_sound x conf s r.1 r.2 hs h
    exact ⟨q, hq, token_shorter ht⟩

theorem loop_nb (x : Syntax) (conf : Conf) (hc : ∀ k s, conf k = some (.str s) → 0 ∉ s) (n sol : Nat) (s : Bytes) (hn : s.length < n) :
    loop x conf n sol (s ++ [0]) ≠ .bad := by
  induction n generalizing sol s with
  | zero => omega
  | succ n ih =>
    cases s with
    | nil => rw [loop, if_pos (by simp)]; simp
    | cons c s =>
      rw [loop_eq]
      refine bind_nb (step_nb x conf hc _ _) fun r hr => ?_
      obtain ⟨q, hq, hl⟩ := step_shorter x conf _ _ (by simp) r hr
      rw [hq]
      exact bind_nb (ih _ q (by omega)) (by simp)

/-- No template makes the substitution read outside of the text or go on for ever, if no value is a string with a NUL
byte: a template that stands for nothing is reported as an error. -/
theorem substitute_total_partial (x : Syntax) (conf : Conf) (src : Bytes) (hc : ∀ k s, conf k = some (.str s) → 0 ∉ s) :
    (∃ out, substitute x conf src = .ok out ∧ Subst x conf src out) ∨
      (substitute x conf src = .error ∧ ¬ ∃ out, Subst x conf src out) := by
  have h := loop_nb x conf hc (src.length + 1) (src.length + 1) src (by omega)
  cases hs : substitute x conf src with
  | ok out => exact .inl ⟨out, rfl, (substitute_iff x conf src out).mp hs⟩
  | error =>
    refine .inr ⟨rfl, ?_⟩
    rintro ⟨out, ho⟩
    rw [(substitute_iff x conf src out).mpr ho] at hs; cases hs
  | bad => exact absurd hs h

/-- The configuration of the examples: `A` is `@B@` followed by a backslash, `B` is 12, `C` is true, `D` a list. -/
def exConf : Conf := fun k =>
  if k = ascii "A" then some (.str (ascii "@B@" ++ [92]))
  else if k = ascii "B" then some (.num 12)
  else if k = ascii "C" then some (.bool true)
  else if k = ascii "D" then some .other
  else if k = ascii "Z" then some (.str [0])
  else none

/-- The value is not looked at again; an odd number of backslashes protects, an even number does not. -/
example : substitute ⟨false, false⟩ exConf (ascii "x@A@y\n#mesondefine B\n #mesondefine B @e-mail" ++ [92, 64, 66, 64, 92, 92, 64, 66, 64]) =
    .ok (ascii "x@B@" ++ [92] ++ ascii "y\n#define B 12\n #mesondefine B @e-mail" ++ [64, 66, 64, 92] ++ ascii "12") := by decide +kernel
example : substitute ⟨true, true⟩ exConf (ascii "#cmakedefine C @C@\n#cmakedefine E\n${B}@B@") =
    .ok (ascii "#define C\n/* undef E */\n12@B@") := by decide +kernel
example : substitute ⟨false, false⟩ exConf (ascii "@D@") = .error ∧ substitute ⟨false, false⟩ exConf (ascii "@E@") = .error ∧
    substitute ⟨false, false⟩ exConf (ascii "@@") = .error ∧ substitute ⟨false, false⟩ exConf (ascii "#mesondefine B C") = .error := by
  decide +kernel

/-- A value with a NUL byte can be put into the text, but not into a definition: that ends the program. -/
theorem substitute_nul_counterexample :
    substitute ⟨false, false⟩ exConf (ascii "@Z@") = .ok [0] ∧ substitute ⟨false, false⟩ exConf (ascii "#mesondefine Z") = .bad := by
  decide +kernel

/-- A line that ends in CR LF is not accepted as a definition. -/
theorem substitute_crlf_counterexample :
    substitute ⟨false, false⟩ exConf (ascii "#mesondefine B\r\n") = .error ∧
      substitute ⟨false, false⟩ exConf (ascii "#mesondefine B\n") = .ok (ascii "#define B 12\n") := by
  decide +kernel

/-- Text without variables, backslashes and definitions stays as it is. -/
theorem substitute_plain (x : Syntax) (conf : Conf) (s : Bytes) (h1 : ∀ c ∈ s, c ≠ 92 ∧ c ≠ 64 ∧ c ≠ 36 ∧ c ≠ 35) :
    substitute x conf s = .ok s := by
  rw [substitute_iff]
  unfold Subst
  rw [directive_eq, opening_eq, closing_eq]
  have key : ∀ b, SubstWith (define x) (varStart x) (varEnd x) x conf b s s := by
    have line : ∀ {s o : Bytes} {b : Bool}, ¬ define x <+: s → SubstWith (define x) (varStart x) (varEnd x) x conf false s o →
        SubstWith (define x) (varStart x) (varEnd x) x conf b s o := by
      intro s o b hb hs
      cases b with
      | false => exact hs
      | true => exact .line hb hs
    induction s with
    | nil =>
      intro b
      refine line ?_ .nil
      rw [List.prefix_nil]; unfold define; split <;> decide
    | cons c s ih =>
      intro b
      have ih := ih (fun c hc => h1 c (by simp [hc]))
      obtain ⟨a1, a2, a3, a4⟩ := h1 c (by simp)
      refine line ?_ ?_
      · rintro ⟨t, ht⟩
        unfold define at ht
        split at ht <;> (injection ht with e _; exact a4 e.symm)
      · by_cases hc : c = 10
        · subst hc; exact .newline (ih true)
        · refine .copy hc a1 ?_ (ih false)
          rintro ⟨t, ht⟩
          unfold varStart at ht
          split at ht
          · injection ht with e _; exact a3 e.symm
          · injection ht with e _; exact a2 e.symm
  exact key true

example : substitute ⟨false, false⟩ exConf (ascii "int x;\nint y;\n") = .ok (ascii "int x;\nint y;\n") :=
  substitute_plain _ _ _ (by decide)

/-! ### C41 -/

theorem existsWithContent_iff (d : Dest) (out : Bytes) : existsWithContent d out = true ↔ d = .file out true := by
  cases d with
  | missing => simp [existsWithContent]
  | file c r =>
    cases r
    · simp [existsWithContent]
    · simp only [existsWithContent, if_true, Bool.and_eq_true, beq_iff_eq, Dest.file.injEq, and_true]
      exact ⟨fun h => h.2.symm, fun h => ⟨by rw [h], h.symm⟩⟩

/-- The content of the file at the output path. -/
def content : Dest → Option Bytes
  | .missing => none
  | .file c _ => some c

theorem writeIfChanged_spec (canWrite : Bool) (copyMeta : Option Bool) (d : Dest) (out : Bytes) :
    ((writeIfChanged canWrite copyMeta d out).wrote = true ↔ d ≠ .file out true ∧ canWrite = true) ∧
      ((writeIfChanged canWrite copyMeta d out).wrote = false → (writeIfChanged canWrite copyMeta d out).dest = d) ∧
      ((writeIfChanged canWrite copyMeta d out).wrote = true → content (writeIfChanged canWrite copyMeta d out).dest = some out) ∧
      ((writeIfChanged canWrite copyMeta d out).ok = true → content (writeIfChanged canWrite copyMeta d out).dest = some out) ∧
      ((writeIfChanged canWrite copyMeta d out).ok = true ↔ d = .file out true ∨ (canWrite = true ∧ copyMeta ≠ some false)) := by
  unfold writeIfChanged
  by_cases h : existsWithContent d out = true
  · have e := (existsWithContent_iff d out).mp h
    rw [if_pos h, e]; simp [content]
  · have e : d ≠ .file out true := fun e => h ((existsWithContent_iff d out).mpr e)
    rw [if_neg h]
    cases canWrite
    · simp [e]
    · rcases copyMeta with _ | _ | _ <;> simp [e, content]

/-- If a template stands for `out`, then the output is written exactly if what is there is not (readably) `out`, and is
not touched otherwise; if `configure_file` succeeds, the content is `out`. -/
theorem configure_writes (x : Syntax) (conf : Conf) (src out : Bytes) (canWrite canCopy : Bool) (d : Dest) (h : Subst x conf src out) :
    ∃ o, substituteConfig x conf (some src) canWrite canCopy d = .ok o ∧
      (o.wrote = true ↔ d ≠ .file out true ∧ canWrite = true) ∧
      (o.wrote = false → o.dest = d) ∧ (o.wrote = true → content o.dest = some out) ∧ (o.ok = true → content o.dest = some out) ∧
      (o.ok = true ↔ d = .file out true ∨ (canWrite = true ∧ canCopy = true)) := by
  refine ⟨writeIfChanged canWrite (some canCopy) d out, ?_, ?_⟩
  · simp only [substituteConfig, (substitute_iff x conf src out).mpr h]
  · have := writeIfChanged_spec canWrite (some canCopy) d out
    simpa using this

/-- A template that stands for nothing does not touch the output. -/
theorem configure_error (x : Syntax) (conf : Conf) (src : Bytes) (canWrite canCopy : Bool) (d : Dest)
    (hc : ∀ k s, conf k = some (.str s) → 0 ∉ s) (h : ¬ ∃ out, Subst x conf src out) :
    substituteConfig x conf (some src) canWrite canCopy d = .ok ⟨d, false, false⟩ := by
  rcases substitute_total_partial x conf src hc with ⟨out, -, ho⟩ | ⟨he, -⟩
  · exact absurd ⟨out, ho⟩ h
  · simp only [substituteConfig, he]

/-- Configuring again with the same input does not write anything. -/
theorem configure_again (x : Syntax) (conf : Conf) (src : Bytes) (canWrite canCopy : Bool) (d : Dest) (o : Outcome)
    (h : substituteConfig x conf (some src) canWrite canCopy d = .ok o) (hok : o.ok = true) (canWrite' canCopy' : Bool) :
    substituteConfig x conf (some src) canWrite' canCopy' o.dest = .ok ⟨o.dest, false, true⟩ := by
  unfold substituteConfig at h ⊢
  cases hs : substitute x conf src with
  | bad => simp [hs] at h
  | error => simp only [hs, Res.ok.injEq] at h; rw [← h] at hok; cases hok
  | ok out =>
    simp only [hs, Res.ok.injEq] at h ⊢
    have hd : o.dest = .file out true := by
      rw [← h] at hok ⊢
      unfold writeIfChanged at hok ⊢
      split
      · rename_i he; exact (existsWithContent_iff d out).mp he
      · rename_i he
        rw [if_neg he] at hok
        cases canWrite <;> cases canCopy <;> simp at hok ⊢
    rw [hd]
    unfold writeIfChanged
    rw [if_pos ((existsWithContent_iff _ _).mpr rfl)]

/-- The same for `copy`. -/
theorem copy_writes (src : Bytes) (canWrite canCopy : Bool) (d : Dest) :
    ((copyConfig (some src) canWrite canCopy d).wrote = true ↔ d ≠ .file src true ∧ canWrite = true) ∧
      ((copyConfig (some src) canWrite canCopy d).wrote = false → (copyConfig (some src) canWrite canCopy d).dest = d) ∧
      ((copyConfig (some src) canWrite canCopy d).ok = true → content (copyConfig (some src) canWrite canCopy d).dest = some src) := by
  have := writeIfChanged_spec canWrite (some canCopy) d src
  exact ⟨this.1, this.2.1, this.2.2.2.1⟩

theorem genEntry_iff (c : UInt8) (k : Bytes) (v : Val) (hk : 0 ∉ k) (hv : ∀ s, v = .str s → 0 ∉ s) (l : Bytes) :
    genEntry c k v = .ok l ↔ HeaderLine c k v l := by
  have e : ascii " " = [32] := by decide
  constructor
  · intro h
    unfold genEntry at h
    split at h
    · rename_i s
      simp only [cstr, if_neg hk, if_neg (hv s rfl), Res.ok_bind, Res.ok.injEq] at h
      rw [← h]
      have := HeaderLine.str (c := c) (k := k) (s := s)
      rwa [e] at this
    · simp only [cstr, if_neg hk, Res.ok_bind, Res.ok.injEq] at h
      rw [← h]; exact .yes
    · simp only [cstr, if_neg hk, Res.ok_bind, Res.ok.injEq] at h
      rw [← h]; exact .no
    · rename_i n
      simp only [cstr, if_neg hk, Res.ok_bind, Res.ok.injEq] at h
      rw [← h]
      have := HeaderLine.num (c := c) (k := k) (n := n)
      rw [e] at this
      exact this
    · cases h
    · cases h
  · intro h
    cases h with
    | yes => simp only [genEntry, cstr, if_neg hk, Res.ok_bind]
    | no => simp only [genEntry, cstr, if_neg hk, Res.ok_bind]
    | @str s => simp only [genEntry, cstr, if_neg hk, if_neg (hv s rfl), Res.ok_bind, e]
    | num => simp only [genEntry, cstr, if_neg hk, Res.ok_bind, e]; rfl

theorem genEntry_nb (c : UInt8) (k : Bytes) (v : Val) (hk : 0 ∉ k) (hv : ∀ s, v = .str s → 0 ∉ s) : genEntry c k v ≠ .bad := by
  cases v with
  | bool b => cases b <;> simp [genEntry, cstr, hk, Res.ok_bind]
  | str s => simp [genEntry, cstr, hk, hv s rfl, Res.ok_bind]
  | num n => simp [genEntry, cstr, hk, Res.ok_bind]
  | file p => simp [genEntry]
  | other => simp [genEntry]

theorem genEntries_iff (c : UInt8) (dict : List (Bytes × Val)) (hn : NoNul dict) (out : Bytes) :
    genEntries c dict = .ok (out, true) ↔ Header c dict out := by
  induction dict generalizing out with
  | nil =>
    constructor
    · intro h; cases h; exact .nil
    · intro h; cases h; rfl
  | cons e dict ih =>
    obtain ⟨k, v⟩ := e
    obtain ⟨hk, hv⟩ := hn (k, v) (by simp)
    have ih := ih (fun e he => hn e (by simp [he]))
    have he := genEntry_iff c k v hk hv
    constructor
    · intro h
      rw [genEntries] at h
      cases hg : genEntry c k v with
      | bad => rw [hg] at h; cases h
      | error => rw [hg] at h; cases h
      | ok l =>
        rw [hg] at h
        obtain ⟨⟨o, b⟩, hr, h⟩ := Res.bind_eq_ok.mp h
        simp only [Res.ok.injEq, Prod.mk.injEq] at h
        obtain ⟨rfl, rfl⟩ := h
        exact .cons ((he l).mp hg) ((ih o).mp hr)
    · intro h
      cases h with
      | cons h1 h2 =>
        rw [genEntries, (he _).mpr h1]
        dsimp only
        rw [(ih _).mpr h2]
        rfl

/-- A header without a template has a line for each entry in the order of the configuration, and is written exactly if
it is not there already. -/
theorem generate_writes (c : UInt8) (dict : List (Bytes × Val)) (out : Bytes) (hn : NoNul dict) (canWrite : Bool) (d : Dest)
    (h : Header c dict out) :
    ∃ o, generateConfig c dict canWrite d = .ok o ∧ (o.wrote = true ↔ d ≠ .file out true ∧ canWrite = true) ∧
      (o.wrote = false → o.dest = d) ∧ (o.ok = true → content o.dest = some out) ∧
      (o.ok = true ↔ d = .file out true ∨ canWrite = true) := by
  have hg := (genEntries_iff c dict hn out).mpr h
  have := writeIfChanged_spec canWrite none d out
  refine ⟨{ writeIfChanged canWrite none d out with ok := (writeIfChanged canWrite none d out).ok && true }, ?_, this.1, this.2.1, ?_, ?_⟩
  · unfold generateConfig
    rw [hg]; rfl
  · simpa using this.2.2.2.1
  · simpa using this.2.2.2.2

/-- If some value cannot be put into a header, the call fails. -/
theorem generate_invalid (c : UInt8) (dict : List (Bytes × Val)) (hn : NoNul dict) (canWrite : Bool) (d : Dest)
    (h : ¬ ∃ out, Header c dict out) : ∃ o, generateConfig c dict canWrite d = .ok o ∧ o.ok = false := by
  have nb : ∀ dict, NoNul dict → ∃ r, genEntries c dict = .ok r := by
    intro dict hn
    induction dict with
    | nil => exact ⟨_, rfl⟩
    | cons e dict ih =>
      obtain ⟨k, v⟩ := e
      obtain ⟨hk, hv⟩ := hn (k, v) (by simp)
      obtain ⟨r, hr⟩ := ih (fun e he => hn e (by simp [he]))
      rw [genEntries]
      cases hg : genEntry c k v with
      | bad => exact absurd hg (genEntry_nb c k v hk hv)
      | error => exact ⟨_, rfl⟩
      | ok l => rw [hr]; exact ⟨_, rfl⟩
  obtain ⟨⟨o, b⟩, hr⟩ := nb dict hn
  cases b with
  | true => exact absurd ⟨o, (genEntries_iff c dict hn o).mp hr⟩ h
  | false =>
    refine ⟨_, by unfold generateConfig; rw [hr]; rfl, ?_⟩
    simp

example : ¬ ∃ out, Header 35 [(ascii "A", .bool true), (ascii "B", .other)] out := by
  rintro ⟨out, h⟩
  cases h with
  | cons _ h => cases h with
    | cons h _ => cases h

example : Header 35 [(ascii "A", .bool true), (ascii "B", .num 7)] (ascii "#define A\n#define B 7\n") :=
  (genEntries_iff _ _ (by simp [NoNul]; decide) _).mp (by decide +kernel)

/-- If a value cannot be put into a header, the call fails, but what comes before that value is written. -/
theorem generate_partial_counterexample :
    generateConfig 35 [(ascii "A", .bool true), (ascii "B", .other)] true (.file (ascii "#define A\n#define B 7\n") true) =
      .ok ⟨.file (ascii "#define A\n") true, true, false⟩ := by
  decide +kernel

/-- If the template cannot be read, an uninitialised buffer is freed. -/
theorem configure_unreadable_counterexample (x : Syntax) (conf : Conf) (canWrite canCopy : Bool) (d : Dest) :
    substituteConfig x conf none canWrite canCopy d = .bad := rfl

end Muon.Conf
