import Verif.Conf.Lemmas
import Verif.Nlog.Lemmas
/-
Substitution in templates: the loop.
-/
namespace Muon.Conf
open Muon Muon.Conf.Spec

theorem isIn_iff (c : UInt8) : isIn c = true ↔ (c ≠ 10 ∧ c ≠ 0) := by
  simp [isIn]; exact And.comm

theorem isBlank_iff (c : UInt8) : isBlank c = true ↔ (c = 32 ∨ c = 9) := by simp [isBlank]

instance (s : Bytes) : Decidable (Ends s) :=
  match s with
  | [] => .isTrue trivial
  | c :: _ => inferInstanceAs (Decidable (c = 10 ∨ c = 0))

theorem ends_iff (s : Bytes) : Ends s ↔ isIn (s.headD 0) = false := by
  cases s with
  | nil => exact ⟨fun _ => rfl, fun _ => trivial⟩
  | cons c s =>
    show (c = 10 ∨ c = 0) ↔ isIn c = false
    rw [← Bool.not_eq_true, isIn_iff]
    constructor
    · rintro (rfl | rfl) h <;> simp at h
    · intro h
      by_cases e : c = 10
      · exact .inl e
      · exact .inr (Classical.byContradiction fun e' => h ⟨e, e'⟩)

theorem ends_stop {s : Bytes} (h : Ends s) (p : UInt8 → Bool) (h10 : p 10 = false) (h0 : p 0 = false) :
    ∀ c, s.head? = some c → p c = false := by
  intro c hc
  cases s with
  | nil => cases hc
  | cons d s =>
    cases hc
    rcases h with e | e <;> rw [e] <;> assumption

/-- The definition written for a name. -/
theorem defineVal_iff (conf : Conf) (k l : Bytes) : (∃ d, defineVal conf k = .ok d ∧ l = writeDefine k d) ↔ Defines conf k l := by
  unfold defineVal Defines
  cases hk : conf k with
  | none =>
    simp only [Res.ok.injEq, exists_eq_left', writeDefine]
    rw [show ascii "/* undef " = ascii "/* undef" ++ [32] from by decide, show ascii " */" = [32] ++ ascii "*/" from by decide]
  | some v =>
    cases v with
    | bool b =>
      cases b
      · simp only [Res.ok.injEq, exists_eq_left', writeDefine]
        rw [show ascii "#undef " = ascii "#undef" ++ [32] from by decide]
        simp
      · simp only [Res.ok.injEq, exists_eq_left', writeDefine]
        rw [show ascii "#define " = ascii "#define" ++ [32] from by decide]
        simp
    | str s =>
      simp only [cstr]
      rw [show ascii "#define " = ascii "#define" ++ [32] from by decide, show ascii " " = [32] from by decide]
      by_cases h : 0 ∈ s
      · rw [if_pos h]
        constructor
        · rintro ⟨d, hd, _⟩; cases hd
        · intro hh; exact absurd h hh.2
      · rw [if_neg h, Res.ok_bind]
        simp only [Res.ok.injEq, exists_eq_left', writeDefine, h, not_false_eq_true, and_true, List.append_assoc]
    | num n =>
      simp only [Res.ok.injEq, exists_eq_left', writeDefine]
      rw [show ascii "#define " = ascii "#define" ++ [32] from by decide, show ascii " " = [32] from by decide,
        show Nlog.dec n = decimal n from rfl]
      simp only [List.append_assoc]
    | file p => simp
    | other => simp

/-- `defineLine` without the NUL byte. -/
theorem defineLine_eq (x : Syntax) (conf : Conf) (t : Bytes) :
    defineLine x conf (t ++ [0]) =
      (if ¬ Ends (((t.dropWhile isBlank).dropWhile isKey).dropWhile isBlank) ∧ x.cmakeDefine = false then .error
        else if (((t.dropWhile isBlank).dropWhile isKey).dropWhile isIn).length = (t.dropWhile isBlank).length then .error
        else defineVal conf ((t.dropWhile isBlank).takeWhile isKey) >>= fun d =>
          .ok (writeDefine ((t.dropWhile isBlank).takeWhile isKey) d, ((t.dropWhile isBlank).dropWhile isKey).dropWhile isIn ++ [0])) := by
  unfold defineLine
  rw [skipWs_eq, Res.ok_bind, varLen_eq, Res.ok_bind, skipWs_eq, Res.ok_bind, rd_eq, Res.ok_bind]
  generalize t.dropWhile isBlank = t1
  have hk : ∀ c ∈ t1.takeWhile isKey, isKey c = true := takeWhile_mem _ _
  have he := ends_iff ((t1.dropWhile isKey).dropWhile isBlank)
  have hd : ((t1.dropWhile isKey).dropWhile isBlank).dropWhile isIn = (t1.dropWhile isKey).dropWhile isIn :=
    dropWhile_dropWhile isBlank isIn (fun c => isBlank_in) _
  by_cases hc : ((t1.dropWhile isKey).dropWhile isBlank).headD 0 = 10 ∨ ((t1.dropWhile isKey).dropWhile isBlank).headD 0 = 0
  · have hi : isIn (((t1.dropWhile isKey).dropWhile isBlank).headD 0) = false := by
      rcases hc with h | h <;> rw [h] <;> decide
    have hE := he.mpr hi
    have hs := headD_stop _ isIn (by decide) hi
    have hn : ¬ (¬ Ends ((t1.dropWhile isKey).dropWhile isBlank) ∧ x.cmakeDefine = false) := fun h => h.1 hE
    rw [if_pos hc, Res.ok_bind, if_neg hn, ← hd, hs]
    simp only [List.length_append, Nat.add_right_cancel_iff]
  · have hE : ¬ Ends ((t1.dropWhile isKey).dropWhile isBlank) := by
      rw [he]
      intro h
      apply hc
      rw [← Bool.not_eq_true, isIn_iff] at h
      by_cases e : ((t1.dropWhile isKey).dropWhile isBlank).headD 0 = 10
      · exact .inl e
      · exact .inr (Classical.byContradiction fun e' => h ⟨e, e'⟩)
    rw [if_neg hc]
    by_cases hx : x.cmakeDefine = true
    · have hn : ¬ (¬ Ends ((t1.dropWhile isKey).dropWhile isBlank) ∧ x.cmakeDefine = false) := by rw [hx]; simp
      rw [if_pos hx, cmakeTail_eq _ hk, Res.ok_bind, if_neg hn, hd]
      simp only [List.length_append, Nat.add_right_cancel_iff]
    · rw [if_neg hx, if_pos ⟨hE, by simpa using hx⟩]; rfl

/-- A line that defines something. -/
theorem defineLine_iff (x : Syntax) (conf : Conf) (t l q : Bytes) :
    defineLine x conf (t ++ [0]) = .ok (l, q) ↔
      ∃ line k s, t = line ++ s ∧ q = s ++ [0] ∧ DefLine x line k ∧ Ends s ∧ Defines conf k l := by
  rw [defineLine_eq]
  constructor
  · intro h
    split at h
    · cases h
    · rename_i hE
      split at h
      · cases h
      · rename_i hl
        obtain ⟨d, hd, h2⟩ := Res.bind_eq_ok.mp h
        cases h2
        have ht : t = t.takeWhile isBlank ++ t.dropWhile isBlank := (List.takeWhile_append_dropWhile).symm
        revert hE hl hd
        generalize ht1 : t.dropWhile isBlank = t1
        intro hE hl hd
        have e1 : t1 = t1.takeWhile isKey ++ t1.dropWhile isKey := (List.takeWhile_append_dropWhile).symm
        revert hE hl hd
        generalize hk : t1.takeWhile isKey = k at *
        generalize hq : t1.dropWhile isKey = q0 at *
        intro hE hl hd
        have e2 : q0 = q0.takeWhile isIn ++ q0.dropWhile isIn := (List.takeWhile_append_dropWhile).symm
        have hhead : ∀ c, (q0.takeWhile isIn).head? = some c → q0.head? = some c := by
          intro c hc
          cases q0 with
          | nil => exact hc
          | cons d q0 =>
            rw [List.takeWhile_cons] at hc
            split at hc
            · exact hc
            · cases hc
        refine ⟨t.takeWhile isBlank ++ k ++ q0.takeWhile isIn, k, q0.dropWhile isIn, ?_, rfl, ?_, ?_, ?_⟩
        · rw [List.append_assoc, List.append_assoc, ← e2, ← e1, ← ht1, ← ht]
        · refine ⟨t.takeWhile isBlank, q0.takeWhile isIn, rfl, fun c hc => (isBlank_iff c).mp (takeWhile_mem _ _ c hc), ?_,
            fun c hc => (isIn_iff c).mp (takeWhile_mem _ _ c hc), ?_, ?_⟩
          · rw [name_iff, ← hk]; exact takeWhile_mem _ _
          · intro c hc hn
            have h1 := hhead c hc
            rw [← hq] at h1
            have h2 := dropWhile_head isKey t1 c h1
            rw [name_iff] at hn
            rw [hn c (by simp)] at h2; cases h2
          · by_cases hx : x.cmakeDefine = true
            · rw [if_pos hx]
              intro hk0
              subst hk0
              rw [List.nil_append] at e1
              subst e1
              have : t1.takeWhile isIn ≠ [] := by
                intro h0; rw [h0, List.nil_append] at e2; exact hl (by rw [← e2])
              obtain ⟨c, r, hcr⟩ := List.exists_cons_of_ne_nil this
              refine ⟨c, by rw [hcr]; rfl, ?_⟩
              have h1 := hhead c (by rw [hcr]; rfl)
              rw [← ht1] at h1
              have h2 := dropWhile_head isBlank t c h1
              rw [← Bool.not_eq_true, isBlank_iff] at h2
              exact ⟨fun e => h2 (.inl e), fun e => h2 (.inr e)⟩
            · rw [if_neg hx]
              have hE' : Ends (q0.dropWhile isBlank) := Classical.byContradiction fun h => hE ⟨h, by simpa using hx⟩
              have hs := headD_stop _ isIn (by decide) ((ends_iff _).mp hE')
              rw [dropWhile_dropWhile isBlank isIn (fun c => isBlank_in)] at hs
              have e3 : q0 = q0.takeWhile isBlank ++ q0.dropWhile isBlank := (List.takeWhile_append_dropWhile).symm
              have e4 : q0.takeWhile isIn = q0.takeWhile isBlank := by
                apply List.append_cancel_right (bs := q0.dropWhile isIn)
                rw [← e2, hs, ← e3]
              refine ⟨?_, ?_⟩
              · rintro rfl
                rw [List.nil_append] at e1
                subst e1
                have : t1.dropWhile isBlank = t1 := by rw [← ht1]; exact dropWhile_stop _ _ (dropWhile_head _ _)
                rw [hs, this] at hl; exact hl rfl
              · rw [e4]
                exact fun c hc => (isBlank_iff c).mp (takeWhile_mem _ _ c hc)
        · rw [ends_iff]
          have := dropWhile_head isIn q0
          cases hh : q0.dropWhile isIn with
          | nil => rfl
          | cons c r => rw [hh] at this; exact this c rfl
        · exact (defineVal_iff conf k _).mp ⟨d, hd, rfl⟩
  · rintro ⟨line, k, s, rfl, rfl, ⟨blanks, tail, rfl, hb, hn, hi, hh, hx⟩, hE, hD⟩
    rw [name_iff] at hn
    have hk10 : isKey 10 = false := by decide
    have hk0 : isKey 0 = false := by decide
    have hb10 : isBlank 10 = false := by decide
    have hb0 : isBlank 0 = false := by decide
    have hkt : ∀ c, (tail ++ s).head? = some c → isKey c = false := by
      intro c hc
      cases tail with
      | nil => exact ends_stop hE isKey hk10 hk0 c hc
      | cons d tail =>
        cases hc
        have := hh c rfl
        rw [name_iff] at this
        simpa using this
    have e1 : (blanks ++ k ++ tail ++ s).dropWhile isBlank = k ++ (tail ++ s) := by
      rw [List.append_assoc, List.append_assoc, dropWhile_all _ _ _ (fun c hc => (isBlank_iff c).mpr (hb c hc))]
      apply dropWhile_stop
      intro c hc
      cases k with
      | cons d k =>
        cases hc
        have := isKey_ne (hn c (by simp))
        rw [← Bool.not_eq_true, isBlank_iff]
        rintro (e | e)
        · exact this.2.2.1 e
        · exact this.2.2.2.1 e
      | nil =>
        by_cases hc' : x.cmakeDefine = true
        · rw [if_pos hc'] at hx
          obtain ⟨d, hd, h1, h2⟩ := hx rfl
          cases tail with
          | nil => cases hd
          | cons d' tail =>
            cases hd; cases hc
            rw [← Bool.not_eq_true, isBlank_iff]
            rintro (e | e)
            · exact h1 e
            · exact h2 e
        · rw [if_neg hc'] at hx
          exact absurd rfl hx.1
    have e2 : (k ++ (tail ++ s)).takeWhile isKey = k := by
      rw [takeWhile_all _ _ _ hn, takeWhile_stop _ _ hkt, List.append_nil]
    have e3 : (k ++ (tail ++ s)).dropWhile isKey = tail ++ s := by
      rw [dropWhile_all _ _ _ hn, dropWhile_stop _ _ hkt]
    have e4 : (tail ++ s).dropWhile isIn = s := by
      rw [dropWhile_all _ _ _ (fun c hc => (isIn_iff c).mpr (hi c hc))]
      exact dropWhile_stop _ _ (ends_stop hE isIn (by decide) (by decide))
    rw [e1, e3, e4, e2]
    have hlen : k ++ tail ≠ [] := by
      intro h
      obtain ⟨rfl, rfl⟩ := List.append_eq_nil_iff.mp h
      by_cases hc' : x.cmakeDefine = true
      · rw [if_pos hc'] at hx
        obtain ⟨d, hd, -⟩ := hx rfl
        cases hd
      · rw [if_neg hc'] at hx
        exact hx.1 rfl
    have hlen' : ¬ s.length = (k ++ (tail ++ s)).length := by
      rw [← List.append_assoc, List.length_append]
      have := List.length_pos_iff.mpr hlen
      omega
    have hE' : ¬ (¬ Ends ((tail ++ s).dropWhile isBlank) ∧ x.cmakeDefine = false) := by
      rintro ⟨h1, h2⟩
      rw [if_neg (by rw [h2]; simp)] at hx
      rw [dropWhile_all _ _ _ (fun c hc => (isBlank_iff c).mpr (hx.2 c hc)), dropWhile_stop _ _ (ends_stop hE isBlank hb10 hb0)] at h1
      exact h1 hE
    rw [if_neg hE', if_neg hlen']
    obtain ⟨d, hd, rfl⟩ := (defineVal_iff conf k l).mpr hD
    rw [hd]; rfl

theorem varStart_no0 (x : Syntax) : 0 ∉ varStart x := by
  unfold varStart; split <;> decide
theorem define_no0 (x : Syntax) : 0 ∉ define x := by
  unfold define; split <;> decide
theorem varStart_ne (x : Syntax) : varStart x ≠ [] := by
  unfold varStart; split <;> decide
theorem varStart_head (x : Syntax) : ∃ c r, varStart x = c :: r ∧ c ≠ 92 ∧ c ≠ 10 := by
  unfold varStart; split
  · exact ⟨36, [123], rfl, by decide, by decide⟩
  · exact ⟨64, [], rfl, by decide, by decide⟩
theorem varEnd_key (x : Syntax) : isKey (varEnd x) = false := by
  unfold varEnd; split <;> decide
theorem varEnd_ne (x : Syntax) : varEnd x ≠ 0 := by
  unfold varEnd; split <;> decide

theorem text_iff (v : Val) (t : Bytes) : coerceString v = .ok t ↔ Text v t := by
  cases v <;> simp only [coerceString, Text, Res.ok.injEq, reduceCtorEq]
  all_goals exact eq_comm

theorem varSub_eq (x : Syntax) (conf : Conf) (t : Bytes) :
    varSub x conf (t ++ [0]) =
      (if (t.dropWhile isKey).headD 0 ≠ varEnd x then .ok (varStart x, t ++ [0])
        else if t.takeWhile isKey = [] then .error
        else match conf (t.takeWhile isKey) with
          | none => .error
          | some v => coerceString v >>= fun s => .ok (s, (t.dropWhile isKey ++ [0]).drop 1)) := by
  unfold varSub
  rw [varLen_eq, Res.ok_bind, rd_eq, Res.ok_bind]
  rfl

/-- The text at a position, and what it becomes. -/
inductive Token (x : Syntax) (conf : Conf) : Bytes → Bytes → Bytes → Prop
  | var {k s t : Bytes} {v : Val} : Name k → k ≠ [] → conf k = some v → Text v t →
      Token x conf (varStart x ++ k ++ [varEnd x] ++ s) t s
  | literal {s : Bytes} : (∀ k r, Name k → s ≠ k ++ [varEnd x] ++ r) → Token x conf (varStart x ++ s) (varStart x) s
  | even {n : Nat} {s : Bytes} : 0 < n → varStart x <+: s → Token x conf (List.replicate (2 * n) 92 ++ s) (List.replicate n 92) s
  | odd {n : Nat} {s : Bytes} : Token x conf (List.replicate (2 * n + 1) 92 ++ varStart x ++ s) (List.replicate n 92 ++ varStart x) s
  | slashes {n : Nat} {s : Bytes} : 0 < n → ¬ varStart x <+: s → s.head? ≠ some 92 →
      Token x conf (List.replicate n 92 ++ s) (List.replicate n 92) s
  | copy {c : UInt8} {s : Bytes} : c ≠ 92 → ¬ varStart x <+: c :: s → Token x conf (c :: s) [c] s

theorem escape_eq (x : Syntax) (s : Bytes) :
    escape x (s ++ [0]) =
      (if varStart x <+: s.dropWhile (· == 92) then
        if ((s.takeWhile (· == 92)).length + 1) % 2 ≠ 0 then
          .ok (List.replicate (((s.takeWhile (· == 92)).length + 1) / 2) 92 ++ varStart x, (s.dropWhile (· == 92) ++ [0]).drop (varStart x).length)
        else .ok (List.replicate (((s.takeWhile (· == 92)).length + 1) / 2) 92, s.dropWhile (· == 92) ++ [0])
      else .ok (List.replicate ((s.takeWhile (· == 92)).length + 1) 92, s.dropWhile (· == 92) ++ [0])) := by
  unfold escape
  rw [slashes_eq, Res.ok_bind]
  dsimp only
  rw [cmpn_eq _ (varStart_no0 x), Res.ok_bind]
  by_cases h : varStart x <+: s.dropWhile (· == 92)
  · rw [if_pos (List.isPrefixOf_iff_prefix.mpr h), if_pos h]
  · rw [if_neg (fun e => h (List.isPrefixOf_iff_prefix.mp e)), if_neg h]

theorem replicate_of_all (a : Bytes) (h : ∀ c ∈ a, c = 92) : a = List.replicate a.length 92 :=
  List.eq_replicate_iff.mpr ⟨rfl, h⟩

theorem stepText_sound (x : Syntax) (conf : Conf) (s l q : Bytes) (hs : s ≠ []) (h : stepText x conf (s ++ [0]) = .ok (l, q)) :
    ∃ r, q = r ++ [0] ∧ Token x conf s l r := by
  unfold stepText at h
  rw [rd_eq, Res.ok_bind] at h
  obtain ⟨c, s, rfl⟩ := List.exists_cons_of_ne_nil hs
  rw [show (c :: s).headD 0 = c from rfl] at h
  by_cases hc : c = 92
  · subst hc
    rw [if_pos rfl, List.cons_append, List.drop_succ_cons, List.drop_zero, escape_eq] at h
    have e : s = s.takeWhile (· == 92) ++ s.dropWhile (· == 92) := (List.takeWhile_append_dropWhile).symm
    have e1 := replicate_of_all (s.takeWhile (· == 92)) (fun c hc => by simpa using takeWhile_mem _ _ c hc)
    have hd : (s.dropWhile (· == 92)).head? ≠ some 92 := by
      intro hh
      have := dropWhile_head _ _ _ hh
      simp at this
    generalize s.takeWhile (· == 92) = a at *
    generalize s.dropWhile (· == 92) = r at *
    subst e
    have e2 : (92 : UInt8) :: (a ++ r) = List.replicate (a.length + 1) 92 ++ r := by
      rw [List.replicate_succ, ← e1]; rfl
    rw [e2]
    split at h
    · rename_i hp
      split at h
      · rename_i hm
        cases h
        obtain ⟨r', rfl⟩ := hp
        refine ⟨r', by rw [List.append_assoc, List.drop_left], ?_⟩
        have := Token.odd (x := x) (conf := conf) (n := (a.length + 1) / 2) (s := r')
        rw [show 2 * ((a.length + 1) / 2) + 1 = a.length + 1 by omega, List.append_assoc] at this
        exact this
      · rename_i hm
        cases h
        refine ⟨r, rfl, ?_⟩
        have := Token.even (x := x) (conf := conf) (n := (a.length + 1) / 2) (s := r) (by omega) hp
        rw [show 2 * ((a.length + 1) / 2) = a.length + 1 by omega] at this
        exact this
    · rename_i hp
      cases h
      exact ⟨r, rfl, .slashes (by omega) hp hd⟩
  · rw [if_neg hc, cmpn_eq _ (varStart_no0 x), Res.ok_bind] at h
    by_cases hp : varStart x <+: c :: s
    · rw [if_pos (List.isPrefixOf_iff_prefix.mpr hp)] at h
      obtain ⟨t, ht⟩ := hp
      rw [← ht, List.append_assoc, List.drop_left, varSub_eq] at h
      rw [← ht]
      split at h
      · rename_i he
        cases h
        refine ⟨t, rfl, .literal ?_⟩
        rintro k r hn rfl
        rw [name_iff] at hn
        apply he
        rw [List.append_assoc, dropWhile_all _ _ _ hn, dropWhile_stop]
        · rfl
        · intro c hc; cases hc; exact varEnd_key x
      · rename_i he
        simp only [ne_eq, Decidable.not_not] at he
        split at h
        · cases h
        · rename_i hk
          split at h
          · cases h
          · rename_i v hv
            obtain ⟨tx, htx, h2⟩ := Res.bind_eq_ok.mp h
            cases h2
            have e : t = t.takeWhile isKey ++ t.dropWhile isKey := (List.takeWhile_append_dropWhile).symm
            have hkm := takeWhile_mem isKey t
            generalize t.takeWhile isKey = k at *
            generalize t.dropWhile isKey = r at *
            cases r with
            | nil => exact absurd he.symm (varEnd_ne x)
            | cons d r =>
              simp only [List.headD_cons] at he
              subst he
              refine ⟨r, rfl, ?_⟩
              have := Token.var (x := x) (conf := conf) (s := r) ((name_iff k).mpr hkm) hk hv ((text_iff v _).mp htx)
              rw [e]
              simpa [List.append_assoc] using this
    · rw [if_neg (fun e => hp (List.isPrefixOf_iff_prefix.mp e))] at h
      cases h
      exact ⟨s, rfl, .copy hc hp⟩

theorem head_replicate (n : Nat) (s : Bytes) (h : s.head? ≠ some 92) :
    (List.replicate n 92 ++ s).takeWhile (· == 92) = List.replicate n 92 ∧ (List.replicate n 92 ++ s).dropWhile (· == 92) = s := by
  have h1 : ∀ c ∈ List.replicate n (92 : UInt8), (c == 92) = true := fun c hc => by simp [(List.mem_replicate.mp hc).2]
  have h2 : ∀ c, s.head? = some c → (c == 92) = false := by
    intro c hc
    simp only [beq_eq_false_iff_ne, ne_eq]
    rintro rfl
    exact h hc
  exact ⟨by rw [takeWhile_all _ _ _ h1, takeWhile_stop _ _ h2, List.append_nil], by rw [dropWhile_all _ _ _ h1, dropWhile_stop _ _ h2]⟩

theorem prefix_head (x : Syntax) (s : Bytes) (h : varStart x <+: s) : s.head? ≠ some 92 ∧ s.head? ≠ some 10 := by
  obtain ⟨c, r, e, h1, h2⟩ := varStart_head x
  obtain ⟨t, rfl⟩ := h
  rw [e]
  exact ⟨fun h => h1 (by cases h; rfl), fun h => h2 (by cases h; rfl)⟩

theorem stepText_slash (x : Syntax) (conf : Conf) (n : Nat) (s : Bytes) (hs : s.head? ≠ some 92) :
    stepText x conf (List.replicate (n + 1) 92 ++ s ++ [0]) =
      (if varStart x <+: s then
        if (n + 1) % 2 ≠ 0 then .ok (List.replicate ((n + 1) / 2) 92 ++ varStart x, (s ++ [0]).drop (varStart x).length)
        else .ok (List.replicate ((n + 1) / 2) 92, s ++ [0])
      else .ok (List.replicate (n + 1) 92, s ++ [0])) := by
  unfold stepText
  have e := head_replicate n s hs
  rw [rd_eq, Res.ok_bind, List.replicate_succ, show ((92 : UInt8) :: List.replicate n 92 ++ s).headD 0 = 92 from rfl, if_pos rfl,
    List.cons_append, List.cons_append, List.drop_succ_cons, List.drop_zero, escape_eq, e.1, e.2, List.length_replicate]
  rfl

theorem stepText_complete (x : Syntax) (conf : Conf) (s l r : Bytes) (h : Token x conf s l r) :
    stepText x conf (s ++ [0]) = .ok (l, r ++ [0]) := by
  cases h with
  | @var k s t v hn hk hv ht =>
    obtain ⟨c, vr, e, h1, h2⟩ := varStart_head x
    unfold stepText
    rw [rd_eq, Res.ok_bind]
    have hc : (varStart x ++ k ++ [varEnd x] ++ r).headD 0 = c := by rw [e]; rfl
    rw [hc, if_neg h1, cmpn_eq _ (varStart_no0 x), Res.ok_bind,
      if_pos (List.isPrefixOf_iff_prefix.mpr ⟨k ++ [varEnd x] ++ r, by simp⟩)]
    have e1 : varStart x ++ k ++ [varEnd x] ++ r ++ [0] = varStart x ++ ((k ++ varEnd x :: r) ++ [0]) := by simp
    rw [e1, List.drop_left, varSub_eq]
    have hstop : ∀ d, (varEnd x :: r).head? = some d → isKey d = false := by
      intro d hd; cases hd; exact varEnd_key x
    have hn' := (name_iff k).mp hn
    rw [dropWhile_all _ _ _ hn', dropWhile_stop _ _ hstop, takeWhile_all _ _ _ hn', takeWhile_stop _ _ hstop, List.append_nil,
      if_neg (by simp), if_neg hk]
    simp only [hv, (text_iff v l).mpr ht, Res.ok_bind, List.cons_append, List.drop_succ_cons, List.drop_zero]
  | literal hl =>
    obtain ⟨c, vr, e, h1, h2⟩ := varStart_head x
    unfold stepText
    rw [rd_eq, Res.ok_bind]
    have hc : (varStart x ++ r).headD 0 = c := by rw [e]; rfl
    rw [hc, if_neg h1, cmpn_eq _ (varStart_no0 x), Res.ok_bind, if_pos (List.isPrefixOf_iff_prefix.mpr ⟨r, rfl⟩),
      List.append_assoc, List.drop_left, varSub_eq, if_pos]
    intro he
    have e2 : r = r.takeWhile isKey ++ r.dropWhile isKey := (List.takeWhile_append_dropWhile).symm
    have hkm := takeWhile_mem isKey r
    cases hd : r.dropWhile isKey with
    | nil => rw [hd] at he; exact varEnd_ne x he.symm
    | cons d r' =>
      rw [hd] at he e2
      simp only [List.headD_cons] at he
      subst he
      exact hl _ r' ((name_iff _).mpr hkm) (by rw [List.append_assoc]; exact e2)
  | @even n s hn hp =>
    have := stepText_slash x conf (2 * n - 1) r (prefix_head x r hp).1
    rw [show 2 * n - 1 + 1 = 2 * n by omega] at this
    rw [this, if_pos hp, if_neg (by omega), show 2 * n / 2 = n by omega]
  | @odd n s =>
    have hp : varStart x <+: varStart x ++ r := ⟨r, rfl⟩
    have := stepText_slash x conf (2 * n) (varStart x ++ r) (prefix_head x _ hp).1
    rw [if_pos hp, if_pos (by omega), show (2 * n + 1) / 2 = n by omega, List.append_assoc (varStart x), List.drop_left] at this
    rw [List.append_assoc (List.replicate _ _) (varStart x)]
    exact this
  | @slashes n s hn hp hh =>
    have := stepText_slash x conf (n - 1) r hh
    rw [show n - 1 + 1 = n by omega] at this
    rw [this, if_neg hp]
  | @copy c s hc hp =>
    unfold stepText
    rw [rd_eq, Res.ok_bind, show (c :: r).headD 0 = c from rfl, if_neg hc, cmpn_eq _ (varStart_no0 x), Res.ok_bind, if_neg (fun e => hp (List.isPrefixOf_iff_prefix.mp e))]
    rfl

end Muon.Conf
