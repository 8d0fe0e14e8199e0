import Verif.Ctgt.Lemmas
/-
The functional form of `string_format` used here is the loop with positions of Verif/Str.
-/
namespace Muon.Ctgt
open Muon Muon.Str

/-- The callback in terms of positions. -/
def atPos (cb : Bytes → Res (Option Bytes)) (s : Bytes) (start len : Nat) : CbResult :=
  match cb (slice s start len) with
  | .ok (some v) => .found v
  | .ok none => .skip
  | _ => .error

/-- The outcome of the loop. -/
def outOf (res : Bytes) : Res Bytes → Option Bytes
  | .ok t => some (res ++ t)
  | _ => none

theorem outOf_emit (res e : Bytes) (r : Res Bytes) : outOf res (emit e r) = outOf (res ++ e) r := by
  cases r <;> simp [outOf, emit, Bind.bind, Res.bind]

theorem slice_succ {s t : Bytes} {c : UInt8} {a i : Nat} (ha : a ≤ i) (h : s.drop i = c :: t) : slice s a (i + 1 - a) = slice s a (i - a) ++ [c] := by
  unfold slice
  have h1 : i + 1 - a = (i - a) + 1 := by omega
  have h2 : (s.drop a)[i - a]? = some c := by
    rw [List.getElem?_drop, show a + (i - a) = i by omega]
    have := congrArg List.head? h
    simpa [List.head?_drop] using this
  rw [h1, List.take_add_one, h2]
  rfl

/-- What is true of the variables of the loop. -/
structure Inv (s : Bytes) (st : FmtSt) (k e rest : Bytes) : Prop where
  rest : s.drop st.i = rest
  le : st.i ≤ s.length
  endLe : st.idEnd ≤ st.i
  pos : st.reading = true → 0 < st.i
  text : e = slice s st.idEnd (st.i - st.idEnd)
  key : st.reading = true → st.idStart ≤ st.i ∧ k = slice s st.idStart (st.i - st.idStart) ∧
    ∀ j, st.idStart ≤ j → j < st.i → at' s j ≠ 64 ∧ ¬ (at' s j = 92 ∧ at' s (j + 1) = 64)

theorem scan_to (s : Bytes) (cb : Nat → Nat → CbResult) (r : Option Bytes) (st : FmtSt) : ∀ (m j : Nat), j + m ≤ s.length →
    (∀ l, j ≤ l → l < j + m → at' s l ≠ 64 ∧ ¬ (at' s l = 92 ∧ at' s (l + 1) = 64)) →
    Loop (fmtStep s cb) { st with i := j + m } r → Loop (fmtStep s cb) { st with i := j } r := by
  intro m
  induction m with
  | zero => intro j _ _ h; exact h
  | succ m ih =>
    intro j hj hp h
    obtain ⟨p1, p2⟩ := hp j (Nat.le_refl _) (by omega)
    refine Loop.next (s' := { st with i := j + 1 }) ?_ (ih (j + 1) (by omega) (fun l h1 h2 => hp l (by omega) (by omega)) (by rw [show j + 1 + m = j + (m + 1) by omega]; exact h))
    unfold fmtStep
    simp only
    rw [if_pos (by omega), if_neg p1, if_neg p2]

theorem fmt_loop_from (cb : Bytes → Res (Option Bytes)) (hb : ∀ k, cb k ≠ .bad) (s : Bytes) : ∀ (n : Nat) (rest : Bytes), rest.length ≤ n →
    ∀ (st : FmtSt) (k e : Bytes), Inv s st k e rest → Loop (fmtStep s (atPos cb s)) st (outOf st.res (fmt cb st.reading k e rest)) := by
  intro n
  induction n with
  | zero =>
    intro rest hr st k e hi
    have hre : rest = [] := List.length_eq_zero_iff.mp (by omega)
    subst hre
    have hlen : s.length ≤ st.i := by
      have := congrArg List.length hi.rest
      simp at this; omega
    refine .done ?_
    unfold fmtStep
    rw [if_neg (by omega)]
    cases hrd : st.reading with
    | true =>
      obtain ⟨_, hk, _⟩ := hi.key hrd
      simp [fmt, outOf, hk]
    | false =>
      simp only [fmt, outOf, Bool.false_eq_true, if_false, hi.text]
      by_cases hgt : st.i > st.idEnd
      · rw [if_pos hgt]
      · rw [if_neg hgt, show st.i - st.idEnd = 0 by omega]
        simp [slice]
  | succ n ih =>
    intro rest hr st k e hi
    cases rest with
    | nil => exact ih [] (by simp) st k e hi
    | cons c t =>
      have hdr := hi.rest
      have hlt : st.i < s.length := by
        have := congrArg List.length hdr
        simp at this; omega
      have hat : at' s st.i = c := by
        have := congrArg List.head? hdr
        rw [List.head?_drop] at this
        simpa [at', List.getD] using congrArg (·.getD 0) this
      have ht : s.drop (st.i + 1) = t := by
        have := congrArg List.tail hdr
        simpa [List.tail_drop] using this
      have hat1 : at' s (st.i + 1) = t.head?.getD 0 := by
        rw [← ht, List.head?_drop]
        simp [at', List.getD]
      have htl : t.length ≤ n := by simp at hr; omega
      have he1 := slice_succ hi.endLe hdr
      by_cases h64 : c = 64
      · subst h64
        cases hrd : st.reading with
        | false =>
          rw [fmt_at, outOf_emit]
          refine .next (s' := { st with i := st.i + 1, idStart := st.i + 1, reading := true, res := st.res ++ e }) ?_ ?_
          · unfold fmtStep
            rw [if_pos hlt, if_pos hat, hrd]
            simp only [Bool.false_eq_true, if_false]
            by_cases h0 : st.i = 0
            · simp [h0, hi.text, slice]
            · simp [h0, hi.text]
          · refine ih t htl ⟨st.i + 1, st.i + 1, st.idEnd, true, st.res ++ e⟩ [] (e ++ [64]) ⟨ht, by simp; omega, by have := hi.endLe; simp; omega, fun _ => Nat.succ_pos _, ?_, ?_⟩
            · simp only; rw [he1, hi.text]
            · intro _
              refine ⟨Nat.le_refl _, by simp [slice], ?_⟩
              intro j h1 h2; simp only at h1 h2; omega
        | true =>
          obtain ⟨k1, k2, k3⟩ := hi.key hrd
          rw [fmt_end]
          by_cases hk : k = []
          · rw [if_pos hk, outOf_emit]
            have hs : st.i = st.idStart := by
              have : k.length = st.i - st.idStart := by rw [k2]; simp [slice]; omega
              rw [hk] at this; simp at this; omega
            refine .next (s' := ⟨st.i + 1, st.i + 1, st.i + 1, true, st.res ++ [64]⟩) ?_ ?_
            · unfold fmtStep
              rw [if_pos hlt, if_pos hat, hrd, if_pos rfl, if_pos hs]
            · refine ih t htl ⟨st.i + 1, st.i + 1, st.i + 1, true, st.res ++ [64]⟩ [] [] ⟨ht, by simp; omega, by simp, fun _ => Nat.succ_pos _, by simp [slice], ?_⟩
              intro _
              refine ⟨Nat.le_refl _, by simp [slice], ?_⟩
              intro j h1 h2; simp only at h1 h2; omega
          · have hs : ¬ st.i = st.idStart := by
              intro h
              apply hk
              rw [k2, show st.i - st.idStart = 0 by omega]; simp [slice]
            rw [if_neg hk]
            have hstep : fmtStep s (atPos cb s) st = match atPos cb s st.idStart (st.i - st.idStart) with
                | .notFound => .inr none
                | .error => .inr none
                | .found v => .inl { st with i := st.i + 1, idEnd := st.i + 1, reading := false, res := st.res ++ v }
                | .skip => .inl { i := st.idStart, idStart := 0, idEnd := st.idStart, reading := false, res := st.res ++ [64] } := by
              unfold fmtStep
              rw [if_pos hlt, if_pos hat, if_pos hrd, if_neg hs]
              cases atPos cb s st.idStart (st.i - st.idStart) <;> rfl
            unfold atPos at hstep
            rw [← k2] at hstep
            cases hc : cb k with
            | bad => exact absurd hc (hb k)
            | error => rw [hc] at hstep; exact .done hstep
            | ok v =>
              rw [hc] at hstep
              cases v with
              | some v =>
                simp only [Res.ok_bind]
                rw [outOf_emit]
                refine .next hstep ?_
                refine ih t htl ⟨st.i + 1, st.idStart, st.i + 1, false, st.res ++ v⟩ [] [] ⟨ht, by simp; omega, by simp, fun _ => Nat.succ_pos _, by simp [slice], ?_⟩
                intro h; simp at h
              | none =>
                simp only [Res.ok_bind]
                rw [outOf_emit]
                refine .next hstep ?_
                refine scan_to s _ _ ⟨st.idStart, 0, st.idStart, false, st.res ++ [64]⟩ (st.i - st.idStart) st.idStart (by omega) ?_ ?_
                · intro l h1 h2
                  exact k3 l h1 (by omega)
                · simp only
                  rw [show st.idStart + (st.i - st.idStart) = st.i by omega]
                  refine .next (s' := ⟨st.i + 1, st.i + 1, st.idStart, true, st.res ++ 64 :: k⟩) ?_ ?_
                  · unfold fmtStep
                    simp only
                    rw [if_pos hlt, if_pos hat]
                    simp only [Bool.false_eq_true, if_false]
                    rw [if_pos (by omega), ← k2]
                    simp
                  · refine ih t htl ⟨st.i + 1, st.i + 1, st.idStart, true, st.res ++ 64 :: k⟩ [] (k ++ [64]) ⟨ht, by simp; omega, by simp; omega, fun _ => Nat.succ_pos _, ?_, ?_⟩
                    · simp only
                      rw [slice_succ k1 hdr, ← k2]
                    · intro _
                      refine ⟨Nat.le_refl _, by simp [slice], ?_⟩
                      intro j h1 h2; simp only at h1 h2; omega
      · by_cases hesc : c = 92 ∧ t.head? = some 64
        · obtain ⟨h92, hh⟩ := hesc
          subst h92
          cases t with
          | nil => simp at hh
          | cons d t' =>
            simp at hh
            subst hh
            rw [fmt_esc, outOf_emit]
            have ht2 : s.drop (st.i + 2) = t' := by
              have := congrArg List.tail ht
              simpa [List.tail_drop] using this
            have hlt2 : st.i + 1 < s.length := by
              have := congrArg List.length ht
              simp at this; omega
            refine .next (s' := ⟨st.i + 2, st.i + 1, st.i + 1, false, st.res ++ (if st.reading then 64 :: e else e)⟩) ?_ ?_
            · unfold fmtStep
              rw [if_pos hlt, if_neg (by rw [hat]; decide), if_pos ⟨hat, by rw [hat1]; rfl⟩]
              by_cases h0 : st.i = 0
              · have hrd : st.reading = false := by
                  cases hrd : st.reading with
                  | false => rfl
                  | true => have := hi.pos hrd; omega
                simp [h0, hrd, hi.text, slice]
              · cases st.reading <;> simp [h0, hi.text]
            · refine ih t' (by simp at htl; omega) ⟨st.i + 2, st.i + 1, st.i + 1, false, st.res ++ (if st.reading then 64 :: e else e)⟩ [] [64] ⟨ht2, by simp; omega, by simp, by simp, ?_, by simp⟩
              simp only
              rw [slice_succ (Nat.le_refl _) ht]
              simp [slice]
        · have hs : c = 92 → t.head? ≠ some 64 := fun h1 h2 => hesc ⟨h1, h2⟩
          rw [fmt_other cb st.reading k e h64 hs]
          have hne : ¬ (at' s st.i = 92 ∧ at' s (st.i + 1) = 64) := by
            rintro ⟨h1, h2⟩
            rw [hat] at h1
            rw [hat1] at h2
            apply hs h1
            cases t with
            | nil => simp at h2
            | cons d t => simpa using h2
          refine .next (s' := { st with i := st.i + 1 }) ?_ ?_
          · unfold fmtStep
            rw [if_pos hlt, if_neg (by rw [hat]; exact h64), if_neg hne]
          · refine ih t htl { st with i := st.i + 1 } (k ++ [c]) (e ++ [c]) ⟨ht, by simp; omega, by have := hi.endLe; simp; omega, fun _ => Nat.succ_pos _, ?_, ?_⟩
            · simp only; rw [he1, hi.text]
            · intro hrd
              obtain ⟨k1, k2, k3⟩ := hi.key hrd
              refine ⟨by simp; omega, by simp only; rw [slice_succ k1 hdr, k2], ?_⟩
              intro j h1 h2
              simp only at h1 h2
              by_cases hj : j = st.i
              · subst hj; exact ⟨by rw [hat]; exact h64, hne⟩
              · exact k3 j h1 (by omega)

/-- The functional form has the outcome of the loop. -/
theorem fmt_loop (cb : Bytes → Res (Option Bytes)) (hb : ∀ k, cb k ≠ .bad) (s : Bytes) :
    Loop (fmtStep s (atPos cb s)) ⟨0, 0, 0, false, []⟩ (match format cb s with | .ok t => some t | _ => none) := by
  have h := fmt_loop_from cb hb s s.length s (Nat.le_refl _) ⟨0, 0, 0, false, []⟩ [] [] ⟨by simp, by simp, by simp, by simp, by simp [slice], by simp⟩
  unfold format
  revert h
  cases fmt cb false [] [] s <;> exact fun h => h

end Muon.Ctgt
