import Verif.Rpath.Model
import Verif.Rpath.Spec
import Verif.Path.Props
/-
Lemmas about `remove_paths`.
-/
namespace Muon.Rpath
open Muon Spec

theorem writeAt_mid (pre X post b : Bytes) (p : Nat) (h : p + b.length ≤ X.length) :
    writeAt (pre ++ X ++ post) (pre.length + p) b = pre ++ (X.take p ++ b ++ X.drop (p + b.length)) ++ post := by
  unfold writeAt
  split
  · next hb => subst hb; simp
  · rw [show pre.length + p - (pre ++ X ++ post).length = 0 by simp; omega]
    simp only [List.replicate_zero, List.append_nil, List.append_assoc]
    rw [List.take_length_add_append, Nat.add_assoc, List.drop_length_add_append, List.take_append_of_le_length (by omega),
      List.drop_append_of_le_length h]
    simp

theorem mid_length (X b : Bytes) (p : Nat) (h : p + b.length ≤ X.length) :
    (X.take p ++ b ++ X.drop (p + b.length)).length = X.length := by
  simp; omega

/-- The total length of the names. -/
def total : List Bytes → Nat
  | [] => 0
  | d :: ds => d.length + total ds

theorem total_append (a : List Bytes) (d : Bytes) : total (a ++ [d]) = total a + d.length := by
  induction a with
  | nil => simp [total]
  | cons x a ih => simp only [List.cons_append, total, ih]; omega

theorem text_length : ∀ (ds : List Bytes), ds ≠ [] → (text ds).length + 1 = total ds + ds.length
  | [], h => absurd rfl h
  | [d], _ => by simp [text, total]
  | d :: e :: ds, _ => by
    have := text_length (e :: ds) (by simp)
    simp only [text, total, List.length_append, List.length_cons] at this ⊢
    omega

/-- Whether an entry is kept. -/
def keeps (build d : Bytes) : Bool := d ≠ [] && !inside build d

theorem isSub (build d : Bytes) (h1 : 0 ∉ build) (ha : Path.Spec.isAbs build = true) (h2 : 0 ∉ d) :
    ∃ b, Path.isSubpath build d = .ok b ∧ (b || decide (d = [])) = !keeps build d := by
  by_cases hd : d = []
  · subst hd
    have hbn : build ≠ [] := by rintro rfl; simp [Path.Spec.isAbs] at ha
    unfold Path.isSubpath Path.copy
    rw [if_neg hbn, Path.normalize_canon _ _ h1, Path.normalize_canon _ _ h2,
      Path.subLoop_spec _ _ (Path.canon_no0 _ _ h1) (Path.canon_no0 _ _ h2) (fun h => hbn ((Path.canon_ne _ _ h1).1 h)) _ 0 rfl (by omega) rfl]
    exact ⟨_, rfl, by simp [keeps]⟩
  · refine ⟨_, Path.isSubpath_iff_partial build d h1 h2 hd (.inl ha), ?_⟩
    simp [keeps, hd, inside]

theorem entry_keep {build : Bytes} (h1 : 0 ∉ build) (ha : Path.Spec.isAbs build = true) {s : RP} (h2 : 0 ∉ s.rpath) (hl : s.rpath.length < 4096) (c : UInt8) :
    entry build c s = .ok (if keeps build s.rpath then
      { s with
        file := if s.modified then writeAt s.file (s.copyTo + (if s.sep then 1 else 0)) (s.rpath ++ [c]) else s.file,
        copyTo := s.copyTo + s.rpath.length, sep := c == 58, cleared := false, rpath := [] }
      else { s with modified := true, rpath := [] }) := by
  obtain ⟨b, hb, hk⟩ := isSub build s.rpath h1 ha h2
  unfold entry
  rw [if_neg (by omega), hb, Res.ok_bind, hk]
  cases keeps build s.rpath <;> rfl

/-- Reading the characters of an entry. -/
theorem loop_chars (build : Bytes) : ∀ (d : Bytes) (s : RP) (R : Bytes) (n : Nat), 0 ∉ d → 58 ∉ d → s.rpath.length + d.length < 4096 →
    s.file.drop s.cur = d ++ R →
    loop build (n + d.length) s = loop build n { s with rpath := s.rpath ++ d, cur := s.cur + d.length } := by
  intro d
  induction d with
  | nil => intro s R n _ _ _ _; simp
  | cons c d ih =>
    intro s R n h0 h58 hl hR
    simp only [List.mem_cons, not_or] at h0 h58
    simp only [List.length_cons] at hl
    rw [List.length_cons, ← Nat.add_assoc, loop]
    have hc : s.file[s.cur]? = some c := by
      have := congrArg (fun l => l[0]?) hR
      simpa using this
    rw [hc]
    dsimp only
    rw [if_neg (Ne.symm h0.1), if_neg (Ne.symm h58.1), if_neg (by omega), ih _ R _ h0.2 h58.2 (by simp; omega)]
    · simp only [List.append_assoc, List.singleton_append]
      rw [Nat.add_assoc, Nat.add_comm 1]
    · dsimp only
      rw [← List.drop_drop, hR]
      simp

/-- The state between two entries. -/
def between (pre M R : Bytes) (K : List Bytes) (m : Bool) : RP :=
  ⟨pre ++ M ++ R, pre.length + M.length, [], pre.length + total K, m, !K.isEmpty, K.isEmpty⟩

/-- What is known between two entries. -/
structure Inv (K : List Bytes) (m : Bool) (M : Bytes) : Prop where
  space : total K + K.length + (if m then 1 else 0) ≤ M.length
  one : ∀ x, K = [x] → x ++ [58] <+: M
  start : m = false → K = [] → M = []

theorem take_snoc (d X : Bytes) (c : UInt8) : (d ++ c :: X).take (d.length + 1) = d ++ [c] := by
  rw [List.take_length_add_append]
  simp

/-- The state after an entry, before the rest. -/
theorem entry_between {build : Bytes} (h1 : 0 ∉ build) (ha : Path.Spec.isAbs build = true) (pre M R d : Bytes) (K : List Bytes) (m : Bool) (hi : Inv K m M)
    (h0 : 0 ∉ d) (hl : d.length < 4096) (c : UInt8) :
    ∃ M', M'.length = M.length + d.length + 1 ∧ (keeps build d = false → M' = M ++ d ++ [c]) ∧
      (keeps build d = true → K = [] → M'.take (d.length + 1) = d ++ [c]) ∧
    entry build c { between pre M (d ++ c :: R) K m with rpath := d, cur := pre.length + M.length + d.length } =
      .ok { between pre M' R (if keeps build d then K ++ [d] else K) (if keeps build d then m else true) with
        cur := pre.length + M.length + d.length, sep := if keeps build d then c == 58 else !K.isEmpty } := by
  rw [entry_keep h1 ha (s := { between pre M (d ++ c :: R) K m with rpath := d, cur := pre.length + M.length + d.length }) h0 hl]
  have hs := hi.space
  cases hk : keeps build d with
  | false =>
    refine ⟨M ++ d ++ [c], by simp; omega, fun _ => rfl, by simp, ?_⟩
    simp [between]
  | true =>
    cases hm : m with
    | false =>
      refine ⟨M ++ d ++ [c], by simp; omega, by simp, fun _ hK => ?_, ?_⟩
      · rw [hi.start hm hK]
        exact take_snoc d [] c
      · simp only [between, Bool.false_eq_true, if_false, if_true, total_append]
        simp [Nat.add_assoc]
    | true =>
      rw [hm, if_pos rfl] at hs
      have hp : total K + (if (!K.isEmpty) = true then 1 else 0) + (d ++ [c]).length ≤ (M ++ d ++ [c]).length := by
        cases K <;> simp at hs ⊢ <;> omega
      refine ⟨_, (mid_length (M ++ d ++ [c]) (d ++ [c]) _ hp).trans (by simp; omega), by simp, fun _ hK => ?_, ?_⟩
      · subst hK
        simp only [total, List.isEmpty_nil, Bool.not_true, Bool.false_eq_true, if_false, Nat.add_zero, List.take_zero, List.nil_append,
          List.append_assoc, List.cons_append]
        exact take_snoc d _ c
      · have hw := writeAt_mid pre (M ++ d ++ [c]) R (d ++ [c]) _ hp
        simp only [between, if_true, total_append]
        simp only [List.append_assoc, List.cons_append, List.nil_append, Nat.add_assoc] at hw ⊢
        simp only [Res.ok.injEq, RP.mk.injEq, true_and]
        exact ⟨hw, by simp⟩

/-- The rest of the loop. -/
theorem loop_text {build : Bytes} (h1 : 0 ∉ build) (ha : Path.Spec.isAbs build = true) (pre post : Bytes) : ∀ (ds : List Bytes), ds ≠ [] →
    (∀ d ∈ ds, 58 ∉ d ∧ 0 ∉ d ∧ d.length < 4096) → ∀ (M : Bytes) (K : List Bytes) (m : Bool), Inv K m M → ∀ n, (text ds).length < n →
    ∃ M', M'.length = M.length + (text ds).length + 1 ∧
      loop build n (between pre M (text ds ++ 0 :: post) K m) =
        .ok (pre ++ (M'.take (total (K ++ kept build ds)) ++ [0] ++ M'.drop (total (K ++ kept build ds) + 1)) ++ post, (K ++ kept build ds).isEmpty) ∧
      total (K ++ kept build ds) < M'.length ∧ (∀ x, K ++ kept build ds = [x] → x <+: M')
  | [], h, _, _, _, _, _, _, _ => absurd rfl h
  | [d], _, hd, M, K, m, hi, n, hn => by
    obtain ⟨h58, h0, hl⟩ := hd d (by simp)
    obtain ⟨k, rfl⟩ : ∃ k, n = k + 1 + d.length := ⟨n - 1 - d.length, by simp [text] at hn; omega⟩
    obtain ⟨M', e1, e2, e3, e4⟩ := entry_between h1 ha pre M post d K m hi h0 hl 0
    have hfil : K ++ kept build [d] = if keeps build d then K ++ [d] else K := by
      unfold kept
      rw [List.filter_cons]
      cases hk : keeps build d <;> unfold keeps at hk <;> rw [hk] <;> simp
    have hs := hi.space
    have ht : total (K ++ kept build [d]) < M'.length := by
      rw [hfil, e1]
      split
      · rw [total_append]; omega
      · omega
    refine ⟨M', by simp [text, e1], ?_, ht, ?_⟩
    · rw [text, loop_chars build d _ (0 :: post) _ h0 h58 (by simpa [between] using hl) (by simp [between]), loop]
      have hc : (between pre M (d ++ 0 :: post) K m).file[(between pre M (d ++ 0 :: post) K m).cur + d.length]? = some 0 := by
        simp only [between]
        rw [List.append_assoc, List.getElem?_append_right (by omega), List.getElem?_append_right (by omega),
          List.getElem?_append_right (by omega)]
        simp [show pre.length + M.length + d.length - pre.length - M.length - d.length = 0 by omega]
      dsimp only at hc ⊢
      rw [hc]
      dsimp only
      rw [if_pos rfl]
      have e4' := e4
      simp only [between, List.nil_append] at e4' ⊢
      rw [e4']
      simp only [Res.bind, ← hfil]
      rw [writeAt_mid pre M' post [0] _ ht]
      rfl
    · intro x hx
      rw [hfil] at hx
      cases hk : keeps build d with
      | true =>
        rw [hk, if_pos rfl] at hx
        have hK : K = [] := by
          have := congrArg List.length hx
          simp at this
          exact this
        subst hK
        simp only [List.nil_append, List.cons.injEq, and_true] at hx
        subst hx
        have := e3 hk rfl
        exact List.IsPrefix.trans ⟨[0], rfl⟩ (this ▸ List.take_prefix _ _)
      | false =>
        rw [hk] at hx
        rw [e2 hk, List.append_assoc]
        exact ((List.prefix_append x [58]).trans (hi.one x (by simpa using hx))).trans (List.prefix_append _ _)
  | d :: e :: ds, _, hd, M, K, m, hi, n, hn => by
    obtain ⟨h58, h0, hl⟩ := hd d (by simp)
    rw [text] at hn
    obtain ⟨k, rfl⟩ : ∃ k, n = k + 1 + d.length := ⟨n - 1 - d.length, by simp at hn; omega⟩
    obtain ⟨M', e1, e2, e3, e4⟩ := entry_between h1 ha pre M (text (e :: ds) ++ 0 :: post) d K m hi h0 hl 58
    have hfil : K ++ kept build (d :: e :: ds) = (if keeps build d then K ++ [d] else K) ++ kept build (e :: ds) := by
      unfold kept
      rw [List.filter_cons]
      cases hk : keeps build d <;> unfold keeps at hk <;> rw [hk] <;> simp
    have hs := hi.space
    have hi' : Inv (if keeps build d then K ++ [d] else K) (if keeps build d then m else true) M' := by
      refine ⟨?_, ?_, ?_⟩
      · rw [e1]
        cases hk : keeps build d with
        | true => simp only [if_true, total_append, List.length_append, List.length_singleton]; omega
        | false => simp only [Bool.false_eq_true, if_false, if_true]; omega
      · intro x hx
        cases hk : keeps build d with
        | true =>
          rw [hk, if_pos rfl] at hx
          have hK : K = [] := by
            have := congrArg List.length hx
            simp at this
            exact this
          subst hK
          simp only [List.nil_append, List.cons.injEq, and_true] at hx
          subst hx
          exact e3 hk rfl ▸ List.take_prefix _ _
        | false =>
          rw [hk] at hx
          rw [e2 hk, List.append_assoc]
          exact (hi.one x (by simpa using hx)).trans (List.prefix_append _ _)
      · intro hm hK
        cases hk : keeps build d with
        | true => rw [hk] at hK; simp at hK
        | false => rw [hk] at hm; simp at hm
    obtain ⟨M'', f1, f2, f3, f4⟩ := loop_text h1 ha pre post (e :: ds) (by simp) (fun x hx => hd x (by simp at hx ⊢; exact .inr hx)) M' _ _ hi' k
      (by simp at hn; omega)
    rw [← hfil] at f2 f3 f4
    refine ⟨M'', by rw [f1, e1]; simp [text]; omega, ?_, f3, f4⟩
    rw [← f2, text, loop_chars build d _ (58 :: text (e :: ds) ++ 0 :: post) _ h0 h58 (by simpa [between] using hl) (by simp [between]), loop]
    have hc : (between pre M (d ++ 58 :: text (e :: ds) ++ 0 :: post) K m).file[(between pre M (d ++ 58 :: text (e :: ds) ++ 0 :: post) K m).cur + d.length]?
        = some 58 := by
      simp only [between]
      rw [List.append_assoc, List.append_assoc, List.getElem?_append_right (by omega), List.getElem?_append_right (by omega),
        List.getElem?_append_right (by omega)]
      simp [show pre.length + M.length + d.length - pre.length - M.length - d.length = 0 by omega]
    dsimp only at hc ⊢
    rw [hc]
    dsimp only
    rw [if_neg (by decide), if_pos rfl]
    have e4' := e4
    simp only [between, List.nil_append, List.append_assoc, List.cons_append] at e4' ⊢
    rw [e4']
    simp only [Res.bind]
    congr 1
    simp only [RP.mk.injEq, e1, true_and, and_true]
    refine ⟨by omega, ?_⟩
    cases keeps build d <;> simp

end Muon.Rpath
