import Verif.Nlog.Spec
import Verif.Lines.Lemmas
import Verif.Lex.Round
namespace Muon.Nlog
open Muon Muon.Nlog.Spec
open _root_.Muon.Lex (strtol digitVal digitsVal signOf skipPrefix)
open _root_.Muon.Lex.Spec (digits)

theorem splitTab_ne (s : Bytes) : splitTab s ≠ [] := by
  cases s with
  | nil => simp [splitTab]
  | cons c s =>
    unfold splitTab
    split
    · simp
    · split <;> simp

theorem splitTab_tab (a b : Bytes) (h : 9 ∉ a) : splitTab (a ++ 9 :: b) = a :: splitTab b := by
  induction a with
  | nil => simp [splitTab]
  | cons c a ih =>
    simp only [List.mem_cons, not_or] at h
    simp only [List.cons_append, splitTab]
    rw [if_neg (fun e => h.1 e.symm), ih h.2]

theorem splitTab_last (a : Bytes) (h : 9 ∉ a) : splitTab a = [a] := by
  induction a with
  | nil => simp [splitTab]
  | cons c a ih =>
    simp only [List.mem_cons, not_or] at h
    simp only [splitTab]
    rw [if_neg (fun e => h.1 e.symm), ih h.2]

/-- The fields of a prefix are the first fields, the last of them cut off. -/
theorem splitTab_prefix (t u : Bytes) (h : t <+: u) :
    ∃ j x y, splitTab t = (splitTab u).take j ++ [x] ∧ (splitTab u)[j]? = some y ∧ x <+: y := by
  induction t generalizing u with
  | nil =>
    cases hu : splitTab u with
    | nil => exact absurd hu (splitTab_ne u)
    | cons y ys => exact ⟨0, [], y, by simp [splitTab], rfl, List.nil_prefix⟩
  | cons c t ih =>
    cases u with
    | nil => simp at h
    | cons d u =>
      obtain ⟨rfl, h'⟩ := List.cons_prefix_cons.1 h
      obtain ⟨j, x, y, h1, h2, h3⟩ := ih u h'
      simp only [splitTab]
      by_cases hc : c = 9
      · rw [if_pos hc, if_pos hc, h1]
        exact ⟨j + 1, x, y, by simp, by simpa using h2, h3⟩
      · rw [if_neg hc, if_neg hc, h1]
        cases hu : splitTab u with
        | nil => exact absurd hu (splitTab_ne u)
        | cons z zs =>
          rw [hu] at h2
          cases j with
          | zero =>
            simp only [List.take_zero, List.nil_append, List.getElem?_cons_zero, Option.some.injEq] at h2 ⊢
            subst h2
            exact ⟨0, c :: x, c :: z, rfl, rfl, List.cons_prefix_cons.2 ⟨rfl, h3⟩⟩
          | succ j =>
            simp only [List.take_succ_cons, List.cons_append]
            exact ⟨j + 1, x, y, rfl, by simpa using h2, h3⟩

theorem digits_no (base : Nat) (h2 : 2 ≤ base) (h16 : base ≤ 16) (n : Nat) : 9 ∉ digits base n ∧ 10 ∉ digits base n ∧ 0 ∉ digits base n := by
  have key := (Lex.digits_spec base h2 h16 n).2.1
  have hd : ∀ c : UInt8, digitVal c < 16 → c ≠ 9 ∧ c ≠ 10 ∧ c ≠ 0 := forall_byte (by decide +kernel)
  refine ⟨fun h => ?_, fun h => ?_, fun h => ?_⟩
  · exact (hd _ (Nat.lt_of_lt_of_le (key _ h) h16)).1 rfl
  · exact (hd _ (Nat.lt_of_lt_of_le (key _ h) h16)).2.1 rfl
  · exact (hd _ (Nat.lt_of_lt_of_le (key _ h) h16)).2.2 rfl

theorem dec_no (v : Int) : 9 ∉ dec v ∧ 10 ∉ dec v ∧ 0 ∉ dec v := by
  have := digits_no 10 (by omega) (by omega) v.natAbs
  unfold dec
  split
  · simp only [List.mem_cons, not_or]
    exact ⟨⟨by decide, this.1⟩, ⟨by decide, this.2.1⟩, ⟨by decide, this.2.2⟩⟩
  · exact this

theorem strtol_dec (v : Int) : strtol 10 (dec v) = some (v, []) := by
  obtain ⟨h1, h2, h3, _⟩ := Lex.digits_spec 10 (by omega) (by omega) v.natAbs
  have hp := Lex.strtol_digits 10 (by omega) (digits 10 v.natAbs) [] h1 h2 (by decide) (by decide)
  rw [List.append_nil, h3] at hp
  unfold dec
  by_cases hv : v < 0
  · rw [if_pos hv]
    cases hd : digits 10 v.natAbs with
    | nil => exact absurd hd h1
    | cons c r =>
      rw [hd] at hp h2
      have hc := Lex.digit_props c (by have := h2 c (by simp); omega)
      -- the sign is stripped, then as before
      have e1 : (45 :: c :: r : Bytes).dropWhile isSpace = 45 :: c :: r := rfl
      have e2 : (c :: r : Bytes).dropWhile isSpace = c :: r := by rw [List.dropWhile_cons_of_neg (by simp [hc.1])]
      have e3 : signOf (c :: r) = (false, c :: r) := by
        unfold signOf
        split
        · next h => cases h; exact absurd rfl hc.2.1
        · next h => cases h; exact absurd rfl hc.2.2.1
        · rfl
      have e4 : signOf (45 :: c :: r) = (true, c :: r) := rfl
      unfold strtol at hp ⊢
      rw [e2, e3] at hp
      rw [e1, e4]
      simp only at hp ⊢
      split at hp
      · cases hp
      · next hne =>
        rw [if_neg hne]
        simp only [Bool.false_eq_true, if_false, if_true, Option.some.injEq, Prod.mk.injEq] at hp ⊢
        refine ⟨?_, hp.2⟩
        rw [hp.1]; omega
  · rw [if_neg hv, hp]
    congr 2; omega

theorem strtoll_dec (v : Int) (h1 : -2 ^ 63 ≤ v) (h2 : v < 2 ^ 63) : strtoll (dec v) = (v, []) := by
  unfold strtoll
  rw [strtol_dec]
  simp only
  rw [if_neg (by omega), if_neg (by omega)]

theorem strtoull_digits (n : Nat) (h : n < 2 ^ 64) : (strtoull (digits 16 n)).1 = n := by
  obtain ⟨h1, h2, h3, _⟩ := Lex.digits_spec 16 (by omega) (by omega) n
  have hp := Lex.strtol_digits 16 (by omega) (digits 16 n) [] h1 h2 (by decide) (by decide)
  rw [List.append_nil, h3] at hp
  unfold strtoull
  rw [hp]
  simp only [Int.natAbs_natCast]
  rw [if_neg (by omega), if_neg (by omega)]

theorem splitTab_rec (p : Bytes) (r : Rec) (h : 9 ∉ p) :
    splitTab (recText p r) = [ascii "0", ascii "0", dec r.mtime, p, digits 16 r.hash] := by
  unfold recText
  simp only [List.append_assoc, List.cons_append, List.nil_append]
  rw [splitTab_tab _ _ (by decide), splitTab_tab _ _ (by decide), splitTab_tab _ _ (dec_no _).1, splitTab_tab _ _ h,
    splitTab_last _ (digits_no 16 (by omega) (by omega) _).1]

theorem parseLine_rec (known : Bytes → Bool) (st : St) (e : Entry) (h : Good e) :
    parseLine known st (recText e.1 e.2) = if known e.1 then St.set st e.1 e.2 else st := by
  obtain ⟨g1, _, _, g4, g5, g6⟩ := h
  unfold parseLine fields
  rw [splitTab_rec _ _ g1]
  simp only [List.take_succ_cons, List.take_zero, List.getElem?_cons_succ, List.getElem?_cons_zero]
  by_cases hk : known e.1 = true
  · rw [if_pos hk, if_pos hk, strtoll_dec _ g4 g5]
    simp only [ne_eq, not_true_eq_false, if_false, strtoull_digits _ g6]
    funext q
    unfold St.set
    by_cases hq : q = e.1
    · simp [hq]
    · simp [hq]
  · rw [if_neg hk, if_neg hk]

/-- What a torn record can change. -/
theorem parseLine_torn (known : Bytes → Bool) (st : St) (e : Entry) (h : 9 ∉ e.1) (t : Bytes) (ht : t <+: recText e.1 e.2) (q : Bytes) :
    (¬q <+: e.1 → parseLine known st t q = st q) ∧ (q ≠ e.1 → (parseLine known st t q).hash = (st q).hash) := by
  obtain ⟨j, x, y, h1, h2, h3⟩ := splitTab_prefix t _ ht
  rw [splitTab_rec _ _ h] at h1 h2
  unfold parseLine fields
  rw [h1]
  have hj : j < 5 := by
    apply Classical.byContradiction
    intro hj
    rw [List.getElem?_eq_none (by simp; omega)] at h2
    cases h2
  have h5 : ∀ l : List Bytes, l.length ≤ 5 → l.take 5 = l := fun l hl => List.take_of_length_le hl
  rw [h5 _ (by simp; omega)]
  match j, hj with
  | 0, _ => simp
  | 1, _ => simp
  | 2, _ => simp
  | 3, _ =>
    simp only [List.getElem?_cons_succ, List.getElem?_cons_zero, Option.some.injEq] at h2
    subst h2
    simp only [List.take_succ_cons, List.take_zero, List.cons_append, List.nil_append, List.getElem?_cons_succ, List.getElem?_cons_zero]
    split
    · have e4 : ∀ (st' : St), (if (strtoll (dec e.2.mtime)).2 ≠ [] then st'
          else match ([] : List Bytes)[0]? with | none => st' | some h => St.set st' x ⟨(st' x).mtime, (strtoull h).1⟩) = st' := by
        intro st'; split <;> rfl
      refine ⟨fun hq => ?_, fun hq => ?_⟩
      · simp only [List.getElem?_nil, ite_self]
        unfold St.set
        rw [if_neg (fun e => hq (by rw [e]; exact h3))]
      · simp only [List.getElem?_nil, ite_self]
        unfold St.set
        split
        · next e => rw [e]
        · rfl
    · simp
  | 4, _ =>
    simp only [List.take_succ_cons, List.take_zero, List.cons_append, List.nil_append, List.getElem?_cons_succ, List.getElem?_cons_zero]
    split
    · refine ⟨fun hq => ?_, fun hq => ?_⟩
      · have hne : q ≠ e.1 := fun h => hq (by rw [h]; exact List.prefix_refl _)
        split <;> simp [St.set, hne]
      · split <;> simp [St.set, hq]
    · simp

/-- The nodes after a sequence of complete records. -/
def replay (known : Bytes → Bool) (rs : List Entry) (st : St) : St :=
  rs.foldl (fun st e => if known e.1 then St.set st e.1 e.2 else st) st

theorem replay_latest (known : Bytes → Bool) (rs : List Entry) (p : Bytes) :
    replay known rs St.init p = if known p then latest rs p else ⟨2, 0⟩ := by
  have key : ∀ rs : List Entry, replay known rs.reverse St.init p =
      if known p then latest rs.reverse p else ⟨2, 0⟩ := by
    intro rs
    induction rs with
    | nil => unfold replay latest St.init; simp
    | cons e rs ih =>
      unfold replay at ih ⊢
      rw [List.reverse_cons, List.foldl_append, List.foldl_cons, List.foldl_nil]
      unfold latest at ih ⊢
      rw [List.reverse_append, List.reverse_reverse, List.reverse_singleton, List.singleton_append, List.find?_cons]
      rw [List.reverse_reverse] at ih
      by_cases hp : e.1 = p
      · subst hp
        by_cases hk : known e.1 = true
        · simp [hk, St.set]
        · rw [if_neg hk, ih, if_neg hk, if_neg hk]
      · have hb : (e.1 == p) = false := by simpa using hp
        rw [hb]
        simp only
        rw [← ih]
        split
        · unfold St.set; rw [if_neg (fun h => hp h.symm)]
        · rfl
  have := key rs.reverse
  rwa [List.reverse_reverse] at this

theorem run_recs (known : Bytes → Bool) (rs : List Entry) (hg : ∀ e ∈ rs, Good e) (ls : List Bytes) (st : St) :
    Lines.run (parseCb known) (rs.map (fun e => recText e.1 e.2) ++ ls) (false, st) =
      Lines.run (parseCb known) ls (false, replay known rs st) := by
  induction rs generalizing st with
  | nil => rfl
  | cons e rs ih =>
    simp only [List.map_cons, List.cons_append, Lines.run, parseCb, Bool.false_eq_true, if_false]
    rw [parseLine_rec known st e (hg e (by simp)), ih (fun e he => hg e (by simp [he]))]
    rfl

theorem recText_no (e : Entry) (h : Good e) : 10 ∉ recText e.1 e.2 ∧ 0 ∉ recText e.1 e.2 := by
  obtain ⟨_, g2, g3, _⟩ := h
  have hd := dec_no e.2.mtime
  have hx := digits_no 16 (by omega) (by omega) e.2.hash
  unfold recText
  simp only [List.mem_append, not_or]
  exact ⟨⟨⟨⟨⟨⟨⟨⟨⟨by decide, by decide⟩, by decide⟩, by decide⟩, hd.2.1⟩, by decide⟩, g2⟩, by decide⟩, hx.2.1⟩,
    ⟨⟨⟨⟨⟨⟨⟨⟨by decide, by decide⟩, by decide⟩, by decide⟩, hd.2.2⟩, by decide⟩, g3⟩, by decide⟩, hx.2.2⟩⟩

theorem toLines_recs (rs : List Entry) (hg : ∀ e ∈ rs, Good e) (t : Bytes) :
    Lines.toLines ((rs.flatMap fun e => logrecord e.1 e.2) ++ t) = rs.map (fun e => recText e.1 e.2) ++ Lines.toLines t := by
  induction rs with
  | nil => rfl
  | cons e rs ih =>
    simp only [List.flatMap_cons, List.map_cons, List.cons_append]
    unfold logrecord
    rw [List.append_assoc, List.append_assoc, List.singleton_append, Lines.toLines_line _ _ (recText_no e (hg e (by simp))).1]
    congr 1
    exact ih (fun e he => hg e (by simp [he]))

theorem written_no0 (rs : List Entry) (hg : ∀ e ∈ rs, Good e) : 0 ∉ written rs := by
  unfold written
  rw [List.mem_append, not_or]
  refine ⟨by decide, ?_⟩
  rw [List.mem_flatMap]
  rintro ⟨e, he, h⟩
  unfold logrecord at h
  rw [List.mem_append] at h
  rcases h with h | h
  · exact (recText_no e (hg e he)).2 h
  · revert h; decide

/-- Reading complete records and a rest. -/
theorem readLog_recs (known : Bytes → Bool) (rs : List Entry) (hg : ∀ e ∈ rs, Good e) (t : Bytes) (h0 : 0 ∉ t) :
    readLog known (written rs ++ t) = (Lines.run (parseCb known) (Lines.toLines t) (false, replay known rs St.init)).2 := by
  have hv : versionOk (ascii "# ninja log v5") = true := by decide +kernel
  unfold readLog Lines.eachLine
  rw [Lines.takeWhile_no0 _ (by rw [List.mem_append, not_or]; exact ⟨written_no0 rs hg, h0⟩)]
  unfold written header
  rw [List.append_assoc, List.append_assoc, List.singleton_append, Lines.toLines_line _ _ (by decide), toLines_recs rs hg]
  simp only [Lines.run, parseCb, hv, if_true]
  exact congrArg Prod.snd (run_recs known rs hg _ _)

/-- The records of a log. -/
def body (rs : List Entry) : Bytes := rs.flatMap fun e => logrecord e.1 e.2

theorem written_eq (rs : List Entry) : written rs = header ++ body rs := rfl

theorem body_cons (e : Entry) (rs : List Entry) : body (e :: rs) = recText e.1 e.2 ++ [10] ++ body rs := by
  unfold body; rw [List.flatMap_cons]; rfl

/-- A prefix of the records: complete ones and a torn one. -/
theorem body_take (rs : List Entry) : ∀ k, ∃ n, n ≤ rs.length ∧ (body (rs.take n)).length ≤ k ∧
    (n < rs.length → k < (body (rs.take (n + 1))).length) ∧
    ∃ t, (body rs).take k = body (rs.take n) ++ t ∧ (t = [] ∨ ∃ e, rs[n]? = some e ∧ t <+: recText e.1 e.2) := by
  induction rs with
  | nil => intro k; exact ⟨0, by simp, by simp [body], by simp, [], by simp [body], Or.inl rfl⟩
  | cons e rs ih =>
    intro k
    by_cases hk : (recText e.1 e.2).length + 1 ≤ k
    · obtain ⟨n, h1, h2, h3, t, h4, h5⟩ := ih (k - ((recText e.1 e.2).length + 1))
      refine ⟨n + 1, by simpa using h1, ?_, ?_, t, ?_, by simpa using h5⟩
      · rw [List.take_succ_cons, body_cons]; simp only [List.length_append, List.length_singleton]; omega
      · intro h
        rw [List.take_succ_cons, body_cons]; simp only [List.length_append, List.length_singleton]
        have := h3 (by simpa using h); omega
      · rw [List.take_succ_cons, body_cons, body_cons, List.take_append, List.append_assoc _ _ t, ← h4, List.take_of_length_le (by simpa using hk)]
        congr 2
        simp
    · refine ⟨0, by simp, by simp [body], ?_, (recText e.1 e.2).take k, ?_, Or.inr ⟨e, rfl, List.take_prefix _ _⟩⟩
      · intro _
        rw [List.take_succ_cons, body_cons]; simp only [List.length_append, List.length_singleton]; omega
      · rw [body_cons, List.append_assoc, List.take_append_of_le_length (by omega)]
        simp [body]

/-- Before the header is complete nothing is read. -/
theorem readLog_header (known : Bytes → Bool) (rs : List Entry) (k : Nat) (hk : k < header.length) :
    readLog known ((written rs).take k) = St.init := by
  rw [written_eq, List.take_append_of_le_length (by omega)]
  have e : header.take k = (ascii "# ninja log v5").take k := by
    unfold header; rw [List.take_append_of_le_length]
    have : (ascii "# ninja log v5" ++ [10]).length = (ascii "# ninja log v5").length + 1 := by simp
    unfold header at hk; omega
  rw [e]
  have h0 : 0 ∉ (ascii "# ninja log v5").take k := fun h => absurd (List.mem_of_mem_take h) (by decide)
  have h10 : 10 ∉ (ascii "# ninja log v5").take k := fun h => absurd (List.mem_of_mem_take h) (by decide)
  unfold readLog Lines.eachLine
  rw [Lines.takeWhile_no0 _ h0]
  by_cases hn : (ascii "# ninja log v5").take k = []
  · rw [hn]; rfl
  · rw [Lines.toLines_last _ h10 hn]
    simp only [Lines.run, parseCb, if_true]
    cases versionOk ((ascii "# ninja log v5").take k) <;> rfl

/-- What is read fits 64 bits. -/
def Bounded (st : St) : Prop := ∀ p, -2 ^ 63 ≤ (st p).mtime ∧ (st p).mtime < 2 ^ 63 ∧ (st p).hash < 2 ^ 64

theorem strtoll_bound (s : Bytes) : -2 ^ 63 ≤ (strtoll s).1 ∧ (strtoll s).1 < 2 ^ 63 := by
  unfold strtoll
  split
  · show -2 ^ 63 ≤ (0 : Int) ∧ (0 : Int) < 2 ^ 63; decide
  · simp only
    split
    · decide
    · split
      · decide
      · constructor <;> omega

theorem strtoull_bound (s : Bytes) : (strtoull s).1 < 2 ^ 64 := by
  unfold strtoull
  split
  · show (0 : Nat) < 2 ^ 64; decide
  · simp only
    split
    · decide
    · split <;> omega

theorem Bounded.set {st : St} (h : Bounded st) (p : Bytes) (r : Rec) (hr : -2 ^ 63 ≤ r.mtime ∧ r.mtime < 2 ^ 63 ∧ r.hash < 2 ^ 64) :
    Bounded (st.set p r) := by
  intro q
  unfold St.set
  split
  · exact hr
  · exact h q

theorem Bounded.parseLine {known : Bytes → Bool} {st : St} (h : Bounded st) (line : Bytes) : Bounded (parseLine known st line) := by
  have hm := strtoll_bound
  unfold Nlog.parseLine
  dsimp only
  split
  · exact h
  · next path _ =>
    split
    · split
      · exact h
      · next m _ =>
        have h1 := h.set path ⟨(strtoll m).1, (st path).hash⟩ ⟨(hm m).1, (hm m).2, (h path).2.2⟩
        split
        · exact h1
        · split
          · exact h1
          · exact h1.set _ _ ⟨(h1 _).1, (h1 _).2.1, strtoull_bound _⟩
    · exact h

theorem readLog_bounded (known : Bytes → Bool) (file : Bytes) : Bounded (readLog known file) := by
  have key : ∀ (ls : List Bytes) (s : Bool × St), Bounded s.2 → Bounded (Lines.run (parseCb known) ls s).2 := by
    intro ls
    induction ls with
    | nil => intro s h; exact h
    | cons l ls ih =>
      intro s h
      simp only [Lines.run, parseCb]
      split
      · next s' e =>
        apply ih
        split at e
        · split at e <;> cases e <;> exact h
        · cases e; exact h.parseLine l
      · next s' e =>
        split at e
        · split at e <;> cases e <;> exact h
        · cases e
  exact key _ _ (fun p => by show -2 ^ 63 ≤ (2 : Int) ∧ (2 : Int) < 2 ^ 63 ∧ (0 : Nat) < 2 ^ 64; decide)

end Muon.Nlog
