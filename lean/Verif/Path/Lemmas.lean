import Verif.Path.Model
import Verif.Path.Spec
namespace Muon.Path
open Muon Spec

/-! Helper lemmas for `Verif.Path.Props`. -/

/-! ### Components -/

/-- A component without separators, NUL bytes, and not empty or `.`. -/
def Comp (c : Bytes) : Prop := c ≠ [] ∧ c ≠ [46] ∧ 47 ∉ c ∧ 0 ∉ c

theorem pieces_ne (s : Bytes) : pieces s ≠ [] := by
  cases s with
  | nil => simp [pieces]
  | cons c s =>
    unfold pieces
    split
    · simp
    · split <;> simp

theorem pieces_noSlash (x : Bytes) (h : 47 ∉ x) : pieces x = [x] := by
  induction x with
  | nil => rfl
  | cons c x ih =>
    simp only [List.mem_cons, not_or] at h
    unfold pieces
    rw [if_neg (fun e => h.1 e.symm), ih h.2]

theorem pieces_slash (x r : Bytes) (h : 47 ∉ x) : pieces (x ++ 47 :: r) = x :: pieces r := by
  induction x with
  | nil => simp [pieces]
  | cons c x ih =>
    simp only [List.mem_cons, not_or] at h
    rw [List.cons_append, pieces, if_neg (fun e => h.1 e.symm), ih h.2]

theorem pieces_append (x r : Bytes) : pieces (x ++ 47 :: r) = pieces x ++ pieces r := by
  induction x with
  | nil => simp [pieces]
  | cons c x ih =>
    rw [List.cons_append, pieces, pieces, ih]
    split
    · simp
    · have := pieces_ne x
      match h : pieces x with
      | [] => exact absurd h this
      | p :: ps => simp

theorem comps_append (x r : Bytes) : comps (x ++ 47 :: r) = comps x ++ comps r := by
  unfold comps; rw [pieces_append, List.filter_append]

theorem comps_slash (r : Bytes) : comps (47 :: r) = comps r := by
  have := comps_append [] r
  simp only [List.nil_append] at this; rw [this]; rfl

theorem pieces_mem (s : Bytes) : ∀ p ∈ pieces s, 47 ∉ p ∧ ∀ c ∈ p, c ∈ s := by
  induction s with
  | nil => simp [pieces]
  | cons c s ih =>
    intro p hp
    unfold pieces at hp
    split at hp
    · rcases List.mem_cons.1 hp with rfl | hp
      · simp
      · exact ⟨(ih p hp).1, fun d hd => List.mem_cons_of_mem _ ((ih p hp).2 d hd)⟩
    · next hc =>
      split at hp
      · next he => exact absurd he (pieces_ne s)
      · next q qs he =>
        rw [he] at ih
        rcases List.mem_cons.1 hp with rfl | hp
        · have := ih q (by simp)
          refine ⟨?_, ?_⟩
          · simp only [List.mem_cons, not_or]; exact ⟨fun e => hc e.symm, this.1⟩
          · intro d hd
            rcases List.mem_cons.1 hd with rfl | hd
            · simp
            · exact List.mem_cons_of_mem _ (this.2 d hd)
        · have := ih p (by simp [hp])
          exact ⟨this.1, fun d hd => List.mem_cons_of_mem _ (this.2 d hd)⟩

theorem comps_good (s : Bytes) (h0 : 0 ∉ s) : ∀ c ∈ comps s, Comp c := by
  intro c hc
  unfold comps at hc
  rw [List.mem_filter] at hc
  have := pieces_mem s c hc.1
  simp only [ne_eq, decide_not, Bool.and_eq_true, Bool.not_eq_true', decide_eq_false_iff_not] at hc
  exact ⟨hc.2.1, hc.2.2, this.1, fun h => h0 (this.2 0 h)⟩

theorem comps_self (c : Bytes) (h : Comp c) : comps c = [c] := by
  unfold comps
  rw [pieces_noSlash c h.2.2.1]
  simp [h.1, h.2.1]

theorem sepJoin_comps (cs : List Bytes) (h : ∀ c ∈ cs, Comp c) : comps (sepJoin cs) = cs := by
  induction cs with
  | nil => simp [sepJoin, comps, pieces]
  | cons c cs ih =>
    cases cs with
    | nil => exact comps_self c (h c (by simp))
    | cons d r =>
      rw [sepJoin, List.append_assoc, List.singleton_append, comps_append, comps_self c (h c (by simp)),
        ih (fun x hx => h x (by simp [hx]))]
      rfl

theorem render_comps (abs : Bool) (cs : List Bytes) (h : ∀ c ∈ cs, Comp c) : comps (render abs cs) = cs := by
  unfold render
  split
  · rw [comps_slash, sepJoin_comps cs h]
  · split
    · next he => subst he; decide
    · exact sepJoin_comps cs h

theorem sepJoin_head (c : Bytes) (cs : List Bytes) (h : c ≠ []) : (sepJoin (c :: cs)).head? = c.head? := by
  cases c with
  | nil => exact absurd rfl h
  | cons x c => cases cs <;> simp [sepJoin]

theorem render_ne (abs : Bool) (cs : List Bytes) (h : ∀ c ∈ cs, Comp c) : render abs cs ≠ [] := by
  unfold render
  split
  · simp
  · split
    · simp
    · intro he
      cases cs with
      | nil => contradiction
      | cons c cs =>
        have := sepJoin_head c cs (h c (by simp)).1
        rw [he] at this
        cases c with
        | nil => exact (h [] (by simp)).1 rfl
        | cons x c => simp at this

theorem render_isAbs (abs : Bool) (cs : List Bytes) (h : ∀ c ∈ cs, Comp c) : isAbs (render abs cs) = abs := by
  unfold render isAbs
  split
  · next ha => rw [ha]; simp
  · next ha =>
    have : abs = false := by simpa using ha
    rw [this]
    split
    · decide
    · cases cs with
      | nil => contradiction
      | cons c cs =>
        have hc := h c (by simp)
        rw [sepJoin_head c cs hc.1]
        cases c with
        | nil => exact absurd rfl hc.1
        | cons x c =>
          have : x ≠ 47 := fun e => hc.2.2.1 (by simp [e])
          simp [this]

/-! ### The in-place loop -/

/-- What the loop has kept so far. -/
def kept (abs : Bool) (cs : List Bytes) : Bytes := (if abs then [47] else []) ++ (cs.map (· ++ [47])).flatten

theorem kept_append (abs : Bool) (cs : List Bytes) (c : Bytes) : kept abs (cs ++ [c]) = kept abs cs ++ c ++ [47] := by
  unfold kept; simp

/-- Effect of one piece. -/
def stepF (opt : Bool) (acc : List Bytes) (c : Bytes) : List Bytes :=
  if c = [] ∨ c = [46] then acc
  else if opt = true ∧ c = dotdot ∧ acc ≠ [] ∧ acc.getLast? ≠ some dotdot then acc.dropLast
  else acc ++ [c]

/-- How `parents` relates to what has been kept. -/
def ParOk (opt : Bool) (cs : List Bytes) (parents : Nat) : Prop :=
  opt = true → ∃ dd nn, cs = dd ++ nn ∧ (∀ c ∈ dd, c = dotdot) ∧ (∀ c ∈ nn, c ≠ dotdot) ∧ parents = nn.length

theorem rest_cases (rest : Bytes) : (47 ∉ rest) ∨ ∃ x r, rest = x ++ 47 :: r ∧ 47 ∉ x := by
  induction rest with
  | nil => left; simp
  | cons c rest ih =>
    by_cases hc : c = 47
    · right; exact ⟨[], rest, by rw [hc]; rfl, by simp⟩
    · rcases ih with h | ⟨x, r, h, hx⟩
      · left; simp only [List.mem_cons, not_or]; exact ⟨fun e => hc e.symm, h⟩
      · right; refine ⟨c :: x, r, by rw [h]; rfl, ?_⟩
        simp only [List.mem_cons, not_or]; exact ⟨fun e => hc e.symm, hx⟩

theorem byteAt_append (a b : Bytes) (i : Nat) : byteAt (a ++ b) (a.length + i) = byteAt b i := by
  unfold byteAt
  rw [List.getD_eq_getElem?_getD, List.getD_eq_getElem?_getD, List.getElem?_append_right (by omega)]
  congr 2; omega

theorem byteAt_append_left (a b : Bytes) (i : Nat) (h : i < a.length) : byteAt (a ++ b) i = byteAt a i := by
  unfold byteAt
  rw [List.getD_eq_getElem?_getD, List.getD_eq_getElem?_getD, List.getElem?_append_left h]

theorem byteAt_ne0 (a : Bytes) (h0 : 0 ∉ a) (i : Nat) (h : i < a.length) : byteAt a i ≠ 0 := by
  unfold byteAt
  rw [List.getD_eq_getElem?_getD, List.getElem?_eq_getElem h]
  intro e
  simp only [Option.getD_some] at e
  exact h0 (e ▸ List.getElem_mem h)

theorem takeWhile_part (x t : Bytes) (h47 : 47 ∉ x) (h0 : 0 ∉ x) (ht : ∃ c r, t = c :: r ∧ (c = 47 ∨ c = 0)) :
    (x ++ t).takeWhile (fun c => c ≠ 47 && c ≠ 0) = x := by
  induction x with
  | nil =>
    obtain ⟨c, r, rfl, hc⟩ := ht
    rcases hc with rfl | rfl <;> simp
  | cons c x ih =>
    simp only [List.mem_cons, not_or] at h47 h0
    have h1 : c ≠ 47 := fun e => h47.1 e.symm
    have h2 : c ≠ 0 := fun e => h0.1 e.symm
    simp only [List.cons_append]
    rw [List.takeWhile_cons_of_pos (by simp [h1, h2]), ih h47.2 h0.2]

/-- Backward search from the end of the last kept component. -/
theorem backSearch_comp (K x t : Bytes) (h47 : 47 ∉ x) (hK : K = [] ∨ ∃ K', K = K' ++ [47]) :
    ∀ n, n ≤ x.length → 0 < K.length + n → backSearch (K ++ x ++ t) (K.length + n - 1) = K.length := by
  intro n
  induction n with
  | zero =>
    intro _ hpos
    rcases hK with rfl | ⟨K', rfl⟩
    · simp at hpos
    · simp only [List.length_append, List.length_singleton, Nat.add_zero, Nat.add_sub_cancel]
      have hb : byteAt (K' ++ [47] ++ x ++ t) K'.length = 47 := by
        have := byteAt_append K' ([47] ++ x ++ t) 0
        rw [Nat.add_zero] at this
        rw [List.append_assoc, List.append_assoc, ← List.append_assoc [47], this]; rfl
      cases hk : K'.length with
      | zero => rw [hk] at hb; simp only [backSearch, hb, if_true]
      | succ m => rw [hk] at hb; simp only [backSearch, hb, if_true]
  | succ n ih =>
    intro hn hpos
    have hb : byteAt (K ++ x ++ t) (K.length + n) ≠ 47 := by
      rw [List.append_assoc, byteAt_append, byteAt_append_left _ _ _ (by omega)]
      unfold byteAt
      rw [List.getD_eq_getElem?_getD, List.getElem?_eq_getElem (by omega)]
      intro e
      exact h47 (e ▸ List.getElem_mem (by omega))
    rw [show K.length + (n + 1) - 1 = K.length + n by omega]
    match hm : K.length + n with
    | 0 =>
      rw [hm] at hb
      have : K.length = 0 := by omega
      simp only [backSearch, hb, if_false, this]
    | m + 1 =>
      rw [hm] at hb
      simp only [backSearch, hb, if_false]
      have := ih (by omega) (by omega)
      rwa [show K.length + n - 1 = m by omega] at this

/-- The byte after the terminator. -/
def JunkOk (j0 : UInt8) (junk : Bytes) : Prop := 2 ≤ junk.length ∧ ∀ x, junk.head? = some x → x = 0 ∨ x = j0

/-- `memmove` when skipping: `u` is skipped, `v` is what is also dropped before it. -/
theorem memmove_skip (j0 : UInt8) (K v u r junk : Bytes) (hu : 1 ≤ u.length) (hv : v = [] ∨ 2 ≤ u.length)
    (hj : JunkOk j0 junk) (hu3 : u.length ≤ 3) :
    ∃ junk', memmove (K ++ v ++ u ++ r ++ 0 :: junk) K.length (K.length + v.length + u.length) (u.length + r.length) =
        K ++ r ++ 0 :: junk' ∧ JunkOk j0 junk' := by
  refine ⟨junk.take (u.length - 1) ++ (K ++ v ++ u ++ r ++ 0 :: junk).drop (K.length + (u.length + r.length)), ?_, ?_, ?_⟩
  · unfold memmove
    have h1 : (K ++ v ++ u ++ r ++ 0 :: junk).take K.length = K := by simp [List.append_assoc]
    have h2 : (K ++ v ++ u ++ r ++ 0 :: junk).drop (K.length + v.length + u.length) = r ++ 0 :: junk := by
      have : K.length + v.length + u.length = (K ++ v ++ u).length := by simp; omega
      rw [this, List.append_assoc (K ++ v ++ u), List.drop_left]
    rw [h1, h2]
    have h3 : (r ++ 0 :: junk).take (u.length + r.length) = r ++ 0 :: junk.take (u.length - 1) := by
      rw [List.take_append, List.take_of_length_le (by omega),
        show u.length + r.length - r.length = (u.length - 1) + 1 by omega, List.take_succ_cons]
    rw [h3]; simp
  · have := hj.1
    simp; omega
  · by_cases hz : u.length = 1
    · have hv : v = [] := by rcases hv with h | h; exact h; omega
      subst hv
      rw [hz]
      have : K.length + (1 + r.length) = (K ++ [] ++ u ++ r).length := by simp; omega
      rw [this, List.drop_left]; simp
    · obtain ⟨h2, hx⟩ := hj
      cases junk with
      | nil => simp at h2
      | cons j junk =>
        rw [show u.length - 1 = (u.length - 2) + 1 by omega]
        simpa using hx

/-! ### One iteration -/

theorem parOk_step (opt : Bool) (cs : List Bytes) (c : Bytes) (parents : Nat) (h : ParOk opt cs parents)
    (hc : ¬ (opt = true ∧ c = dotdot)) : ParOk opt (cs ++ [c]) (parents + 1) := by
  intro ho
  obtain ⟨dd, nn, h1, h2, h3, h4⟩ := h ho
  refine ⟨dd, nn ++ [c], by rw [h1]; simp, h2, ?_, by simp [h4]⟩
  intro x hx
  rcases List.mem_append.1 hx with hx | hx
  · exact h3 x hx
  · have : x = c := by simpa using hx
    subst this
    exact fun e => hc ⟨ho, e⟩

theorem parOk_zero (opt : Bool) (cs : List Bytes) (c : Bytes) (h : ParOk opt cs 0) (hc : c = dotdot) :
    ParOk opt (cs ++ [c]) 0 := by
  intro ho
  obtain ⟨dd, nn, h1, h2, h3, h4⟩ := h ho
  have : nn = [] := List.eq_nil_of_length_eq_zero h4.symm
  subst this
  refine ⟨dd ++ [c], [], by rw [h1]; simp, ?_, by simp, rfl⟩
  intro x hx
  rcases List.mem_append.1 hx with hx | hx
  · exact h2 x hx
  · rw [← hc]; simpa using hx

theorem parOk_last (cs : List Bytes) (parents : Nat) (h : ParOk true cs parents) :
    (parents = 0 → cs = [] ∨ cs.getLast? = some dotdot) ∧
    (parents ≠ 0 → ∃ cs' y, cs = cs' ++ [y] ∧ y ≠ dotdot ∧ ParOk true cs' (parents - 1)) := by
  obtain ⟨dd, nn, h1, h2, h3, h4⟩ := h rfl
  constructor
  · intro hp
    have : nn = [] := List.eq_nil_of_length_eq_zero (by omega)
    subst this
    rw [List.append_nil] at h1
    subst h1
    rcases List.eq_nil_or_concat cs with h | ⟨l, x, h⟩
    · exact Or.inl h
    · right
      rw [h, List.concat_eq_append]
      have := h2 x (by rw [h]; simp)
      simp [this]
  · intro hp
    rcases List.eq_nil_or_concat nn with h | ⟨l, x, h⟩
    · rw [h] at h4; simp at h4; omega
    · rw [List.concat_eq_append] at h
      refine ⟨dd ++ l, x, by rw [h1, h]; simp, h3 x (by rw [h]; simp), ?_⟩
      intro _
      exact ⟨dd, l, rfl, h2, fun c hc => h3 c (by rw [h]; simp [hc]), by rw [h4, h]; simp⟩

/-- State of the loop described by what was kept and what remains. -/
def StOk (j0 : UInt8) (opt abs : Bool) (st : NormSt) (cs : List Bytes) (rest : Bytes) : Prop :=
  ∃ junk, st.mem = kept abs cs ++ rest ++ 0 :: junk ∧ st.part = (kept abs cs).length ∧ st.blen = (kept abs cs).length ∧
    st.slen = rest.length ∧ 0 ∉ rest ∧ (∀ c ∈ cs, Comp c) ∧ JunkOk j0 junk ∧ ParOk opt cs st.parents

/-- What the loop leaves. -/
def EndOk (j0 : UInt8) (abs : Bool) (st : NormSt) (cs : List Bytes) : Prop :=
  ∃ out junk, st.mem = out ++ 0 :: junk ∧ st.blen = out.length ∧ (∀ c ∈ cs, Comp c) ∧ JunkOk j0 junk ∧
    (out = kept abs cs ∨ (cs ≠ [] ∧ out ++ [47] = kept abs cs))

theorem comp_of (x : Bytes) (h47 : 47 ∉ x) (h0 : 0 ∉ x) (h : ¬ (x = [] ∨ x = [46])) : Comp x :=
  ⟨fun e => h (Or.inl e), fun e => h (Or.inr e), h47, h0⟩

theorem bytes_one (x : Bytes) : (x.length = 1 ∧ byteAt x 0 = 46) ↔ x = [46] := by
  match x with
  | [] => simp
  | [a] => simp [byteAt]
  | a :: b :: r => simp

theorem bytes_two (x : Bytes) : (x.length = 2 ∧ byteAt x 0 = 46 ∧ byteAt x 1 = 46) ↔ x = dotdot := by
  match x with
  | [] => simp [dotdot]
  | [a] => simp [dotdot]
  | [a, b] => simp [byteAt, dotdot]
  | a :: b :: c :: r => simp [dotdot]

theorem normLoop_end (j0 : UInt8) (opt abs : Bool) (fuel : Nat) (st : NormSt) (cs : List Bytes)
    (h : StOk j0 opt abs st cs []) : ∃ st', normLoop opt (fuel + 1) st = .ok st' ∧ EndOk j0 abs st' cs := by
  obtain ⟨junk, hm, hp, hb, hs, h0, hc, hj, _⟩ := h
  refine ⟨st, ?_, ?_⟩
  · rw [normLoop, if_pos]
    rw [hm, hp, List.append_nil]
    have := byteAt_append (kept abs cs) (0 :: junk) 0
    rw [Nat.add_zero] at this; rw [this]; rfl
  · exact ⟨kept abs cs, junk, by rw [hm, List.append_nil], hb, hc, hj, Or.inl rfl⟩

/-- An iteration of the loop on a piece `x`, followed by a separator or not. -/
theorem normLoop_step (j0 : UInt8) (opt abs : Bool) (fuel : Nat) (st : NormSt) (cs : List Bytes) (x r : Bytes) (sl : Bool)
    (h : StOk j0 opt abs st cs (x ++ (if sl then 47 :: r else []))) (hx : 47 ∉ x) (hne : x ≠ [] ∨ sl = true) :
    ∃ st', (sl = true → StOk j0 opt abs st' (stepF opt cs x) r ∧ normLoop opt (fuel + 1) st = normLoop opt fuel st') ∧
      (sl = false → EndOk j0 abs st' (stepF opt cs x) ∧ normLoop opt (fuel + 1) st = .ok st') := by
  obtain ⟨junk, hm, hp, hb, hs, h0, hc, hj, hpar⟩ := h
  have hx0 : 0 ∉ x := fun h => h0 (by simp [h])
  have hr0 : sl = true → 0 ∉ r := by intro hsl h; apply h0; simp [hsl, h]
  -- the piece found
  have htail : ∃ c t, (if sl then 47 :: r else []) ++ 0 :: junk = c :: t ∧ (c = 47 ∨ c = 0) ∧ (c = 0 ↔ sl = false) := by
    cases sl with
    | true => exact ⟨47, r ++ 0 :: junk, by simp, by simp, by simp⟩
    | false => exact ⟨0, junk, by simp, by simp, by simp⟩
  obtain ⟨c, t, hct, hc47, hcsl⟩ := htail
  have hmem : st.mem = kept abs cs ++ (x ++ c :: t) := by rw [hm, ← hct]; simp
  have hdrop : st.mem.drop st.part = x ++ c :: t := by rw [hmem, hp, List.drop_left]
  have hpl : ((st.mem.drop st.part).takeWhile fun c => c ≠ 47 && c ≠ 0).length = x.length := by
    rw [hdrop, takeWhile_part x _ hx hx0 ⟨c, t, rfl, hc47⟩]
  have hat : ∀ i, byteAt st.mem (st.part + i) = byteAt (x ++ c :: t) i := by
    intro i; rw [hmem, hp, byteAt_append]
  have hsep : byteAt st.mem (st.part + x.length) = c := by
    rw [hat]; have := byteAt_append x (c :: t) 0; rw [Nat.add_zero] at this; rw [this]; rfl
  have hfirst : byteAt st.mem st.part ≠ 0 := by
    have := hat 0
    rw [Nat.add_zero] at this
    rw [this]
    cases x with
    | nil =>
      have hsl : sl = true := by simpa using hne
      intro e
      simp [byteAt] at e
      have := hcsl.1 e; rw [hsl] at this; cases this
    | cons y x =>
      rw [byteAt_append_left _ _ _ (by simp)]
      exact byteAt_ne0 _ hx0 0 (by simp)
  have hone : (x.length = 0 ∨ (x.length = 1 ∧ byteAt st.mem st.part = 46)) ↔ (x = [] ∨ x = [46]) := by
    have := hat 0
    rw [Nat.add_zero] at this
    rw [this, ← bytes_one x]
    constructor
    · rintro (h | h)
      · exact Or.inl (List.eq_nil_of_length_eq_zero h)
      · right; rw [byteAt_append_left _ _ _ (by omega)] at h; exact h
    · rintro (h | h)
      · left; rw [h]; rfl
      · right; rw [byteAt_append_left _ _ _ (by omega)]; exact h
  have htwo : (x.length = 2 ∧ byteAt st.mem st.part = 46 ∧ byteAt st.mem (st.part + 1) = 46) ↔ x = dotdot := by
    have h0' := hat 0
    rw [Nat.add_zero] at h0'
    rw [h0', hat 1, ← bytes_two x]
    constructor
    · rintro ⟨h, h'⟩
      rw [byteAt_append_left _ _ _ (by omega), byteAt_append_left _ _ _ (by omega)] at h'; exact ⟨h, h'⟩
    · rintro ⟨h, h'⟩
      rw [byteAt_append_left _ _ _ (by omega), byteAt_append_left _ _ _ (by omega)]; exact ⟨h, h'⟩
  -- the separator
  let u : Bytes := x ++ (if sl then [47] else [])
  have hu : u.length = x.length + (if c = 0 then 0 else 1) := by
    cases sl with
    | true => simp [u, show c ≠ 0 from fun e => by simpa using hcsl.1 e]
    | false => simp [u, hcsl.2 rfl]
  let r' : Bytes := if sl then r else []
  have hm2 : st.mem = kept abs cs ++ u ++ r' ++ 0 :: junk := by
    rw [hm]; cases sl <;> simp [u, r']
  have hslen : st.slen = u.length + r'.length := by
    rw [hs]; cases sl <;> simp [u, r']; omega
  have hu1 : 1 ≤ u.length := by
    cases x with
    | nil => have : sl = true := by simpa using hne
             simp [u, this]
    | cons y x => simp [u]
  have hmlen : st.mem.length = (kept abs cs).length + u.length + r'.length + 1 + junk.length := by
    rw [hm2]; simp; omega
  have hr'0 : 0 ∉ r' := by
    cases sl with
    | true => exact hr0 rfl
    | false => simp [r']
  have hslc : (if c = 0 then 0 else 1) = 0 ↔ sl = false := by
    rw [← hcsl]; by_cases hc0 : c = 0 <;> simp [hc0]
  -- skipping
  have skipOk : ∀ (K v : Bytes) (cs' : List Bytes) (parents : Nat), kept abs cs = K ++ v → K = kept abs cs' →
      (∀ c ∈ cs', Comp c) → ParOk opt cs' parents → (v = [] ∨ 2 ≤ u.length) → u.length ≤ 3 →
      st.part + x.length + (if c = 0 then 0 else 1) + st.slen ≤ st.mem.length ∧
      (sl = true → StOk j0 opt abs ⟨memmove st.mem K.length (st.part + x.length + (if c = 0 then 0 else 1)) st.slen,
          K.length, st.slen - (x.length + (if c = 0 then 0 else 1)), K.length, parents⟩ cs' r) ∧
      (sl = false → EndOk j0 abs ⟨memmove st.mem K.length (st.part + x.length + (if c = 0 then 0 else 1)) st.slen,
          K.length, st.slen - (x.length + (if c = 0 then 0 else 1)), K.length, parents⟩ cs') := by
    intro K v cs' parents hK hK' hcs' hpar' hv hu3
    obtain ⟨junk', hmm, hj'⟩ := memmove_skip j0 K v u r' junk hu1 hv hj hu3
    have hKl : (kept abs cs).length = K.length + v.length := by rw [hK]; simp
    have hsrc : st.part + x.length + (if c = 0 then 0 else 1) = K.length + v.length + u.length := by
      rw [hp, hKl, hu]; omega
    have hmm' : memmove st.mem K.length (st.part + x.length + (if c = 0 then 0 else 1)) st.slen = K ++ r' ++ 0 :: junk' := by
      rw [hsrc, hslen, hm2, hK]; exact hmm
    have hjl := hj.1
    refine ⟨by rw [hsrc, hmlen, hslen, hKl]; omega, ?_, ?_⟩
    · intro hsl
      refine ⟨junk', ?_, by rw [hK'], by rw [hK'], ?_, hr0 hsl, hcs', hj', hpar'⟩
      · simp only [hmm', ← hK']; simp [r', hsl]
      · simp only [hslen, ← hu]; simp [r', hsl]
    · intro hsl
      refine ⟨K, junk', ?_, rfl, hcs', hj', Or.inl hK'⟩
      simp only [hmm']; simp [r', hsl]
  -- keeping
  have keepOk : ∀ (parents : Nat), Comp x → ParOk opt (cs ++ [x]) parents →
      (sl = true → StOk j0 opt abs ⟨st.mem, st.part + x.length + (if c = 0 then 0 else 1),
          st.slen - (x.length + (if c = 0 then 0 else 1)), st.blen + (x.length + (if c = 0 then 0 else 1)), parents⟩ (cs ++ [x]) r) ∧
      (sl = false → EndOk j0 abs ⟨st.mem, st.part + x.length + (if c = 0 then 0 else 1),
          st.slen - (x.length + (if c = 0 then 0 else 1)), st.blen + (x.length + (if c = 0 then 0 else 1)), parents⟩ (cs ++ [x])) := by
    intro parents hcx hpar'
    have hall : ∀ d ∈ cs ++ [x], Comp d := by
      intro d hd
      rcases List.mem_append.1 hd with hd | hd
      · exact hc d hd
      · have : d = x := by simpa using hd
        rw [this]; exact hcx
    constructor
    · intro hsl
      have hk : kept abs (cs ++ [x]) = kept abs cs ++ u := by rw [kept_append]; simp [u, hsl]
      have hkl : (kept abs (cs ++ [x])).length = (kept abs cs).length + u.length := by rw [hk]; simp
      refine ⟨junk, ?_, ?_, ?_, ?_, hr0 hsl, hall, hj, hpar'⟩
      · simp only [hm2, hk]; simp [r', hsl]
      · simp only [hkl, hp, hu]; omega
      · simp only [hkl, hb, hu]
      · simp only [hslen, ← hu]; simp [r', hsl]
    · intro hsl
      refine ⟨kept abs cs ++ x, junk, ?_, ?_, hall, hj, Or.inr ⟨by simp, ?_⟩⟩
      · simp only [hm2]; simp [u, r', hsl]
      · simp only [hb, hcsl.2 hsl]; simp
      · rw [kept_append]
  rw [normLoop, if_neg hfirst]
  simp only [hpl, hsep]
  unfold stepF
  by_cases h1 : x = [] ∨ x = [46]
  · rw [if_pos (hone.2 h1), if_pos h1]
    have hu3 : u.length ≤ 3 := by
      have : u.length ≤ x.length + 1 := by rw [hu]; split <;> omega
      rcases h1 with h | h <;> (rw [h] at this; simp at this; omega)
    obtain ⟨ho, ha, hb'⟩ := skipOk (kept abs cs) [] cs st.parents (by simp) rfl hc hpar (Or.inl rfl) hu3
    rw [if_pos ho, hp, hb]
    rw [hp] at ha hb'
    refine ⟨_, fun hsl => ⟨ha hsl, ?_⟩, fun hsl => ⟨hb' hsl, ?_⟩⟩
    · rw [if_neg (fun e => by simpa [hsl] using hslc.1 e)]
    · rw [if_pos (hslc.2 hsl)]
  · rw [if_neg (fun h => h1 (hone.1 h)), if_neg h1]
    have hcx := comp_of x hx hx0 h1
    by_cases h2 : opt = true ∧ x = dotdot
    · have h2' : opt = true ∧ x.length = 2 ∧ byteAt st.mem st.part = 46 ∧ byteAt st.mem (st.part + 1) = 46 :=
        ⟨h2.1, htwo.2 h2.2⟩
      rw [if_pos h2']
      obtain ⟨hopt, hxd⟩ := h2
      have hp2 : ParOk true cs st.parents := by rw [hopt] at hpar; exact hpar
      obtain ⟨hz, hnz⟩ := parOk_last cs st.parents hp2
      by_cases hpz : st.parents = 0
      · rw [if_neg (show ¬ (st.parents ≠ 0) from fun h => h hpz)]
        have hnc : ¬ (opt = true ∧ x = dotdot ∧ cs ≠ [] ∧ cs.getLast? ≠ some dotdot) := by
          rintro ⟨_, _, e1, e2⟩
          rcases hz hpz with h | h
          · exact e1 h
          · exact e2 h
        rw [if_neg hnc]
        have hpar0 : ParOk opt (cs ++ [x]) st.parents := by
          rw [hpz]; rw [hpz] at hpar; exact parOk_zero opt cs x hpar hxd
        obtain ⟨ha, hb'⟩ := keepOk st.parents hcx hpar0
        refine ⟨_, fun hsl => ⟨ha hsl, ?_⟩, fun hsl => ⟨hb' hsl, ?_⟩⟩
        · rw [if_neg (fun e => by simpa [hsl] using hslc.1 e)]
        · rw [if_pos (hslc.2 hsl)]
      · rw [if_pos (show st.parents ≠ 0 from hpz)]
        obtain ⟨cs', y, hcs, hy, hpar'⟩ := hnz hpz
        have hyc : Comp y := hc y (by rw [hcs]; simp)
        rw [if_pos ⟨hopt, hxd, by rw [hcs]; simp, by rw [hcs]; simpa using hy⟩]
        have hdl : cs.dropLast = cs' := by rw [hcs]; simp
        rw [hdl]
        have hkc : kept abs cs = kept abs cs' ++ (y ++ [47]) := by rw [hcs, kept_append]; simp
        have hkl : (kept abs cs).length = (kept abs cs').length + y.length + 1 := by rw [hkc]; simp; omega
        have hbs : backSearch st.mem (st.part - 2) = (kept abs cs').length := by
          have := backSearch_comp (kept abs cs') y ([47] ++ u ++ r' ++ 0 :: junk) hyc.2.2.1 ?_ y.length (Nat.le_refl _) ?_
          · rw [hm2, hkc, hp, hkl]
            rw [show (kept abs cs').length + y.length + 1 - 2 = (kept abs cs').length + y.length - 1 by omega]
            simpa using this
          · unfold kept
            rcases List.eq_nil_or_concat cs' with h | ⟨l, z, h⟩
            · subst h
              cases abs with
              | true => right; exact ⟨[], by simp⟩
              | false => left; simp
            · right
              rw [h, List.concat_eq_append]
              exact ⟨(if abs then [47] else []) ++ (l.map (· ++ [47])).flatten ++ z, by simp⟩
          · have := List.length_pos_iff.2 hyc.1; omega
        rw [hbs]
        have hu3 : u.length ≤ 3 := by rw [hu, hxd]; simp [dotdot]; split <;> omega
        have hu2 : 2 ≤ u.length := by rw [hu, hxd]; simp [dotdot]
        obtain ⟨ho, ha, hb'⟩ := skipOk (kept abs cs') (y ++ [47]) cs' (st.parents - 1) hkc rfl
          (fun d hd => hc d (by rw [hcs]; simp [hd])) (by rw [hopt]; exact hpar') (Or.inr hu2) hu3
        rw [if_pos ho]
        have hbl : st.blen - (st.part + x.length - (kept abs cs').length - x.length) = (kept abs cs').length := by
          rw [hb, hp, hkl]; omega
        rw [hbl]
        refine ⟨_, fun hsl => ⟨ha hsl, ?_⟩, fun hsl => ⟨hb' hsl, ?_⟩⟩
        · rw [if_neg (fun e => by simpa [hsl] using hslc.1 e)]
        · rw [if_pos (hslc.2 hsl)]
    · rw [if_neg (show ¬ (opt = true ∧ x = dotdot ∧ cs ≠ [] ∧ cs.getLast? ≠ some dotdot) from fun h => h2 ⟨h.1, h.2.1⟩),
        if_neg (show ¬ (opt = true ∧ x.length = 2 ∧ byteAt st.mem st.part = 46 ∧ byteAt st.mem (st.part + 1) = 46) from
          fun h => h2 ⟨h.1, htwo.1 h.2⟩)]
      obtain ⟨ha, hb'⟩ := keepOk (st.parents + 1) hcx (parOk_step opt cs x st.parents hpar h2)
      refine ⟨_, fun hsl => ⟨ha hsl, ?_⟩, fun hsl => ⟨hb' hsl, ?_⟩⟩
      · rw [if_neg (fun e => by simpa [hsl] using hslc.1 e)]
      · rw [if_pos (hslc.2 hsl)]

theorem normLoop_all (j0 : UInt8) (opt abs : Bool) (fuel : Nat) : ∀ (st : NormSt) (cs : List Bytes) (rest : Bytes),
    StOk j0 opt abs st cs rest → rest.length < fuel →
    ∃ st', normLoop opt fuel st = .ok st' ∧ EndOk j0 abs st' ((pieces rest).foldl (stepF opt) cs) := by
  induction fuel with
  | zero => intro st cs rest _ h; omega
  | succ fuel ih =>
    intro st cs rest hst hf
    by_cases hn : rest = []
    · subst hn
      obtain ⟨st', h1, h2⟩ := normLoop_end j0 opt abs fuel st cs hst
      exact ⟨st', h1, by simpa [pieces, stepF] using h2⟩
    · rcases rest_cases rest with h47 | ⟨x, r, he, hx⟩
      · obtain ⟨st', _, h⟩ := normLoop_step j0 opt abs fuel st cs rest [] false (by simpa using hst) h47 (Or.inl hn)
        obtain ⟨h1, h2⟩ := h rfl
        exact ⟨st', h2, by rw [pieces_noSlash rest h47]; exact h1⟩
      · subst he
        obtain ⟨st1, h, _⟩ := normLoop_step j0 opt abs fuel st cs x r true (by simpa using hst) hx (Or.inr rfl)
        obtain ⟨h1, h2⟩ := h rfl
        obtain ⟨st', h3, h4⟩ := ih st1 _ r h1 (by simp at hf; omega)
        exact ⟨st', by rw [h2, h3], by rw [pieces_slash x r hx]; exact h4⟩

theorem foldl_stepF (opt : Bool) (ps : List Bytes) : ∀ acc, ps.foldl (stepF opt) acc =
    (ps.filter fun p => p ≠ [] && p ≠ [46]).foldl
      (fun acc c => if opt = true ∧ c = dotdot ∧ acc ≠ [] ∧ acc.getLast? ≠ some dotdot then acc.dropLast else acc ++ [c]) acc := by
  induction ps with
  | nil => intro acc; rfl
  | cons p ps ih =>
    intro acc
    by_cases hp : p = [] ∨ p = [46]
    · rw [List.foldl_cons, List.filter_cons_of_neg, ih, stepF, if_pos hp]
      rcases hp with h | h <;> simp [h]
    · rw [List.foldl_cons, List.filter_cons_of_pos, ih, List.foldl_cons, stepF, if_neg hp]
      simp only [not_or] at hp
      simp [hp.1, hp.2]

theorem foldl_snoc (l : List Bytes) : ∀ acc, l.foldl (fun acc c => acc ++ [c]) acc = acc ++ l := by
  induction l with
  | nil => simp
  | cons c l ih => intro acc; rw [List.foldl_cons, ih]; simp

theorem foldl_canon (opt : Bool) (s : Bytes) :
    (pieces s).foldl (stepF opt) [] = if opt then cancel (comps s) else comps s := by
  rw [foldl_stepF]
  cases opt with
  | true => simp [cancel, comps]
  | false =>
    simp only [Bool.false_eq_true, false_and, if_false]
    rw [foldl_snoc]; rfl

theorem kept_render (abs : Bool) (cs : List Bytes) : (cs ≠ [] → kept abs cs = render abs cs ++ [47]) ∧
    (kept abs [] = if abs then [47] else []) := by
  constructor
  · intro h
    have hj : ∀ cs : List Bytes, cs ≠ [] → (cs.map (· ++ [47])).flatten = sepJoin cs ++ [47] := by
      intro cs
      induction cs with
      | nil => intro h; exact absurd rfl h
      | cons c cs ih =>
        intro _
        cases cs with
        | nil => simp [sepJoin]
        | cons d r =>
          rw [List.map_cons, List.flatten_cons, ih (by simp), sepJoin]; simp
    unfold kept render
    rw [hj cs h]
    cases abs <;> simp [h]
  · unfold kept; simp

theorem sepJoin_snoc (cs : List Bytes) (c : Bytes) : sepJoin (cs ++ [c]) = if cs = [] then c else sepJoin cs ++ [47] ++ c := by
  induction cs with
  | nil => rfl
  | cons d cs ih =>
    cases cs with
    | nil => simp [sepJoin]
    | cons e r =>
      rw [List.cons_append, List.cons_append, sepJoin, ← List.cons_append, ih]
      simp [sepJoin]

theorem render_snoc (abs : Bool) (cs : List Bytes) (c : Bytes) : render abs (cs ++ [c]) =
    (if cs = [] then (if abs then [47] else []) else render abs cs ++ [47]) ++ c := by
  unfold render
  rw [sepJoin_snoc]
  cases abs <;> by_cases h : cs = [] <;> simp [h]

theorem byteAt_noSlash (K c t : Bytes) (hc : c ≠ []) (h47 : 47 ∉ c) : byteAt (K ++ c ++ t) ((K ++ c).length - 1) ≠ 47 := by
  have hp := List.length_pos_iff.2 hc
  rw [byteAt_append_left _ _ _ (by simp; omega), show (K ++ c).length - 1 = K.length + (c.length - 1) by simp; omega,
    byteAt_append]
  unfold byteAt
  rw [List.getD_eq_getElem?_getD, List.getElem?_eq_getElem (by omega)]
  intro e
  exact h47 (e ▸ List.getElem_mem (by omega))

theorem normalizeMem_ok (j0 : UInt8) (opt : Bool) (s junk : Bytes) (h0 : 0 ∉ s) (hs : s ≠ []) (hj : JunkOk j0 junk) :
    ∃ b t, normalizeMem (s ++ 0 :: junk) s.length opt = .ok (canon opt s ++ b :: t, (canon opt s).length) ∧
      (b = 0 ∨ (b = j0 ∧ canon opt s = [46])) := by
  have hpos : 0 < s.length := List.length_pos_iff.2 hs
  have hb0 : byteAt (s ++ 0 :: junk) 0 = byteAt s 0 := byteAt_append_left _ _ _ hpos
  have key : ∀ (abs : Bool) (rest : Bytes), s = (if abs then [47] else []) ++ rest → isAbs s = abs →
      (byteAt (s ++ 0 :: junk) 0 = 47 ↔ abs = true) → ∃ st',
      normLoop opt (s.length + 1) ⟨s ++ 0 :: junk, if byteAt (s ++ 0 :: junk) 0 = 47 then 1 else 0,
        if byteAt (s ++ 0 :: junk) 0 = 47 then s.length - 1 else s.length,
        if byteAt (s ++ 0 :: junk) 0 = 47 then 1 else 0, 0⟩ = .ok st' ∧
        EndOk j0 (isAbs s) st' (if opt then cancel (comps s) else comps s) := by
    intro abs rest he ha hb
    have hc : comps s = comps rest := by
      rw [he]; cases abs with
      | true => simp [comps_slash]
      | false => simp
    rw [ha, hc, ← foldl_canon]
    apply normLoop_all
    · refine ⟨junk, ?_, ?_, ?_, ?_, ?_, by simp, hj, ?_⟩
      · simp only [(kept_render abs []).2]; rw [← he]
      · simp only [hb, (kept_render abs []).2]; cases abs <;> simp
      · simp only [hb, (kept_render abs []).2]; cases abs <;> simp
      · simp only [hb]; rw [he]; cases abs <;> simp
      · intro h; apply h0; rw [he]; simp [h]
      · intro _; exact ⟨[], [], rfl, by simp, by simp, rfl⟩
    · rw [he]; cases abs <;> simp <;> omega
  have hmain : ∃ st',
      normLoop opt (s.length + 1) ⟨s ++ 0 :: junk, if byteAt (s ++ 0 :: junk) 0 = 47 then 1 else 0,
        if byteAt (s ++ 0 :: junk) 0 = 47 then s.length - 1 else s.length,
        if byteAt (s ++ 0 :: junk) 0 = 47 then 1 else 0, 0⟩ = .ok st' ∧
        EndOk j0 (isAbs s) st' (if opt then cancel (comps s) else comps s) := by
    rw [hb0] at key ⊢
    cases s with
    | nil => exact absurd rfl hs
    | cons c r =>
      by_cases hc : c = 47
      · subst hc
        exact key true r rfl (by simp [isAbs]) (by simp [byteAt])
      · exact key false (c :: r) rfl (by simp [isAbs, hc]) (by simp [byteAt, hc])
  obtain ⟨st', hl, out, jk, hm, hbl, hcs, hjk, hout⟩ := hmain
  have hcan : canon opt s = render (isAbs s) (if opt then cancel (comps s) else comps s) := by
    unfold canon; rw [if_neg hs]
  rw [hcan]
  unfold normalizeMem
  rw [if_neg (by omega)]
  simp only [hl]
  generalize (if opt then cancel (comps s) else comps s) = cs at *
  generalize isAbs s = abs at *
  by_cases hcsn : cs = []
  · subst hcsn
    have ho : out = if abs then [47] else [] := by
      rcases hout with h | h
      · rw [h, (kept_render abs []).2]
      · exact absurd rfl h.1
    cases abs with
    | true =>
      simp only [if_true] at ho
      subst ho
      simp only [hbl, List.length_singleton]
      rw [if_neg (by omega), if_neg (by omega)]
      exact ⟨0, jk, by simp [hm, render, sepJoin], Or.inl rfl⟩
    | false =>
      simp only [Bool.false_eq_true, if_false] at ho
      subst ho
      simp only [hbl, List.length_nil, if_true]
      obtain ⟨h2, hx⟩ := hjk
      cases jk with
      | nil => simp at h2
      | cons b t =>
        refine ⟨b, t, by simp [hm, render], ?_⟩
        rcases hx b rfl with h | h
        · exact Or.inl h
        · exact Or.inr ⟨h, by simp [render]⟩
  · have hr := (kept_render abs cs).1 hcsn
    have hrne : 0 < (render abs cs).length := List.length_pos_iff.2 (render_ne abs cs hcs)
    rcases hout with h | ⟨_, h⟩
    · rw [hr] at h
      have hl2 : out.length = (render abs cs).length + 1 := by rw [h]; simp
      rw [hbl, if_neg (by omega), if_pos]
      · refine ⟨0, 0 :: jk, ?_, Or.inl rfl⟩
        have : st'.mem.set (out.length - 1) 0 = render abs cs ++ 0 :: 0 :: jk := by
          rw [hm, h]
          simp
        rw [this, hl2]; simp
      · refine ⟨by omega, ?_⟩
        rw [hm, hl2, h]
        simp [byteAt]
    · rw [hr] at h
      have ho : out = render abs cs := List.append_cancel_right h
      rw [hbl, ho, if_neg (by omega), if_neg]
      · exact ⟨0, jk, by rw [hm, ho], Or.inl rfl⟩
      · rintro ⟨_, e⟩
        rcases List.eq_nil_or_concat cs with h | ⟨l, z, h⟩
        · exact hcsn h
        · rw [List.concat_eq_append] at h
          have hz := hcs z (by rw [h]; simp)
          rw [hm, ho, h, render_snoc] at e
          exact byteAt_noSlash _ z _ hz.1 hz.2.2.1 e

end Muon.Path
