import Verif.Path.Lemmas
namespace Muon.Path
open Muon Spec

/-! Lemmas about component lists and the functions on normalised paths. -/

/-! ### walk and cancel -/

theorem walk_append (st a b : List Bytes) : walk st (a ++ b) = walk (walk st a) b := by
  unfold walk; rw [List.foldl_append]

theorem walk_single (st : List Bytes) (c : Bytes) : walk st [c] = if c = dotdot then st.dropLast else st ++ [c] := rfl

/-- One step of `cancel`. -/
def cancelStep (acc : List Bytes) (c : Bytes) : List Bytes :=
  if c = dotdot ∧ acc ≠ [] ∧ acc.getLast? ≠ some dotdot then acc.dropLast else acc ++ [c]

theorem cancel_eq (cs : List Bytes) : cancel cs = cs.foldl cancelStep [] := rfl

theorem walk_cancelStep (st acc : List Bytes) (c : Bytes) : walk st (cancelStep acc c) = walk (walk st acc) [c] := by
  unfold cancelStep
  split
  · next h =>
    obtain ⟨h1, h2, h3⟩ := h
    rcases List.eq_nil_or_concat acc with h | ⟨l, y, h⟩
    · exact absurd h h2
    · rw [List.concat_eq_append] at h
      subst h
      have hy : y ≠ dotdot := by simpa using h3
      rw [walk_append, walk_single, walk_single, if_neg hy, if_pos h1]
      simp
  · rw [walk_append]

theorem walk_cancelFold (st : List Bytes) (cs : List Bytes) : ∀ acc, walk st (cs.foldl cancelStep acc) = walk (walk st acc) cs := by
  induction cs with
  | nil => intro acc; rfl
  | cons c cs ih =>
    intro acc
    rw [List.foldl_cons, ih, walk_cancelStep, ← walk_append]; rfl

theorem walk_cancel (st cs : List Bytes) : walk st (cancel cs) = walk st cs := walk_cancelFold st cs []

/-- Normal form: leading `..` only. -/
def NF (cs : List Bytes) : Prop := ∃ dd nn, cs = dd ++ nn ∧ (∀ c ∈ dd, c = dotdot) ∧ (∀ c ∈ nn, c ≠ dotdot)

theorem nf_step (acc : List Bytes) (c : Bytes) (h : NF acc) : NF (cancelStep acc c) := by
  obtain ⟨dd, nn, h1, h2, h3⟩ := h
  unfold cancelStep
  split
  · next hc =>
    rcases List.eq_nil_or_concat nn with h | ⟨l, y, h⟩
    · subst h
      rw [List.append_nil] at h1
      subst h1
      rcases List.eq_nil_or_concat acc with h | ⟨l, y, h⟩
      · exact absurd h hc.2.1
      · exfalso; apply hc.2.2
        rw [h, List.concat_eq_append]
        have := h2 y (by rw [h]; simp)
        simp [this]
    · rw [List.concat_eq_append] at h
      subst h
      refine ⟨dd, l, ?_, h2, fun c hc => h3 c (by simp [hc])⟩
      rw [h1, ← List.append_assoc]; simp
  · next hc =>
    by_cases hd : c = dotdot
    · have hn : nn = [] := by
        rcases List.eq_nil_or_concat nn with h | ⟨l, y, h⟩
        · exact h
        · exfalso
          rw [List.concat_eq_append] at h
          apply hc
          refine ⟨hd, by rw [h1, h]; simp, ?_⟩
          rw [h1, h, ← List.append_assoc]
          simpa using h3 y (by rw [h]; simp)
      refine ⟨dd ++ [c], [], by rw [h1, hn]; simp, ?_, by simp⟩
      intro x hx
      rcases List.mem_append.1 hx with hx | hx
      · exact h2 x hx
      · rw [← hd]; simpa using hx
    · refine ⟨dd, nn ++ [c], by rw [h1]; simp, h2, ?_⟩
      intro x hx
      rcases List.mem_append.1 hx with hx | hx
      · exact h3 x hx
      · have : x = c := by simpa using hx
        rw [this]; exact hd

theorem nf_cancel (cs : List Bytes) : NF (cancel cs) := by
  rw [cancel_eq]
  have : ∀ acc, NF acc → NF (cs.foldl cancelStep acc) := by
    induction cs with
    | nil => intro acc h; exact h
    | cons c cs ih => intro acc h; exact ih _ (nf_step acc c h)
  exact this [] ⟨[], [], rfl, by simp, by simp⟩

theorem cancelFold_dd (dd : List Bytes) (h : ∀ c ∈ dd, c = dotdot) : ∀ acc, (∀ c ∈ acc, c = dotdot) →
    dd.foldl cancelStep acc = acc ++ dd := by
  induction dd with
  | nil => intro acc _; simp
  | cons c dd ih =>
    intro acc ha
    have hc := h c (by simp)
    have : cancelStep acc c = acc ++ [c] := by
      unfold cancelStep
      rw [if_neg]
      rintro ⟨_, h2, h3⟩
      rcases List.eq_nil_or_concat acc with h | ⟨l, y, h⟩
      · exact h2 h
      · apply h3
        rw [h, List.concat_eq_append]
        have := ha y (by rw [h]; simp)
        simp [this]
    rw [List.foldl_cons, this, ih (fun x hx => h x (by simp [hx]))]
    · simp
    · intro x hx
      rcases List.mem_append.1 hx with hx | hx
      · exact ha x hx
      · rw [← hc]; simpa using hx

theorem cancelFold_nn (nn : List Bytes) (h : ∀ c ∈ nn, c ≠ dotdot) : ∀ acc, nn.foldl cancelStep acc = acc ++ nn := by
  induction nn with
  | nil => intro acc; simp
  | cons c nn ih =>
    intro acc
    have : cancelStep acc c = acc ++ [c] := by
      unfold cancelStep
      rw [if_neg (fun hh => h c (by simp) hh.1)]
    rw [List.foldl_cons, this, ih (fun x hx => h x (by simp [hx]))]
    simp

theorem cancel_nf (cs : List Bytes) (h : NF cs) : cancel cs = cs := by
  obtain ⟨dd, nn, h1, h2, h3⟩ := h
  rw [cancel_eq, h1, List.foldl_append, cancelFold_dd dd h2 [] (by simp), cancelFold_nn nn h3]
  simp

theorem cancel_sub (cs : List Bytes) : ∀ c ∈ cancel cs, c ∈ cs := by
  have : ∀ (cs acc : List Bytes), ∀ c ∈ cs.foldl cancelStep acc, c ∈ acc ∨ c ∈ cs := by
    intro cs
    induction cs with
    | nil => intro acc c h; exact Or.inl h
    | cons d cs ih =>
      intro acc c h
      rcases ih _ c h with h | h
      · unfold cancelStep at h
        split at h
        · exact Or.inl (List.dropLast_subset _ h)
        · rcases List.mem_append.1 h with h | h
          · exact Or.inl h
          · right; simp at h; simp [h]
      · right; simp [h]
  intro c h
  rcases this cs [] c h with h | h
  · simp at h
  · exact h

theorem canon_good (opt : Bool) (s : Bytes) (h0 : 0 ∉ s) : ∀ c ∈ (if opt then cancel (comps s) else comps s), Comp c := by
  intro c hc
  apply comps_good s h0
  cases opt with
  | true => exact cancel_sub _ c (by simpa using hc)
  | false => simpa using hc

theorem canon_comps (opt : Bool) (s : Bytes) (h0 : 0 ∉ s) :
    comps (canon opt s) = if opt then cancel (comps s) else comps s := by
  unfold canon
  split
  · next h => subst h; cases opt <;> decide
  · exact render_comps _ _ (canon_good opt s h0)

theorem canon_isAbs (opt : Bool) (s : Bytes) (h0 : 0 ∉ s) : isAbs (canon opt s) = isAbs s := by
  unfold canon
  split
  · next h => subst h; rfl
  · exact render_isAbs _ _ (canon_good opt s h0)

theorem canon_ne (opt : Bool) (s : Bytes) (h0 : 0 ∉ s) : canon opt s = [] ↔ s = [] := by
  unfold canon
  split
  · next h => simp [h]
  · next h => simp only [render_ne _ _ (canon_good opt s h0), h]

theorem sepJoin_mem (cs : List Bytes) : ∀ x ∈ sepJoin cs, x = 47 ∨ ∃ c ∈ cs, x ∈ c := by
  induction cs with
  | nil => intro x h; simp [sepJoin] at h
  | cons c cs ih =>
    intro x h
    cases cs with
    | nil => right; exact ⟨c, by simp, h⟩
    | cons d r =>
      rw [sepJoin] at h
      simp only [List.mem_append, List.mem_singleton] at h
      rcases h with (h | h) | h
      · right; exact ⟨c, by simp, h⟩
      · left; exact h
      · rcases ih x h with h | ⟨e, he, hx⟩
        · exact Or.inl h
        · right; exact ⟨e, by simp [he], hx⟩

theorem render_no0 (abs : Bool) (cs : List Bytes) (h : ∀ c ∈ cs, Comp c) : 0 ∉ render abs cs := by
  have hs : 0 ∉ sepJoin cs := by
    intro h0
    rcases sepJoin_mem cs 0 h0 with h1 | ⟨c, hc, hx⟩
    · exact absurd h1 (by decide)
    · exact (h c hc).2.2.2 hx
  unfold render
  split
  · simp [hs]
  · split
    · simp
    · exact hs

theorem canon_no0 (opt : Bool) (s : Bytes) (h0 : 0 ∉ s) : 0 ∉ canon opt s := by
  unfold canon
  split
  · simp
  · exact render_no0 _ _ (canon_good opt s h0)

theorem canon_canon (opt : Bool) (s : Bytes) (h0 : 0 ∉ s) : canon opt (canon opt s) = canon opt s := by
  by_cases hs : s = []
  · subst hs; rfl
  · have hne : canon opt s ≠ [] := fun h => hs ((canon_ne opt s h0).1 h)
    have hc : ∀ t : Bytes, t ≠ [] → canon opt t = render (isAbs t) (if opt then cancel (comps t) else comps t) := by
      intro t ht; unfold canon; rw [if_neg ht]
    rw [hc _ hne, canon_isAbs opt s h0, canon_comps opt s h0, hc s hs]
    congr 1
    cases opt with
    | true => simp [cancel_nf _ (nf_cancel _)]
    | false => rfl

theorem normalize_canon (opt : Bool) (s : Bytes) (h0 : 0 ∉ s) : normalize opt s = canon opt s := by
  by_cases hs : s = []
  · subst hs; rfl
  · obtain ⟨b, t, h, _⟩ := normalizeMem_ok 0 opt s [0, 0] h0 hs ⟨by simp, by simp⟩
    unfold normalize
    rw [h]
    simp

/-! ### join -/

theorem isAbsolute_eq (s : Bytes) : isAbsolute s = isAbs s := by
  cases s with
  | nil => decide
  | cons c s => simp [isAbsolute, isAbs, byteAt]

theorem no0_append {a b : Bytes} (ha : 0 ∉ a) (hb : 0 ∉ b) : 0 ∉ a ++ [47] ++ b := by
  simp [ha, hb]

theorem isAbs_append (a b : Bytes) (h : a ≠ []) : isAbs (a ++ b) = isAbs a := by
  cases a with
  | nil => exact absurd rfl h
  | cons c a => simp [isAbs]

theorem push_spec (sb b : Bytes) (h1 : 0 ∉ sb) (h2 : 0 ∉ b) :
    push sb b = if isAbs b = true ∨ sb = [] then canon false b
      else if b = [] then canon false sb ++ [47] else canon false (sb ++ [47] ++ b) := by
  unfold push copy
  rw [isAbsolute_eq, normalize_canon _ _ h2, normalize_canon _ _ h1, normalize_canon _ _ (no0_append h1 h2)]

theorem comps_snoc (a : Bytes) : comps (a ++ [47]) = comps a := by
  rw [comps_append]; simp [comps, pieces]

theorem push_comps (sb b : Bytes) (h1 : 0 ∉ sb) (h2 : 0 ∉ b) :
    comps (push sb b) = (if isAbs b then comps b else comps sb ++ comps b) ∧
    isAbs (push sb b) = (isAbs b || isAbs sb) ∧ 0 ∉ push sb b := by
  rw [push_spec sb b h1 h2]
  by_cases hb : isAbs b = true
  · rw [if_pos (Or.inl hb), canon_comps _ _ h2, canon_isAbs _ _ h2]
    simp [hb, canon_no0 false b h2]
  · by_cases hs : sb = []
    · subst hs
      rw [if_pos (Or.inr rfl), canon_comps _ _ h2, canon_isAbs _ _ h2]
      have : isAbs [] = false := by decide
      simp [hb, canon_no0 false b h2, comps, pieces, this]
    · rw [if_neg (by simp [hb, hs])]
      by_cases hbn : b = []
      · subst hbn
        rw [if_pos rfl, comps_snoc, canon_comps _ _ h1, isAbs_append _ _ (fun h => hs ((canon_ne _ _ h1).1 h)), canon_isAbs _ _ h1]
        have : isAbs [] = false := by decide
        simp [canon_no0 false sb h1, comps, pieces, this]
      · have h12 := no0_append h1 h2
        rw [if_neg hbn, canon_comps _ _ h12, canon_isAbs _ _ h12, List.append_assoc, isAbs_append _ _ hs]
        refine ⟨?_, by simp [hb], by rw [← List.append_assoc]; exact canon_no0 false _ h12⟩
        simp [comps_append, hb]

theorem join_facts (a b : Bytes) (h1 : 0 ∉ a) (h2 : 0 ∉ b) :
    comps (join a b) = (if isAbs b then comps b else comps a ++ comps b) ∧
    isAbs (join a b) = (isAbs b || isAbs a) ∧ 0 ∉ join a b := by
  obtain ⟨p1, p2, p3⟩ := push_comps [] a (by simp) h1
  obtain ⟨q1, q2, q3⟩ := push_comps (push [] a) b p3 h2
  unfold join
  rw [q1, q2, p1, p2]
  refine ⟨?_, ?_, q3⟩
  · have : comps [] = [] := by decide
    rw [this]; simp
  · have : isAbs [] = false := by decide
    rw [this]; simp

/-! ### walk with `..` -/

theorem walk_pops (n : Nat) : ∀ st : List Bytes, walk st (List.replicate n dotdot) = st.take (st.length - n) := by
  induction n with
  | zero => intro st; simp [walk]
  | succ n ih =>
    intro st
    rw [List.replicate_succ, show dotdot :: List.replicate n dotdot = [dotdot] ++ List.replicate n dotdot from rfl,
      walk_append, walk_single, if_pos rfl, ih, List.dropLast_eq_take]
    rw [List.take_take, List.length_take]
    congr 1; omega

theorem walk_nn (nn : List Bytes) (h : ∀ c ∈ nn, c ≠ dotdot) (st : List Bytes) : walk st nn = st ++ nn := by
  induction nn generalizing st with
  | nil => simp [walk]
  | cons c nn ih =>
    rw [show c :: nn = [c] ++ nn from rfl, walk_append, walk_single, if_neg (h c (by simp)), ih (fun x hx => h x (by simp [hx]))]
    simp

theorem walk_dd (dd : List Bytes) (h : ∀ c ∈ dd, c = dotdot) : walk [] dd = [] := by
  have : dd = List.replicate dd.length dotdot := List.eq_replicate_iff.2 ⟨rfl, h⟩
  rw [this, walk_pops]; simp

theorem walk_back (C B : List Bytes) (h : NF (C ++ B)) :
    walk (walk [] (C ++ B)) (List.replicate B.length dotdot) = walk [] C := by
  obtain ⟨dd, nn, h1, h2, h3⟩ := h
  by_cases hlen : nn.length ≤ B.length
  · -- everything in C is `..`
    have hC : ∀ c ∈ C, c = dotdot := by
      intro c hc
      have hle : C.length ≤ dd.length := by
        have := congrArg List.length h1; simp at this; omega
      have : C = dd.take C.length := by
        have := congrArg (List.take C.length) h1
        rw [List.take_left, List.take_append_of_le_length hle] at this
        exact this
      rw [this] at hc
      exact h2 c (List.mem_of_mem_take hc)
    rw [walk_dd C hC, h1, walk_append, walk_dd dd h2, walk_nn nn h3, walk_pops]
    simp; omega
  · -- nothing in B is `..`
    have hB : ∀ c ∈ B, c ≠ dotdot := by
      intro c hc
      have : B = nn.drop (nn.length - B.length) := by
        have e := congrArg (List.drop C.length) h1
        rw [List.drop_left] at e
        have hle : dd.length ≤ C.length := by
          have := congrArg List.length h1; simp at this; omega
        rw [List.drop_append, List.drop_of_length_le hle, List.nil_append] at e
        rw [e]; congr 1
        have := congrArg List.length h1; simp at this; simp; omega
      rw [this] at hc
      exact h3 c (List.mem_of_mem_drop hc)
    rw [walk_append, walk_nn B hB, walk_pops]
    simp

theorem cancelFold_pops (n : Nat) : ∀ (a b : List Bytes), b.length = n → (∀ c ∈ b, c ≠ dotdot) →
    (List.replicate n dotdot).foldl cancelStep (a ++ b) = a := by
  induction n with
  | zero => intro a b hb _; have := List.eq_nil_of_length_eq_zero hb; subst this; simp
  | succ n ih =>
    intro a b hb hd
    rcases List.eq_nil_or_concat b with h | ⟨l, y, h⟩
    · rw [h] at hb; simp at hb
    · rw [List.concat_eq_append] at h
      subst h
      have hy := hd y (by simp)
      have : cancelStep (a ++ (l ++ [y])) dotdot = a ++ l := by
        unfold cancelStep
        rw [if_pos]
        · rw [← List.append_assoc]; simp
        · refine ⟨rfl, by simp, ?_⟩
          rw [← List.append_assoc]; simpa using hy
      rw [List.replicate_succ, List.foldl_cons, this]
      exact ih a l (by simpa using hb) (fun c hc => hd c (by simp [hc]))

/-! ### relative_to -/

theorem byteAt_eq (s : Bytes) (i : Nat) (h : i < s.length) : byteAt s i = s[i] := by
  unfold byteAt; rw [List.getD_eq_getElem?_getD, List.getElem?_eq_getElem h]; rfl

theorem byteAt_end (s : Bytes) (i : Nat) (h : s.length ≤ i) : byteAt s i = 0 := by
  unfold byteAt; rw [List.getD_eq_getElem?_getD, List.getElem?_eq_none h]; rfl

theorem byteAt_zero_iff (s : Bytes) (h0 : 0 ∉ s) (i : Nat) : byteAt s i = 0 ↔ s.length ≤ i := by
  constructor
  · intro h
    apply Classical.byContradiction
    intro hlt
    exact byteAt_ne0 s h0 i (by omega) h
  · exact byteAt_end s i

/-- The position found by the comparison loop. -/
theorem commonLoop_spec (b p : Bytes) (hb0 : 0 ∉ b) (hp0 : 0 ∉ p) (habs : byteAt b 0 = 47) (n : Nat) : ∀ i ce, b.length - i = n →
    i ≤ b.length → i ≤ p.length → b.take i = p.take i →
    (i ≠ 0 → ce < i ∧ byteAt b ce = 47) →
    ∃ i' ce', commonLoop b p i ce = (i', ce') ∧ i ≤ i' ∧ i' ≤ b.length ∧ i' ≤ p.length ∧ b.take i' = p.take i' ∧
      (i' = b.length ∨ i' = p.length ∨ byteAt b i' ≠ byteAt p i') ∧ (i' ≠ 0 → ce' < i' ∧ byteAt b ce' = 47) := by
  induction n with
  | zero =>
    intro i ce hn hi hip ht hce
    rw [commonLoop, dif_neg (by omega)]
    exact ⟨i, ce, rfl, Nat.le_refl _, hi, hip, ht, Or.inl (by omega), hce⟩
  | succ n ih =>
    intro i ce hn hi hip ht hce
    rw [commonLoop]
    split
    · next h =>
      have hpl : i < p.length := by
        apply Classical.byContradiction; intro hge
        exact h.2.2.1 (byteAt_end p i (by omega))
      have htk : b.take (i + 1) = p.take (i + 1) := by
        rw [List.take_add_one, List.take_add_one, ht, List.getElem?_eq_getElem h.1, List.getElem?_eq_getElem hpl,
          ← byteAt_eq b i h.1, ← byteAt_eq p i hpl, h.2.2.2]
      obtain ⟨i', ce', h1, h2, h3, h4, h5, h6, h7⟩ := ih (i + 1) (if byteAt b i = 47 then i else ce)
          (by omega) (by omega) (by omega) htk (by
            intro _
            split
            · next h47 => exact ⟨by omega, h47⟩
            · next h47 =>
              have hnz : i ≠ 0 := fun e => h47 (by rw [e]; exact habs)
              have := hce hnz
              exact ⟨by omega, this.2⟩)
      exact ⟨i', ce', h1, by omega, h3, h4, h5, h6, h7⟩
    · next h =>
      refine ⟨i, ce, rfl, Nat.le_refl _, hi, hip, ht, ?_, hce⟩
      by_cases hbl : i < b.length
      · by_cases hpl : i < p.length
        · right; right
          intro e
          exact h ⟨hbl, byteAt_ne0 b hb0 i hbl, byteAt_ne0 p hp0 i hpl, e⟩
        · right; left; omega
      · left; omega

/-- `../` repeated. -/
def ups (n : Nat) : Bytes := (List.replicate n [46, 46, 47]).flatten

theorem ups_succ (n : Nat) : ups (n + 1) = [46, 46, 47] ++ ups n := by simp [ups, List.replicate_succ]

theorem upsLoop_spec (b : Bytes) (hb0 : 0 ∉ b) (n : Nat) : ∀ (i : Nat) (hv : Bool) (q : Bytes) (qs : List Bytes),
    b.length - i = n → i < b.length → pieces (b.drop i) = q :: qs → (hv = true → q ≠ []) → (∀ x ∈ qs, x ≠ []) →
    upsLoop b i hv = ups (qs.length + if hv then 1 else 0) := by
  induction n with
  | zero => intro i hv q qs hn hi; omega
  | succ n ih =>
    intro i hv q qs hn hi hp hq hqs
    have hout : ∀ m, (if hv = true then [46, 46, 47] else []) ++ ups m = ups (m + if hv then 1 else 0) := by
      intro m; cases hv <;> simp [ups_succ]
    rw [List.drop_eq_getElem_cons hi] at hp
    rw [upsLoop]
    by_cases hlast : i + 1 < b.length
    · rw [dif_pos ⟨hlast, byteAt_ne0 b hb0 _ hlast⟩, byteAt_eq b i hi]
      by_cases h47 : b[i] = 47
      · rw [if_pos h47]
        rw [pieces, if_pos h47] at hp
        injection hp with e1 e2
        have hne := pieces_ne (b.drop (i + 1))
        match hpp : pieces (b.drop (i + 1)) with
        | [] => exact absurd hpp hne
        | q' :: qs' =>
          rw [hpp] at e2
          rw [ih (i + 1) true q' qs' (by omega) hlast hpp (fun _ => hqs q' (by rw [← e2]; simp))
            (fun x hx => hqs x (by rw [← e2]; simp [hx])), hout]
          congr 1
          rw [← e2]; simp
      · rw [if_neg h47]
        rw [pieces, if_neg h47] at hp
        have hne := pieces_ne (b.drop (i + 1))
        match hpp : pieces (b.drop (i + 1)) with
        | [] => exact absurd hpp hne
        | q' :: qs' =>
          rw [hpp] at hp
          simp only [List.cons.injEq] at hp
          rw [ih (i + 1) false q' qs' (by omega) hlast hpp (by simp) (by rw [hp.2]; exact hqs), hout]
          rw [hp.2]; simp
    · rw [dif_neg (by omega)]
      have hd : b.drop (i + 1) = [] := List.drop_of_length_le (by omega)
      rw [hd] at hp
      have hqn : qs = [] := by
        unfold pieces at hp
        split at hp
        · injection hp with e1 e2
          exfalso; apply hqs [] _ rfl
          rw [← e2]; simp [pieces]
        · simp [pieces] at hp; exact hp.2
      rw [hqn]
      have := hout 0
      simpa [ups] using this

theorem comps_ups (n : Nat) (t : Bytes) : comps (ups n ++ t) = List.replicate n dotdot ++ comps t := by
  induction n with
  | zero => simp [ups]
  | succ n ih =>
    rw [ups_succ, show [46, 46, 47] ++ ups n ++ t = dotdot ++ 47 :: (ups n ++ t) by simp [dotdot], comps_append, ih]
    rw [show comps dotdot = [dotdot] by decide, List.replicate_succ]; rfl

theorem pieces_render (B : List Bytes) (h : ∀ c ∈ B, Comp c) (hB : B ≠ []) : pieces (render true B) = [] :: B := by
  have hj : ∀ B : List Bytes, (∀ c ∈ B, Comp c) → B ≠ [] → pieces (sepJoin B) = B := by
    intro B
    induction B with
    | nil => intro _ h; exact absurd rfl h
    | cons c B ih =>
      intro h _
      cases B with
      | nil => exact pieces_noSlash c (h c (by simp)).2.2.1
      | cons d r =>
        rw [sepJoin, List.append_assoc, List.singleton_append, pieces_slash c _ (h c (by simp)).2.2.1,
          ih (fun x hx => h x (by simp [hx])) (by simp)]
  simp only [render, if_true]
  rw [pieces, if_pos rfl, hj B h hB]

/-- What remains of a canonical absolute path after a separator. -/
theorem after_sep (B : List Bytes) (h : ∀ c ∈ B, Comp c) (X r : Bytes) (he : render true B = X ++ 47 :: r) :
    (r = [] ∧ B = [] ∧ X = []) ∨ (r ≠ [] ∧ pieces r = comps r ∧ (∀ c ∈ comps r, Comp c) ∧ isAbs r = false) := by
  by_cases hB : B = []
  · left
    subst hB
    simp only [render, if_true, sepJoin] at he
    cases X with
    | nil => simp at he; exact ⟨he, rfl, rfl⟩
    | cons x X => simp at he
  · right
    have hp := pieces_render B h hB
    rw [he, pieces_append] at hp
    have hX := pieces_ne X
    match hpx : pieces X with
    | [] => exact absurd hpx hX
    | y :: ys =>
      rw [hpx, List.cons_append] at hp
      injection hp with _ hp
      have hg : ∀ c ∈ pieces r, Comp c := fun c hc => h c (by rw [← hp]; simp [hc])
      have hpc : pieces r = comps r := by
        unfold comps
        rw [List.filter_eq_self.2]
        intro c hc
        have := hg c hc
        simp [this.1, this.2.1]
      have hrne : r ≠ [] := by
        intro e
        exact (hg [] (by rw [e]; simp [pieces])).1 rfl
      refine ⟨hrne, hpc, by rw [← hpc]; exact hg, ?_⟩
      cases r with
      | nil => exact absurd rfl hrne
      | cons c r =>
        by_cases hc : c = 47
        · exfalso
          exact (hg [] (by rw [hc, pieces, if_pos rfl]; simp)).1 rfl
        · simp [isAbs, hc]

theorem relativeTo_cases (b0 p0 : Bytes) (hb0 : 0 ∉ b0) (hp0 : 0 ∉ p0) (hb : isAbs b0 = true) (hp : isAbs p0 = true) :
    (canon true b0 = canon true p0 ∧ relativeTo b0 p0 = .ok [46]) ∨
    (relativeTo b0 p0 = .ok (canon false (canon true p0))) ∨
    ∃ C B' P' t, cancel (comps b0) = C ++ B' ∧ cancel (comps p0) = C ++ P' ∧
      relativeTo b0 p0 = .ok (canon false t) ∧ 0 ∉ t ∧ t ≠ [] ∧ isAbs t = false ∧
      comps t = List.replicate B'.length dotdot ++ P' := by
  have hbn : b0 ≠ [] := by rintro rfl; simp [isAbs] at hb
  have hpn : p0 ≠ [] := by rintro rfl; simp [isAbs] at hp
  have hbc : canon true b0 = render true (cancel (comps b0)) := by unfold canon; rw [if_neg hbn, hb]; simp
  have hpc : canon true p0 = render true (cancel (comps p0)) := by unfold canon; rw [if_neg hpn, hp]; simp
  have hgB : ∀ c ∈ cancel (comps b0), Comp c := by simpa using canon_good true b0 hb0
  have hgP : ∀ c ∈ cancel (comps p0), Comp c := by simpa using canon_good true p0 hp0
  have hb0' := canon_no0 true b0 hb0
  have hp0' := canon_no0 true p0 hp0
  have hbab : isAbsolute (canon true b0) = true := by rw [isAbsolute_eq, canon_isAbs true b0 hb0, hb]
  have hpab : isAbsolute (canon true p0) = true := by rw [isAbsolute_eq, canon_isAbs true p0 hp0, hp]
  have hcB := canon_comps true b0 hb0
  have hcP := canon_comps true p0 hp0
  simp only [if_true] at hcB hcP
  unfold relativeTo
  rw [normalize_canon true b0 hb0, normalize_canon true p0 hp0]
  simp only [hbab, hpab, Bool.not_true, Bool.false_eq_true, if_false]
  unfold copy
  rw [normalize_canon false _ hp0']
  generalize hbe : canon true b0 = b at *
  generalize hpe : canon true p0 = p at *
  by_cases heq : b = p
  · left; exact ⟨heq, by rw [if_pos heq]⟩
  · right
    rw [if_neg heq]
    have hb47 : byteAt b 0 = 47 := by simpa [isAbsolute] using hbab
    have hp47 : byteAt p 0 = 47 := by simpa [isAbsolute] using hpab
    obtain ⟨i, ce, hcl, _, hib, hip, htk, hend, hce⟩ :=
      commonLoop_spec b p hb0' hp0' hb47 _ 0 0 rfl (Nat.zero_le _) (Nat.zero_le _) rfl (fun h => absurd rfl h)
    have hblen : 0 < b.length := by
      apply Classical.byContradiction; intro h
      rw [byteAt_end b 0 (by omega)] at hb47; cases hb47
    have hplen : 0 < p.length := by
      apply Classical.byContradiction; intro h
      rw [byteAt_end p 0 (by omega)] at hp47; cases hp47
    have hi0 : i ≠ 0 := by
      rintro rfl
      rcases hend with h | h | h
      · omega
      · omega
      · exact h (by rw [hb47, hp47])
    simp only [hcl]
    rw [if_neg hi0]
    by_cases hi1 : i = 1
    · left; rw [if_pos hi1]
    · right
      rw [if_neg hi1]
      -- the split point
      have hsplit : ∀ ce', ce' = (if byteAt b i = 0 ∧ byteAt p i = 47 then i
          else if byteAt p i = 0 ∧ byteAt b i = 47 then i else ce) →
          ce' ≤ i ∧ (byteAt b ce' = 47 ∨ ce' = b.length) ∧ (byteAt p ce' = 47 ∨ ce' = p.length) := by
        intro ce' h
        split at h
        · next h' => subst h; refine ⟨Nat.le_refl _, Or.inr ?_, Or.inl h'.2⟩
                     have := (byteAt_zero_iff b hb0' ce').1 h'.1; omega
        · split at h
          · next h' => subst h; refine ⟨Nat.le_refl _, Or.inl h'.2, Or.inr ?_⟩
                       have := (byteAt_zero_iff p hp0' ce').1 h'.1; omega
          · subst h
            obtain ⟨h1, h2⟩ := hce hi0
            refine ⟨by omega, Or.inl h2, Or.inl ?_⟩
            have hbe := byteAt_append_left (b.take i) (b.drop i) ce' (by simp; omega)
            have hpe := byteAt_append_left (p.take i) (p.drop i) ce' (by simp; omega)
            rw [List.take_append_drop] at hbe hpe
            rw [hpe, ← htk, ← hbe, h2]
      obtain ⟨hle, hbs, hps⟩ := hsplit _ rfl
      generalize hce' : (if byteAt b i = 0 ∧ byteAt p i = 47 then i
          else if byteAt p i = 0 ∧ byteAt b i = 47 then i else ce) = e at *
      have htke : b.take e = p.take e := by
        have := congrArg (List.take e) htk
        rwa [List.take_take, List.take_take, Nat.min_eq_left hle] at this
      -- decomposition
      have hdec : ∀ (s : Bytes) (S : List Bytes), s = render true S → (∀ c ∈ S, Comp c) → 0 ∉ s → comps s = S →
          (byteAt s e = 47 ∨ e = s.length) → e ≤ s.length →
          S = comps (s.take e) ++ comps (s.drop (e + 1)) ∧
          (s.drop (e + 1) ≠ [] → byteAt s e ≠ 0 ∧ byteAt s (e + 1) ≠ 0 ∧ pieces (s.drop (e + 1)) = comps (s.drop (e + 1)) ∧
            (∀ c ∈ comps (s.drop (e + 1)), Comp c) ∧ isAbs (s.drop (e + 1)) = false) ∧
          (s.drop (e + 1) = [] → ¬ (byteAt s e ≠ 0 ∧ byteAt s (e + 1) ≠ 0)) := by
        intro s S hs hS hs0 hcs h47 hes
        have hlast : s.drop (e + 1) = [] → ¬ (byteAt s e ≠ 0 ∧ byteAt s (e + 1) ≠ 0) := by
          intro hd ⟨_, h2⟩
          apply h2
          rw [byteAt_zero_iff s hs0]
          have := congrArg List.length hd
          simp at this; omega
        rcases h47 with h47 | hel
        · have helt : e < s.length := by
            apply Classical.byContradiction; intro h
            rw [byteAt_end s e (by omega)] at h47; cases h47
          have hs' : s = s.take e ++ 47 :: s.drop (e + 1) := by
            have := List.drop_eq_getElem_cons helt
            rw [← byteAt_eq s e helt, h47] at this
            rw [← this, List.take_append_drop]
          refine ⟨by rw [← hcs]; conv => lhs; rw [hs']
                     rw [comps_append], ?_, hlast⟩
          intro hne
          rcases after_sep S hS (s.take e) (s.drop (e + 1)) (by rw [← hs]; exact hs') with h | h
          · exact absurd h.1 hne
          · refine ⟨by rw [h47]; decide, ?_, h.2.1, h.2.2.1, h.2.2.2⟩
            apply byteAt_ne0 s hs0
            have := List.length_pos_iff.2 hne
            simp at this; omega
        · have hd : s.drop (e + 1) = [] := List.drop_of_length_le (by omega)
          refine ⟨?_, fun h => absurd hd h, hlast⟩
          rw [hd, hel, List.take_length, hcs]
          simp [comps, pieces]
      obtain ⟨d1, d2, d3⟩ := hdec b _ hbc hgB hb0' hcB hbs (by omega)
      obtain ⟨g1, g2, g3⟩ := hdec p _ hpc hgP hp0' hcP hps (by omega)
      have hups : (if byteAt b e ≠ 0 ∧ byteAt b (e + 1) ≠ 0 then upsLoop b (e + 1) true else []) =
          ups (comps (b.drop (e + 1))).length := by
        by_cases hbd : b.drop (e + 1) = []
        · rw [if_neg (d3 hbd), hbd]; simp [comps, pieces, ups]
        · obtain ⟨x1, x2, x3, x4, _⟩ := d2 hbd
          rw [if_pos ⟨x1, x2⟩]
          have hlt : e + 1 < b.length := by
            have := List.length_pos_iff.2 hbd
            simp at this; omega
          have hne := pieces_ne (b.drop (e + 1))
          match hpp : pieces (b.drop (e + 1)) with
          | [] => exact absurd hpp hne
          | q :: qs =>
            have hall : ∀ x ∈ q :: qs, x ≠ [] := fun x hx => (x4 x (by rw [← x3, hpp]; exact hx)).1
            rw [upsLoop_spec b hb0' _ (e + 1) true q qs rfl hlt hpp (fun _ => hall q (by simp))
              (fun x hx => hall x (by simp [hx])), ← x3, hpp]
            simp
      have htail : (if byteAt p e ≠ 0 then p.drop (e + 1) else []) = p.drop (e + 1) := by
        split
        · rfl
        · next h =>
          have : byteAt p e = 0 := by simpa using h
          rw [List.drop_of_length_le]
          have := (byteAt_zero_iff p hp0' e).1 this
          omega
      rw [hups, htail]
      have hups0 : ∀ n, 0 ∉ ups n := by
        intro n; induction n with
        | zero => simp [ups]
        | succ n ih => rw [ups_succ]; simp [ih]
      have ht0 : 0 ∉ ups (comps (b.drop (e + 1))).length ++ p.drop (e + 1) := by
        intro h
        rcases List.mem_append.1 h with h | h
        · exact hups0 _ h
        · exact hp0' (List.mem_of_mem_drop h)
      rw [normalize_canon false _ ht0]
      refine ⟨comps (b.take e), comps (b.drop (e + 1)), comps (p.drop (e + 1)), _, d1, by rw [htke]; exact g1, rfl, ht0, ?_, ?_, ?_⟩
      · intro h
        rw [List.append_eq_nil_iff] at h
        apply heq
        have hBn : comps (b.drop (e + 1)) = [] := by
          cases hc : comps (b.drop (e + 1)) with
          | nil => rfl
          | cons c cs => rw [hc] at h; simp [ups_succ] at h
        have hPn : comps (p.drop (e + 1)) = [] := by rw [h.2]; rfl
        rw [hbc, hpc, d1, g1, hBn, hPn, htke]
      · cases hl : (comps (b.drop (e + 1))).length with
        | succ n => rw [ups_succ]; rfl
        | zero =>
          by_cases hpd : p.drop (e + 1) = []
          · rw [hpd]; rfl
          · have := (g2 hpd).2.2.2.2
            simpa [ups] using this
      · exact comps_ups _ _

/-! ### is_subpath -/

theorem subLoop_spec (b s : Bytes) (hb0 : 0 ∉ b) (hs0 : 0 ∉ s) (hbn : b ≠ []) (n : Nat) : ∀ i, b.length - i = n →
    i ≤ b.length → b.take i = s.take i →
    subLoop b s i = .ok (decide (b <+: s ∧ (s = b ∨ byteAt s b.length = 47 ∨ byteAt b (b.length - 1) = 47))) := by
  have hbp := List.length_pos_iff.2 hbn
  induction n with
  | zero =>
    intro i hn hi ht
    have hie : i = b.length := by omega
    subst hie
    rw [List.take_length] at ht
    have hpre : b <+: s := by rw [ht]; exact List.take_prefix _ _
    have hls := hpre.length_le
    have hz : byteAt b b.length = 0 := byteAt_end b _ (Nat.le_refl _)
    have hsb : byteAt s (b.length - 1) = byteAt b (b.length - 1) := by
      obtain ⟨t, rfl⟩ := hpre
      exact byteAt_append_left b t _ (by omega)
    rw [subLoop, if_neg (by omega), hz, hsb]
    by_cases h1 : byteAt s b.length = 47 ∨ byteAt b (b.length - 1) = 47
    · rw [if_pos ⟨rfl, h1⟩, decide_eq_true ⟨hpre, Or.inr h1⟩]
    · rw [if_neg (fun h => h1 h.2)]
      by_cases h2 : 0 = byteAt s b.length
      · rw [if_pos h2, if_pos rfl]
        have : s.length ≤ b.length := (byteAt_zero_iff s hs0 _).1 h2.symm
        have : s = b := (List.IsPrefix.eq_of_length hpre (by omega)).symm
        rw [decide_eq_true ⟨hpre, Or.inl this⟩]
      · rw [if_neg h2, decide_eq_false]
        rintro ⟨_, h | h⟩
        · exact h2 (by rw [h, hz])
        · exact h1 h
  | succ n ih =>
    intro i hn hi ht
    have hlt : i < b.length := by omega
    have hbi := byteAt_ne0 b hb0 i hlt
    rw [subLoop, if_neg (fun h => hbi h.1), if_neg (fun h => hbi h.1)]
    by_cases he : byteAt b i = byteAt s i
    · rw [if_pos he, if_neg hbi, dif_pos hlt]
      have hsl : i < s.length := by
        apply Classical.byContradiction; intro h
        rw [byteAt_end s i (by omega)] at he; exact hbi he
      apply ih (i + 1) (by omega) (by omega)
      rw [List.take_add_one, List.take_add_one, ht, List.getElem?_eq_getElem hlt, List.getElem?_eq_getElem hsl,
        ← byteAt_eq b i hlt, ← byteAt_eq s i hsl, he]
    · rw [if_neg he, decide_eq_false]
      rintro ⟨⟨t, rfl⟩, _⟩
      exact he (byteAt_append_left b t i hlt).symm

theorem sepJoin_append (a b : List Bytes) (ha : a ≠ []) (hb : b ≠ []) : sepJoin (a ++ b) = sepJoin a ++ [47] ++ sepJoin b := by
  induction a with
  | nil => exact absurd rfl ha
  | cons c a ih =>
    cases a with
    | nil => cases b with
      | nil => exact absurd rfl hb
      | cons d r => simp [sepJoin]
    | cons d r => rw [List.cons_append, List.cons_append, sepJoin, ← List.cons_append, ih (by simp), sepJoin]; simp

theorem render_append (abs : Bool) (a b : List Bytes) (ha : a ≠ []) (hb : b ≠ []) :
    render abs (a ++ b) = render abs a ++ [47] ++ sepJoin b := by
  unfold render
  rw [sepJoin_append a b ha hb]
  cases abs <;> simp [ha]

theorem render_last (abs : Bool) (cs : List Bytes) (h : ∀ c ∈ cs, Comp c) :
    byteAt (render abs cs) ((render abs cs).length - 1) = 47 ↔ cs = [] ∧ abs = true := by
  rcases List.eq_nil_or_concat cs with he | ⟨l, z, he⟩
  · subst he
    cases abs <;> simp [render, sepJoin, byteAt]
  · rw [List.concat_eq_append] at he
    have hz := h z (by rw [he]; simp)
    have := byteAt_noSlash (if l = [] then (if abs then [47] else []) else render abs l ++ [47]) z [] hz.1 hz.2.2.1
    rw [List.append_nil, ← render_snoc] at this
    rw [he]
    constructor
    · intro h; exact absurd h this
    · intro h; simp at h

theorem subpath_render (ab as : Bool) (B S : List Bytes) (hB : ∀ c ∈ B, Comp c) (hS : ∀ c ∈ S, Comp c) (hroot : B ≠ [] ∨ ab = true) :
    (render ab B <+: render as S ∧ (render as S = render ab B ∨ byteAt (render as S) (render ab B).length = 47 ∨
      byteAt (render ab B) ((render ab B).length - 1) = 47)) ↔ (ab = as ∧ B <+: S) := by
  rw [render_last ab B hB]
  constructor
  · rintro ⟨⟨t, ht⟩, h⟩
    have ha : ab = as := by
      have := congrArg isAbs ht
      rwa [isAbs_append _ _ (render_ne ab B hB), render_isAbs _ _ hB, render_isAbs _ _ hS] at this
    refine ⟨ha, ?_⟩
    rcases h with h | h | ⟨h1, _⟩
    · have := congrArg comps h
      rw [render_comps _ _ hS, render_comps _ _ hB] at this
      rw [this]; exact List.prefix_refl _
    · rw [← ht] at h
      have := byteAt_append (render ab B) t 0
      rw [Nat.add_zero] at this
      rw [this] at h
      cases t with
      | nil => cases h
      | cons c t =>
        have hc : c = 47 := h
        subst hc
        have := congrArg comps ht
        rw [comps_append, render_comps _ _ hS, render_comps _ _ hB] at this
        exact ⟨_, this⟩
    · rw [h1]; exact List.nil_prefix
  · rintro ⟨rfl, R, rfl⟩
    by_cases hBn : B = []
    · subst hBn
      have hab : ab = true := by simpa using hroot
      subst hab
      refine ⟨⟨sepJoin R, by simp [render, sepJoin]⟩, Or.inr (Or.inr ⟨rfl, rfl⟩)⟩
    · by_cases hR : R = []
      · subst hR; rw [List.append_nil]; exact ⟨List.prefix_refl _, Or.inl rfl⟩
      · rw [render_append ab B R hBn hR]
        refine ⟨⟨[47] ++ sepJoin R, by simp⟩, Or.inr (Or.inl ?_)⟩
        rw [List.append_assoc]
        have := byteAt_append (render ab B) ([47] ++ sepJoin R) 0
        rw [Nat.add_zero] at this
        rw [this]; rfl

/-! ### dirname and basename -/

theorem lastSep_none (p : Bytes) (h : 47 ∉ p) : ∀ n, lastSep p n = none := by
  intro n
  induction n with
  | zero => rfl
  | succ n ih =>
    unfold lastSep
    rw [if_neg, ih]
    by_cases hn : n < p.length
    · rw [byteAt_eq p n hn]; intro e; exact h (e ▸ List.getElem_mem hn)
    · rw [byteAt_end p n (by omega)]; decide

theorem lastSep_snoc (K c : Bytes) (h : 47 ∉ c) : lastSep (K ++ [47] ++ c) (K ++ [47] ++ c).length = some K.length := by
  have : ∀ n, n ≤ c.length → lastSep (K ++ [47] ++ c) (K.length + 1 + n) = some K.length := by
    intro n
    induction n with
    | zero =>
      intro _
      rw [Nat.add_zero, lastSep, if_pos]
      have := byteAt_append K ([47] ++ c) 0
      rw [Nat.add_zero] at this
      rw [List.append_assoc, this]; rfl
    | succ n ih =>
      intro hn
      rw [← Nat.add_assoc, lastSep, if_neg, ih (by omega)]
      have : K.length + 1 + n = (K ++ [47]).length + n := by simp
      rw [this, byteAt_append, byteAt_eq c n (by omega)]
      intro e; exact h (e ▸ List.getElem_mem (by omega))
  have h2 := this c.length (Nat.le_refl _)
  have h3 : (K ++ [47] ++ c).length = K.length + 1 + c.length := by simp; omega
  rw [h3]; exact h2

theorem canon_render (abs : Bool) (cs : List Bytes) (h : ∀ c ∈ cs, Comp c) : canon false (render abs cs) = render abs cs := by
  unfold canon
  rw [if_neg (render_ne abs cs h), render_isAbs _ _ h, render_comps _ _ h]; simp

theorem comp_canon (c : Bytes) (h : Comp c) : canon false c = c := by
  have := canon_render false [c] (by simpa using h)
  simpa [render, sepJoin] using this

theorem base_dir (p : Bytes) (h0 : 0 ∉ p) (hp : p ≠ []) :
    dirname p = render (isAbs p) (comps p).dropLast ∧
    basename p = match (comps p).getLast? with
      | some c => c
      | none => if isAbs p then [] else [46] := by
  have hg := comps_good p h0
  unfold dirname basename copy
  rw [if_neg hp, if_neg hp, normalize_canon _ _ h0]
  have hc : canon false p = render (isAbs p) (comps p) := by unfold canon; rw [if_neg hp]; simp
  rw [hc]
  generalize isAbs p = abs at *
  generalize comps p = cs at *
  simp only []
  rcases List.eq_nil_or_concat cs with he | ⟨l, z, he⟩
  · subst he
    cases abs with
    | true => exact ⟨by decide +kernel, by decide +kernel⟩
    | false => exact ⟨by decide +kernel, by decide +kernel⟩
  · rw [List.concat_eq_append] at he
    subst he
    have hz := hg z (by simp)
    have hgl : ∀ c ∈ l, Comp c := fun c hc => hg c (by simp [hc])
    rw [render_snoc]
    simp only [List.dropLast_concat, List.getLast?_append, List.getLast?_singleton, Option.some_or]
    by_cases hl : l = []
    · subst hl
      cases abs with
      | true =>
        simp only [if_true]
        have := lastSep_snoc [] z hz.2.2.1
        simp only [List.nil_append, List.length_nil] at this
        rw [this]
        simp only [if_true, List.singleton_append, List.drop_succ_cons, List.drop_zero, Nat.zero_add]
        rw [normalize_canon _ _ hz.2.2.2, comp_canon z hz]
        exact ⟨by simp; decide +kernel, rfl⟩
      | false =>
        simp only [Bool.false_eq_true, if_false, if_true, List.nil_append]
        rw [lastSep_none z hz.2.2.1]
        simp only []
        rw [normalize_canon _ _ hz.2.2.2, comp_canon z hz]
        exact ⟨by simp [render], rfl⟩
    · rw [if_neg hl, lastSep_snoc _ z hz.2.2.1]
      simp only []
      have hlen := List.length_pos_iff.2 (render_ne abs l hgl)
      rw [if_neg (by omega)]
      have h1 : (render abs l ++ [47] ++ z).take (render abs l).length = render abs l := by
        rw [List.append_assoc, List.take_left]
      have h2 : (render abs l ++ [47] ++ z).drop ((render abs l).length + 1) = z := by
        have : (render abs l).length + 1 = (render abs l ++ [47]).length := by simp
        rw [this, List.drop_left]
      rw [h1, h2, normalize_canon _ _ hz.2.2.2, comp_canon z hz, normalize_canon _ _ (render_no0 abs l hgl), canon_render abs l hgl]
      exact ⟨rfl, rfl⟩

theorem extPos_some (K stem ext : Bytes) (h1 : 46 ∉ ext) (h2 : 47 ∉ ext) :
    extPos (K ++ stem ++ 46 :: ext) (K ++ stem ++ 46 :: ext).length = some (K ++ stem).length := by
  have : ∀ n, n ≤ ext.length → extPos (K ++ stem ++ 46 :: ext) ((K ++ stem).length + 1 + n) = some (K ++ stem).length := by
    intro n
    induction n with
    | zero =>
      intro _
      rw [Nat.add_zero, extPos, if_pos]
      have := byteAt_append (K ++ stem) (46 :: ext) 0
      rw [Nat.add_zero] at this
      rw [this]; rfl
    | succ n ih =>
      intro hn
      have hb : byteAt (K ++ stem ++ 46 :: ext) ((K ++ stem).length + 1 + n) = ext[n] := by
        have : (K ++ stem).length + 1 + n = (K ++ stem ++ [46]).length + n := by simp; omega
        rw [this, show K ++ stem ++ 46 :: ext = (K ++ stem ++ [46]) ++ ext by simp, byteAt_append, byteAt_eq]
      rw [← Nat.add_assoc, extPos, hb, if_neg, if_neg, ih (by omega)]
      · intro e; exact h2 (e ▸ List.getElem_mem (by omega))
      · intro e; exact h1 (e ▸ List.getElem_mem (by omega))
  have h2 := this ext.length (Nat.le_refl _)
  have h3 : (K ++ stem ++ 46 :: ext).length = (K ++ stem).length + 1 + ext.length := by simp; omega
  rw [h3]; exact h2

theorem extPos_none (K c : Bytes) (hK : K = [] ∨ ∃ K', K = K' ++ [47]) (h1 : 46 ∉ c) (h2 : 47 ∉ c) :
    extPos (K ++ c) (K ++ c).length = none := by
  have : ∀ n, n ≤ c.length → extPos (K ++ c) (K.length + n) = none := by
    intro n
    induction n with
    | zero =>
      intro _
      rcases hK with rfl | ⟨K', rfl⟩
      · rfl
      · have hb : byteAt (K' ++ [47] ++ c) K'.length = 47 := by
          have := byteAt_append K' ([47] ++ c) 0
          rw [Nat.add_zero] at this
          rw [List.append_assoc, this]; rfl
        have : (K' ++ [47]).length + 0 = K'.length + 1 := by simp
        rw [this, extPos, hb, if_neg (by decide), if_pos rfl]
    | succ n ih =>
      intro hn
      rw [← Nat.add_assoc, extPos, byteAt_append, byteAt_eq c n (by omega), if_neg, if_neg, ih (by omega)]
      · intro e; exact h2 (e ▸ List.getElem_mem (by omega))
      · intro e; exact h1 (e ▸ List.getElem_mem (by omega))
  have := this c.length (Nat.le_refl _)
  rwa [← List.length_append] at this

end Muon.Path
