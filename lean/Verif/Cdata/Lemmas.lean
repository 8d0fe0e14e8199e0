import Verif.Cdata.Spec
/-
Lemmas on dictionaries and histories.
-/
namespace Muon.Cdata
open Muon Muon.Cdata.Spec
open Muon.Conf (Val)

theorem dget_dset (m : Map) (k : Bytes) (v : Val) (k' : Bytes) : dget (dset m k v) k' = if k' = k then some v else dget m k' := by
  induction m with
  | nil =>
    by_cases h : k' = k
    · subst h; simp [dset, dget]
    · have : ¬ k = k' := fun e => h e.symm
      simp [dset, dget, h, this]
  | cons e m ih =>
    unfold dset
    by_cases h : e.1 = k
    · rw [if_pos h]
      by_cases h' : k' = k
      · subst h'; simp [dget]
      · have h1 : ¬ k = k' := fun e => h' e.symm
        have h2 : ¬ e.1 = k' := fun e' => h1 (h ▸ e')
        simp [dget, h', h1, h2]
    · rw [if_neg h, dget, ih, dget]
      by_cases h' : e.1 = k'
      · have : ¬ k' = k := fun e' => h (h' ▸ e')
        simp [h', this]
      · simp [h']

theorem keys_dset (m : Map) (k : Bytes) (v : Val) : keys (dset m k v) = add (keys m) [k] := by
  simp only [add]
  induction m with
  | nil => simp [keys, dset]
  | cons e m ih =>
    unfold dset
    by_cases h : e.1 = k
    · subst h
      rw [if_pos rfl, if_pos (by simp [keys])]
      rfl
    · have h1 : ¬ k = e.1 := fun e' => h e'.symm
      rw [if_neg h]
      show e.1 :: keys (dset m k v) = if k ∈ e.1 :: keys m then e.1 :: keys m else e.1 :: keys m ++ [k]
      rw [ih]
      by_cases hk : k ∈ keys m
      · rw [if_pos hk, if_pos (show k ∈ e.1 :: keys m from List.mem_cons_of_mem _ hk)]
      · rw [if_neg hk, if_neg (show ¬ k ∈ e.1 :: keys m from fun hm => by
          rcases List.mem_cons.1 hm with hm | hm
          · exact h1 hm
          · exact hk hm)]
        rfl

theorem add_nodup (l : List Bytes) (h : l.Nodup) (r : List Bytes) : (add l r).Nodup := by
  induction r generalizing l with
  | nil => exact h
  | cons k r ih =>
    unfold add
    by_cases hk : k ∈ l
    · rw [if_pos hk]; exact ih l h
    · rw [if_neg hk]
      refine ih _ (List.nodup_append.2 ⟨h, List.nodup_cons.2 ⟨by simp, List.nodup_nil⟩, ?_⟩)
      intro a ha b hb
      rw [List.mem_singleton.1 hb]
      rintro rfl; exact hk ha

theorem dget_dmerge (n m : Map) (k : Bytes) : dget (dmerge m n) k = (last n k).or (dget m k) := by
  unfold dmerge
  induction n generalizing m with
  | nil => simp [last]
  | cons e n ih =>
    obtain ⟨k', v⟩ := e
    rw [List.foldl_cons, ih, dget_dset, last]
    cases last n k with
    | some w => rfl
    | none =>
      by_cases h : k = k'
      · subst h; simp
      · have : ¬ k' = k := fun e => h e.symm
        simp [h, this]

theorem add_append (l a b : List Bytes) : add l (a ++ b) = add (add l a) b := by
  induction a generalizing l with
  | nil => rfl
  | cons k a ih => simp only [List.cons_append, add]; exact ih _

theorem keys_dmerge (n m : Map) : keys (dmerge m n) = add (keys m) (keys n) := by
  unfold dmerge
  induction n generalizing m with
  | nil => rfl
  | cons e n ih =>
    rw [List.foldl_cons, ih, keys_dset]
    rfl

theorem dget_none {m : Map} {k : Bytes} : dget m k = none ↔ k ∉ keys m := by
  induction m with
  | nil => simp [dget, keys]
  | cons e m ih =>
    unfold dget
    by_cases h : e.1 = k
    · simp [h, keys]
    · have : ¬ k = e.1 := fun e' => h e'.symm
      rw [if_neg h, ih]
      simp [keys, this]

theorem last_dget (m : Map) (h : (keys m).Nodup) (k : Bytes) : last m k = dget m k := by
  induction m with
  | nil => rfl
  | cons e m ih =>
    obtain ⟨k', v⟩ := e
    obtain ⟨h1, h2⟩ := List.nodup_cons.1 (show (k' :: keys m).Nodup from h)
    rw [last, dget, ih h2]
    by_cases hk : k' = k
    · subst hk
      rw [dget_none.2 h1]; simp
    · simp [hk]

/-- The dictionary of a variable. -/
def at' (st : St) (d : Nat) : Map := st.heap.getD d []

/-- The state after a history. -/
structure Inv (st : St) (h : List Cmd) : Prop where
  ndata : st.data.length = made h
  nvars : st.vars.length = variables h
  dataIn : ∀ d ∈ st.data, d < st.heap.length
  varsIn : ∀ d ∈ st.vars, d < st.heap.length
  dataNd : st.data.Nodup
  varsNd : st.vars.Nodup
  free : ∀ v d, st.vars[v]? = some d → v ∉ given h → d ∉ st.data
  vals : ∀ c d, st.data[c]? = some d → (∀ k, dget (at' st d) k = value h c k) ∧ keys (at' st d) = order h c
  kept : ∀ v d, st.vars[v]? = some d → v ∉ given h → at' st d = dmerge [] (written h v)
  nd : ∀ d, (keys (at' st d)).Nodup

theorem getD_set (l : List Map) (d : Nat) (x : Map) (i : Nat) (hd : d < l.length) : (l.set d x).getD i [] = if i = d then x else l.getD i [] := by
  rw [List.getD_eq_getElem?_getD, List.getD_eq_getElem?_getD, List.getElem?_set]
  by_cases h : i = d
  · subst h; simp [hd]
  · have : ¬ d = i := fun e => h e.symm
    simp [h, this]

theorem nodup_getElem {l : List Nat} (h : l.Nodup) {i j d : Nat} (hi : l[i]? = some d) (hj : l[j]? = some d) : i = j := by
  induction l generalizing i j with
  | nil => simp at hi
  | cons a l ih =>
    obtain ⟨h1, h2⟩ := List.nodup_cons.1 h
    cases i with
    | zero =>
      cases j with
      | zero => rfl
      | succ j =>
        simp at hi hj
        subst hi
        exact absurd (List.mem_of_getElem? hj) h1
    | succ i =>
      cases j with
      | zero =>
        simp at hi hj
        subst hj
        exact absurd (List.mem_of_getElem? hi) h1
      | succ j =>
        simp at hi hj
        rw [ih h2 hi hj]

theorem change_inv {st st' : St} {h : List Cmd} (I : Inv st h) (c : Nat) (f : Map → Map) (cmd : Cmd)
    (hs : change st c f = .ok st')
    (hm : made (cmd :: h) = made h) (hv : variables (cmd :: h) = variables h) (hg : given (cmd :: h) = given h)
    (hw : ∀ v, written (cmd :: h) v = written h v)
    (hval : ∀ k, ∀ d, st.data[c]? = some d → value (cmd :: h) c k = dget (f (at' st d)) k)
    (hord : ∀ d, st.data[c]? = some d → order (cmd :: h) c = keys (f (at' st d)))
    (hval' : ∀ c' k, c' ≠ c → value (cmd :: h) c' k = value h c' k) (hord' : ∀ c', c' ≠ c → order (cmd :: h) c' = order h c')
    (hnd : ∀ m, (keys m).Nodup → (keys (f m)).Nodup) : Inv st' (cmd :: h) := by
  unfold change at hs
  cases hd : st.data[c]? with
  | none => rw [hd] at hs; cases hs
  | some d =>
    rw [hd] at hs
    cases hs
    have hlt := I.dataIn d (List.mem_of_getElem? hd)
    have hat : ∀ i, at' { st with heap := st.heap.set d (f (st.heap.getD d [])) } i = if i = d then f (at' st d) else at' st i := by
      intro i
      exact getD_set _ _ _ _ hlt
    refine ⟨by rw [hm]; exact I.ndata, by rw [hv]; exact I.nvars, ?_, ?_, I.dataNd, I.varsNd, ?_, ?_, ?_, ?_⟩
    · intro e he; simp only [List.length_set]; exact I.dataIn e he
    · intro e he; simp only [List.length_set]; exact I.varsIn e he
    · intro v e he hne; rw [hg] at hne; exact I.free v e he hne
    · intro c' e he
      rw [hat]
      by_cases hc : c' = c
      · subst hc
        rw [show st.data[c']? = some e from he] at hd
        cases hd
        rw [if_pos rfl]
        exact ⟨fun k => (hval k _ he).symm, (hord _ he).symm⟩
      · rw [if_neg (fun ed => hc (by subst ed; exact nodup_getElem I.dataNd he hd)), hord' c' hc]
        obtain ⟨h1, h2⟩ := I.vals c' e he
        exact ⟨fun k => by rw [h1 k, hval' c' k hc], h2⟩
    · intro v e he hne
      rw [hg] at hne
      rw [hat, if_neg (fun ed => I.free v e he hne (by rw [ed]; exact List.mem_of_getElem? hd)), hw]
      exact I.kept v e he hne
    · intro i
      rw [hat]
      split
      · exact hnd _ (I.nd d)
      · exact I.nd i

theorem at_append (st : St) (x : Map) (i : Nat) (vs ds : List Nat) :
    at' { st with heap := st.heap ++ [x], vars := vs, data := ds } i = if i = st.heap.length then x else at' st i := by
  unfold at'
  simp only [List.getD_eq_getElem?_getD]
  by_cases h : i = st.heap.length
  · subst h; simp
  · rw [if_neg h]
    by_cases h' : i < st.heap.length
    · rw [List.getElem?_append_left h']
    · rw [List.getElem?_eq_none (by simp; omega), List.getElem?_eq_none (by omega)]

theorem getElem?_snoc {l : List Nat} {a : Nat} {i d : Nat} (h : (l ++ [a])[i]? = some d) : (i = l.length ∧ d = a) ∨ (i < l.length ∧ l[i]? = some d) := by
  by_cases hi : i < l.length
  · rw [List.getElem?_append_left hi] at h; exact .inr ⟨hi, h⟩
  · rw [List.getElem?_append_right (by omega)] at h
    cases he : i - l.length with
    | zero => rw [he] at h; simp at h; exact .inl ⟨by omega, h.symm⟩
    | succ n => rw [he] at h; simp at h

theorem keys_nodup_dset (m : Map) (k : Bytes) (v : Val) (h : (keys m).Nodup) : (keys (dset m k v)).Nodup := by
  rw [keys_dset]; exact add_nodup _ h _

theorem keys_nodup_dmerge (m n : Map) (h : (keys m).Nodup) : (keys (dmerge m n)).Nodup := by
  rw [keys_dmerge]; exact add_nodup _ h _

theorem escape_eq (s : Bytes) : escape s = (s.map fun b => if b = 34 then [92, 34] else [b]).flatten := by
  induction s with
  | nil => rfl
  | cons c s ih =>
    unfold escape
    by_cases h : c = 34
    · subst h; simp [ih]
    · simp [h, ih]

theorem cstr_ok {s t : Bytes} (h : Conf.cstr s = .ok t) : t = s ∧ 0 ∉ s := by
  unfold Conf.cstr at h
  split at h
  · cases h
  · cases h; exact ⟨rfl, by assumption⟩

theorem step_inv {st st' : St} {h : List Cmd} (I : Inv st h) (cmd : Cmd) (hs : step st cmd = .ok st') (hg : (given (cmd :: h)).Nodup) :
    Inv st' (cmd :: h) := by
  have setc : ∀ (c : Nat) (k : Bytes) (v : Val) (cmd : Cmd), change st c (fun m => dset m k v) = .ok st' →
      made (cmd :: h) = made h → variables (cmd :: h) = variables h → given (cmd :: h) = given h → (∀ v, written (cmd :: h) v = written h v) →
      (∀ c' k', value (cmd :: h) c' k' = if c' = c ∧ k' = k then some v else value h c' k') →
      (∀ c', order (cmd :: h) c' = if c' = c then add (order h c') [k] else order h c') → Inv st' (cmd :: h) := by
    intro c k v cmd hs h1 h2 h3 h4 h5 h6
    refine change_inv I c _ cmd hs h1 h2 h3 h4 ?_ ?_ ?_ ?_ (fun m hm => keys_nodup_dset m k v hm)
    · intro k' d hd
      rw [h5, dget_dset, (I.vals c d hd).1]
      simp
    · intro d hd
      rw [h6, if_pos rfl, keys_dset, (I.vals c d hd).2]
    · intro c' k' hc; rw [h5, if_neg (fun e => hc e.1)]
    · intro c' hc; rw [h6, if_neg hc]
  cases cmd with
  | set c k v => exact setc c k v _ hs rfl rfl rfl (fun _ => rfl) (fun _ _ => rfl) (fun _ => rfl)
  | set10 c k b =>
    refine setc c k _ _ hs rfl rfl rfl (fun _ => rfl) (fun c' k' => ?_) (fun _ => rfl)
    cases b <;> rfl
  | setQuoted c k s =>
    simp only [step] at hs
    obtain ⟨t, ht, hs'⟩ := Res.bind_eq_ok.1 hs
    obtain ⟨rfl, -⟩ := cstr_ok ht
    refine setc c k _ _ hs' rfl rfl rfl (fun _ => rfl) (fun c' k' => ?_) (fun _ => rfl)
    rw [value, quote, escape_eq]
  | mergeFrom c d =>
    simp only [step] at hs
    cases hd : st.data[d]? with
    | none => rw [hd] at hs; cases hs
    | some n =>
      rw [hd] at hs
      obtain ⟨v1, v2⟩ := I.vals d n hd
      refine change_inv I c _ _ hs rfl rfl rfl (fun _ => rfl) ?_ ?_ ?_ ?_ (fun m hm => keys_nodup_dmerge m _ hm)
      · intro k e he
        rw [value, if_pos rfl, dget_dmerge, (I.vals c e he).1, ← v1 k, ← last_dget _ (I.nd n)]
        rfl
      · intro e he
        rw [order, if_pos rfl, keys_dmerge, (I.vals c e he).2]
        show _ = add _ (keys (at' st n))
        rw [v2]
      · intro c' k hc; rw [value, if_neg hc]
      · intro c' hc; rw [order, if_neg hc]
  | dict m =>
    cases hs
    refine ⟨I.ndata, ?_, ?_, ?_, I.dataNd, ?_, ?_, ?_, ?_, ?_⟩
    · simp only [List.length_append, List.length_singleton, variables, I.nvars]
    · intro d hd; have := I.dataIn d hd; simp only [List.length_append, List.length_singleton]; omega
    · intro d hd
      simp only [List.length_append, List.length_singleton]
      rcases List.mem_append.1 hd with hd | hd
      · have := I.varsIn d hd; omega
      · rw [List.mem_singleton.1 hd]; omega
    · refine List.nodup_append.2 ⟨I.varsNd, by simp, ?_⟩
      intro a ha b hb
      rw [List.mem_singleton.1 hb]
      exact Nat.ne_of_lt (I.varsIn a ha)
    · intro v d hv hne hd
      have hlt := I.dataIn d hd
      rcases getElem?_snoc hv with ⟨-, rfl⟩ | ⟨-, hv⟩
      · omega
      · exact I.free v d hv hne hd
    · intro c d hc
      have hlt := I.dataIn d (List.mem_of_getElem? hc)
      rw [at_append, if_neg (by omega)]
      exact I.vals c d hc
    · intro v d hv hne
      rw [at_append]
      rcases getElem?_snoc hv with ⟨h1, rfl⟩ | ⟨h1, hv⟩
      · rw [if_pos rfl, written, if_pos (by rw [← I.nvars]; exact h1)]
      · have hlt := I.varsIn d (List.mem_of_getElem? hv)
        rw [if_neg (by omega), written, if_neg (by rw [← I.nvars]; omega)]
        exact I.kept v d hv hne
    · intro i
      rw [at_append]
      split
      · exact keys_nodup_dmerge _ _ (by simp [keys])
      · exact I.nd i
  | new =>
    cases hs
    refine ⟨?_, I.nvars, ?_, ?_, ?_, I.varsNd, ?_, ?_, ?_, ?_⟩
    · simp only [List.length_append, List.length_singleton, made, I.ndata]
    · intro d hd
      simp only [List.length_append, List.length_singleton]
      rcases List.mem_append.1 hd with hd | hd
      · have := I.dataIn d hd; omega
      · rw [List.mem_singleton.1 hd]; omega
    · intro d hd; have := I.varsIn d hd; simp only [List.length_append, List.length_singleton]; omega
    · refine List.nodup_append.2 ⟨I.dataNd, by simp, ?_⟩
      intro a ha b hb
      rw [List.mem_singleton.1 hb]
      exact Nat.ne_of_lt (I.dataIn a ha)
    · intro v d hv hne hd
      have hlt := I.varsIn d (List.mem_of_getElem? hv)
      rcases List.mem_append.1 hd with hd | hd
      · exact I.free v d hv hne hd
      · rw [List.mem_singleton.1 hd] at hlt; omega
    · intro c d hc
      rw [at_append]
      rcases getElem?_snoc hc with ⟨h1, rfl⟩ | ⟨h1, hc⟩
      · rw [if_pos rfl]
        have e : c = made h := by rw [← I.ndata]; exact h1
        exact ⟨fun k => by rw [value, if_pos e]; rfl, by rw [order, if_pos e]; rfl⟩
      · have hlt := I.dataIn d (List.mem_of_getElem? hc)
        have e : ¬ c = made h := by rw [← I.ndata]; omega
        rw [if_neg (by omega)]
        obtain ⟨h1, h2⟩ := I.vals c d hc
        exact ⟨fun k => by rw [value, if_neg e, h1], by rw [order, if_neg e, h2]⟩
    · intro v d hv hne
      have hlt := I.varsIn d (List.mem_of_getElem? hv)
      rw [at_append, if_neg (by omega)]
      exact I.kept v d hv hne
    · intro i
      rw [at_append]
      split
      · simp [keys]
      · exact I.nd i
  | newFrom w =>
    simp only [step] at hs
    obtain ⟨hw, -⟩ := List.nodup_cons.1 hg
    cases hd : st.vars[w]? with
    | none => rw [hd] at hs; cases hs
    | some n =>
      rw [hd] at hs
      cases hs
      have hn := I.varsIn n (List.mem_of_getElem? hd)
      have hfree := I.free w n hd hw
      refine ⟨?_, I.nvars, ?_, I.varsIn, ?_, I.varsNd, ?_, ?_, ?_, I.nd⟩
      · simp only [List.length_append, List.length_singleton, made, I.ndata]
      · intro d hd
        rcases List.mem_append.1 hd with hd | hd
        · exact I.dataIn d hd
        · rw [List.mem_singleton.1 hd]; exact hn
      · refine List.nodup_append.2 ⟨I.dataNd, by simp, ?_⟩
        intro a ha b hb
        rw [List.mem_singleton.1 hb]
        rintro rfl; exact hfree ha
      · intro v d hv hne hdm
        have hne' : v ≠ w ∧ v ∉ given h := ⟨fun e => hne (by rw [e]; exact List.mem_cons_self ..), fun e => hne (List.mem_cons_of_mem _ e)⟩
        rcases List.mem_append.1 hdm with hdm | hdm
        · exact I.free v d hv hne'.2 hdm
        · rw [List.mem_singleton.1 hdm] at hv
          exact hne'.1 (nodup_getElem I.varsNd hv hd)
      · intro c d hc
        rcases getElem?_snoc hc with ⟨h1, rfl⟩ | ⟨h1, hc⟩
        · have e : c = made h := by rw [← I.ndata]; exact h1
          have hk := I.kept w d hd hw
          show (∀ k, dget (at' st d) k = _) ∧ keys (at' st d) = _
          rw [hk]
          refine ⟨fun k => ?_, ?_⟩
          · rw [value, if_pos e, dget_dmerge]; simp [dget]
          · rw [order, if_pos e, keys_dmerge]; rfl
        · have e : ¬ c = made h := by rw [← I.ndata]; omega
          obtain ⟨h1, h2⟩ := I.vals c d hc
          exact ⟨fun k => by rw [value, if_neg e, ← h1]; rfl, by rw [order, if_neg e, ← h2]; rfl⟩
      · intro v d hv hne
        exact I.kept v d hv (fun e => hne (List.mem_cons_of_mem _ e))

theorem given_suffix {cmd : Cmd} {h : List Cmd} (hg : (given (cmd :: h)).Nodup) : (given h).Nodup := by
  cases cmd <;> first | exact hg | exact (List.nodup_cons.1 hg).2

theorem given_append (a b : List Cmd) : given (a ++ b) = given a ++ given b := by
  induction a with
  | nil => rfl
  | cons c a ih => cases c <;> simp only [List.cons_append, given, ih]

theorem run_inv {st st' : St} {h : List Cmd} (I : Inv st h) (cs : List Cmd) (hs : run st cs = .ok st') (hg : (given (cs.reverse ++ h)).Nodup) :
    Inv st' (cs.reverse ++ h) := by
  induction cs generalizing st h with
  | nil => cases hs; exact I
  | cons c cs ih =>
    unfold run at hs
    obtain ⟨s, h1, h2⟩ := Res.bind_eq_ok.1 hs
    rw [List.reverse_cons, List.append_assoc] at hg ⊢
    refine ih (step_inv I c h1 ?_) h2 hg
    rw [given_append] at hg
    exact (List.nodup_append.1 hg).2.1

theorem start_inv : Inv start [] := by
  refine ⟨rfl, rfl, by simp [start], by simp [start], by simp [start], by simp [start], by simp [start], by simp [start], by simp [start], ?_⟩
  intro d; simp [at', start, keys]

end Muon.Cdata
