import Verif.Scope.Props
/-
Theorems about the arguments of a call, and programs that show what is wrong.
-/
namespace Muon.Scope
open Muon Muon.Scope.Spec
open Muon.Interp (Out Ctl)

/-! ### Expressions without calls -/

theorem eval_zero (e st) : eval 0 e st = .fuel := rfl

theorem plain_only : ∀ n, (∀ e st r, Plain e → st.skipping = false → eval n e st = .ok r → r.2 = st ∧ Value st.here e r.1) ∧
    (∀ e st r, Plain e → st.skipping = false → evalOpt n (some e) st = .ok r → r.2 = st ∧ Value st.here e r.1)
  | 0 => ⟨fun e st r _ _ h => (nomatch h), fun e st r _ _ h => (nomatch h)⟩
  | n + 1 => by
    have ih := plain_only n
    constructor
    · intro e st r hp hs h
      rw [eval.eq_def] at h
      simp only [hs, Bool.false_eq_true, if_false] at h
      cases e with
      | num a => rw [← Out.ok.inj h]; exact ⟨rfl, .num a⟩
      | var x =>
        simp only [getVar, Bool.false_and, Bool.false_eq_true, if_false] at h
        split at h
        · rename_i v hv
          rw [← Out.ok.inj h]; exact ⟨rfl, .var ((lookup_iff _ _ _).1 hv)⟩
        · cases h
      | add a b =>
        obtain ⟨r1, h1, h⟩ := bindOk h
        obtain ⟨r2, h2, h⟩ := bindOk h
        obtain ⟨u, h3, h⟩ := bindOk h
        have a1 := ih.1 a st r1 hp.1 hs h1
        have a2 := ih.1 b r1.2 r2 hp.2 (by rw [a1.1]; exact hs) h2
        rw [a1.1] at a2
        rw [← Out.ok.inj h]
        refine ⟨a2.1, ?_⟩
        unfold plus at h3
        split at h3
        · rename_i i j e1 e2
          rw [← Out.ok.inj h3]
          exact .add (e1 ▸ a1.2) (e2 ▸ a2.2)
        · cases h3
      | call f args => exact hp.elim
      | getVar x d =>
        obtain ⟨r1, h1, h2⟩ := bindOk h
        clear h
        have h := h2
        clear h2
        cases d with
        | none =>
          cases n with
          | zero => cases h1
          | succ n =>
            rw [← Out.ok.inj h1] at h
            simp only [getVar, Option.isSome_none, Bool.false_and, Bool.false_eq_true, if_false] at h
            split at h
            · rename_i v hv
              rw [← Out.ok.inj h]; exact ⟨rfl, .get ((lookup_iff _ _ _).1 hv)⟩
            · cases h
        | some d =>
          have a1 := ih.2 d st r1 hp hs h1
          rw [getVar, a1.1] at h
          simp only [Option.isSome_some, Bool.true_and, decide_eq_true_eq, if_true] at h
          split at h
          · cases h
          · rename_i hv
            split at h
            · rename_i v hx
              rw [← Out.ok.inj h]; exact ⟨rfl, .getSeen ((lookup_iff _ _ _).1 hx) a1.2 hv⟩
            · rename_i hx
              rw [← Out.ok.inj h]; exact ⟨rfl, .getDefault ((lookup_none _ _).1 hx) a1.2 hv⟩
      | isVar x =>
        rw [← Out.ok.inj h]
        refine ⟨rfl, ?_⟩
        cases hx : lookup x st.here with
        | none => exact .isNotVar ((lookup_none _ _).1 hx)
        | some v => exact .isVar ((lookup_iff _ _ _).1 hx)
    · intro e st r hp hs h
      exact ih.1 e st r hp hs h

/-- The value of an expression without calls is the one of the specification, and nothing is changed. -/
theorem plain_value (n e) (st : St) (r) (hp : Plain e) (hs : st.skipping = false) (h : eval n e st = .ok r) :
    r.2 = st ∧ Value st.here e r.1 := (plain_only n).1 e st r hp hs h

theorem plain_eval {l : List Scope} {e v} (h : Value l e v) : ∃ N, ∀ n, N ≤ n → ∀ st : St, st.skipping = false → st.here = l → eval n e st = .ok (v, st) := by
  induction h with
  | num a =>
    refine ⟨1, fun n hn st hs hl => ?_⟩
    obtain ⟨k, rfl⟩ : ∃ k, n = k + 1 := ⟨n - 1, by omega⟩
    rw [eval.eq_def]; simp [hs]
  | @var x v hv =>
    refine ⟨1, fun n hn st hs hl => ?_⟩
    obtain ⟨k, rfl⟩ : ∃ k, n = k + 1 := ⟨n - 1, by omega⟩
    rw [eval.eq_def]; simp [hs, getVar, hl, (lookup_iff x v l).2 hv]
  | add _ _ iha ihb =>
    obtain ⟨N, ha⟩ := iha
    obtain ⟨M, hb⟩ := ihb
    refine ⟨N + M + 1, fun n hn st hs hl => ?_⟩
    obtain ⟨k, rfl⟩ : ∃ k, n = k + 1 := ⟨n - 1, by omega⟩
    rw [eval.eq_def]
    simp only [hs, Bool.false_eq_true, if_false]
    rw [ha k (by omega) st hs hl, Out.ok_bind, hb k (by omega) st hs hl, Out.ok_bind]
    rfl
  | @get x v hv =>
    refine ⟨2, fun n hn st hs hl => ?_⟩
    obtain ⟨k, rfl⟩ : ∃ k, n = k + 2 := ⟨n - 2, by omega⟩
    rw [eval.eq_def]; simp [hs, evalOpt, getVar, hl, (lookup_iff x v l).2 hv]
  | @getSeen x v d w hv _ hw ih =>
    obtain ⟨N, h⟩ := ih
    refine ⟨N + 2, fun n hn st hs hl => ?_⟩
    obtain ⟨k, rfl⟩ : ∃ k, n = k + 2 := ⟨n - 2, by omega⟩
    rw [eval.eq_def]; simp [hs, evalOpt, h k (by omega) st hs hl, getVar, hl, (lookup_iff x v l).2 hv, hw]
  | @getDefault x d w hv _ hw ih =>
    obtain ⟨N, h⟩ := ih
    refine ⟨N + 2, fun n hn st hs hl => ?_⟩
    obtain ⟨k, rfl⟩ : ∃ k, n = k + 2 := ⟨n - 2, by omega⟩
    rw [eval.eq_def]; simp [hs, evalOpt, h k (by omega) st hs hl, getVar, hl, (lookup_none x l).2 hv, hw]
  | @isVar x v hv =>
    refine ⟨1, fun n hn st hs hl => ?_⟩
    obtain ⟨k, rfl⟩ : ∃ k, n = k + 1 := ⟨n - 1, by omega⟩
    rw [eval.eq_def]; simp [hs, hl, (lookup_iff x v l).2 hv]
  | @isNotVar x hv =>
    refine ⟨1, fun n hn st hs hl => ?_⟩
    obtain ⟨k, rfl⟩ : ∃ k, n = k + 1 := ⟨n - 1, by omega⟩
    rw [eval.eq_def]; simp [hs, hl, (lookup_none x l).2 hv]

/-! ### Arguments -/

/-- Positional arguments: expressions with their values. -/
abbrev Given := List (Expr × Val)

theorem posArgs_given (l : List Scope) : ∀ (ps : Given), (∀ p ∈ ps, Value l p.1 p.2 ∧ p.2 ≠ .void) →
    ∃ N, ∀ n, N ≤ n → ∀ (done : List Slot) (tail : List Slot) (rest : List (Option Bytes × Expr)) (st : St), st.skipping = false → st.here = l →
      st.an = done ++ (List.replicate ps.length ⟨true, .void⟩ ++ ⟨false, .void⟩ :: tail) →
      posArgs n done.length (ps.map (fun p => (none, p.1)) ++ rest) st
        = .ok (rest, { st with an := done ++ (ps.map (fun p => (⟨true, p.2⟩ : Slot)) ++ ⟨false, .void⟩ :: tail) })
  | [], _ => by
    refine ⟨1, fun n hn done tail rest st hs hl ha => ?_⟩
    obtain ⟨k, rfl⟩ : ∃ k, n = k + 1 := ⟨n - 1, by omega⟩
    rw [posArgs.eq_def]
    have e : st.an[done.length]? = some ⟨false, .void⟩ := by rw [ha]; simp
    simp only [e, if_true, List.map_nil, List.nil_append]
    rw [← show st.an = done ++ ⟨false, .void⟩ :: tail from ha]
  | p :: ps, hp => by
    obtain ⟨N, h1⟩ := plain_eval (hp p (by simp)).1
    obtain ⟨M, h2⟩ := posArgs_given l ps fun q hq => hp q (by simp [hq])
    refine ⟨N + M + 1, fun n hn done tail rest st hs hl ha => ?_⟩
    obtain ⟨k, rfl⟩ : ∃ k, n = k + 1 := ⟨n - 1, by omega⟩
    rw [posArgs.eq_def]
    have e : st.an[done.length]? = some ⟨true, .void⟩ := by
      rw [ha, List.getElem?_append_right (Nat.le_refl _)]; simp [List.replicate_succ]
    simp only [e, Bool.true_eq_false, if_false, List.map_cons, List.cons_append]
    rw [h1 k (by omega) st hs hl, Out.ok_bind]
    simp only [store, e, Bool.true_eq_false, if_false, (hp p (by simp)).2, Out.ok_bind]
    have e2 : st.an.set done.length ⟨true, p.2⟩ = (done ++ [⟨true, p.2⟩]) ++ (List.replicate ps.length ⟨true, .void⟩ ++ ⟨false, .void⟩ :: tail) := by
      rw [ha, List.set_append_right _ _ (Nat.le_refl _)]
      simp [List.replicate_succ]
    have := h2 k (by omega) (done ++ [⟨true, p.2⟩]) tail rest { st with an := st.an.set done.length ⟨true, p.2⟩ } hs hl e2
    rw [List.length_append, List.length_singleton] at this
    rw [this]
    simp

/-- Keyword slots with values `g`. -/
def slots (kws : List (Bytes × Val)) (g : Bytes → Val) : List KSlot := kws.map fun k => ⟨some k.1, g k.1⟩

theorem setKw_slots (k : Bytes) (v : Val) (g : Bytes → Val) (t : List KSlot) : ∀ kws : List (Bytes × Val), (kws.map (·.1)).Nodup → k ∈ kws.map (·.1) →
    v ≠ .void → g k = .void → setKw k v (slots kws g ++ t) = .ok (slots kws (fun x => if x = k then v else g x) ++ t)
  | [], _, h, _, _ => by simp at h
  | q :: kws, hn, h, hv, hg => by
    simp only [List.map_cons, List.nodup_cons] at hn
    simp only [slots, List.map_cons, List.cons_append, setKw]
    by_cases e : k = q.1
    · subst e
      simp only [if_true, hv, if_false, hg, ne_eq, not_true_eq_false, Out.ok.injEq, List.cons.injEq, true_and, List.append_cancel_right_eq]
      apply List.map_congr_left
      intro a ha
      have : a.1 ≠ q.1 := fun e => hn.1 (e ▸ List.mem_map_of_mem ha)
      simp [this]
    · have hk : k ∈ kws.map (·.1) := by
        rcases List.mem_cons.1 h with h | h
        · exact absurd h e
        · exact h
      simp only [e, if_false]
      have := setKw_slots k v g t kws hn.2 hk hv hg
      rw [slots] at this
      rw [this]
      simp [slots, Ne.symm e]

/-- Keyword arguments: names with expressions and their values. -/
abbrev GivenKw := List (Bytes × Expr × Val)

/-- The value given for a name. -/
def givenFor (ks : GivenKw) (x : Bytes) : Val := ((ks.find? fun k => decide (k.1 = x)).map (·.2.2)).getD .void

theorem kwArgs_given (l : List Scope) (kws : List (Bytes × Val)) (hn : (kws.map (·.1)).Nodup) (t : List KSlot) : ∀ (ks : GivenKw),
    (∀ k ∈ ks, Value l k.2.1 k.2.2 ∧ k.2.2 ≠ .void ∧ k.1 ∈ kws.map (·.1) ∧ k.1 ≠ Args.kwargs) → (ks.map (·.1)).Nodup →
    ∃ N, ∀ n, N ≤ n → ∀ (g : Bytes → Val) (st : St), (∀ k ∈ ks, g k.1 = .void) → st.skipping = false → st.here = l → st.akw = slots kws g ++ t →
      kwArgs n (ks.map fun k => (some k.1, k.2.1)) st
        = .ok { st with akw := slots kws (fun x => if givenFor ks x = .void then g x else givenFor ks x) ++ t }
  | [], _, _ => by
    refine ⟨1, fun n hn g st hg hs hl ha => ?_⟩
    obtain ⟨k, rfl⟩ : ∃ k, n = k + 1 := ⟨n - 1, by omega⟩
    simp only [List.map_nil, kwArgs, givenFor, List.find?_nil, Option.map_none, Option.getD_none, if_true]
    rw [← show st.akw = slots kws (fun x => g x) ++ t from ha]
  | q :: ks, hk, hd => by
    obtain ⟨hv, hne, hm, hkw⟩ := hk q (by simp)
    obtain ⟨N, h1⟩ := plain_eval hv
    simp only [List.map_cons, List.nodup_cons] at hd
    obtain ⟨M, h2⟩ := kwArgs_given l kws hn t ks (fun k h => hk k (by simp [h])) hd.2
    refine ⟨N + M + 1, fun n hN g st hg hs hl ha => ?_⟩
    obtain ⟨k, rfl⟩ : ∃ k, n = k + 1 := ⟨n - 1, by omega⟩
    simp only [List.map_cons, kwArgs]
    rw [h1 k (by omega) st hs hl, Out.ok_bind, if_neg hkw]
    simp only [ha, setKw_slots q.1 q.2.2 g t kws hn hm hne (hg q (by simp)), Out.ok_bind]
    have e3 := h2 k (by omega) (fun x => if x = q.1 then q.2.2 else g x)
      { st with akw := slots kws (fun x => if x = q.1 then q.2.2 else g x) ++ t } ?_ hs hl rfl
    · rw [e3]
      congr 3
      refine congrArg (slots kws) ?_
      funext x
      by_cases e : x = q.1
      · subst e
        have e1 : givenFor ks q.1 = .void := by
          unfold givenFor
          rw [List.find?_eq_none.2]
          · rfl
          · intro a ha hc
            exact hd.1 (by rw [← of_decide_eq_true hc]; exact List.mem_map_of_mem ha)
        have e2 : givenFor (q :: ks) q.1 = q.2.2 := by simp [givenFor]
        simp [e1, e2, hne]
      · have e2 : givenFor (q :: ks) x = givenFor ks x := by simp [givenFor, Ne.symm e]
        simp [e, e2]
    · intro a ha'
      have : a.1 ≠ q.1 := fun e => hd.1 (by rw [← e]; exact List.mem_map_of_mem ha')
      simp [this, hg a (by simp [ha'])]

theorem foldl_put_notin {β : Type} (key : β → Bytes) (val : β → Val) (x : Bytes) : ∀ (l : List β) (s : Scope), (∀ b ∈ l, key b ≠ x) →
    l.foldl (fun s b => put s (key b) (val b)) s x = s x
  | [], _, _ => rfl
  | b :: l, s, h => by
    rw [List.foldl_cons, foldl_put_notin key val x l _ fun c hc => h c (by simp [hc])]
    simp [put, Ne.symm (h b (by simp))]

theorem foldl_put_in {β : Type} (key : β → Bytes) (val : β → Val) (b : β) : ∀ (l : List β) (s : Scope), (l.map key).Nodup → b ∈ l →
    l.foldl (fun s b => put s (key b) (val b)) s (key b) = some (val b)
  | [], _, _, h => by cases h
  | c :: l, s, hn, h => by
    simp only [List.map_cons, List.nodup_cons] at hn
    rw [List.foldl_cons]
    rcases List.mem_cons.1 h with rfl | h
    · rw [foldl_put_notin key val (key b) l _ fun d hd e => hn.1 (by rw [← e]; exact List.mem_map_of_mem hd)]
      simp [put]
    · exact foldl_put_in key val b l _ hn.2 h

theorem zip_map_fst {α β : Type} : ∀ (a : List α) (b : List β), a.length = b.length → (a.zip b).map Prod.fst = a
  | [], _, _ => rfl
  | x :: a, [], h => by cases h
  | x :: a, y :: b, h => by simp only [List.zip_cons_cons, List.map_cons, zip_map_fst a b (by simpa using h)]

/-- The scope of a function at its start: each positional parameter has its argument, each keyword parameter what is given
or else its default, and there are no other names. -/
theorem params_values (f : Fn) (vals kvals : List Val) (hn : (f.pos ++ f.kws.map (·.1)).Nodup) (hl : vals.length = f.pos.length)
    (hk : kvals.length = f.kws.length) :
    (∀ p ∈ f.pos.zip vals, params f vals kvals p.1 = some p.2) ∧
    (∀ p ∈ f.kws.zip kvals, params f vals kvals p.1.1 = some (if p.2 = .void then p.1.2 else p.2)) ∧
    ∀ x, x ∉ f.pos → x ∉ f.kws.map (·.1) → params f vals kvals x = none := by
  obtain ⟨n1, n2, n3⟩ := List.nodup_append.1 hn
  have hz : ((f.kws.zip kvals).map fun p => p.1.1) = f.kws.map (·.1) := by
    have := congrArg (List.map Prod.fst) (zip_map_fst f.kws kvals hk.symm)
    rwa [List.map_map] at this
  refine ⟨fun p hp => ?_, fun p hp => ?_, fun x hx hx' => ?_⟩
  · unfold params
    rw [foldl_put_notin (fun p : (Bytes × Val) × Val => p.1.1) (fun p => if p.2 = .void then p.1.2 else p.2) p.1]
    · exact foldl_put_in (fun p : Bytes × Val => p.1) (fun p => p.2) p _ _ (by rw [zip_map_fst _ _ hl.symm]; exact n1) hp
    · intro b hb e
      exact n3 p.1 (List.of_mem_zip hp).1 b.1.1 (List.mem_map_of_mem (List.of_mem_zip hb).1) e.symm
  · unfold params
    exact foldl_put_in (fun p : (Bytes × Val) × Val => p.1.1) (fun p => if p.2 = .void then p.1.2 else p.2) p _ _ (by rw [hz]; exact n2) hp
  · unfold params
    rw [foldl_put_notin (fun p : (Bytes × Val) × Val => p.1.1) (fun p => if p.2 = .void then p.1.2 else p.2) x,
      foldl_put_notin (fun p : Bytes × Val => p.1) (fun p => p.2) x]
    · intro b hb e
      exact hx (e ▸ (List.of_mem_zip hb).1)
    · intro b hb e
      exact hx' (e ▸ List.mem_map_of_mem (List.of_mem_zip hb).1)

/-- A call with arguments that contain no calls: the function is run with the values of the positional arguments in their order and
the values given for the keywords, nothing else of the state is changed. -/
theorem call_arguments_partial (st : St) (hs : st.skipping = false) (i : Nat) (f : Fn) (hf : st.fns[i]? = some f)
    (hp : f.pos.length + 1 < 64) (hk : f.kws.length + 1 < 128) (hn : (f.kws.map (·.1)).Nodup)
    (ps : Given) (hps : ∀ p ∈ ps, Value st.here p.1 p.2 ∧ p.2 ≠ .void) (hlen : ps.length = f.pos.length)
    (ks : GivenKw) (hks : ∀ k ∈ ks, Value st.here k.2.1 k.2.2 ∧ k.2.2 ≠ .void ∧ k.1 ∈ f.kws.map (·.1) ∧ k.1 ≠ Args.kwargs)
    (hd : (ks.map (·.1)).Nodup) :
    ∃ an akw N, ∀ n, N ≤ n →
      callFn (n + 1) i (ps.map (fun p => (none, p.1)) ++ ks.map fun k => (some k.1, k.2.1)) st
        = run n f (ps.map (·.2)) (f.kws.map fun k => givenFor ks k.1) { st with an := an, akw := akw } := by
  obtain ⟨N, h1⟩ := posArgs_given st.here ps hps
  obtain ⟨M, h2⟩ := kwArgs_given st.here f.kws hn (⟨none, .void⟩ :: st.akw.drop (f.kws.length + 1)) ks hks hd
  refine ⟨ps.map (fun p => (⟨true, p.2⟩ : Slot)) ++ ⟨false, .void⟩ :: st.an.drop (f.pos.length + 1),
    slots f.kws (givenFor ks) ++ ⟨none, .void⟩ :: st.akw.drop (f.kws.length + 1), N + M, fun n hN => ?_⟩
  rw [callFn, hf]
  simp only
  rw [if_neg (by omega)]
  have e1 := h1 n (by omega) [] (st.an.drop (f.pos.length + 1)) (ks.map fun k => (some k.1, k.2.1)) (st.prepare f) hs rfl
    (by simp [St.prepare, hlen])
  rw [List.length_nil] at e1
  rw [e1, Out.ok_bind]
  have e2 := h2 n (by omega) (fun _ => .void)
    { st.prepare f with an := [] ++ (ps.map (fun p => (⟨true, p.2⟩ : Slot)) ++ ⟨false, .void⟩ :: st.an.drop (f.pos.length + 1)) }
    (fun _ _ => rfl) hs rfl (by simp [St.prepare, slots])
  have e3 : (fun x => if givenFor ks x = .void then .void else givenFor ks x) = givenFor ks := by
    funext x
    split
    · rename_i h; exact h.symm
    · rfl
  rw [e3] at e2
  simp only [List.nil_append] at e2 ⊢
  rw [e2, Out.ok_bind]
  have e4 : (St.vals { st with
      an := ps.map (fun p => (⟨true, p.2⟩ : Slot)) ++ ⟨false, .void⟩ :: st.an.drop (f.pos.length + 1),
      akw := slots f.kws (givenFor ks) ++ ⟨none, .void⟩ :: st.akw.drop (f.kws.length + 1) } f) = ps.map (·.2) := by
    simp only [St.vals]
    rw [List.take_append_of_le_length (by simp [hlen]), List.take_of_length_le (by simp [hlen]), List.map_map]
    rfl
  have e5 : (St.kvals { st with
      an := ps.map (fun p => (⟨true, p.2⟩ : Slot)) ++ ⟨false, .void⟩ :: st.an.drop (f.pos.length + 1),
      akw := slots f.kws (givenFor ks) ++ ⟨none, .void⟩ :: st.akw.drop (f.kws.length + 1) } f) = f.kws.map fun k => givenFor ks k.1 := by
    simp only [St.kvals]
    rw [List.take_append_of_le_length (by simp [slots]), List.take_of_length_le (by simp [slots]), slots, List.map_map]
    rfl
  rw [← e4, ← e5]
  rfl

theorem posArgs_ok (l : List Scope) : ∀ (n m : Nat) (es : List Expr) (done tail : List Slot) (rest : List (Option Bytes × Expr)) (st : St) (r),
    (∀ e ∈ es, Plain e) → (∀ a ∈ rest, a.1 ≠ none) → st.skipping = false → st.here = l →
    st.an = done ++ (List.replicate m ⟨true, .void⟩ ++ ⟨false, .void⟩ :: tail) →
    posArgs n done.length (es.map (fun e => (none, e)) ++ rest) st = .ok r →
    ∃ more : List Expr, es.length = m + more.length ∧ (∀ e ∈ more, e ∈ es) ∧ r.1 = more.map (fun e => (none, e)) ++ rest ∧ r.2.akw = st.akw ∧ r.2.skipping = false ∧ r.2.here = l
  | 0, _, _, _, _, _, _, _, _, _, _, _, _, h => nomatch h
  | n + 1, 0, es, done, tail, rest, st, r, _, _, hs, hl, ha, h => by
    rw [posArgs.eq_def] at h
    have e : st.an[done.length]? = some ⟨false, .void⟩ := by rw [ha]; simp
    simp only [e, if_true] at h
    rw [← Out.ok.inj h]
    exact ⟨es, by simp, fun e he => he, rfl, rfl, hs, hl⟩
  | n + 1, m + 1, es, done, tail, rest, st, r, hp, hr, hs, hl, ha, h => by
    rw [posArgs.eq_def] at h
    have e : st.an[done.length]? = some ⟨true, .void⟩ := by
      rw [ha, List.getElem?_append_right (Nat.le_refl _)]; simp [List.replicate_succ]
    simp only [e, Bool.true_eq_false, if_false] at h
    cases es with
    | nil =>
      cases rest with
      | nil => cases h
      | cons a rest =>
        obtain ⟨k, x⟩ := a
        cases k with
        | none => exact absurd rfl (hr (none, x) (by simp))
        | some k => cases h
    | cons x es =>
      simp only [List.map_cons, List.cons_append] at h
      obtain ⟨q, h1, h⟩ := bindOk h
      obtain ⟨q2, h2, h⟩ := bindOk h
      obtain ⟨e1, -⟩ := plain_value n x st q (hp x (by simp)) hs h1
      rw [e1] at h2
      unfold store at h2
      simp only [e, Bool.true_eq_false, if_false] at h2
      split at h2
      · cases h2
      · have e2 := (Out.ok.inj h2).symm
        subst e2
        have e3 : st.an.set done.length ⟨true, q.1⟩ = (done ++ [⟨true, q.1⟩]) ++ (List.replicate m ⟨true, .void⟩ ++ ⟨false, .void⟩ :: tail) := by
          rw [ha, List.set_append_right _ _ (Nat.le_refl _)]
          simp [List.replicate_succ]
        obtain ⟨more, a1, a2, a3, a4⟩ := posArgs_ok l n m es (done ++ [⟨true, q.1⟩]) tail rest { st with an := st.an.set done.length ⟨true, q.1⟩ } r
          (fun e he => hp e (by simp [he])) hr hs hl e3 (by rw [List.length_append, List.length_singleton]; exact h)
        exact ⟨more, by simp only [List.length_cons]; omega, fun e he => by simp [a2 e he], a3, a4⟩

theorem setKw_ok (k : Bytes) (v : Val) (g : Bytes → Val) (t : List KSlot) : ∀ (kws : List (Bytes × Val)) (r), (kws.map (·.1)).Nodup →
    setKw k v (slots kws g ++ ⟨none, .void⟩ :: t) = .ok r →
    k ∈ kws.map (·.1) ∧ g k = .void ∧ v ≠ .void ∧ r = slots kws (fun x => if x = k then v else g x) ++ ⟨none, .void⟩ :: t
  | [], _, _, h => nomatch h
  | q :: kws, r, hn, h => by
    have hn0 := hn
    simp only [List.map_cons, List.nodup_cons] at hn
    simp only [slots, List.map_cons, List.cons_append, setKw] at h
    split at h
    · rename_i e
      split at h
      · cases h
      · rename_i hv
        split at h
        · cases h
        · rename_i hg
          have hg : g q.1 = .void := Decidable.byContradiction hg
          refine ⟨by simp [e], by rw [e]; exact hg, hv, ?_⟩
          have h3 := setKw_slots k v g (⟨none, .void⟩ :: t) (q :: kws) hn0 (by simp [e]) hv (by rw [e]; exact hg)
          have h4 : setKw k v (slots (q :: kws) g ++ ⟨none, .void⟩ :: t) = .ok r := by
            simp only [slots, List.map_cons, List.cons_append, setKw, e, if_true, hv, if_false, hg, ne_eq, not_true_eq_false]
            exact h
          rw [h4] at h3
          exact Out.ok.inj h3
    · rename_i e
      obtain ⟨r1, h1, h⟩ := bindOk h
      obtain ⟨a1, a2, a3, a4⟩ := setKw_ok k v g t kws r1 hn.2 (by rw [slots]; exact h1)
      refine ⟨by simp only [List.map_cons, List.mem_cons]; exact Or.inr a1, a2, a3, ?_⟩
      rw [← Out.ok.inj h, a4]
      simp [slots, Ne.symm e]

theorem kwArgs_ok (l : List Scope) (kws : List (Bytes × Val)) (hn : (kws.map (·.1)).Nodup) (t : List KSlot) :
    ∀ (n : Nat) (args : List (Option Bytes × Expr)) (g : Bytes → Val) (st st' : St), (∀ a ∈ args, Plain a.2) → st.skipping = false → st.here = l →
    st.akw = slots kws g ++ ⟨none, .void⟩ :: t → kwArgs n args st = .ok st' →
    ∃ ks : List (Bytes × Expr), args = ks.map (fun k => (some k.1, k.2)) ∧ (∀ k ∈ ks, k.1 ∈ kws.map (·.1) ∧ g k.1 = .void) ∧ (ks.map (·.1)).Nodup
  | 0, _, _, _, _, _, _, _, _, h => nomatch h
  | n + 1, [], _, _, _, _, _, _, _, _ => ⟨[], rfl, by simp, by simp⟩
  | n + 1, (none, _) :: _, _, _, _, _, _, _, _, h => nomatch h
  | n + 1, (some k, e) :: args, g, st, st', hp, hs, hl, ha, h => by
    rw [kwArgs] at h
    obtain ⟨q, h1, h⟩ := bindOk h
    obtain ⟨e1, -⟩ := plain_value n e st q (hp (some k, e) (by simp)) hs h1
    split at h
    · cases h
    · rw [e1, ha] at h
      obtain ⟨r, h2, h⟩ := bindOk h
      obtain ⟨a1, a2, a3, a4⟩ := setKw_ok k q.1 g t kws r hn h2
      obtain ⟨ks, b1, b2, b3⟩ := kwArgs_ok l kws hn t n args (fun x => if x = k then q.1 else g x) { st with akw := r } st'
        (fun a ha => hp a (by simp [ha])) hs hl a4 h
      refine ⟨(k, e) :: ks, by simp [b1], ?_, ?_⟩
      · intro c hc
        rcases List.mem_cons.1 hc with rfl | hc
        · exact ⟨a1, a2⟩
        · refine ⟨(b2 c hc).1, ?_⟩
          have := (b2 c hc).2
          split at this
          · exact absurd this a3
          · exact this
      · simp only [List.map_cons, List.nodup_cons]
        refine ⟨fun hm => ?_, b3⟩
        obtain ⟨c, hc, e2⟩ := List.mem_map.1 hm
        have := (b2 c hc).2
        rw [if_pos e2] at this
        exact a3 this

/-- A call with arguments that contain no calls succeeds only if there are as many positional arguments as parameters, and the keywords are
among those of the function, each at most once. -/
theorem call_accepted_partial (st : St) (hs : st.skipping = false) (i : Nat) (f : Fn) (hf : st.fns[i]? = some f) (hn : (f.kws.map (·.1)).Nodup)
    (es : List Expr) (ks : List (Bytes × Expr)) (hes : ∀ e ∈ es, Plain e) (hks : ∀ k ∈ ks, Plain k.2) (n : Nat) (r)
    (h : callFn n i (es.map (fun e => (none, e)) ++ ks.map fun k => (some k.1, k.2)) st = .ok r) :
    es.length = f.pos.length ∧ (∀ k ∈ ks, k.1 ∈ f.kws.map (·.1)) ∧ (ks.map (·.1)).Nodup := by
  cases n with
  | zero => cases h
  | succ n =>
    rw [callFn, hf] at h
    simp only at h
    split at h
    · cases h
    · obtain ⟨q, h1, h⟩ := bindOk h
      obtain ⟨q2, h2, h⟩ := bindOk h
      obtain ⟨more, a1, a2, a3, a4, a5, a6⟩ := posArgs_ok st.here n f.pos.length es [] (st.an.drop (f.pos.length + 1))
        (ks.map fun k => (some k.1, k.2)) (st.prepare f) q hes (fun a ha => by
          obtain ⟨k, _, rfl⟩ := List.mem_map.1 ha
          simp) hs rfl (by simp [St.prepare]) h1
      rw [a3] at h2
      obtain ⟨ks', b1, b2, b3⟩ := kwArgs_ok st.here f.kws hn (st.akw.drop (f.kws.length + 1)) n _ (fun _ => .void) q.2 q2
        (by
          intro a ha
          rcases List.mem_append.1 ha with ha | ha
          · obtain ⟨e, he, rfl⟩ := List.mem_map.1 ha
            exact hes e (a2 e he)
          · obtain ⟨k, hk, rfl⟩ := List.mem_map.1 ha
            exact hks k hk) a5 a6 (by rw [a4]; simp [St.prepare, slots]) h2
      have e0 : more = [] := by
        cases more with
        | nil => rfl
        | cons x more =>
          cases ks' with
          | nil => cases b1
          | cons k ks' => simp at b1
      subst e0
      simp only [List.map_nil, List.nil_append] at b1
      have e1 : ks = ks' := by
        have := congrArg (List.map fun a : Option Bytes × Expr => (a.1.getD [], a.2)) b1
        simpa [List.map_map, Function.comp_def] using this
      subst e1
      exact ⟨by simpa using a1, fun k hk => (b2 k hk).1, b3⟩

/-! ### Programs -/

def nm (s : String) : Bytes := ascii s

/-- What variable `x` is after program `p`, if it ends without an error. -/
def Spec.result (n : Nat) (p : Stmt) (x : Bytes) : Option (Option Val) :=
  match exec n p St.init with
  | .ok st => some (lookup x st.here)
  | _ => none

/-- Does a program end muon with a failed assertion? -/
def Spec.aborts (n : Nat) (p : Stmt) : Bool :=
  match exec n p St.init with
  | .bad => true
  | _ => false

/-- Is a program rejected with an error? -/
def Spec.fails (n : Nat) (p : Stmt) : Bool :=
  match exec n p St.init with
  | .error => true
  | _ => false

def addFn : Stmt := .fdef (nm "add") [nm "a", nm "b"] [] true (.ret (some (.add (.var (nm "a")) (.var (nm "b")))))
def callN (f : String) (args : List Expr) : Expr := .call (.var (nm f)) (args.map fun e => (none, e))

/-- `add(1, 2)` is 3. -/
example : result 20 (.seq addFn (.assign (nm "r") (callN "add" [.num 1, .num 2]))) (nm "r") = some (some (.num 3)) := by decide +kernel

/-- `add(1, add(2, 3))` is 7: the arguments of the inner call replace those of the outer one. -/
theorem nested_arguments_counterexample :
    result 20 (.seq addFn (.assign (nm "r") (callN "add" [.num 1, callN "add" [.num 2, .num 3]]))) (nm "r") = some (some (.num 7)) := by
  decide +kernel

def oneFn : Stmt := .fdef (nm "one") [] [] true (.ret (some (.num 1)))
def idFn : Stmt := .fdef (nm "same") [nm "a"] [] true (.ret (some (.var (nm "a"))))

/-- `same(one())`, where `one` has no parameters, ends muon. -/
theorem no_parameters_counterexample :
    aborts 20 (.seq oneFn (.seq idFn (.expr (callN "same" [callN "one" []])))) = true := by decide +kernel

/-- `c = 0`, a function that does `c += 1` and returns `c`: the calls return 1 and 2, `c` of the file remains 0. -/
def counter : Stmt := .seq (.assign (nm "c") (.num 0)) (.seq
  (.fdef (nm "next") [] [] true (.seq (.plus (nm "c") (.num 1)) (.ret (some (.var (nm "c"))))))
  (.seq (.assign (nm "x") (callN "next" [])) (.assign (nm "y") (callN "next" []))))

theorem counter_counterexample : result 20 counter (nm "x") = some (some (.num 1)) ∧ result 20 counter (nm "y") = some (some (.num 2))
    ∧ result 20 counter (nm "c") = some (some (.num 0)) := by decide +kernel

/-- A function that calls itself (it has to be given itself): the inner call sees a variable of the outer one. -/
def inner : Stmt := .seq
  (.fdef (nm "f") [nm "g", nm "first"] [] true (.ite (.var (nm "first"))
    (.seq (.assign (nm "secret") (.num 5)) (.ret (some (callN "g" [.var (nm "g"), .num 0]))))
    (.ret (some (.isVar (nm "secret"))))))
  (.seq (.assign (nm "a") (callN "f" [.var (nm "f"), .num 0])) (.assign (nm "b") (callN "f" [.var (nm "f"), .num 1])))

theorem caller_locals_counterexample : result 20 inner (nm "a") = some (some (.num 0)) ∧ result 20 inner (nm "b") = some (some (.num 1)) := by
  decide +kernel

/-- A function does not know its own name. -/
theorem recursion_counterexample : fails 20 (.seq
    (.fdef (nm "f") [nm "n"] [] true (.ite (.var (nm "n")) (.ret (some (callN "f" [.num 0]))) (.ret (some (.num 1)))))
    (.expr (callN "f" [.num 1]))) = true := by decide +kernel

/-- `break` in a function that is defined within a loop: when the function is called outside, the rest of the file is skipped. -/
theorem break_counterexample : result 20 (.seq (.rep (nm "i") 1 (.fdef (nm "f") [] [] false .brk))
    (.seq (.expr (callN "f" [])) (.assign (nm "x") (.num 1)))) (nm "x") = some none := by decide +kernel

/-! ### The hypotheses can be met -/

/-- A state after a program. -/
def stOf (n : Nat) (p : Stmt) : St := match exec n p St.init with
  | .ok st => st
  | _ => St.init

def wsFn : Stmt := .seq (.assign (nm "z") (.num 40)) (.fdef (nm "f") [nm "a"] [(nm "k", some (.num 7))] true
  (.seq (.ret (some (.add (.var (nm "a")) (.add (.var (nm "k")) (.var (nm "z")))))) .skip))

example : result 20 (.seq wsFn (.seq (.assign (nm "z") (.num 1)) (.assign (nm "r") (callN "f" [.num 2])))) (nm "r") = some (some (.num 49)) := by
  decide +kernel

example : result 20 (.seq wsFn (.assign (nm "r") (.call (.var (nm "f")) [(none, .num 2), (some (nm "k"), .num 5)]))) (nm "r")
    = some (some (.num 47)) := by decide +kernel

/-- `call_arguments_partial`, `call_lexical`, `later_assignment`, `file_variables_safe`, `params_values`. -/
example : (stOf 20 wsFn).fns.length = 1 ∧ (stOf 20 wsFn).fns.map (·.stack) = [1] ∧ (stOf 20 wsFn).stacks.length = 2 ∧ (stOf 20 wsFn).cur = 0
    ∧ (stOf 20 wsFn).skipping = false ∧ (stOf 20 wsFn).fns.map (fun f => (f.pos ++ f.kws.map (·.1)).length) = [2] := by decide +kernel

example : Value [fun _ => some (.num 3)] (.add (.var (nm "x")) (.num 2)) (.num 5) ∧ Plain (.add (.var (nm "x")) (.num 2)) :=
  ⟨.add (i := 3) (j := 2) (.var ⟨[], fun _ => some (.num 3), [], rfl, by simp, rfl⟩) (.num 2), trivial, trivial⟩

/-- `quiet_calls`: a function without `+=`. -/
example : Quiet wsFn ∧ ¬ Quiet counter := by simp [wsFn, counter, Quiet]

end Muon.Scope
