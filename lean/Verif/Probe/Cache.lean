import Verif.Probe.Spec
/-
C99: the cache does not change what checks come to.
-/
namespace Muon.Probe
open Muon Spec

theorem argstr_inj : ∀ (a b : List Bytes), a ≠ [] → b ≠ [] → (∀ s ∈ a, (0 : UInt8) ∉ s) → (∀ s ∈ b, (0 : UInt8) ∉ s) → argstr a = argstr b → a = b := by
  have key : ∀ (x y r t : Bytes), (0 : UInt8) ∉ x → (0 : UInt8) ∉ y → x ++ [0] ++ r = y ++ [0] ++ t → x = y ∧ r = t := by
    intro x
    induction x with
    | nil =>
      intro y r t _ hy h
      cases y with
      | nil => simpa using h
      | cons c y => simp at h; exact absurd h.1 (by intro e; apply hy; simp [e])
    | cons c x ih =>
      intro y r t hx hy h
      cases y with
      | nil => simp at h; exact absurd h.1.symm (by intro e; apply hx; simp [e])
      | cons d y =>
        simp only [List.cons_append, List.cons.injEq] at h
        obtain ⟨rfl, h⟩ := h
        obtain ⟨rfl, rfl⟩ := ih y r t (fun e => hx (by simp [e])) (fun e => hy (by simp [e])) h
        exact ⟨rfl, rfl⟩
  have none : ∀ (x y r : Bytes), (0 : UInt8) ∉ x → x ≠ y ++ [0] ++ r := by
    intro x y r hx e
    apply hx
    rw [e]
    simp
  intro a
  induction a with
  | nil => intro b h; exact absurd rfl h
  | cons x a ih =>
    intro b _ hb h1 h2 h
    cases b with
    | nil => exact absurd rfl hb
    | cons y b =>
      cases a with
      | nil =>
        cases b with
        | nil => simp only [argstr] at h; rw [h]
        | cons z b =>
          simp only [argstr] at h
          exact absurd h (none _ _ _ (h1 x (by simp)))
      | cons w a =>
        cases b with
        | nil =>
          simp only [argstr] at h
          exact absurd h.symm (none _ _ _ (h2 y (by simp)))
        | cons z b =>
          simp only [argstr] at h
          obtain ⟨e, h'⟩ := key _ _ _ _ (h1 x (by simp)) (h2 y (by simp)) h
          have hs1 : ∀ s ∈ w :: a, (0 : UInt8) ∉ s := fun s hs => h1 s (List.mem_cons_of_mem _ hs)
          have hs2 : ∀ s ∈ z :: b, (0 : UInt8) ∉ s := fun s hs => h2 s (List.mem_cons_of_mem _ hs)
          rw [e, ih (z :: b) (by simp) (by simp) hs1 hs2 h']

theorem key_inj {H : Bytes → Bytes} {W : World} {S : Check → Prop} (hS : Clear H W S) {a b : Check} (ha : S a) (hb : S b)
    (h : key H a = key H b) : a.args = b.args ∧ a.ver = b.ver ∧ a.src = b.src := by
  have hw : whole H a = whole H b := hS.wholeApart a b ha hb h
  unfold whole at hw
  have hlen : ∀ c : Check, (match c.ver with | some v => H v | none => List.replicate 32 0).length = 32 := by
    intro c
    cases c.ver with
    | none => simp
    | some v => exact hS.len v
  rw [List.append_assoc, List.append_assoc] at hw
  have h1 := List.append_inj hw (by rw [hS.len, hS.len])
  have h2 := List.append_inj h1.2 ((hlen a).trans (hlen b).symm)
  have e1 : argstr a.args = argstr b.args := hS.partsApart a b ha hb _ (by simp [parts]) _ (by simp [parts]) h1.1
  have e3 : a.src = b.src := hS.partsApart a b ha hb _ (by simp [parts]) _ (by simp [parts]) h2.2
  refine ⟨argstr_inj _ _ (hS.args a ha).1 (hS.args b hb).1 (hS.args a ha).2 (hS.args b hb).2 e1, ?_, e3⟩
  have e2 := h2.1
  cases hva : a.ver with
  | none =>
    cases hvb : b.ver with
    | none => rfl
    | some v => rw [hva, hvb] at e2; exact absurd e2.symm (hS.zero b hb v hvb)
  | some u =>
    cases hvb : b.ver with
    | none => rw [hva, hvb] at e2; exact absurd e2 (hS.zero a ha u hva)
    | some v =>
      rw [hva, hvb] at e2
      rw [hS.partsApart a b ha hb u (by simp [parts, hva]) v (by simp [parts, hvb]) e2]

/-- What is in the cache comes from checks that were carried out. -/
def Sound (H : Bytes → Bytes) (W : World) (S : Check → Prop) (m : Cache) : Prop :=
  ∀ k e, m k = some e → ∃ c, S c ∧ k = key H c ∧ entry W c (attempt W c) = some e

theorem recall_entry {H : Bytes → Bytes} {W : World} {S : Check → Prop} (hS : Clear H W S) {c : Check} (hc : S c) {e : Bool × Option Val}
    (h : entry W c (attempt W c) = some e) : recall c.kind e = answer W c (attempt W c) := by
  have hd := hS.made c hc
  have hr := hS.auto c hc
  generalize attempt W c = o at h ⊢
  cases hk : c.kind <;> cases o <;> simp only [entry, answer, hk] at h ⊢ <;> try simp only [reduceCtorEq, if_false, if_true] at h ⊢
  all_goals try cases h
  all_goals try rfl
  all_goals try (split at h <;> cases h)
  all_goals try simp only [recall, hr, if_false]
  · rfl
  · rfl
  · obtain ⟨t, ht⟩ := hd hk
    have : defineVal W c = some (.str (defineOf t)) := by
      unfold defineVal textOf
      rw [ht]
      rfl
    rw [this]
    rfl

theorem same_answer {W : World} {a b : Check} (h1 : a.args = b.args) (h2 : a.src = b.src) (h3 : a.kind = b.kind) (h4 : a.isPath = b.isPath)
    (h5 : a.mode = b.mode) (ha : a.req ≠ .required) (hb : b.req ≠ .required) : answer W a (attempt W a) = answer W b (attempt W b) := by
  have ht : textOf W a = textOf W b := by unfold textOf; rw [h2, h4]
  have hat : attempt W a = attempt W b := by unfold attempt; rw [h1, h3, h5, ht]
  rw [hat]
  generalize attempt W b = o
  have hd : defineVal W a = defineVal W b := by unfold defineVal; rw [h1, ht]
  cases o <;> simp only [answer, h3, ha, hb, hd, if_false]

theorem perform_clear {H : Bytes → Bytes} {W : World} {S : Check → Prop} (hS : Clear H W S) {m : Cache} (hm : Sound H W S m) {c : Check} (hc : S c) :
    (perform H W m c).1 = carriedOut W c ∧ Sound H W S (perform H W m c).2 := by
  unfold perform carriedOut
  by_cases hr : c.req = .skip
  · rw [if_pos hr, if_pos hr]
    exact ⟨rfl, hm⟩
  rw [if_neg hr, if_neg hr]
  cases hk : m (key H c) with
  | some e =>
    simp only
    refine ⟨?_, hm⟩
    obtain ⟨d, hd, hkey, he⟩ := hm _ _ hk
    obtain ⟨e1, e2, e3⟩ := key_inj hS hc hd hkey
    obtain ⟨f1, f2, f3⟩ := hS.same c d hc hd e1 e3
    rw [f1, recall_entry hS hd he]
    exact (same_answer e1 e3 f1 f2 f3 (hS.auto c hc) (hS.auto d hd)).symm
  | none =>
    simp only
    refine ⟨trivial, ?_⟩
    cases he : entry W c (attempt W c) with
    | none => exact hm
    | some e =>
      intro k e' hk'
      simp only [Cache.set] at hk'
      split at hk'
      · cases hk'
        exact ⟨c, hc, by assumption, he⟩
      · exact hm k e' hk'

theorem exec_clear {H : Bytes → Bytes} {W : World} {S : Check → Prop} (hS : Clear H W S) (p : Prog) :
    ∀ m, Sound H W S m → (∀ c, Asks p c → S c) → (exec H W p m).1 = direct W p ∧ Sound H W S (exec H W p m).2 := by
  induction p with
  | ret v => intro m hm _; exact ⟨rfl, hm⟩
  | fail => intro m hm _; exact ⟨rfl, hm⟩
  | ask c k ih =>
    intro m hm hp
    obtain ⟨h1, h2⟩ := perform_clear hS hm (hp c (.here c k))
    unfold exec direct
    rw [← h1]
    rcases hpf : perform H W m c with ⟨v | _ | _, m'⟩
    · rw [hpf] at h2
      exact ih (some v) m' h2 (fun d hd => hp d (.later _ hd))
    · rw [hpf] at h2
      exact ih none m' h2 (fun d hd => hp d (.later _ hd))
    · rw [hpf] at h2
      exact ⟨rfl, h2⟩

/-- C99: the calls of a run give what they would give without a cache, in whatever order they come and however often
they are repeated; also if the cache was filled by earlier runs. -/
theorem cache_transparent_partial (H : Bytes → Bytes) (W : World) (S : Check → Prop) (hS : Clear H W S) (before ps : List Prog)
    (hb : ∀ p ∈ before, ∀ c, Asks p c → S c) (hp : ∀ p ∈ ps, ∀ c, Asks p c → S c) :
    (execAll H W ps (execAll H W before (fun _ => none)).2).1 = ps.map (direct W) := by
  have key : ∀ (l : List Prog) (m : Cache), Sound H W S m → (∀ p ∈ l, ∀ c, Asks p c → S c) →
      (execAll H W l m).1 = l.map (direct W) ∧ Sound H W S (execAll H W l m).2 := by
    intro l
    induction l with
    | nil => intro m hm _; exact ⟨rfl, hm⟩
    | cons p l ih =>
      intro m hm h
      obtain ⟨h1, h2⟩ := exec_clear hS p m hm (h p (by simp))
      obtain ⟨h3, h4⟩ := ih _ h2 (fun q hq => h q (by simp [hq]))
      exact ⟨by simp only [execAll, List.map_cons, h1, h3], h4⟩
  have h0 : Sound H W S (fun _ => none) := by intro k e h; cases h
  exact (key ps _ (key before _ h0 hb).2 hp).1

/-- C99: a required check that fails is an error, as long as its result is not in the cache. -/
theorem required_partial (H : Bytes → Bytes) (W : World) (m : Cache) (c : Check) (hk : c.kind = .plain) (hm : c.mode ≠ .run)
    (hr : c.req = .required) (hc : m (key H c) = none) :
    ((perform H W m c).1 = .ok (.bool true) ↔ Accepts W c.args (textOf W c)) ∧
    (¬ Accepts W c.args (textOf W c) → (perform H W m c).1 = .error) := by
  unfold perform Accepts
  rw [if_neg (by rw [hr]; simp), hc]
  simp only [attempt, hm, if_false]
  cases hcc : W.cc c.args (textOf W c) with
  | none => simp [answer, hk]
  | some st =>
    by_cases h0 : st = 0
    · simp [h0, answer, hk]
    · simp [h0, answer, hk, hr]

end Muon.Probe
