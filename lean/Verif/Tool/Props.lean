import Verif.Tool.Model
import Verif.Tool.Spec
/-
Properties of the tools of the built-in ninja.
-/
namespace Muon.Tool
open Muon

/-! ### clean -/

theorem cleanPath_fs {can : Bytes → Bool} {s : Fs × Bool} {p : Option Bytes} {q : Bytes} :
    (cleanPath can s p).1 q = true ↔ s.1 q = true ∧ ¬ (p = some q ∧ can q = true) := by
  unfold cleanPath
  cases p with
  | none => simp
  | some p =>
    simp only [Option.some.injEq]
    by_cases h1 : s.1 p = true
    · rw [if_pos h1]
      by_cases h2 : can p = true
      · rw [if_pos h2]
        by_cases h3 : q = p
        · subst h3; simp [h2]
        · simp only [h3, if_false]
          constructor
          · intro h; exact ⟨h, fun ⟨a, _⟩ => h3 a.symm⟩
          · intro h; exact h.1
      · rw [if_neg h2]
        constructor
        · intro h; exact ⟨h, fun ⟨a, b⟩ => h2 (a ▸ b)⟩
        · intro h; exact h.1
    · rw [if_neg h1]
      constructor
      · intro h; exact ⟨h, fun ⟨a, _⟩ => h1 (a ▸ h)⟩
      · intro h; exact h.1

theorem cleanPath_ok {can : Bytes → Bool} {s : Fs × Bool} {p : Option Bytes} :
    (cleanPath can s p).2 = true ↔ s.2 = true ∧ ∀ q, p = some q → s.1 q = true → can q = true := by
  unfold cleanPath
  cases p with
  | none => simp
  | some p =>
    simp only [Option.some.injEq, forall_eq']
    by_cases h1 : s.1 p = true
    · rw [if_pos h1]
      by_cases h2 : can p = true
      · rw [if_pos h2]; simp [h2]
      · rw [if_neg h2]; simp [h1, h2]
    · rw [if_neg h1]; simp [h1]

/-- What holds after removing the files of the set `P`: exactly those that could be removed are gone, and there was an
error exactly if one was there and could not be removed. -/
def Removed (can : Bytes → Bool) (P : Bytes → Prop) (s s' : Fs × Bool) : Prop :=
  (∀ q, s'.1 q = true ↔ s.1 q = true ∧ ¬ (P q ∧ can q = true)) ∧
  (s'.2 = true ↔ s.2 = true ∧ ∀ q, P q → s.1 q = true → can q = true)

theorem removed_none {can : Bytes → Bool} {P : Bytes → Prop} {s : Fs × Bool} (h : ∀ q, ¬ P q) : Removed can P s s :=
  ⟨fun q => ⟨fun a => ⟨a, fun b => h q b.1⟩, fun a => a.1⟩, ⟨fun a => ⟨a, fun q b => absurd b (h q)⟩, fun a => a.1⟩⟩

theorem removed_path {can : Bytes → Bool} {s : Fs × Bool} {p : Option Bytes} :
    Removed can (fun q => p = some q) s (cleanPath can s p) := ⟨fun _ => cleanPath_fs, cleanPath_ok⟩

theorem Removed.trans {can : Bytes → Bool} {P Q : Bytes → Prop} {a b c : Fs × Bool}
    (h1 : Removed can P a b) (h2 : Removed can Q b c) : Removed can (fun q => P q ∨ Q q) a c := by
  refine ⟨fun q => ?_, ?_⟩
  · rw [h2.1, h1.1]
    constructor
    · rintro ⟨⟨x, y⟩, z⟩
      exact ⟨x, fun ⟨w, v⟩ => w.elim (fun w => y ⟨w, v⟩) (fun w => z ⟨w, v⟩)⟩
    · rintro ⟨x, y⟩
      exact ⟨⟨x, fun w => y ⟨Or.inl w.1, w.2⟩⟩, fun w => y ⟨Or.inr w.1, w.2⟩⟩
  · rw [h2.2, h1.2]
    constructor
    · rintro ⟨⟨x, y⟩, z⟩
      refine ⟨x, fun q w v => ?_⟩
      rcases w with w | w
      · exact y q w v
      · apply Decidable.byContradiction
        intro hc
        exact hc (z q w ((h1.1 q).2 ⟨v, fun u => hc u.2⟩))
    · rintro ⟨x, y⟩
      exact ⟨⟨x, fun q w => y q (Or.inl w)⟩, fun q w v => y q (Or.inr w) ((h1.1 q).1 v).1⟩

theorem Removed.congr {can : Bytes → Bool} {P Q : Bytes → Prop} {a b : Fs × Bool}
    (h : Removed can P a b) (hpq : ∀ q, P q ↔ Q q) : Removed can Q a b :=
  ⟨fun q => by rw [h.1, hpq], by rw [h.2]; simp only [hpq]⟩

theorem removed_foldl {α : Type} {can : Bytes → Bool} {f : Fs × Bool → α → Fs × Bool} {P : α → Bytes → Prop}
    (hf : ∀ s x, Removed can (P x) s (f s x)) (l : List α) (s : Fs × Bool) :
    Removed can (fun q => ∃ x ∈ l, P x q) s (l.foldl f s) := by
  induction l generalizing s with
  | nil => exact removed_none (fun q h => by obtain ⟨x, hx, _⟩ := h; cases hx)
  | cons x l ih =>
    exact ((hf s x).trans (ih (f s x))).congr (fun q => by simp)

theorem removed_edge {g : Graph} {can : Bytes → Bool} (s : Fs × Bool) (e : Edge) :
    Removed can (Makes g e) s (cleanEdge g can s e) := by
  unfold cleanEdge
  exact (((removed_foldl (P := fun n q => some (g.path n) = some q) (fun s n => removed_path) e.outs s).trans
    removed_path).trans removed_path).congr (fun q => by simp [Makes, or_assoc])

/-- **clean.** `clean` without arguments removes exactly the files that steps make — outputs, response files, files of
dependencies, of every step that is not `phony`, and not a `generator` unless `-g` is given — that exist and can be
removed; every other file is kept. The status is success exactly if all that existed could be removed. -/
theorem clean_all {g : Graph} {can : Bytes → Bool} {cleangen : Bool} {fs : Fs} :
    (∀ q, (cleanAll g can cleangen fs).1 q = true ↔
      fs q = true ∧ ¬ (can q = true ∧
        ∃ e ∈ g.edges, e.phony = false ∧ (cleangen = true ∨ e.generator = false) ∧ Makes g e q)) ∧
    ((cleanAll g can cleangen fs).2 = true ↔
      ∀ e ∈ g.edges, e.phony = false → (cleangen = true ∨ e.generator = false) →
        ∀ q, Makes g e q → fs q = true → can q = true) := by
  have key := removed_foldl (can := can)
    (P := fun e q => e.phony = false ∧ (cleangen = true ∨ e.generator = false) ∧ Makes g e q)
    (f := fun s e => if e.phony then s else if !cleangen && e.generator then s else cleanEdge g can s e)
    (fun s e => by
      by_cases h1 : e.phony = true
      · rw [if_pos h1]; exact removed_none (fun q h => by rw [h1] at h; cases h.1)
      · rw [if_neg h1]
        by_cases h2 : (!cleangen && e.generator) = true
        · rw [if_pos h2]
          refine removed_none (fun q h => ?_)
          simp only [Bool.and_eq_true, Bool.not_eq_true'] at h2
          rcases h.2.1 with h3 | h3
          · rw [h2.1] at h3; cases h3
          · rw [h2.2] at h3; cases h3
        · rw [if_neg h2]
          refine (removed_edge s e).congr (fun q => ⟨fun h => ⟨by simpa using h1, ?_, h⟩, fun h => h.2.2⟩)
          cases cleangen <;> simp_all) g.edges (fs, true)
  refine ⟨fun q => ?_, ?_⟩
  · unfold cleanAll
    rw [key.1 q, and_comm (a := can q = true)]
  · unfold cleanAll
    rw [key.2]
    constructor
    · rintro ⟨_, h⟩ e he h1 h2 q h3 h4
      exact h q ⟨e, he, h1, h2, h3⟩ h4
    · intro h
      refine ⟨rfl, ?_⟩
      rintro q ⟨e, he, h1, h2, h3⟩ h4
      exact h e he h1 h2 q h3 h4

/-- **clean -r.** It removes exactly the files that steps with one of the rules make. -/
theorem clean_rules {g : Graph} {can : Bytes → Bool} {rules : List Bytes} {fs : Fs} :
    (∀ q, (cleanRules g can rules fs).1 q = true ↔
      fs q = true ∧ ¬ (can q = true ∧ ∃ e ∈ g.edges, e.rule ∈ rules ∧ Makes g e q)) ∧
    ((cleanRules g can rules fs).2 = true ↔
      ∀ e ∈ g.edges, e.rule ∈ rules → ∀ q, Makes g e q → fs q = true → can q = true) := by
  have key := removed_foldl (can := can)
    (P := fun r q => ∃ e ∈ g.edges, e.rule = r ∧ Makes g e q)
    (f := fun s r => g.edges.foldl (fun s e => if e.rule ≠ r then s else cleanEdge g can s e) s)
    (fun s r => by
      refine removed_foldl (P := fun e q => e.rule = r ∧ Makes g e q) (fun s e => ?_) g.edges s
      by_cases h1 : e.rule = r
      · rw [if_neg (by simpa using h1)]
        exact (removed_edge s e).congr (fun q => by simp [h1])
      · rw [if_pos h1]; exact removed_none (fun q h => h1 h.1)) rules (fs, true)
  have hP : ∀ q, (∃ r ∈ rules, ∃ e ∈ g.edges, e.rule = r ∧ Makes g e q) ↔
      ∃ e ∈ g.edges, e.rule ∈ rules ∧ Makes g e q := by
    intro q
    constructor
    · rintro ⟨r, hr, e, he, rfl, h⟩; exact ⟨e, he, hr, h⟩
    · rintro ⟨e, he, hr, h⟩; exact ⟨e.rule, hr, e, he, rfl, h⟩
  refine ⟨fun q => ?_, ?_⟩
  · unfold cleanRules
    rw [key.1 q, and_comm (a := can q = true)]
    simp only [hP]
  · unfold cleanRules
    rw [key.2]
    constructor
    · rintro ⟨_, h⟩ e he h1 q h3 h4
      exact h q ⟨_, h1, e, he, rfl, h3⟩ h4
    · intro h
      refine ⟨rfl, ?_⟩
      rintro q ⟨r, hr, e, he, rfl, h3⟩ h4
      exact h e he hr q h3 h4

theorem gen_bind {g : Graph} {n : Nat} {e : Edge} :
    (g.gen n).bind (fun k => g.edges[k]?) = some e ↔ Gen g n e := by
  rw [Option.bind_eq_some_iff]; rfl

theorem Gen.unique {g : Graph} {n : Nat} {e e' : Edge} (h : Gen g n e) (h' : Gen g n e') : e = e' := by
  have h1 := gen_bind.2 h
  rw [gen_bind.2 h'] at h1
  exact (Option.some.inj h1).symm

theorem removed_foldlM {α : Type} {can : Bytes → Bool} {f : Fs × Bool → α → Option (Fs × Bool)} {P : α → Bytes → Prop}
    (l : List α) (hf : ∀ s x s', f s x = some s' → Removed can (P x) s s') (s s' : Fs × Bool)
    (h : l.foldlM f s = some s') : Removed can (fun q => ∃ x ∈ l, P x q) s s' := by
  induction l generalizing s with
  | nil =>
    cases h
    exact removed_none (fun q h => by obtain ⟨x, hx, _⟩ := h; cases hx)
  | cons x l ih =>
    simp only [List.foldlM_cons, Option.bind_eq_bind, Option.bind_eq_some_iff] at h
    obtain ⟨s1, h1, h2⟩ := h
    exact ((hf s x s1 h1).trans (ih s1 h2)).congr (fun q => by simp)

theorem removed_target {g : Graph} {can : Bytes → Bool} (f : Nat) (s : Fs × Bool) (n : Nat) (s' : Fs × Bool)
    (h : cleanTarget g can f s n = some s') : Removed can (fun q => ∃ m, Under g n m ∧ g.path m = q) s s' := by
  induction f generalizing s n s' with
  | zero => cases h
  | succ f ih =>
    unfold cleanTarget at h
    split at h
    · rename_i hg
      cases h
      refine removed_none ?_
      rintro q ⟨m, hm, _⟩
      cases hm with
      | self he _ => rw [gen_bind.2 he] at hg; cases hg
      | step he _ _ _ => rw [gen_bind.2 he] at hg; cases hg
    · rename_i e hg
      have hge := gen_bind.1 hg
      by_cases hp : e.phony = true
      · rw [if_pos hp] at h
        cases h
        refine removed_none ?_
        rintro q ⟨m, hm, _⟩
        cases hm with
        | self he h2 => rw [he.unique hge, hp] at h2; cases h2
        | step he h2 _ _ => rw [he.unique hge, hp] at h2; cases h2
      · rw [if_neg hp] at h
        have hp' : e.phony = false := by simpa using hp
        refine (removed_path.trans (removed_foldlM e.ins (fun s x s' hx => ih s x s' hx) _ _ h)).congr (fun q => ?_)
        constructor
        · rintro (h1 | ⟨i, hi, m, hm, hq⟩)
          · exact ⟨n, .self hge hp', Option.some.inj h1⟩
          · exact ⟨m, .step hge hp' hi hm, hq⟩
        · rintro ⟨m, hm, hq⟩
          cases hm with
          | self _ _ => exact Or.inl (by rw [hq])
          | step he _ hi hm => rw [he.unique hge] at hi; exact Or.inr ⟨_, hi, m, hm, hq⟩

/-- **clean of targets.** When it ends, `clean` with targets has removed exactly the outputs on the way to the targets
that exist and can be removed: the way stops at `phony` steps. -/
theorem clean_targets {g : Graph} {can : Bytes → Bool} {f : Nat} {ns : List Nat} {fs fs' : Fs} {ok : Bool}
    (h : cleanTargets g can f ns fs = some (fs', ok)) :
    (∀ q, fs' q = true ↔ fs q = true ∧ ¬ (can q = true ∧ ∃ n ∈ ns, ∃ m, Under g n m ∧ g.path m = q)) ∧
    (ok = true ↔ ∀ n ∈ ns, ∀ m, Under g n m → fs (g.path m) = true → can (g.path m) = true) := by
  have key := removed_foldlM ns (fun s x s' hx => removed_target f s x s' hx) _ _ h
  refine ⟨fun q => ?_, ?_⟩
  · rw [key.1 q, and_comm (a := can q = true)]
  · rw [key.2]
    constructor
    · rintro ⟨_, h⟩ n hn m hm h4
      exact h _ ⟨n, hn, m, hm, rfl⟩ h4
    · intro h
      refine ⟨rfl, ?_⟩
      rintro q ⟨n, hn, m, hm, rfl⟩ h4
      exact h n hn m hm h4

/-- Every removed file is one that a step makes. -/
theorem under_made {g : Graph} {n m : Nat} (h : Under g n m) : ∃ e, Gen g m e ∧ e.phony = false := by
  induction h with
  | self h1 h2 => exact ⟨_, h1, h2⟩
  | step _ _ _ _ ih => exact ih

/-- **Sources are safe.** A file that no step makes is never removed, whatever is cleaned. -/
theorem sources_kept {g : Graph} {can : Bytes → Bool} {fs : Fs} {q : Bytes}
    (hout : ∀ n e, Gen g n e → n ∈ e.outs)
    (hq : ∀ e ∈ g.edges, ¬ Makes g e q) (hf : fs q = true) :
    (∀ b, (cleanAll g can b fs).1 q = true) ∧ (∀ rules, (cleanRules g can rules fs).1 q = true) ∧
    (∀ f ns fs' ok, cleanTargets g can f ns fs = some (fs', ok) → fs' q = true) := by
  refine ⟨fun b => clean_all.1 q |>.2 ⟨hf, ?_⟩, fun r => clean_rules.1 q |>.2 ⟨hf, ?_⟩, fun f ns fs' ok h =>
    (clean_targets h).1 q |>.2 ⟨hf, ?_⟩⟩
  · rintro ⟨_, e, he, _, _, hm⟩; exact hq e he hm
  · rintro ⟨_, e, he, _, hm⟩; exact hq e he hm
  · rintro ⟨_, n, _, m, hm, hp⟩
    obtain ⟨e, he, _⟩ := under_made hm
    obtain ⟨k, _, hk⟩ := id he
    exact hq e (List.mem_of_getElem? hk) (Or.inl ⟨m, hout m e he, hp⟩)

theorem foldlM_some {α σ : Type} {f : σ → α → Option σ} (l : List α) (h : ∀ x ∈ l, ∀ s, (f s x).isSome) (s : σ) :
    (l.foldlM f s).isSome := by
  induction l generalizing s with
  | nil => rfl
  | cons x l ih =>
    simp only [List.foldlM_cons, Option.bind_eq_bind]
    obtain ⟨s', hs'⟩ := Option.isSome_iff_exists.1 (h x (by simp) s)
    rw [hs']
    exact ih (fun y hy => h y (by simp [hy])) s'

theorem cleanTarget_ends {g : Graph} {can : Bytes → Bool} {ht : Nat → Nat}
    (hh : ∀ n e i, Gen g n e → i ∈ e.ins → ht i < ht n) (f : Nat) (n : Nat) (hf : ht n < f) (s : Fs × Bool) :
    (cleanTarget g can f s n).isSome := by
  induction f generalizing n s with
  | zero => omega
  | succ f ih =>
    unfold cleanTarget
    split
    · rfl
    · rename_i e hg
      by_cases hp : e.phony = true
      · rw [if_pos hp]; rfl
      · rw [if_neg hp]
        refine foldlM_some _ (fun i hi s => ih i ?_ s) _
        have := hh n e i (gen_bind.1 hg) hi
        omega

/-- **clean of targets ends** on every graph without cycles. -/
theorem clean_ends_partial {g : Graph} {can : Bytes → Bool} (ha : Acyclic g) (ns : List Nat) (fs : Fs) :
    ∃ f s, cleanTargets g can f ns fs = some s := by
  obtain ⟨ht, hh⟩ := ha
  have hb : ∃ b, ∀ n ∈ ns, ht n < b := by
    clear hh
    induction ns with
    | nil => exact ⟨0, fun _ h => nomatch h⟩
    | cons n ns ih =>
      obtain ⟨b, hb⟩ := ih
      refine ⟨max b (ht n + 1), fun m hm => ?_⟩
      rcases List.mem_cons.1 hm with rfl | hm
      · omega
      · have := hb m hm; omega
  obtain ⟨b, hb⟩ := hb
  obtain ⟨s, hs⟩ := Option.isSome_iff_exists.1
    (foldlM_some (f := fun s n => cleanTarget g can b s n) ns (fun n hn s => cleanTarget_ends hh b n (hb n hn) s) (fs, true))
  exact ⟨b, s, hs⟩

/-- A step that copies, and its file. -/
def cp (i o : Nat) : Edge := { rule := ascii "cp", ins := [i], outs := [o], command := some (ascii "cp") }

/-- `build b: cp a`, `build c: cp b`, `build all: phony c`. -/
def g1 : Graph where
  edges := [cp 0 1, cp 1 2, { rule := ascii "phony", phony := true, ins := [2], outs := [3] }]
  path n := if n = 0 then ascii "a" else if n = 1 then ascii "b" else if n = 2 then ascii "c" else ascii "all"
  gen n := if n = 1 then some 0 else if n = 2 then some 1 else if n = 3 then some 2 else none

example : ((cleanAll g1 (fun _ => true) false (fun _ => true)).1 (ascii "c"),
    (cleanAll g1 (fun _ => true) false (fun _ => true)).1 (ascii "a")) = (false, true) := by decide +kernel
example : ((cleanTargets g1 (fun _ => true) 9 [2] (fun _ => true)).map (fun s => (s.1 (ascii "b"), s.1 (ascii "a")))) =
    some (false, true) := by decide +kernel
example : ((cleanRules g1 (fun _ => true) [ascii "cp"] (fun _ => true)).1 (ascii "b")) = false := by decide +kernel

theorem g1_gen {n : Nat} {e : Edge} (h : Gen g1 n e) :
    n = 1 ∧ e = cp 0 1 ∨ n = 2 ∧ e = cp 1 2 ∨ n = 3 ∧ e = { rule := ascii "phony", phony := true, ins := [2], outs := [3] } := by
  obtain ⟨k, h1, h2⟩ := h
  simp only [g1] at h1 h2
  split at h1
  · cases h1; simp at h2; exact Or.inl ⟨by assumption, h2.symm⟩
  · split at h1
    · cases h1; simp at h2; exact Or.inr (Or.inl ⟨by assumption, h2.symm⟩)
    · split at h1
      · cases h1; simp at h2; exact Or.inr (Or.inr ⟨by assumption, h2.symm⟩)
      · cases h1

/-- The example has no cycle. -/
example : Acyclic g1 := by
  refine ⟨id, fun n e i h hi => ?_⟩
  rcases g1_gen h with ⟨rfl, rfl⟩ | ⟨rfl, rfl⟩ | ⟨rfl, rfl⟩ <;> simp [cp] at hi <;> subst hi <;> decide

/-- **Counterexample: `clean all`.** With a `phony` target nothing is removed, although the target needs files that
steps make. (The reference ninja walks on through `phony` steps.) -/
theorem clean_phony_counterexample {can : Bytes → Bool} {fs : Fs} :
    cleanTargets g1 can 9 [3] fs = some (fs, true) := rfl

/-- **Counterexample: a cycle.** The graph is not searched for cycles before a tool is run: on `build a: cp a`,
`clean a` never ends. -/
theorem clean_cycle_counterexample {can : Bytes → Bool} {fs : Fs} (f : Nat) :
    cleanTargets { edges := [cp 0 0], path := fun _ => ascii "a", gen := fun _ => some 0 } can f [0] fs = none := by
  have key : ∀ f s, cleanTarget { edges := [cp 0 0], path := fun _ => ascii "a", gen := fun _ => some 0 } can f s 0
      = none := by
    intro f
    induction f with
    | zero => intro s; rfl
    | succ f ih =>
      intro s
      simp only [cp] at ih
      simp [cleanTarget, cp, ih]
  simp [cleanTargets, key]

/-! ### commands -/

end Muon.Tool
