import Verif.Feature.Model
/-
C94: feature options.
-/
namespace Muon.Feature
open Muon

namespace Spec

/-- What a call asks for: to be enabled or disabled; `hard` if it insists even against the user's choice. -/
structure Demand where
  on : Bool
  hard : Bool
  deriving DecidableEq, Repr

/-- The demand of a call, if its condition holds (for `require`: does not hold). -/
def demand : Call → Option Demand
  | .disableAutoIf true => some ⟨false, false⟩
  | .enableAutoIf true => some ⟨true, false⟩
  | .enableIf true _ => some ⟨true, true⟩
  | .disableIf true _ => some ⟨false, true⟩
  | .require false _ => some ⟨false, true⟩
  | _ => none

/-- The user's choice: on, off, or none, where `auto_features` chooses if it is not auto. -/
def choice (auto_features : Option State) : State → Option Bool
  | .enabled => some true
  | .disabled => some false
  | .auto => match auto_features with
    | some .enabled => some true
    | some .disabled => some false
    | _ => none

/-- The outcome: the user's choice, or if there is none, the first demand. -/
def outcome (u : Option Bool) (cs : List Call) : Option Bool :=
  u.or ((cs.filterMap demand).head?.map (·.on))

/-- No demand that insists is against the outcome. -/
def Agrees (u : Option Bool) (cs : List Call) : Prop := ∀ d ∈ cs.filterMap demand, d.hard = true → outcome u cs = some d.on

end Spec
open Spec

theorem outcome_cons (u : Option Bool) (c : Call) (cs : List Call) : outcome u (c :: cs) = outcome (u.or ((demand c).map (·.on))) cs := by
  unfold outcome
  cases h : demand c with
  | none => simp [h]
  | some d => cases u <;> simp [h]

theorem agrees_cons (u : Option Bool) (c : Call) (cs : List Call) :
    Agrees u (c :: cs) ↔ (∀ d, demand c = some d → d.hard = true → u.or (some d.on) = some d.on) ∧ Agrees (u.or ((demand c).map (·.on))) cs := by
  unfold Agrees
  rw [outcome_cons]
  cases h : demand c with
  | none => simp [h]
  | some d =>
    simp only [List.filterMap_cons, h, List.mem_cons, forall_eq_or_imp, Option.map_some, Option.some.injEq, forall_eq']
    constructor
    · rintro ⟨h1, h2⟩
      refine ⟨fun hh => ?_, h2⟩
      have := h1 hh
      unfold outcome at this
      cases u <;> simp_all
    · rintro ⟨h1, h2⟩
      refine ⟨fun hh => ?_, h2⟩
      have := h1 hh
      unfold outcome
      cases u <;> simp_all

/-- Whether a call has no error message. -/
def Spec.silent : Call → Bool
  | .enableIf _ m => !m
  | .disableIf _ m => !m
  | .require _ m => !m
  | _ => true

/-- Whether a call agrees with a choice. -/
def fits (u : Option Bool) (c : Call) : Bool :=
  match demand c with
  | some d => !d.hard || decide (u.or (some d.on) = some d.on)
  | none => true

theorem fits_iff (u : Option Bool) (c : Call) : fits u c = true ↔ ∀ d, demand c = some d → d.hard = true → u.or (some d.on) = some d.on := by
  unfold fits
  cases h : demand c with
  | none => simp
  | some d =>
    simp only [Bool.or_eq_true, Bool.not_eq_true', decide_eq_true_eq, Option.some.injEq, forall_eq']
    cases d.hard <;> simp

/-- What one call must do. -/
def Good (af : Option State) (s : State) (c : Call) : Res State → Bool
  | .ok s' => fits (choice af s) c && decide (choice af s' = (choice af s).or ((demand c).map (·.on)))
  | .error => !fits (choice af s) c && silent c
  | .bad => !fits (choice af s) c && !silent c

theorem call_good (af : Option State) (s : State) (c : Call) : Good af s c (call af s c) = true := by
  have h : ∀ (s : State), (∀ b m, Good af s (.enableIf b m) (call af s (.enableIf b m)) = true ∧ Good af s (.disableIf b m) (call af s (.disableIf b m)) = true ∧
      Good af s (.require b m) (call af s (.require b m)) = true ∧ Good af s (.disableAutoIf b) (call af s (.disableAutoIf b)) = true ∧
      Good af s (.enableAutoIf b) (call af s (.enableAutoIf b)) = true) := by
    intro s
    rcases af with _ | (_ | _ | _) <;> cases s <;> decide
  cases c with
  | disableAutoIf b => exact (h s b true).2.2.2.1
  | enableAutoIf b => exact (h s b true).2.2.2.2
  | enableIf b m => exact (h s b m).1
  | disableIf b m => exact (h s b m).2.1
  | require b m => exact (h s b m).2.2.1

/-- A chain of calls succeeds exactly if no call that insists is against the outcome, and then the outcome is the
user's choice, or the first demand if the user made none. -/
theorem chain_outcome (af : Option State) (s : State) (cs : List Call) :
    (Agrees (choice af s) cs → ∃ s', chain af s cs = .ok s' ∧ choice af s' = outcome (choice af s) cs) ∧
    (¬ Agrees (choice af s) cs → ∀ s', chain af s cs ≠ .ok s') := by
  induction cs generalizing s with
  | nil =>
    refine ⟨fun _ => ⟨s, rfl, by simp [outcome]⟩, fun h => absurd (fun d hd => by simp at hd) h⟩
  | cons c cs ih =>
    have hg := call_good af s c
    rw [agrees_cons, outcome_cons, ← fits_iff]
    cases hc : call af s c with
    | ok s' =>
      rw [hc] at hg
      simp only [Good, Bool.and_eq_true, decide_eq_true_eq] at hg
      rw [← hg.2]
      simp only [chain, hc, Res.bind, hg.1, true_and]
      exact ih s'
    | error =>
      rw [hc] at hg
      simp only [Good, Bool.and_eq_true, Bool.not_eq_true'] at hg
      simp [chain, hc, Res.bind, hg.1]
    | bad =>
      rw [hc] at hg
      simp only [Good, Bool.and_eq_true, Bool.not_eq_true'] at hg
      simp [chain, hc, Res.bind, hg.1]

/-- A chain without error messages that fails is an error. (Missing: with an error message muon aborts.) -/
theorem chain_error_partial (af : Option State) (s : State) (cs : List Call) (hs : ∀ c ∈ cs, silent c = true) (h : ¬ Agrees (choice af s) cs) :
    chain af s cs = .error := by
  induction cs generalizing s with
  | nil => exact absurd (fun d hd => by simp at hd) h
  | cons c cs ih =>
    have hg := call_good af s c
    rw [agrees_cons, ← fits_iff] at h
    cases hc : call af s c with
    | ok s' =>
      rw [hc] at hg
      simp only [Good, Bool.and_eq_true, decide_eq_true_eq] at hg
      rw [← hg.2] at h
      simp only [chain, hc, Res.bind]
      exact ih s' (fun c hc => hs c (by simp [hc])) (fun ha => h ⟨hg.1, ha⟩)
    | error => simp [chain, hc, Res.bind]
    | bad =>
      rw [hc] at hg
      simp [Good, hs c (by simp)] at hg

/-- The choice of the user is never overruled: a chain of calls that succeeds leaves an option the user enabled or
disabled, also by `auto_features`, as it was. -/
theorem choice_kept (af : Option State) (s s' : State) (b : Bool) (cs : List Call) (hu : choice af s = some b) (h : chain af s cs = .ok s') : choice af s' = some b := by
  have hc := chain_outcome af s cs
  by_cases ha : Agrees (choice af s) cs
  · obtain ⟨s'', h1, h2⟩ := hc.1 ha
    rw [h] at h1
    cases h1
    rw [h2, hu]; simp [outcome]
  · exact absurd h (hc.2 ha s')

/-- `enabled()`, `disabled()`, `auto()` and `allowed()` tell the choice. -/
theorem queries (af : Option State) (s : State) :
    (isEnabled af s = true ↔ choice af s = some true) ∧ (isDisabled af s = true ↔ choice af s = some false) ∧
    (isAuto af s = true ↔ choice af s = none) ∧ (isAllowed af s = true ↔ choice af s ≠ some false) := by
  rcases af with _ | (_ | _ | _) <;> cases s <;> decide

/-- What is required: nothing is looked for if the feature is off; it must be there if the feature is on or `required`
is true or absent; otherwise it may be there. -/
theorem required (af : Option State) (v : Option ReqVal) (r : Req) (h : requirement af v = .ok r) :
    (r = .skip ↔ ∃ s, v = some (.feature s) ∧ choice af s = some false) ∧
    (r = .required ↔ v = none ∨ v = some (.bool true) ∨ ∃ s, v = some (.feature s) ∧ choice af s = some true) := by
  rcases v with _ | (b | s | _)
  · cases h; simp
  · cases b <;> cases h <;> simp
  · have : ∀ s, requirement af (some (.feature s)) = .ok r → (r = .skip ↔ choice af s = some false) ∧ (r = .required ↔ choice af s = some true) := by
      intro s hs
      rcases af with _ | (_ | _ | _) <;> cases s <;> cases hs <;> decide
    have := this s h
    simp [this.1, this.2]
  · cases h

/-- With an error message the failure of a requirement aborts muon, instead of telling the message. -/
theorem error_message_counterexample : chain none .enabled [.require false true] = .bad ∧ chain none .disabled [.enableIf true true] = .bad ∧
    chain none .enabled [.disableIf true true] = .bad := by decide

/-- An automatic option that is disabled by one call cannot be enabled by a later one. -/
example : ¬ Agrees (choice none .auto) [.disableAutoIf true, .enableIf true false] := by
  intro h
  have := h ⟨true, true⟩ (by decide) rfl
  revert this; decide

example : Agrees (choice (some .enabled) .auto) [.disableAutoIf true, .enableIf true false] ∧
    chain (some .enabled) .auto [.disableAutoIf true, .enableIf true false] = .ok .enabled := by
  refine ⟨?_, by decide⟩
  intro d hd _
  simp [demand] at hd
  rcases hd with rfl | rfl
  · simp_all
  · decide

end Muon.Feature
