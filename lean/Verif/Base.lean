/-
Shared conventions of the model: bytes, byte strings, character classes.
-/
namespace Muon

/-- A byte string. muon's `struct str` (include/lang/object.h, `struct str { const char *s; uint32_t len; }`)
is a pointer and a length; the byte at index `len` is always NUL (src/lang/string.c:73-98). The model keeps the
`len` bytes. -/
abbrev Bytes := List UInt8

/-- ASCII text as bytes, used for literals in the model (`WKSTR("...")` in the C code). -/
def ascii (s : String) : Bytes := s.toList.map (fun c => UInt8.ofNat c.toNat)

/-- C `isdigit` in the "C" locale. -/
def isDigit (c : UInt8) : Bool := 48 ≤ c && c ≤ 57
/-- C `isupper` in the "C" locale. -/
def isUpper (c : UInt8) : Bool := 65 ≤ c && c ≤ 90
/-- C `islower` in the "C" locale. -/
def isLower (c : UInt8) : Bool := 97 ≤ c && c ≤ 122
/-- C `isalpha` in the "C" locale (bytes ≥ 128 are not letters). -/
def isAlpha (c : UInt8) : Bool := isUpper c || isLower c
/-- C `isalnum` in the "C" locale. -/
def isAlnum (c : UInt8) : Bool := isDigit c || isAlpha c


/-- C `isspace` in the "C" locale. -/
def isSpace (c : UInt8) : Bool := c == 32 || (9 ≤ c && c ≤ 13)

/-- A statement about bytes can be checked for the 256 bytes. -/
theorem forall_byte {P : UInt8 → Prop} (h : ∀ n : Fin 256, P (UInt8.ofNat n.val)) (c : UInt8) : P c := by
  have := h ⟨c.toNat, c.toNat_lt⟩
  simpa using this

/-! ### Loops whose termination is in question

A C loop is modelled by a function giving, for each state, either the next state or the final result. `Loop step s r`
says that the loop started in `s` terminates with result `r`. The relation is deterministic (`Loop.det`), so proving
`Loop step s r` proves termination and the result, and proving that there is no such `r` proves that the loop runs
forever. -/

/-- The loop with body `step` started in a state terminates with a result. -/
inductive Loop {σ ρ : Type} (step : σ → σ ⊕ ρ) : σ → ρ → Prop
  | done {s : σ} {r : ρ} : step s = .inr r → Loop step s r
  | next {s s' : σ} {r : ρ} : step s = .inl s' → Loop step s' r → Loop step s r

namespace Loop
variable {σ ρ : Type} {step : σ → σ ⊕ ρ}

theorem det {s : σ} {r r' : ρ} (h : Loop step s r) (h' : Loop step s r') : r = r' := by
  induction h with
  | done h =>
    cases h' with
    | done h2 => rw [h] at h2; exact Sum.inr.inj h2
    | next h2 _ => rw [h] at h2; cases h2
  | next h _ ih =>
    cases h' with
    | done h2 => rw [h] at h2; cases h2
    | next h2 h3 => rw [h] at h2; cases h2; exact ih h3

/-- A loop whose states keep an invariant under which it never finishes does not terminate. -/
theorem diverges (inv : σ → Prop) (hstep : ∀ s, inv s → ∃ s', step s = .inl s' ∧ inv s') {s : σ} (hs : inv s) :
    ¬ ∃ r, Loop step s r := by
  rintro ⟨r, h⟩
  induction h with
  | done h => obtain ⟨s', h', _⟩ := hstep _ hs; rw [h] at h'; cases h'
  | next h _ ih => obtain ⟨s', h', hi⟩ := hstep _ hs; rw [h] at h'; cases h'; exact ih hi

/-- Executing the loop for a bounded number of steps. -/
def exec (step : σ → σ ⊕ ρ) : Nat → σ → Option ρ
  | 0, _ => none
  | n + 1, s => match step s with
    | .inr r => some r
    | .inl s' => exec step n s'

theorem of_exec {n : Nat} {s : σ} {r : ρ} (h : exec step n s = some r) : Loop step s r := by
  induction n generalizing s with
  | zero => cases h
  | succ n ih =>
    unfold exec at h
    split at h
    · next hr => cases h; exact .done hr
    · next hr => exact .next hr (ih h)

end Loop

/-- Outcome of an operation that can succeed, report an error, or misbehave (assertion failure or undefined
behaviour such as an out-of-bounds access or signed overflow). -/
inductive Res (α : Type)
  | ok (a : α)
  | error
  | bad
deriving Repr, DecidableEq

/-- Sequencing: the first outcome that is not `ok` is the outcome. -/
def Res.bind {α β : Type} (x : Res α) (f : α → Res β) : Res β :=
  match x with
  | .ok a => f a
  | .error => .error
  | .bad => .bad

instance : Monad Res where
  pure := .ok
  bind := Res.bind

@[simp] theorem Res.ok_bind {α β : Type} (a : α) (f : α → Res β) : (Res.ok a >>= f) = f a := rfl
@[simp] theorem Res.error_bind {α β : Type} (f : α → Res β) : ((Res.error : Res α) >>= f) = .error := rfl
@[simp] theorem Res.bad_bind {α β : Type} (f : α → Res β) : ((Res.bad : Res α) >>= f) = .bad := rfl
@[simp] theorem Res.pure_eq {α : Type} (a : α) : (pure a : Res α) = .ok a := rfl

theorem Res.bind_eq_ok {α β : Type} {x : Res α} {f : α → Res β} {b : β} :
    (x >>= f) = .ok b ↔ ∃ a, x = .ok a ∧ f a = .ok b := by
  cases x <;> simp

end Muon
