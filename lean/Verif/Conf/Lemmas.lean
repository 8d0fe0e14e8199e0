import Verif.Conf.Spec
/-
Substitution in templates: the functions that read the text, without the terminating NUL byte.
-/
namespace Muon.Conf
open Muon Muon.Conf.Spec

def isBlank (c : UInt8) : Bool := c == 32 || c == 9
def isIn (c : UInt8) : Bool := c != 0 && c != 10

theorem isKey_ne {c : UInt8} (h : isKey c = true) : c ≠ 0 ∧ c ≠ 10 ∧ c ≠ 32 ∧ c ≠ 9 ∧ c ≠ 64 ∧ c ≠ 125 := by
  have key : ∀ c : UInt8, isKey c = true → c ≠ 0 ∧ c ≠ 10 ∧ c ≠ 32 ∧ c ≠ 9 ∧ c ≠ 64 ∧ c ≠ 125 := forall_byte (by decide +kernel)
  exact key c h

theorem isKey_iff (c : UInt8) : isKey c = true ↔ (isAlnum c = true ∨ c = 95 ∨ c = 45) := by
  have key : ∀ c : UInt8, isKey c = true ↔ (isAlnum c = true ∨ c = 95 ∨ c = 45) := forall_byte (by decide +kernel)
  exact key c

theorem name_iff (k : Bytes) : Name k ↔ ∀ c ∈ k, isKey c = true := by
  unfold Name
  exact ⟨fun h c hc => (isKey_iff c).mpr (h c hc), fun h c hc => (isKey_iff c).mp (h c hc)⟩

theorem skipWs_eq (s : Bytes) : skipWs (s ++ [0]) = .ok (s.dropWhile isBlank ++ [0]) := by
  induction s with
  | nil => rfl
  | cons c s ih =>
    rw [List.cons_append, skipWs, List.dropWhile_cons]
    by_cases h : isBlank c = true
    · have h' : c ≠ 0 ∧ (c = 32 ∨ c = 9) := by
        simp [isBlank] at h
        refine ⟨?_, h⟩
        rcases h with rfl | rfl <;> decide
      rw [if_pos h', if_pos h, ih]
    · have h' : ¬ (c ≠ 0 ∧ (c = 32 ∨ c = 9)) := by
        rintro ⟨_, e⟩; apply h; simp [isBlank, e]
      rw [if_neg h', if_neg h]; rfl

theorem varLen_eq (s : Bytes) : varLen (s ++ [0]) = .ok (s.takeWhile isKey, s.dropWhile isKey ++ [0]) := by
  induction s with
  | nil => rfl
  | cons c s ih =>
    rw [List.cons_append, varLen, List.dropWhile_cons, List.takeWhile_cons]
    by_cases h : isKey c = true
    · rw [if_pos ⟨(isKey_ne h).1, h⟩, if_pos h, if_pos h, ih]; rfl
    · rw [if_neg (fun e => h e.2), if_neg h, if_neg h]; rfl

theorem toEol_eq (s : Bytes) : toEol (s ++ [0]) = .ok (s.dropWhile isIn ++ [0]) := by
  induction s with
  | nil => rfl
  | cons c s ih =>
    rw [List.cons_append, toEol, List.dropWhile_cons]
    by_cases h : isIn c = true
    · rw [if_pos (by simpa [isIn] using h), if_pos h, ih]
    · rw [if_neg (by simpa [isIn] using h), if_neg h]; rfl

theorem slashes_eq (s : Bytes) : slashes (s ++ [0]) = .ok ((s.takeWhile (· == 92)).length, s.dropWhile (· == 92) ++ [0]) := by
  induction s with
  | nil => rfl
  | cons c s ih =>
    rw [List.cons_append, slashes, List.dropWhile_cons, List.takeWhile_cons]
    by_cases h : c = 92
    · subst h
      rw [if_pos (by decide), ih]; rfl
    · rw [if_neg (fun e => h e.2), if_neg (by simpa using h), if_neg (by simpa using h)]; rfl

theorem cmpn_eq (pat : Bytes) (h0 : 0 ∉ pat) (s : Bytes) : cmpn pat (s ++ [0]) = .ok (pat.isPrefixOf s) := by
  induction pat generalizing s with
  | nil => rfl
  | cons c pat ih =>
    have hc : c ≠ 0 := fun e => h0 (by simp [e])
    have h0' : 0 ∉ pat := fun e => h0 (by simp [e])
    cases s with
    | nil =>
      rw [List.nil_append, cmpn, if_neg (fun e => hc e.symm)]; rfl
    | cons d s =>
      rw [List.cons_append, cmpn]
      by_cases e : d = c
      · subst e; rw [if_pos rfl, ih h0']; simp [List.isPrefixOf]
      · rw [if_neg e]
        simp [List.isPrefixOf, Ne.symm e]

theorem rd_eq (s : Bytes) : rd (s ++ [0]) = .ok (s.headD 0) := by
  cases s <;> rfl

theorem dropWhile_all (p : UInt8 → Bool) (a b : Bytes) (h : ∀ c ∈ a, p c = true) : (a ++ b).dropWhile p = b.dropWhile p := by
  induction a with
  | nil => rfl
  | cons c a ih => rw [List.cons_append, List.dropWhile_cons, if_pos (h c (by simp)), ih (fun c hc => h c (by simp [hc]))]

theorem takeWhile_all (p : UInt8 → Bool) (a b : Bytes) (h : ∀ c ∈ a, p c = true) : (a ++ b).takeWhile p = a ++ b.takeWhile p := by
  induction a with
  | nil => rfl
  | cons c a ih => rw [List.cons_append, List.takeWhile_cons, if_pos (h c (by simp)), ih (fun c hc => h c (by simp [hc])), List.cons_append]

theorem dropWhile_stop (p : UInt8 → Bool) (b : Bytes) (h : ∀ c, b.head? = some c → p c = false) : b.dropWhile p = b := by
  cases b with
  | nil => rfl
  | cons c b => rw [List.dropWhile_cons, if_neg (by rw [h c rfl]; simp)]

theorem takeWhile_stop (p : UInt8 → Bool) (b : Bytes) (h : ∀ c, b.head? = some c → p c = false) : b.takeWhile p = [] := by
  cases b with
  | nil => rfl
  | cons c b => rw [List.takeWhile_cons, if_neg (by rw [h c rfl]; simp)]

theorem dropWhile_head (p : UInt8 → Bool) (b : Bytes) : ∀ c, (b.dropWhile p).head? = some c → p c = false := by
  intro c h
  induction b with
  | nil => cases h
  | cons d b ih =>
    rw [List.dropWhile_cons] at h
    by_cases hp : p d = true
    · rw [if_pos hp] at h; exact ih h
    · rw [if_neg hp] at h; cases h; simpa using hp

theorem takeWhile_mem (p : UInt8 → Bool) (b : Bytes) : ∀ c ∈ b.takeWhile p, p c = true := by
  intro c h
  induction b with
  | nil => cases h
  | cons d b ih =>
    rw [List.takeWhile_cons] at h
    by_cases hp : p d = true
    · rw [if_pos hp] at h
      rcases List.mem_cons.mp h with rfl | h
      · exact hp
      · exact ih h
    · rw [if_neg hp] at h; cases h

theorem isBlank_in {c : UInt8} (h : isBlank c = true) : isIn c = true := by
  simp [isBlank] at h
  rcases h with rfl | rfl <;> decide

theorem isKey_in {c : UInt8} (h : isKey c = true) : isIn c = true := by
  have := isKey_ne h
  simp [isIn, this.1, this.2.1]

theorem dropWhile_dropWhile (p q : UInt8 → Bool) (h : ∀ c, p c = true → q c = true) (s : Bytes) :
    (s.dropWhile p).dropWhile q = s.dropWhile q := by
  induction s with
  | nil => rfl
  | cons c s ih =>
    rw [List.dropWhile_cons]
    by_cases hp : p c = true
    · rw [if_pos hp, ih, List.dropWhile_cons, if_pos (h c hp)]
    · rw [if_neg hp]

theorem headD_stop (s : Bytes) (p : UInt8 → Bool) (h0 : p 0 = false) (h : p (s.headD 0) = false) : s.dropWhile p = s := by
  apply dropWhile_stop
  intro c hc
  cases s with
  | nil => cases hc
  | cons d s => cases hc; exact h

/-- Whatever is after the name on a `#cmakedefine` line is passed over. -/
theorem cmakeTail_eq (k : Bytes) (hk : ∀ c ∈ k, isKey c = true) (q : Bytes) : cmakeTail k (q ++ [0]) = .ok (q.dropWhile isIn ++ [0]) := by
  unfold cmakeTail
  rw [rd_eq, Res.ok_bind]
  have h0 : 0 ∉ k := fun h => (isKey_ne (hk 0 h)).1 rfl
  by_cases h64 : q.headD 0 = 64
  · rw [if_pos h64]
    cases q with
    | nil => cases h64
    | cons c q =>
      simp only [List.headD_cons] at h64
      subst h64
      rw [List.cons_append, List.drop_succ_cons, List.drop_zero, cmpn_eq k h0, Res.ok_bind]
      by_cases hp : k.isPrefixOf q = true
      · rw [if_pos hp]
        obtain ⟨r, rfl⟩ := List.isPrefixOf_iff_prefix.mp hp
        have e1 : ((64 : UInt8) :: (k ++ r ++ [0])).drop (1 + k.length) = r ++ [0] := by
          rw [Nat.add_comm, List.drop_succ_cons, List.append_assoc, List.drop_left]
        rw [e1, rd_eq, Res.ok_bind, Res.ok_bind]
        by_cases hr : r.headD 0 = 64
        · rw [if_pos (by simpa using hr)]
          cases r with
          | nil => cases hr
          | cons c r =>
            simp only [List.headD_cons] at hr
            subst hr
            have e2 : ((64 : UInt8) :: (k ++ 64 :: r ++ [0])).drop (2 + k.length) = r ++ [0] := by
              rw [Nat.add_comm, show k.length + 2 = (k.length + 1) + 1 from rfl, List.drop_succ_cons, List.append_assoc, List.drop_append]
              simp
            rw [e2, skipWs_eq, Res.ok_bind, rd_eq, Res.ok_bind]
            have e3 : ((64 : UInt8) :: (k ++ 64 :: r)).dropWhile isIn = (r.dropWhile isBlank).dropWhile isIn := by
              rw [dropWhile_dropWhile isBlank isIn (fun c => isBlank_in)]
              have : (64 : UInt8) :: (k ++ 64 :: r) = (64 :: k ++ [64]) ++ r := by simp
              rw [this]
              apply dropWhile_all
              intro c hc
              simp only [List.cons_append, List.mem_cons, List.mem_append, List.not_mem_nil, or_false] at hc
              rcases hc with rfl | h | rfl
              · decide
              · exact isKey_in (hk c h)
              · decide
            rw [e3]
            by_cases hc : (r.dropWhile isBlank).headD 0 = 10 ∨ (r.dropWhile isBlank).headD 0 = 0
            · rw [if_pos hc, headD_stop _ isIn (by decide)]
              rcases hc with h | h <;> rw [h] <;> decide
            · rw [if_neg hc, toEol_eq]
        · rw [if_neg (by simpa using hr)]
          exact toEol_eq (64 :: (k ++ r))
      · rw [if_neg hp, Res.ok_bind, if_neg (by simp)]
        exact toEol_eq (64 :: q)
  · rw [if_neg h64, Res.ok_bind, if_neg (by simp), toEol_eq]

end Muon.Conf
