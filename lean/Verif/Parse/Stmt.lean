import Verif.Parse.Sound
/-
Helper lemmas: the statement parser ends, finds the tree of each program of the grammar, and accepts no others.
-/
namespace Muon.Parse
open Muon Lex Spec

/-! ### Termination -/

def srank : SCall → Nat
  | .line => 0
  | .block => 1
  | .ifs => 0
  | .els => 0

theorem parseExpr_ends (ts : List Tok) : Ends (parseExpr 0 ts) (Le ts.length) := pc_ends .expr 0 ts

theorem head_ends (ts : List Tok) : Ends (head ts) (fun p => p.2.length + 1 ≤ ts.length) := by
  unfold head
  refine Ends.bind (parseExpr_ends ts) (fun p hp => Ends.bind (expect_ends _ _) (fun q hq => ?_))
  exact Ends.ite (fun _ => trivial) (fun _ => Nat.le_trans hq hp)

theorem accept_length {t : Tok} {ts r : List Tok} (h : accept t ts = some r) : r.length + 1 = ts.length := by
  rw [accept_eq h]; rfl

theorem assignment_ends (ts : List Tok) : Ends (assignment ts) (Le ts.length) := by
  unfold assignment
  refine Ends.bind (parseExpr_ends ts) (fun p hp => ?_)
  obtain ⟨l, t1⟩ := p
  have hp : t1.length ≤ ts.length := hp
  dsimp only
  split
  · next r hr =>
    have := accept_length hr
    split
    · refine Ends.bind (parseExpr_ends r) (fun q hq => Ends.ite (fun _ => trivial) (fun _ => ?_))
      have hq : q.2.length ≤ r.length := hq
      show q.2.length ≤ ts.length
      omega
    · trivial
  · split
    · next r hr =>
      have := accept_length hr
      split
      · refine Ends.bind (parseExpr_ends r) (fun q hq => Ends.ite (fun _ => trivial) (fun _ => ?_))
        have hq : q.2.length ≤ r.length := hq
        show q.2.length ≤ ts.length
        omega
      · trivial
    · exact hp

theorem foreachArgs_ends (ts : List Tok) : Ends (foreachArgs ts) (fun p => p.2.length + 1 ≤ ts.length) := by
  unfold foreachArgs
  refine Ends.bind (name_ends ts) (fun p hp => ?_)
  dsimp only
  split
  · next r hr =>
    have := accept_length hr
    refine Ends.bind (name_ends r) (fun q hq => ?_)
    have hp : p.2.length + 1 ≤ ts.length := hp
    have hq : q.2.length + 1 ≤ r.length := hq
    show q.2.length + 1 ≤ ts.length
    omega
  · exact hp

theorem skipEol_length (ts : List Tok) : (skipEol ts).length ≤ ts.length := by
  induction ts with
  | nil => exact Nat.le_refl _
  | cons t ts ih =>
    unfold skipEol
    split
    · next r h => rw [(List.cons.inj h).2] at ih; have := congrArg List.length h; simp at this ⊢; omega
    · exact Nat.le_refl _

theorem checked_ends {strict : Bool} {n : Node} {ts : List Tok} {k : Nat} (h : ts.length ≤ k) : Ends (checked strict n ts) (Le k) := by
  unfold checked; exact Ends.ite (fun _ => trivial) (fun _ => h)

theorem srun_ends (strict : Bool) : ∀ (n : Nat) (c : SCall) (loop : Bool) (ts : List Tok), 2 * ts.length + srank c < n →
    Ends (srun strict n c loop ts) (Le ts.length) := by
  intro n
  induction n with
  | zero => intro c loop ts h; omega
  | succ n ih =>
    intro c loop ts h
    have ih' : ∀ c loop ts k, 2 * ts.length + srank c < n → ts.length ≤ k → Ends (srun strict n c loop ts) (Le k) :=
      fun c loop ts k h1 h2 => Ends.mono (ih c loop ts h1) (fun a ha => Nat.le_trans ha h2)
    cases c with
    | block =>
      simp only [srank] at h
      refine Ends.bind (ih' .line loop ts ts.length (by simp only [srank]; omega) (Nat.le_refl _)) (fun p hp => ?_)
      obtain ⟨l, t1⟩ := p
      have hp : t1.length ≤ ts.length := hp
      refine Ends.ite (fun _ => hp) (fun _ => ?_)
      dsimp only
      split
      · next r hr =>
        have := accept_length hr
        exact Ends.bind (ih' .block loop r ts.length (by simp only [srank]; omega) (by omega)) (fun q hq => hq)
      · exact hp
    | line =>
      simp only [srank] at h
      have hs := skipEol_length ts
      show Ends (sbody strict (srun strict n) .line loop ts) _
      simp only [sbody]
      refine Ends.ite (fun _ => hs) (fun _ => ?_)
      split
      · next r hr =>
        have := accept_length hr
        refine Ends.bind (ih' .ifs loop r (ts.length - 1) (by simp only [srank]; omega) (by omega)) (fun p hp => ?_)
        refine Ends.bind (expect_ends _ _) (fun q hq => checked_ends ?_)
        have hp : p.2.length ≤ ts.length - 1 := hp
        have hq : q.length + 1 ≤ p.2.length := hq
        omega
      · split
        · next r hr =>
          have := accept_length hr
          refine Ends.bind (foreachArgs_ends r) (fun p hp => Ends.bind (expect_ends _ _) (fun q hq => Ends.bind (head_ends _) (fun u hu => ?_)))
          have hp : p.2.length + 1 ≤ r.length := hp
          have hq : q.length + 1 ≤ p.2.length := hq
          have hu : u.2.length + 1 ≤ q.length := hu
          refine Ends.bind (ih' .block true u.2 ts.length (by simp only [srank]; omega) (by omega)) (fun v hv => ?_)
          have hv : v.2.length ≤ ts.length := hv
          refine Ends.bind (expect_ends _ _) (fun w hw => checked_ends ?_)
          have hw : w.length + 1 ≤ v.2.length := hw
          omega
        · split
          · next r hr =>
            have := accept_length hr
            exact Ends.ite (fun _ => by show r.length ≤ _; omega) (fun _ => trivial)
          · split
            · next r hr =>
              have := accept_length hr
              exact Ends.ite (fun _ => by show r.length ≤ _; omega) (fun _ => trivial)
            · exact Ends.bind (assignment_ends _) (fun p hp => checked_ends (Nat.le_trans hp hs))
    | ifs =>
      simp only [srank] at h
      refine Ends.bind (head_ends ts) (fun u hu => ?_)
      have hu : u.2.length + 1 ≤ ts.length := hu
      refine Ends.bind (ih' .block loop u.2 (ts.length - 1) (by simp only [srank]; omega) (by omega)) (fun v hv => ?_)
      have hv : v.2.length ≤ ts.length - 1 := hv
      exact Ends.bind (ih' .els loop v.2 ts.length (by simp only [srank]; omega) (by omega)) (fun w hw => hw)
    | els =>
      simp only [srank] at h
      show Ends (sbody strict (srun strict n) .els loop ts) _
      simp only [sbody]
      split
      · next r hr =>
        have := accept_length hr
        exact ih' .ifs loop r _ (by simp only [srank]; omega) (by omega)
      · split
        · next r hr =>
          have := accept_length hr
          refine Ends.bind (expect_ends _ _) (fun q hq => ?_)
          have hq : q.length + 1 ≤ r.length := hq
          exact ih' .block loop q _ (by simp only [srank]; omega) (by omega)
        · exact Nat.le_refl _

theorem sbody_up (strict : Bool) (r1 r2 : SCall → Bool → List Tok → PR (Node × List Tok)) (ih : ∀ c d ts, Up (r1 c d ts) (r2 c d ts))
    (c : SCall) (d : Bool) (ts : List Tok) : Up (sbody strict r1 c d ts) (sbody strict r2 c d ts) := by
  cases c with
  | block =>
    refine Up.bind (ih _ _ _) (fun p => Up.ite Up.rfl' ?_)
    dsimp only
    split
    · exact Up.bind (ih _ _ _) (fun _ => Up.rfl')
    · exact Up.rfl'
  | line =>
    simp only [sbody]
    refine Up.ite Up.rfl' ?_
    split
    · exact Up.bind (ih _ _ _) (fun _ => Up.rfl')
    · split
      · refine Up.bind Up.rfl' (fun _ => Up.bind Up.rfl' (fun _ => Up.bind Up.rfl' (fun _ => ?_)))
        exact Up.bind (ih _ _ _) (fun _ => Up.rfl')
      · exact Up.rfl'
  | ifs =>
    exact Up.bind Up.rfl' (fun _ => Up.bind (ih _ _ _) (fun _ => Up.bind (ih _ _ _) (fun _ => Up.rfl')))
  | els =>
    simp only [sbody]
    split
    · exact ih _ _ _
    · split
      · exact Up.bind Up.rfl' (fun _ => ih _ _ _)
      · exact Up.rfl'

theorem srun_up (strict : Bool) (n : Nat) : ∀ (c : SCall) (d : Bool) (ts : List Tok), Up (srun strict n c d ts) (srun strict (n + 1) c d ts) := by
  induction n with
  | zero => intro c d ts; exact Or.inl rfl
  | succ n ih => intro c d ts; exact sbody_up strict _ _ ih c d ts

theorem srun_mono (strict : Bool) {n m : Nat} (h : n ≤ m) (c : SCall) (d : Bool) (ts : List Tok) (hf : srun strict n c d ts ≠ .fuel) :
    srun strict m c d ts = srun strict n c d ts := by
  induction h with
  | refl => rfl
  | @step m _ ih =>
    rcases srun_up strict m c d ts with h | h
    · rw [ih] at h; exact absurd h hf
    · rw [← h, ih]

/-- The statement parser with enough fuel. -/
def sc (strict : Bool) (c : SCall) (d : Bool) (ts : List Tok) : PR (Node × List Tok) := srun strict (10 * ts.length + 10) c d ts

theorem sc_ends (strict : Bool) (c : SCall) (d : Bool) (ts : List Tok) : Ends (sc strict c d ts) (Le ts.length) :=
  srun_ends strict _ c d ts (by cases c <;> simp only [srank] <;> omega)

theorem sc_ne_fuel (strict : Bool) (c : SCall) (d : Bool) (ts : List Tok) : sc strict c d ts ≠ .fuel := by
  intro h
  have := sc_ends strict c d ts
  rw [h] at this; exact this

theorem srun_up_sc (strict : Bool) (n : Nat) (c : SCall) (d : Bool) (ts : List Tok) : Up (srun strict n c d ts) (sc strict c d ts) := by
  by_cases h : srun strict n c d ts = .fuel
  · exact Or.inl h
  · right
    rcases Nat.le_total n (10 * ts.length + 10) with hle | hle
    · exact (srun_mono strict hle c d ts h).symm
    · exact srun_mono strict hle c d ts (sc_ne_fuel strict c d ts)

theorem sc_eq (strict : Bool) (c : SCall) (d : Bool) (ts : List Tok) : sc strict c d ts = sbody strict (sc strict) c d ts := by
  have h1 : sc strict c d ts = srun strict (10 * ts.length + 10 + 1) c d ts :=
    (srun_mono strict (Nat.le_succ _) c d ts (sc_ne_fuel strict c d ts)).symm
  have h2 := sbody_up strict (srun strict (10 * ts.length + 10)) (sc strict) (srun_up_sc strict _) c d ts
  rcases h2 with h2 | h2
  · exact absurd (h1.trans h2) (sc_ne_fuel strict c d ts)
  · exact h1.trans h2

/-! ### The parser finds the tree -/

theorem effective_iff (n : Node) : Effective n ↔ effect n = true := by
  have h : ∀ n : Node, (parts n).any acts = effect n := by
    intro n
    induction n <;> simp_all [parts, acts, effect, Bool.or_assoc]
  rw [← h]
  simp [Effective, List.any_eq_true]

theorem checked_eq {strict : Bool} {n : Node} (h : strict = true → Effective n) (ts : List Tok) : checked strict n ts = .ok (n, ts) := by
  unfold checked
  rw [if_neg]
  intro h'
  simp only [Bool.and_eq_true, Bool.not_eq_true'] at h'
  have := (effective_iff n).1 (h h'.1)
  rw [h'.2] at this; cases this

/-- The tokens with which an expression can begin. -/
def opens : Tok → Bool
  | .kNot | .minus | .stringify | .kTrue | .kFalse | .identifier _ | .number _ | .string _ | .lparen | .lbrack | .lcurl => true
  | _ => false

theorem Derives.opens {lv : Arith → Nat} {st : Prop} {L : Lv} {r : Nat} {e : Node} {ts : List Tok} (h : Derives lv st L r e ts)
    (hL : ∀ m, L ≠ .args m) : ∃ t us, ts = t :: us ∧ opens t = true := by
  induction h with
  | orExpr _ ih => exact ih (by simp)
  | andOr _ ih => exact ih (by simp)
  | compAnd _ ih => exact ih (by simp)
  | arithComp _ ih => exact ih (by simp)
  | arithLift _ _ ih => exact ih (by simp)
  | postUnary _ ih => exact ih (by simp)
  | atomPost _ ih => exact ih (by simp)
  | strayNot _ _ ih => obtain ⟨t, us, rfl, h⟩ := ih (by simp); exact ⟨t, _, rfl, h⟩
  | ternary _ _ _ ih => obtain ⟨t, us, rfl, h⟩ := ih (by simp); exact ⟨t, _, rfl, h⟩
  | or _ _ ih => obtain ⟨t, us, rfl, h⟩ := ih (by simp); exact ⟨t, _, rfl, h⟩
  | and _ _ ih => obtain ⟨t, us, rfl, h⟩ := ih (by simp); exact ⟨t, _, rfl, h⟩
  | comparison _ _ ih => obtain ⟨t, us, rfl, h⟩ := ih (by simp); exact ⟨t, _, rfl, h⟩
  | arith _ _ ih => obtain ⟨t, us, rfl, h⟩ := ih (by simp); exact ⟨t, _, rfl, h⟩
  | index _ _ ih => obtain ⟨t, us, rfl, h⟩ := ih (by simp); exact ⟨t, _, rfl, h⟩
  | method _ _ ih => obtain ⟨t, us, rfl, h⟩ := ih (by simp); exact ⟨t, _, rfl, h⟩
  | call _ _ ih => obtain ⟨t, us, rfl, h⟩ := ih (by simp); exact ⟨t, _, rfl, h⟩
  | noArgs => exact absurd rfl (hL _)
  | lastArg => exact absurd rfl (hL _)
  | arg => exact absurd rfl (hL _)
  | lastKey => exact absurd rfl (hL _)
  | key => exact absurd rfl (hL _)
  | _ => exact ⟨_, _, rfl, rfl⟩

theorem good_expr {st : Prop} {e : Node} {ts : List Tok} (h : Derives muonLevel st .expr 4096 e ts) (rest : List Tok) (hs : Stop .expr rest) :
    parseExpr 0 (ts ++ rest) = .ok (e, rest) := good h 0 rest (by omega) hs

theorem good_head {st : Prop} {e : Node} {ts : List Tok} (h : Derives muonLevel st .expr 4096 e ts) (rest : List Tok) :
    head (ts ++ .eol :: rest) = .ok (e, rest) := by
  unfold head
  rw [good_expr h _ (Stop.cons (by decide) _)]
  simp only [PR.ok_bind, expect_cons]
  rw [if_neg (Derives.ne h (by simp))]

/-- What can follow a statement. -/
def After (rest : List Tok) : Prop := (∃ r, rest = .eol :: r) ∨ endsBlock rest = true

theorem After.stop {rest : List Tok} (h : After rest) : Stop .expr rest ∧ accept .plusAssign rest = none ∧ accept .assign rest = none := by
  rcases h with ⟨r, rfl⟩ | h
  · exact ⟨Stop.cons (by decide) _, rfl, rfl⟩
  · unfold endsBlock at h
    split at h
    all_goals first
      | exact ⟨Stop.cons (by decide) _, accept_ne (by simp) _, accept_ne (by simp) _⟩
      | (refine ⟨?_, rfl, rfl⟩; intro t r h; cases h; done)
      | cases h

theorem skipEol_replicate (k : Nat) (ts : List Tok) (h : ∀ r, ts ≠ .eol :: r) : skipEol (List.replicate k .eol ++ ts) = ts := by
  induction k with
  | zero =>
    cases ts with
    | nil => rfl
    | cons t ts =>
      show skipEol (t :: ts) = _
      unfold skipEol
      split
      · next r h' => exact absurd h' (h _)
      · rfl
  | succ k ih => simpa [List.replicate_succ, skipEol] using ih

theorem endsBlock_ne_eol {rest : List Tok} (h : endsBlock rest = true) : ∀ r, rest ≠ .eol :: r := by
  rintro r rfl; cases h

/-- The line of an expression or an assignment goes to `assignment`. -/
theorem line_opens (strict loop : Bool) (k : Nat) (t : Tok) (us : List Tok) (h : opens t = true) :
    sc strict .line loop (List.replicate k .eol ++ t :: us) =
      (do let (n, ts) ← assignment (t :: us); checked strict n ts) := by
  rw [sc_eq]
  have hk : ∀ r, (t :: us) ≠ .eol :: r := by rintro r h'; rw [(List.cons.inj h').1] at h; cases h
  simp only [sbody, skipEol_replicate k _ hk]
  have h1 : endsBlock (t :: us) = false := by cases t <;> first | rfl | cases h
  rw [h1]
  have h2 : t ≠ .kIf ∧ t ≠ .kForeach ∧ t ≠ .kContinue ∧ t ≠ .kBreak := by
    refine ⟨?_, ?_, ?_, ?_⟩ <;> (rintro rfl; cases h)
  rw [accept_ne h2.1, accept_ne h2.2.1, accept_ne h2.2.2.1, accept_ne h2.2.2.2]
  rfl

/-- What the parser does with the text of a piece. -/
def SGood (strict : Bool) : Piece → Bool → Node → List Tok → Prop
  | .block, loop, n, ts => ∀ rest, endsBlock rest = true → sc strict .block loop (ts ++ rest) = .ok (n, rest)
  | .stmt, loop, n, ts => n ≠ .empty ∧ ∀ k rest, After rest → sc strict .line loop (List.replicate k .eol ++ (ts ++ rest)) = .ok (n, rest)
  | .ifs, loop, n, ts => ∀ rest, sc strict .ifs loop (ts ++ .kEndif :: rest) = .ok (n, .kEndif :: rest)
  | .els, loop, n, ts => endsBlock (ts ++ [.kEndif]) = true ∧ ∀ rest, sc strict .els loop (ts ++ .kEndif :: rest) = .ok (n, .kEndif :: rest)

theorem loopVars_ok (v : Bytes) (w : Option Bytes) (r : List Tok) :
    foreachArgs (loopVars v w ++ .colon :: r) = .ok ((v, w), .colon :: r) := by
  cases w with
  | none => rfl
  | some w => rfl

theorem sgood {st : Prop} {strict : Bool} {p : Piece} {loop : Bool} {n : Node} {ts : List Tok}
    (h : Program muonLevel st strict p loop n ts) : SGood strict p loop n ts := by
  induction h with
  | @nothing loop k =>
    intro rest hr
    rw [sc_eq]
    have : sc strict .line loop (List.replicate k .eol ++ rest) = .ok (.empty, rest) := by
      rw [sc_eq]
      simp only [sbody, skipEol_replicate k _ (endsBlock_ne_eol hr)]
      rw [if_pos hr]
    simp only [sbody, this, PR.ok_bind]
    rw [if_pos trivial]
  | @last loop s ts k h ih =>
    intro rest hr
    rw [sc_eq]
    simp only [sbody, List.append_assoc]
    rw [ih.2 k rest (Or.inr hr)]
    simp only [PR.ok_bind]
    rw [if_neg ih.1]
    have : accept .eol rest = none := by
      cases rest with
      | nil => rfl
      | cons t r => exact accept_ne (by rintro rfl; cases hr) r
    rw [this]
  | @cons loop s ts b us k h1 h2 ih1 ih2 =>
    intro rest hr
    rw [sc_eq]
    have := ih1.2 k (.eol :: (us ++ rest)) (Or.inl ⟨_, rfl⟩)
    simp only [sbody, List.append_assoc, List.cons_append]
    rw [this]
    simp only [PR.ok_bind]
    rw [if_neg ih1.1, accept_cons]
    dsimp only
    rw [ih2 rest hr]
    rfl
  | @expr loop e ts h he =>
    refine ⟨Derives.ne h (by simp), fun k rest hr => ?_⟩
    obtain ⟨hs, h1, h2⟩ := hr.stop
    obtain ⟨t, us, rfl, ho⟩ := Derives.opens h (by simp)
    rw [List.cons_append, line_opens strict loop k t _ ho]
    have : assignment (t :: (us ++ rest)) = .ok (e, rest) := by
      unfold assignment
      rw [show t :: (us ++ rest) = (t :: us) ++ rest from rfl, good_expr h rest hs]
      simp only [PR.ok_bind, h1, h2]
    rw [this]
    exact checked_eq he _
  | @assign loop s v ts us h1 h2 =>
    refine ⟨by simp, fun k rest hr => ?_⟩
    obtain ⟨hs, _, _⟩ := hr.stop
    obtain ⟨t, vs, rfl, ho⟩ := Derives.opens h1 (by simp)
    rw [show t :: vs ++ .assign :: us ++ rest = t :: (vs ++ .assign :: (us ++ rest)) by simp, line_opens strict loop k t _ ho]
    have : assignment (t :: (vs ++ .assign :: (us ++ rest))) = .ok (.assign s v, rest) := by
      unfold assignment
      rw [show t :: (vs ++ .assign :: (us ++ rest)) = (t :: vs) ++ .assign :: (us ++ rest) from rfl, good_expr h1 _ (Stop.cons (by decide) _)]
      simp only [PR.ok_bind, accept_ne (show Tok.assign ≠ .plusAssign by simp), accept_cons]
      rw [good_expr h2 rest hs]
      simp only [PR.ok_bind]
      rw [if_neg (Derives.ne h2 (by simp))]
    rw [this]
    exact checked_eq (fun _ => ⟨.assign s v, by simp [parts], rfl⟩) _
  | @plusAssign loop s v ts us h1 h2 =>
    refine ⟨by simp, fun k rest hr => ?_⟩
    obtain ⟨hs, _, _⟩ := hr.stop
    obtain ⟨t, vs, rfl, ho⟩ := Derives.opens h1 (by simp)
    rw [show t :: vs ++ .plusAssign :: us ++ rest = t :: (vs ++ .plusAssign :: (us ++ rest)) by simp, line_opens strict loop k t _ ho]
    have : assignment (t :: (vs ++ .plusAssign :: (us ++ rest))) = .ok (.plusAssign s v, rest) := by
      unfold assignment
      rw [show t :: (vs ++ .plusAssign :: (us ++ rest)) = (t :: vs) ++ .plusAssign :: (us ++ rest) from rfl, good_expr h1 _ (Stop.cons (by decide) _)]
      simp only [PR.ok_bind, accept_cons]
      rw [good_expr h2 rest hs]
      simp only [PR.ok_bind]
      rw [if_neg (Derives.ne h2 (by simp))]
    rw [this]
    exact checked_eq (fun _ => ⟨.plusAssign s v, by simp [parts], rfl⟩) _
  | «continue» =>
    refine ⟨by simp, fun k rest hr => ?_⟩
    rw [sc_eq]
    simp only [sbody, List.cons_append, skipEol_replicate k (.kContinue :: ([] ++ rest)) (by simp)]
    rfl
  | «break» =>
    refine ⟨by simp, fun k rest hr => ?_⟩
    rw [sc_eq]
    simp only [sbody, List.cons_append, skipEol_replicate k (.kBreak :: ([] ++ rest)) (by simp)]
    rfl
  | @«if» loop n ts h he ih =>
    have hne : n ≠ .empty := by cases h; simp
    refine ⟨hne, fun k rest hr => ?_⟩
    rw [sc_eq, show .kIf :: ts ++ [.kEndif] ++ rest = .kIf :: (ts ++ .kEndif :: rest) by simp]
    simp only [sbody, skipEol_replicate k (.kIf :: (ts ++ .kEndif :: rest)) (by simp), endsBlock, accept_cons]
    rw [ih rest]
    simp only [PR.ok_bind, expect_cons]
    exact checked_eq he _
  | @foreach loop v w e b ts us h1 h2 he ih =>
    refine ⟨by simp, fun k rest hr => ?_⟩
    rw [sc_eq, show .kForeach :: loopVars v w ++ .colon :: ts ++ .eol :: us ++ [.kEndforeach] ++ rest
      = .kForeach :: (loopVars v w ++ .colon :: (ts ++ .eol :: (us ++ .kEndforeach :: rest))) by simp]
    simp only [sbody, skipEol_replicate k (.kForeach :: (loopVars v w ++ .colon :: (ts ++ .eol :: (us ++ .kEndforeach :: rest)))) (by simp),
      endsBlock, accept_cons, accept_ne (show Tok.kForeach ≠ .kIf by simp), loopVars_ok, PR.ok_bind, expect_cons, good_head h1]
    rw [ih (.kEndforeach :: rest) rfl]
    simp only [PR.ok_bind, expect_cons]
    exact checked_eq he _
  | @branch loop c b e ts us vs h1 h2 h3 ih1 ih2 =>
    intro rest
    rw [sc_eq, show ts ++ .eol :: us ++ vs ++ .kEndif :: rest = ts ++ .eol :: (us ++ (vs ++ .kEndif :: rest)) by simp]
    simp only [sbody, good_head h1, PR.ok_bind]
    have : endsBlock (vs ++ .kEndif :: rest) = true := by
      have := ih2.1
      cases vs with
      | nil => rfl
      | cons t vs =>
        revert this
        cases t <;> simp [endsBlock]
    rw [ih1 _ this]
    simp only [PR.ok_bind]
    rw [ih2.2 rest]
    rfl
  | noElse =>
    refine ⟨rfl, fun rest => ?_⟩
    rw [sc_eq]
    rfl
  | @elif loop n ts h ih =>
    refine ⟨rfl, fun rest => ?_⟩
    rw [sc_eq]
    simp only [sbody, List.cons_append, accept_cons]
    exact ih rest
  | @«else» loop b ts h ih =>
    refine ⟨rfl, fun rest => ?_⟩
    rw [sc_eq]
    simp only [sbody, List.cons_append, accept_ne (show Tok.kElse ≠ .kElif by simp), accept_cons, expect_cons, PR.ok_bind]
    exact ih _ rfl

/-! ### The parser accepts no other programs -/

theorem sound_expr {ts rest : List Tok} {e : Node} (h : parseExpr 0 ts = .ok (e, rest)) :
    (e = .empty ∧ rest = ts) ∨ ∃ us, ts = us ++ rest ∧ Derives muonLevel True .expr 4096 e us := by
  rcases sound _ .expr 0 ts e rest h with h | ⟨_, h⟩
  · exact Or.inl ⟨h.1, h.2.1⟩
  · exact Or.inr h

theorem sound_expr_ne {ts rest : List Tok} {e : Node} (h : parseExpr 0 ts = .ok (e, rest)) (he : e ≠ .empty) :
    ∃ us, ts = us ++ rest ∧ Derives muonLevel True .expr 4096 e us := by
  rcases sound_expr h with h | h
  · exact absurd h.1 he
  · exact h

theorem sound_head {ts rest : List Tok} {e : Node} (h : head ts = .ok (e, rest)) :
    ∃ us, ts = us ++ .eol :: rest ∧ Derives muonLevel True .expr 4096 e us := by
  unfold head at h
  obtain ⟨⟨c, t1⟩, h1, h⟩ := PR.bind_ok h
  obtain ⟨t2, h2, h⟩ := PR.bind_ok h
  rcases ok_ite h with ⟨_, h⟩ | ⟨hne, h⟩
  · cases h
  cases h
  obtain ⟨us, e1, d1⟩ := sound_expr_ne h1 hne
  have h2 : t1 = .eol :: _ := expect_ok h2
  exact ⟨us, by rw [e1, h2], d1⟩

theorem checked_ok {strict : Bool} {n m : Node} {ts rest : List Tok} (h : checked strict n ts = .ok (m, rest)) :
    m = n ∧ rest = ts ∧ (strict = true → Effective n) := by
  unfold checked at h
  split at h
  · cases h
  · next hn =>
    cases h
    refine ⟨rfl, rfl, fun hs => (effective_iff n).2 ?_⟩
    cases he : effect n with
    | true => rfl
    | false => rw [hs, he] at hn; exact absurd rfl hn

theorem sound_assignment {strict loop : Bool} {ts rest : List Tok} {n : Node} (h : assignment ts = .ok (n, rest))
    (he : n = .empty ∨ (strict = true → Effective n)) :
    (n = .empty ∧ rest = ts) ∨ n ≠ .empty ∧ ∃ us, ts = us ++ rest ∧ Program muonLevel True strict .stmt loop n us := by
  unfold assignment at h
  obtain ⟨⟨l, t1⟩, h1, h⟩ := PR.bind_ok h
  dsimp only at h
  split at h
  · next r hr =>
    split at h
    · next s =>
      obtain ⟨⟨v, t2⟩, h2, h⟩ := PR.bind_ok h
      rcases ok_ite h with ⟨_, h⟩ | ⟨hne, h⟩
      · cases h
      cases h
      obtain ⟨us, e1, d1⟩ := sound_expr_ne h1 (by simp)
      obtain ⟨vs, e2, d2⟩ := sound_expr_ne h2 hne
      exact Or.inr ⟨by simp, us ++ .plusAssign :: vs, by rw [e1, accept_eq hr, e2]; simp, .plusAssign d1 d2⟩
    · cases h
  · split at h
    · next r hr =>
      split at h
      · next s =>
        obtain ⟨⟨v, t2⟩, h2, h⟩ := PR.bind_ok h
        rcases ok_ite h with ⟨_, h⟩ | ⟨hne, h⟩
        · cases h
        cases h
        obtain ⟨us, e1, d1⟩ := sound_expr_ne h1 (by simp)
        obtain ⟨vs, e2, d2⟩ := sound_expr_ne h2 hne
        exact Or.inr ⟨by simp, us ++ .assign :: vs, by rw [e1, accept_eq hr, e2]; simp, .assign d1 d2⟩
      · cases h
    · cases h
      rcases sound_expr h1 with h | ⟨us, e1, d1⟩
      · exact Or.inl h
      · have hne := Derives.ne d1 (by simp)
        exact Or.inr ⟨hne, us, e1, .expr d1 (he.resolve_left hne)⟩

theorem skipEol_eq (ts : List Tok) : ∃ k, ts = List.replicate k .eol ++ skipEol ts := by
  induction ts with
  | nil => exact ⟨0, rfl⟩
  | cons t ts ih =>
    unfold skipEol
    split
    · next r h =>
      obtain ⟨h1, rfl⟩ := List.cons.inj h
      obtain ⟨k, hk⟩ := ih
      exact ⟨k + 1, by rw [h1, List.replicate_succ, List.cons_append, ← hk]⟩
    · exact ⟨0, rfl⟩

theorem sound_foreachArgs {ts : List Tok} {v : Bytes × Option Bytes} {rest : List Tok} (h : foreachArgs ts = .ok (v, rest)) :
    ts = loopVars v.1 v.2 ++ rest := by
  unfold foreachArgs at h
  obtain ⟨p, h1, h⟩ := PR.bind_ok h
  dsimp only at h
  split at h
  · next r hr =>
    obtain ⟨q, h2, h⟩ := PR.bind_ok h
    cases h
    rw [name_ok h1, accept_eq hr, name_ok h2]; rfl
  · cases h
    rw [name_ok h1]; rfl

/-- What the outcome of a call says about the tokens. -/
def SSound (strict : Bool) (c : SCall) (loop : Bool) (ts : List Tok) (n : Node) (rest : List Tok) : Prop :=
  match c with
  | .block => ∃ us, ts = us ++ rest ∧ Program muonLevel True strict .block loop n us
  | .line => (n = .empty ∧ ∃ k, ts = List.replicate k .eol ++ rest) ∨
      n ≠ .empty ∧ ∃ k us, ts = List.replicate k .eol ++ us ++ rest ∧ Program muonLevel True strict .stmt loop n us
  | .ifs => ∃ us, ts = us ++ rest ∧ Program muonLevel True strict .ifs loop n us
  | .els => ∃ us, ts = us ++ rest ∧ Program muonLevel True strict .els loop n us

theorem ssound (strict : Bool) : ∀ (m : Nat) (c : SCall) (loop : Bool) (ts : List Tok) (n : Node) (rest : List Tok),
    srun strict m c loop ts = .ok (n, rest) → SSound strict c loop ts n rest := by
  intro m
  induction m with
  | zero => intro c loop ts n rest h; cases h
  | succ m ih =>
    intro c loop ts n rest h
    rw [srun] at h
    cases c with
    | block =>
      obtain ⟨⟨l, t1⟩, h1, h⟩ := PR.bind_ok h
      have i1 := ih _ _ _ _ _ h1
      rcases ok_ite h with ⟨he, h⟩ | ⟨hne, h⟩
      · cases h
        rcases i1 with ⟨_, k, hk⟩ | ⟨hn, _⟩
        · exact ⟨_, hk, .nothing k⟩
        · exact absurd he hn
      rcases i1 with ⟨hn, _⟩ | ⟨_, k, us, e1, d1⟩
      · exact absurd hn hne
      dsimp only at h
      split at h
      · next r hr =>
        obtain ⟨⟨b, t2⟩, h2, h⟩ := PR.bind_ok h
        cases h
        obtain ⟨vs, e2, d2⟩ := ih _ _ _ _ _ h2
        exact ⟨List.replicate k .eol ++ us ++ .eol :: vs, by rw [e1, accept_eq hr, e2]; simp, .cons k d1 d2⟩
      · cases h
        exact ⟨List.replicate k .eol ++ us, e1, .last k d1⟩
    | line =>
      simp only [sbody] at h
      obtain ⟨k, hk⟩ := skipEol_eq ts
      rcases ok_ite h with ⟨_, h⟩ | ⟨_, h⟩
      · have h := PR.ok.inj h
        refine Or.inl ⟨(congrArg Prod.fst h).symm, k, ?_⟩
        have : skipEol ts = rest := congrArg Prod.snd h
        rw [← this]; exact hk
      split at h
      · next r hr =>
        obtain ⟨⟨b, t2⟩, h2, h⟩ := PR.bind_ok h
        obtain ⟨t3, h3, h⟩ := PR.bind_ok h
        obtain ⟨us, e2, d2⟩ := ih _ _ _ _ _ h2
        obtain ⟨rfl, rfl, he⟩ := checked_ok h
        have h3 : t2 = .kEndif :: rest := expect_ok h3
        refine Or.inr ⟨?_, k, .kIf :: us ++ [.kEndif], ?_, .if d2 he⟩
        · cases d2; simp
        · rw [hk, accept_eq hr, e2, h3]; simp
      · split at h
        · next r hr =>
          obtain ⟨⟨v, t1⟩, h1, h⟩ := PR.bind_ok h
          obtain ⟨t2, h2, h⟩ := PR.bind_ok h
          obtain ⟨⟨e, t3⟩, h3, h⟩ := PR.bind_ok h
          obtain ⟨⟨b, t4⟩, h4, h⟩ := PR.bind_ok h
          obtain ⟨t5, h5, h⟩ := PR.bind_ok h
          obtain ⟨rfl, rfl, he⟩ := checked_ok h
          obtain ⟨us, e2, d2⟩ := ih _ _ _ _ _ h4
          obtain ⟨vs, e3, d3⟩ := sound_head h3
          have h2 : t1 = .colon :: t2 := expect_ok h2
          have h5 : t4 = .kEndforeach :: rest := expect_ok h5
          have h1 := sound_foreachArgs h1
          refine Or.inr ⟨by simp, k, .kForeach :: loopVars v.1 v.2 ++ .colon :: vs ++ .eol :: us ++ [.kEndforeach], ?_, .foreach d3 d2 he⟩
          have e2 : t3 = us ++ t4 := e2
          rw [hk, accept_eq hr, h1, h2, e3, e2, h5]; simp
        · split at h
          · next r hr =>
            rcases ok_ite h with ⟨hl, h⟩ | ⟨_, h⟩
            · cases h
              subst hl
              exact Or.inr ⟨by simp, k, [.kContinue], by rw [hk, accept_eq hr]; simp, .continue⟩
            · cases h
          · split at h
            · next r hr =>
              rcases ok_ite h with ⟨hl, h⟩ | ⟨_, h⟩
              · cases h
                subst hl
                exact Or.inr ⟨by simp, k, [.kBreak], by rw [hk, accept_eq hr]; simp, .break⟩
              · cases h
            · obtain ⟨⟨b, t2⟩, h2, h⟩ := PR.bind_ok h
              obtain ⟨rfl, rfl, he⟩ := checked_ok h
              rcases sound_assignment (loop := loop) h2 (Or.inr he) with ⟨h, h'⟩ | ⟨hne, us, e2, d2⟩
              · exact Or.inl ⟨h, k, by rw [h']; exact hk⟩
              · exact Or.inr ⟨hne, k, us, by rw [List.append_assoc, ← e2]; exact hk, d2⟩
    | ifs =>
      obtain ⟨⟨e, t3⟩, h3, h⟩ := PR.bind_ok h
      obtain ⟨⟨b, t4⟩, h4, h⟩ := PR.bind_ok h
      obtain ⟨⟨c, t5⟩, h5, h⟩ := PR.bind_ok h
      cases h
      obtain ⟨vs, e3, d3⟩ := sound_head h3
      obtain ⟨us, e2, d2⟩ := ih _ _ _ _ _ h4
      obtain ⟨ws, e4, d4⟩ := ih _ _ _ _ _ h5
      refine ⟨vs ++ .eol :: us ++ ws, ?_, .branch d3 d2 d4⟩
      have e2 : t3 = us ++ t4 := e2
      have e4 : t4 = ws ++ rest := e4
      rw [e3]; show vs ++ .eol :: t3 = _; rw [e2, e4]; simp
    | els =>
      simp only [sbody] at h
      split at h
      · next r hr =>
        obtain ⟨us, e2, d2⟩ := ih _ _ _ _ _ h
        exact ⟨.kElif :: us, by rw [accept_eq hr, e2]; rfl, .elif d2⟩
      · split at h
        · next r hr =>
          obtain ⟨t1, h1, h⟩ := PR.bind_ok h
          obtain ⟨us, e2, d2⟩ := ih _ _ _ _ _ h
          exact ⟨.kElse :: .eol :: us, by rw [accept_eq hr, expect_ok h1, e2]; rfl, .else d2⟩
        · cases h
          exact ⟨[], rfl, .noElse⟩

end Muon.Parse
