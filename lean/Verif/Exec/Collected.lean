import Verif.Exec.Collect
/-
C84: the output of a program is collected completely.
-/
namespace Muon.Exec.Collect
open Muon

def ended (p : Pipe) : Prop := p.buf = [] ∧ p.writable = false

def PcOk (s : Sys) : Pc → Prop
  | .copyOut e => ∀ x, e = some x → s.exit = some x
  | .copyErr e r => (∀ x, e = some x → s.exit = some x) ∧ (r = .finished → ended s.out)
  | .wait r => r = .finished → ended s.out ∧ ended s.err
  | .done st => ended s.out ∧ ended s.err ∧ ∃ e, s.exit = some e ∧ st = statusOf e

def Inv (s : St) : Prop := s.out ++ s.sys.out.buf = s.sys.out.all ∧ s.err ++ s.sys.err.buf = s.sys.err.all ∧ PcOk s.sys s.pc

theorem inv_start : Inv start := ⟨rfl, rfl, by intro x h; cases h⟩

theorem ended_pipe {p q : Pipe} (h : PipeStep p q) (he : ended p) : ended q := by
  cases h with
  | write bs h => rw [he.2] at h; cases h
  | close h => rw [he.2] at h; cases h

theorem pipe_all {p q : Pipe} (h : PipeStep p q) (x : Bytes) (he : x ++ p.buf = p.all) : x ++ q.buf = q.all := by
  cases h with
  | write bs h => simp [← he]
  | close h => exact he

theorem pcOk_outside {s t : Sys} (h : Outside s t) (pc : Pc) (hp : PcOk s pc) : PcOk t pc := by
  have hx : ∀ x, s.exit = some x → t.exit = some x := by
    intro x hx
    cases h with
    | out p h => exact hx
    | err p h => exact hx
    | exits e h => rw [hx] at h; cases h
  have ho : ended s.out → ended t.out := by
    intro he
    cases h with
    | out p h => exact ended_pipe h he
    | err p h => exact he
    | exits e h => exact he
  have hr : ended s.err → ended t.err := by
    intro he
    cases h with
    | out p h => exact he
    | err p h => exact ended_pipe h he
    | exits e h => exact he
  cases pc with
  | copyOut e => exact fun x h => hx x (hp x h)
  | copyErr e r => exact ⟨fun x h => hx x (hp.1 x h), fun h => ho (hp.2 h)⟩
  | wait r => exact fun h => ⟨ho (hp h).1, hr (hp h).2⟩
  | done st =>
    obtain ⟨h1, h2, e, h3, h4⟩ := hp
    exact ⟨ho h1, hr h2, e, hx e h3, h4⟩

theorem inv_outside {s : St} {y : Sys} (h : Outside s.sys y) (hi : Inv s) : Inv { s with sys := y } := by
  obtain ⟨h1, h2, h3⟩ := hi
  refine ⟨?_, ?_, pcOk_outside h _ h3⟩
  · cases h with
    | out p h => exact pipe_all h _ h1
    | err p h => exact h1
    | exits e h => exact h1
  · cases h with
    | out p h => exact h2
    | err p h => exact pipe_all h _ h2
    | exits e h => exact h2

theorem read_data {p q : Pipe} {bs : Bytes} (h : Read p q (some bs) none) : p.buf = bs ++ q.buf ∧ q.all = p.all ∧ q.writable = p.writable ∧ bs ≠ [] := by
  cases h with
  | data _ r h hne hl => exact ⟨h, rfl, rfl, hne⟩

theorem read_end {p q : Pipe} {r : Copied} (h : Read p q none (some r)) : q = p ∧ (r = .finished → ended p) := by
  cases h with
  | eof h hw => exact ⟨rfl, fun _ => ⟨h, hw⟩⟩
  | again h hw => exact ⟨rfl, fun h => by cases h⟩

theorem both_finished {a b : Copied} (h : both a b = .finished) : a = .finished ∧ b = .finished := by
  cases b with
  | finished => exact ⟨h, rfl⟩
  | waiting => cases h

theorem inv_step {s t : St} (h : Step s t) (hi : Inv s) : Inv t := by
  obtain ⟨h1, h2, h3⟩ := hi
  cases h with
  | outData e p bs hp h =>
    obtain ⟨k1, k2, k3, k4⟩ := read_data h
    rw [hp] at h3
    refine ⟨?_, h2, ?_⟩
    · show s.out ++ bs ++ p.buf = p.all
      rw [k2, ← h1, k1]; simp
    · show PcOk _ s.pc
      rw [hp]; exact h3
  | outEnd e p r hp h =>
    rw [hp] at h3
    exact ⟨h1, h2, h3, (read_end h).2⟩
  | errData e res p bs hp h =>
    obtain ⟨k1, k2, k3, k4⟩ := read_data h
    rw [hp] at h3
    refine ⟨h1, ?_, ?_⟩
    · show s.err ++ bs ++ p.buf = p.all
      rw [k2, ← h2, k1]; simp
    · show PcOk _ s.pc
      rw [hp]; exact h3
  | errEnd e res r p hp h =>
    rw [hp] at h3
    refine ⟨h1, h2, ?_⟩
    have hr := (read_end h).2
    cases e with
    | none =>
      intro hb
      obtain ⟨ha, hb⟩ := both_finished hb
      exact ⟨h3.2 ha, hr hb⟩
    | some x =>
      cases hb : both res r with
      | finished =>
        obtain ⟨ha, hb'⟩ := both_finished hb
        exact ⟨h3.2 ha, hr hb', x, h3.1 x rfl, rfl⟩
      | waiting =>
        intro y hy; cases hy
        exact h3.1 x rfl
  | wait res hp =>
    rw [hp] at h3
    refine ⟨h1, h2, ?_⟩
    show PcOk s.sys (afterWait res s.sys.exit)
    cases hx : s.sys.exit with
    | none => intro y hy; cases hy
    | some e =>
      rw [afterWait]
      by_cases hr : res = .finished
      · rw [if_pos hr]
        exact ⟨(h3 hr).1, (h3 hr).2, e, hx, rfl⟩
      · rw [if_neg hr]
        intro y hy; cases hy; exact hx

theorem inv_run {s t : St} (h : Run s t) (hi : Inv s) : Inv t := by
  induction h with
  | refl => exact hi
  | muon h h' ih => exact inv_step h' ih
  | others h h' ih => exact inv_outside h' ih

/-- When muon has finished collecting, it has everything that was ever written to standard output and to standard error, in order; nobody can write any more; and the
status is that of the process, or an error if it did not exit. -/
theorem collected_all (s : St) (h : Run start s) (st : Option Nat) (hd : s.pc = .done st) :
    s.out = s.sys.out.all ∧ s.err = s.sys.err.all ∧ s.sys.out.writable = false ∧ s.sys.err.writable = false ∧
    (∃ e, s.sys.exit = some e ∧ ((∃ n, e = .code n ∧ st = some n) ∨ ((∀ n, e ≠ .code n) ∧ st = none))) := by
  obtain ⟨h1, h2, h3⟩ := inv_run h inv_start
  rw [hd] at h3
  obtain ⟨⟨k1, k2⟩, ⟨k3, k4⟩, e, k5, k6⟩ := h3
  rw [k1, List.append_nil] at h1
  rw [k3, List.append_nil] at h2
  refine ⟨h1, h2, k2, k4, e, k5, ?_⟩
  cases e with
  | code n => exact Or.inl ⟨n, rfl, k6⟩
  | signal => exact Or.inr ⟨by simp, k6⟩
  | other => exact Or.inr ⟨by simp, k6⟩

/-- At any time, what has been collected is a beginning of what was written. -/
theorem collected_prefix (s : St) (h : Run start s) : s.out <+: s.sys.out.all ∧ s.err <+: s.sys.err.all := by
  obtain ⟨h1, h2, -⟩ := inv_run h inv_start
  exact ⟨⟨_, h1⟩, ⟨_, h2⟩⟩

/-- Muon is never stuck before it has finished. -/
theorem collect_progress (s : St) : (∃ st, s.pc = .done st) ∨ ∃ t, Step s t := by
  have hr : ∀ p : Pipe, (∃ q bs, Read p q (some bs) none) ∨ ∃ q r, Read p q none (some r) := by
    intro p
    cases hb : p.buf with
    | cons c r => exact Or.inl ⟨_, _, Read.data p [c] r hb (by simp) (by simp)⟩
    | nil =>
      cases hw : p.writable with
      | true => exact Or.inr ⟨_, _, Read.again p hb hw⟩
      | false => exact Or.inr ⟨_, _, Read.eof p hb hw⟩
  cases hp : s.pc with
  | copyOut e =>
    rcases hr s.sys.out with ⟨q, bs, h⟩ | ⟨q, r, h⟩
    · exact Or.inr ⟨_, Step.outData s e q bs hp h⟩
    · exact Or.inr ⟨_, Step.outEnd s e q r hp h⟩
  | copyErr e res =>
    rcases hr s.sys.err with ⟨q, bs, h⟩ | ⟨q, r, h⟩
    · exact Or.inr ⟨_, Step.errData s e res q bs hp h⟩
    · exact Or.inr ⟨_, Step.errEnd s e res r q hp h⟩
  | wait res => exact Or.inr ⟨_, Step.wait s res hp⟩
  | done st => exact Or.inl ⟨st, rfl⟩

def rank : Pc → Nat
  | .done _ => 0
  | .wait .finished => 1
  | .wait .waiting => 3
  | .copyErr (some _) .finished => 1
  | .copyErr none .finished => 2
  | .copyErr (some _) .waiting => 3
  | .copyErr none .waiting => 4
  | .copyOut (some _) => 2
  | .copyOut none => 3

theorem step_less {s t : St} (h : Step s t) (ho : s.sys.out.writable = false) (he : s.sys.err.writable = false) (hx : s.sys.exit ≠ none) :
    t.sys.out.writable = false ∧ t.sys.err.writable = false ∧ t.sys.exit ≠ none ∧
    t.sys.out.buf.length + t.sys.err.buf.length + rank t.pc < s.sys.out.buf.length + s.sys.err.buf.length + rank s.pc := by
  have hfin : ∀ {p q : Pipe} {r : Copied}, Read p q none (some r) → p.writable = false → r = .finished := by
    intro p q r h hw
    cases h with
    | eof => rfl
    | again h hw' => rw [hw] at hw'; cases hw'
  cases h with
  | outData e p bs hp h =>
    obtain ⟨k1, k2, k3, k4⟩ := read_data h
    refine ⟨by rw [← ho]; exact k3, he, hx, ?_⟩
    have := List.length_pos_iff.2 k4
    simp [k1]; omega
  | outEnd e p r hp h =>
    refine ⟨ho, he, hx, ?_⟩
    rw [hfin h ho, hp]
    cases e <;> simp [rank]
  | errData e res p bs hp h =>
    obtain ⟨k1, k2, k3, k4⟩ := read_data h
    refine ⟨ho, by rw [← he]; exact k3, hx, ?_⟩
    have := List.length_pos_iff.2 k4
    simp [k1]; omega
  | errEnd e res r p hp h =>
    refine ⟨ho, he, hx, ?_⟩
    rw [hfin h he, hp]
    cases e <;> cases res <;> simp [rank, both, afterCopy]
  | wait res hp =>
    refine ⟨ho, he, hx, ?_⟩
    rw [hp]
    cases hxx : s.sys.exit with
    | none => exact absurd hxx hx
    | some e => cases res <;> simp [rank, afterWait]

/-- Once the process has ended and nobody can write, muon finishes, however much it reads at a time: there is no infinite sequence of steps. -/
theorem collect_ends (s : St) (ho : s.sys.out.writable = false) (he : s.sys.err.writable = false) (hx : s.sys.exit ≠ none) :
    Acc (fun t u => Step u t) s := by
  obtain ⟨n, hn⟩ : ∃ n, n = s.sys.out.buf.length + s.sys.err.buf.length + rank s.pc := ⟨_, rfl⟩
  induction n using Nat.strongRecOn generalizing s with
  | ind n ih =>
    constructor
    intro t ht
    obtain ⟨h1, h2, h3, h4⟩ := step_less ht ho he hx
    exact ih _ (by rw [hn]; exact h4) t h1 h2 h3 rfl

/-- A process that writes to both pipes and exits, with a child that writes after its end. -/
example : ∃ s, Run start s ∧ s.pc = .done (some 1) ∧ s.out = ascii "ab" ∧ s.err = ascii "c" := by
  have r1 := Run.others (Run.refl start) (Outside.out _ _ (PipeStep.write _ (ascii "a") rfl))
  have r2 := Run.muon r1 (Step.outData _ none _ (ascii "a") rfl (Read.data _ (ascii "a") [] rfl (by decide) (by decide)))
  have r3 := Run.muon r2 (Step.outEnd _ none _ .waiting rfl (Read.again _ rfl rfl))
  have r4 := Run.muon r3 (Step.errEnd _ none .waiting .waiting _ rfl (Read.again _ rfl rfl))
  have r5 := Run.others r4 (Outside.exits _ (.code 1) rfl)
  have r6 := Run.muon r5 (Step.wait _ .waiting rfl)
  have r7 := Run.others r6 (Outside.out _ _ (PipeStep.write _ (ascii "b") rfl))
  have r8 := Run.others r7 (Outside.err _ _ (PipeStep.write _ (ascii "c") rfl))
  have r9 := Run.others r8 (Outside.out _ _ (PipeStep.close _ rfl))
  have r10 := Run.others r9 (Outside.err _ _ (PipeStep.close _ rfl))
  have r11 := Run.muon r10 (Step.outData _ (some (.code 1)) _ (ascii "b") rfl (Read.data _ (ascii "b") [] rfl (by decide) (by decide)))
  have r12 := Run.muon r11 (Step.outEnd _ (some (.code 1)) _ .finished rfl (Read.eof _ rfl rfl))
  have r13 := Run.muon r12 (Step.errData _ (some (.code 1)) .finished _ (ascii "c") rfl (Read.data _ (ascii "c") [] rfl (by decide) (by decide)))
  have r14 := Run.muon r13 (Step.errEnd _ (some (.code 1)) .finished .finished _ rfl (Read.eof _ rfl rfl))
  exact ⟨_, r14, rfl, rfl, rfl⟩

end Muon.Exec.Collect
