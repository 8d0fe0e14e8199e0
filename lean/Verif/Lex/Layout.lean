import Verif.Lex.Round
/-
Helper lemmas: blanks, comments, continuations, line ends in brackets.
-/
namespace Muon.Lex
open Muon Spec

theorem skip_length (cfg : Cfg) (hfmt : cfg.fmt = false) : ∀ (f : Nat) (st st' : Lx), skip cfg f st = .ok st' → st'.r.length ≤ st.r.length := by
  intro f
  induction f with
  | zero => intro st st' h; cases h
  | succ f ih =>
    intro st st' h
    rw [skip] at h
    split at h
    · cases h; exact Nat.le_refl _
    · next c r hr =>
      split at h
      · dsimp only at h
        rw [hfmt] at h
        have := ih _ _ h
        have hd : (List.dropWhile (fun c => decide (c ≠ 0 ∧ c ≠ 10)) r).length ≤ r.length := (List.dropWhile_sublist _).length_le
        rw [hr]
        simp only [List.length_cons] at this ⊢
        omega
      · split at h
        · have := ih _ _ h
          rw [hr]
          simp only [List.length_cons] at this ⊢
          omega
        · cases h; exact Nat.le_refl _

theorem skip_fuel (cfg : Cfg) (hfmt : cfg.fmt = false) : ∀ (f g : Nat) (st : Lx), st.r.length < f → st.r.length < g →
    skip cfg f st = skip cfg g st := by
  intro f
  induction f with
  | zero => intro g st h; omega
  | succ f ih =>
    intro g st hf hg
    cases g with
    | zero => omega
    | succ g =>
      rw [skip, skip]
      split
      · rfl
      · next c r hr =>
        rw [hr] at hf hg
        simp only [List.length_cons] at hf hg
        dsimp only
        rw [hfmt]
        have hd : (List.dropWhile (fun c => decide (c ≠ 0 ∧ c ≠ 10)) r).length ≤ r.length := (List.dropWhile_sublist _).length_le
        rw [ih g { st with r := r } (by simp only []; omega) (by simp only []; omega)]
        rw [show (if false = true then _ else skip cfg f { st with r := List.dropWhile (fun c => decide (c ≠ 0 ∧ c ≠ 10)) r }) =
          skip cfg f { st with r := List.dropWhile (fun c => decide (c ≠ 0 ∧ c ≠ 10)) r } from rfl,
          ih g { st with r := List.dropWhile (fun c => decide (c ≠ 0 ∧ c ≠ 10)) r } (by simp only []; omega) (by simp only []; omega)]
        rfl

theorem lexOne_fuel (cfg : Cfg) (hfmt : cfg.fmt = false) : ∀ (f g : Nat) (st : Lx), st.r.length < f → st.r.length < g →
    lexOne cfg f st = lexOne cfg g st := by
  intro f
  induction f with
  | zero => intro g st h; omega
  | succ f ih =>
    intro g st hf hg
    cases g with
    | zero => omega
    | succ g =>
      rw [lexOne, lexOne]
      cases hs : skip cfg (st.r.length + 1) st with
      | error => rfl
      | bad => rfl
      | ok st' =>
        have hl := skip_length cfg hfmt _ _ _ hs
        rw [Res.ok_bind, Res.ok_bind]
        split
        · rfl
        · next c r hr =>
          rw [hr] at hl
          simp only [List.length_cons] at hl
          rw [ih g { st' with r := r.drop 1 } (by simp; omega) (by simp; omega)]

theorem lexOne_blank (cfg : Cfg) (hfmt : cfg.fmt = false) (st : Lx) (c : UInt8) (r : Bytes) (hc : c = 32 ∨ c = 9 ∨ c = 13) (f : Nat) :
    lexOne cfg f { st with r := c :: r } = lexOne cfg f { st with r := r } := by
  cases f with
  | zero => rfl
  | succ f =>
    rw [lexOne, lexOne]
    have : skip cfg (({ st with r := c :: r } : Lx).r.length + 1) { st with r := c :: r } =
        skip cfg (({ st with r := r } : Lx).r.length + 1) { st with r := r } := by
      rw [skip]
      dsimp only
      rw [if_neg (by rcases hc with rfl | rfl | rfl <;> decide), if_pos (by rcases hc with rfl | rfl | rfl <;> simp)]
      exact skip_fuel cfg hfmt _ _ _ (by simp) (by simp)
    rw [this]

theorem lexOne_comment (cfg : Cfg) (hfmt : cfg.fmt = false) (st : Lx) (t r : Bytes) (ht : ∀ c ∈ t, c ≠ 0 ∧ c ≠ 10) (f : Nat) :
    lexOne cfg f { st with r := 35 :: t ++ 10 :: r } = lexOne cfg f { st with r := 10 :: r } := by
  cases f with
  | zero => rfl
  | succ f =>
    rw [lexOne, lexOne]
    have : skip cfg (({ st with r := 35 :: t ++ 10 :: r } : Lx).r.length + 1) { st with r := 35 :: t ++ 10 :: r } =
        skip cfg (({ st with r := 10 :: r } : Lx).r.length + 1) { st with r := 10 :: r } := by
      rw [skip]
      dsimp only [List.cons_append]
      rw [if_pos rfl, hfmt]
      have hd : List.dropWhile (fun c => decide (c ≠ 0 ∧ c ≠ 10)) (t ++ 10 :: r) = 10 :: r :=
        (takeWhile_word (fun c => decide (c ≠ 0 ∧ c ≠ 10)) t (10 :: r) (fun c hc => by simpa using ht c hc) (by simp)).2
      rw [hd]
      exact skip_fuel cfg hfmt _ _ _ (by simp; omega) (by simp)
    rw [this]

theorem lexOne_continuation (cfg : Cfg) (st : Lx) (r : Bytes) (f : Nat) :
    lexOne cfg (f + 1) { st with r := 92 :: 10 :: r } = lexOne cfg f { st with r := r } := by
  rw [lexOne, skip_none cfg { st with r := 92 :: 10 :: r } 92 (10 :: r) rfl (by decide), Res.ok_bind]
  dsimp only
  rw [if_pos ⟨rfl, rfl⟩]
  rfl

theorem lexOne_newline (cfg : Cfg) (hfmt : cfg.fmt = false) (st : Lx) (r : Bytes) (f : Nat) (h : isOpen (st.paren, st.bracket, st.curl) = true) :
    lexOne cfg (f + 1) { st with r := 10 :: r } = .ok (.cont, { st with r := r }) := by
  rw [lexOne, skip_none cfg { st with r := 10 :: r } 10 r rfl (by decide), Res.ok_bind]
  dsimp only
  rw [if_neg (fun h => absurd h.1 (by decide)), if_neg (fun h => absurd h.1 (by decide)), if_neg (by decide), if_neg (by decide), if_neg (by decide), if_pos rfl,
    if_pos (by simpa [isOpen, or_assoc] using h), hfmt]
  simp

/-- The outcome of lexing from a state, with any sufficient fuel. -/
def LexesTo (cfg : Cfg) (st : Lx) (R : Bool × List Tok) : Prop :=
  ∀ f, st.r.length < f → OkOr (tokenize cfg f true st) R

theorem LexesTo.congr {cfg : Cfg} {st st' : Lx} {R : Bool × List Tok} (h : LexesTo cfg st R) (hl : st.r.length ≤ st'.r.length)
    (he : lexOne cfg (st'.r.length + 1) st' = lexOne cfg (st.r.length + 1) st) : LexesTo cfg st' R := by
  intro f hf
  have := h f (by omega)
  cases f with
  | zero => omega
  | succ f =>
    rw [tokenize] at this ⊢
    rw [he]
    exact this

theorem gap_lexes (cfg : Cfg) (hfmt : cfg.fmt = false) (st : Lx) (eol : Bool) (w x : Bytes) (R : Bool × List Tok)
    (hx : eol = true → ∃ y, x = 10 :: y)
    (hg : Gap (isOpen (st.paren, st.bracket, st.curl)) eol w) (h : LexesTo cfg { st with r := x } R) : LexesTo cfg { st with r := w ++ x } R := by
  induction hg with
  | nil => exact h
  | @blank c w hc _ ih =>
    refine ih.congr (by simp) ?_
    rw [List.cons_append, lexOne_blank cfg hfmt st c (w ++ x) hc]
    exact lexOne_fuel cfg hfmt _ _ _ (by simp; omega) (by simp)
  | @continuation w _ ih =>
    refine ih.congr (by simp; omega) ?_
    show lexOne cfg (_ + 1) { st with r := 92 :: 10 :: (w ++ x) } = _
    rw [lexOne_continuation]
    exact lexOne_fuel cfg hfmt _ _ _ (by simp; omega) (by simp)
  | @newline w hi _ ih =>
    intro f hf
    cases f with
    | zero => omega
    | succ f =>
      rw [tokenize]
      show OkOr (lexOne cfg (_ + 1) { st with r := 10 :: (w ++ x) } >>= _) R
      rw [lexOne_newline cfg hfmt st (w ++ x) _ hi, Res.ok_bind]
      exact ih f (by simp at hf ⊢; omega)
  | @comment t w hi ht _ ih =>
    have h10 : LexesTo cfg { st with r := 10 :: (w ++ x) } R := by
      intro f hf
      cases f with
      | zero => omega
      | succ f =>
        rw [tokenize]
        rw [lexOne_newline cfg hfmt st (w ++ x) _ hi, Res.ok_bind]
        exact ih f (by simp at hf ⊢; omega)
    rw [show 35 :: t ++ 10 :: w ++ x = 35 :: t ++ 10 :: (w ++ x) by simp]
    refine h10.congr (by simp; omega) ?_
    rw [lexOne_comment cfg hfmt st t (w ++ x) ht]
    exact lexOne_fuel cfg hfmt _ _ _ (by simp; omega) (by simp)
  | @lastComment t he ht =>
    obtain ⟨y, rfl⟩ := hx he
    refine h.congr (by simp; omega) ?_
    rw [lexOne_comment cfg hfmt st t y ht]
    exact lexOne_fuel cfg hfmt _ _ _ (by simp; omega) (by simp)

theorem layout_blank (l : List (Bytes × Tok)) : Blank (layout l) := by
  cases l with
  | nil => exact Or.inl rfl
  | cons t ts => exact Or.inr ⟨_, rfl⟩

theorem tokenize_layout (cfg : Cfg) (hfmt : cfg.fmt = false) : ∀ (l : List (Bytes × Tok)) (st : Lx),
    Laid (st.paren, st.bracket, st.curl) l → Writable cfg.funcs st.paren st.bracket st.curl (l.map Prod.snd) →
    LexesTo cfg { st with r := layout l } (true, st.toks ++ l.map Prod.snd ++ [.eof]) := by
  intro l
  induction l with
  | nil =>
    intro st _ _ f hf
    cases f with
    | zero => exact absurd hf (Nat.not_lt_zero _)
    | succ fuel =>
      rw [tokenize, lexOne, skip]
      refine Or.inl ?_
      simp [layout]
  | cons e l ih =>
    obtain ⟨w, t⟩ := e
    intro st hlaid hw
    rw [show layout ((w, t) :: l) = (32 :: w) ++ (text t ++ layout l) by simp [layout]]
    refine gap_lexes cfg hfmt st (t == .eol) (32 :: w) (text t ++ layout l) _ ?_ (.blank (Or.inl rfl) hlaid.1) ?_
    · intro h
      have ht : t = .eol := by simpa using h
      subst ht
      exact ⟨layout l, by rw [show text .eol = [10] by decide +kernel]; rfl⟩
    · intro f hf
      cases f with
      | zero => exact absurd hf (Nat.not_lt_zero _)
      | succ f =>
        obtain ⟨c, v, h1, h2⟩ := text_head _ _ _ _ _ _ hw
        obtain ⟨st', g1, g2, g3, g4, g5⟩ := step cfg hfmt { st with r := text t ++ layout l } (text t ++ layout l).length t (List.map Prod.snd l) (layout l)
          (layout_blank l) rfl hw
        rw [tokenize]
        refine OkOr.bind g1 ?_
        dsimp only
        have := ih st' (by rw [g5]; exact hlaid.2) g4
        have e : st' = { st' with r := layout l } := by rw [← g2]
        rw [← e, g3] at this
        have := this f (by rw [g2]; rw [h1] at hf; simp at hf; omega)
        simpa using this

end Muon.Lex
