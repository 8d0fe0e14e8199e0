import Verif.Fmt.Text
import Verif.Lex.Props
/-
Helper lemmas: the text of a literal is read in the same way wherever it stands.
-/
namespace Muon.Fmt
open Muon Lex Lex.Spec Spec

theorem Sep.local {x : Bytes} (h : Sep x) : x.headD 0 ≠ 39 ∧ isDigit (x.headD 0) = false ∧ digitVal (x.headD 0) = 36 := by
  rcases h with rfl | ⟨c, y, rfl, hc⟩
  · decide +kernel
  · have : ∀ c ∈ ([32, 10, 40, 41, 91, 93, 125, 46, 44, 58] : Bytes), c ≠ 39 ∧ isDigit c = false ∧ digitVal c = 36 := by decide +kernel
    exact this c hc

theorem put_cont {cfg : Cfg} {x : Ss} {bs r : Bytes} {p : LexResult × Ss} (h : put cfg x bs r = .ok p) :
    p = (.cont, { x with s := x.s ++ bs, r }) := by
  unfold put at h
  split at h
  · cases h; rfl
  · cases h

theorem takeWhile_append_stop (p : UInt8 → Bool) (r x : Bytes) (hx : p (x.headD 0) = false) :
    (r ++ x).takeWhile p = r.takeWhile p := by
  induction r with
  | nil =>
    cases x with
    | nil => rfl
    | cons c x => simp at hx; simp [hx]
  | cons c r ih =>
    rw [List.cons_append, List.takeWhile_cons, List.takeWhile_cons]
    split
    · rw [ih]
    · rfl

theorem take_digits (n : Nat) : ∀ (r x : Bytes), isDigit (x.headD 0) = false →
    ((r ++ x).take n).takeWhile isDigit = (r.take n).takeWhile isDigit := by
  induction n with
  | zero => intro r x _; simp
  | succ n ih =>
    intro r x hx
    cases r with
    | nil =>
      cases x with
      | nil => rfl
      | cons c x =>
        simp only [List.headD_cons] at hx
        simp [hx]
    | cons c r =>
      simp only [List.cons_append, List.take_succ_cons, List.takeWhile_cons]
      split
      · rw [ih r x hx]
      · rfl

theorem stringEscape_local (cfg cfg' : Cfg) (d d' : Nat) (s : Bytes) (tk tk' : List Tok) (r0 r x : Bytes) (res : LexResult) (y : Ss)
    (hx : isDigit (x.headD 0) = false)
    (h : stringEscape cfg ⟨r0, d, s, tk⟩ (r.headD 0) r = .ok (res, y)) (hres : res ≠ .fail) :
    res = .cont ∧ y.dataI = d ∧ y.toks = tk ∧
    OkOr (stringEscape cfg' ⟨r0 ++ x, d', s, tk'⟩ ((r ++ x).headD 0) (r ++ x)) (.cont, ⟨y.r ++ x, d', y.s, tk'⟩) := by
  cases r with
  | nil =>
    exfalso
    have : stringEscape cfg ⟨r0, d, s, tk⟩ (([] : Bytes).headD 0) [] = .ok (.fail, ⟨r0, d, s, tk⟩) := rfl
    rw [this] at h
    cases h
    exact hres rfl
  | cons e r =>
    rw [List.cons_append, List.headD_cons]
    rw [List.headD_cons] at h
    unfold stringEscape at h ⊢
    cases he : escByte e with
    | some b =>
      rw [he] at h
      have := put_cont h
      cases this
      exact ⟨rfl, rfl, rfl, put_ok _ _ _ _⟩
    | none =>
      rw [he] at h
      dsimp only at h ⊢
      split at h
      · next hk =>
        rw [if_pos hk]
        simp only [List.drop_succ_cons, List.drop_zero] at h ⊢
        generalize (if e = 120 then 2 else if e = 117 then 4 else 8) = k at h ⊢
        split at h
        · cases h; exact absurd rfl hres
        · next hlen =>
          have hle : k ≤ r.length := by
            have := (List.takeWhile_sublist isHexDigit (l := r.take k)).length_le
            rw [List.length_take] at this
            omega
          have ht : (r ++ x).take k = r.take k := by rw [List.take_append_of_le_length hle]
          rw [ht, if_neg hlen]
          cases hw : writeUtf8 (digitsVal 16 ((r.take k).takeWhile isHexDigit)) with
          | none => rw [hw] at h; cases h; exact absurd rfl hres
          | some bs =>
            rw [hw] at h
            have := put_cont h
            cases this
            refine ⟨rfl, rfl, rfl, ?_⟩
            have e1 : (e :: r).drop (1 + k) ++ x = (e :: (r ++ x)).drop (1 + k) := by
              rw [Nat.add_comm, List.drop_succ_cons, List.drop_succ_cons, List.drop_append_of_le_length hle]
            rw [e1]
            exact put_ok _ _ _ _
      · next hk =>
        rw [if_neg hk]
        split at h
        · next hd =>
          rw [if_pos hd]
          have := put_cont h
          cases this
          refine ⟨rfl, rfl, rfl, ?_⟩
          have e2 : ((e :: (r ++ x)).take 3).takeWhile isDigit = ((e :: r).take 3).takeWhile isDigit := take_digits 3 (e :: r) x hx
          rw [e2]
          have e3 : (((e :: r).take 3).takeWhile isDigit).length ≤ (e :: r).length := by
            have := (List.takeWhile_sublist isDigit (l := (e :: r).take 3)).length_le
            rw [List.length_take] at this
            omega
          have e1 : ((e :: r).drop (((e :: r).take 3).takeWhile isDigit).length) ++ x = (e :: (r ++ x)).drop (((e :: r).take 3).takeWhile isDigit).length := by
            rw [← List.cons_append, List.drop_append_of_le_length e3]
          rw [e1]
          exact put_ok _ _ _ _
        · next hd =>
          rw [if_neg hd]
          split at h
          · cases h; exact absurd rfl hres
          · next h0 =>
            rw [if_neg h0]
            have := put_cont h
            cases this
            exact ⟨rfl, rfl, rfl, put_ok _ _ _ _⟩

theorem stringChar_local (cfg cfg' : Cfg) (ml : Bool) (d d' : Nat) (s : Bytes) (tk tk' : List Tok) (r x : Bytes) (res : LexResult) (y : Ss)
    (hx : isDigit (x.headD 0) = false ∧ x.headD 0 ≠ 39)
    (h : stringChar cfg ml false ⟨r, d, s, tk⟩ = .ok (res, y)) (hres : res ≠ .fail) :
    y.dataI = d ∧ y.toks = tk ∧
    OkOr (stringChar cfg' ml false ⟨r ++ x, d', s, tk'⟩) (res, ⟨y.r ++ x, d', y.s, tk'⟩) := by
  cases r with
  | nil => cases h; exact absurd rfl hres
  | cons c r =>
    rw [List.cons_append]
    unfold stringChar at h ⊢
    dsimp only at h ⊢
    by_cases h10 : c = 10
    · rw [if_pos h10] at h ⊢
      cases ml with
      | true => have := put_cont h; cases this; exact ⟨rfl, rfl, put_ok _ _ _ _⟩
      | false => cases h; exact absurd rfl hres
    rw [if_neg h10] at h ⊢
    by_cases h92 : c = 92
    · rw [if_pos h92] at h ⊢
      cases ml with
      | true => have := put_cont h; cases this; exact ⟨rfl, rfl, put_ok _ _ _ _⟩
      | false =>
        obtain ⟨a1, a2, a3, a4⟩ := stringEscape_local cfg cfg' d d' s tk tk' (c :: r) r x res y hx.1 h hres
        subst a1
        exact ⟨a2, a3, a4⟩
    rw [if_neg h92] at h ⊢
    by_cases h0 : c = 0
    · rw [if_pos h0] at h; cases h; exact absurd rfl hres
    rw [if_neg h0] at h ⊢
    by_cases h39 : c = 39
    · rw [if_pos h39] at h ⊢
      cases ml with
      | true =>
        rw [if_pos rfl] at h ⊢
        split at h
        · next r' =>
          split at h
          · cases h
            refine ⟨rfl, rfl, ?_⟩
            simp only [List.cons_append]
            unfold OkOr
            split
            · exact Or.inl rfl
            · exact Or.inr rfl
          · cases h
        · next hn =>
          have := put_cont h
          cases this
          refine ⟨rfl, rfl, ?_⟩
          split
          · next r' he =>
            exfalso
            match r, hn, he with
            | [], _, he =>
              rw [List.nil_append] at he
              rw [he] at hx
              exact hx.2 rfl
            | [a], _, he =>
              simp only [List.cons_append, List.nil_append, List.cons.injEq] at he
              rw [he.2] at hx
              exact hx.2 rfl
            | a :: b :: r, hn, he =>
              simp only [List.cons_append, List.cons.injEq] at he
              exact hn r (by rw [he.1, he.2.1])
          · exact put_ok _ _ _ _
      | false =>
        simp only [Bool.false_eq_true, if_false] at h ⊢
        split at h
        · cases h
          refine ⟨rfl, rfl, ?_⟩
          unfold OkOr
          split
          · exact Or.inl rfl
          · exact Or.inr rfl
        · cases h
    rw [if_neg h39] at h ⊢
    by_cases h64 : c = 64
    · rw [if_pos h64] at h ⊢
      simp only [Bool.false_and, Bool.false_eq_true, if_false] at h ⊢
      have := put_cont h; cases this; exact ⟨rfl, rfl, put_ok _ _ _ _⟩
    rw [if_neg h64] at h ⊢
    have := put_cont h; cases this; exact ⟨rfl, rfl, put_ok _ _ _ _⟩

theorem stringLoop_local (cfg cfg' : Cfg) (ml : Bool) (d d' : Nat) (tk tk' : List Tok) (x : Bytes) (y : Ss)
    (hx : isDigit (x.headD 0) = false ∧ x.headD 0 ≠ 39) :
    ∀ (f f' : Nat) (r s : Bytes), f ≤ f' → stringLoop cfg ml false f ⟨r, d, s, tk⟩ = .ok (.done, y) →
    y.toks = tk ∧ OkOr (stringLoop cfg' ml false f' ⟨r ++ x, d', s, tk'⟩) (.done, ⟨y.r ++ x, d', y.s, tk'⟩) := by
  intro f
  induction f with
  | zero => intro f' r s _ h; cases h
  | succ f ih =>
    intro f' r s hf h
    cases f' with
    | zero => omega
    | succ f' =>
      rw [stringLoop] at h ⊢
      obtain ⟨⟨res, z⟩, h1, h2⟩ := Res.bind_eq_ok.1 h
      cases res with
      | fail => cases h2
      | done =>
        cases h2
        obtain ⟨_, a2, a3⟩ := stringChar_local cfg cfg' ml d d' s tk tk' r x _ _ hx h1 (by simp)
        exact ⟨a2, OkOr.bind a3 (Or.inl rfl)⟩
      | cont =>
        obtain ⟨a1, a2, a3⟩ := stringChar_local cfg cfg' ml d d' s tk tk' r x _ _ hx h1 (by simp)
        have := ih f' z.r z.s (by omega) (by rw [← a1, ← a2]; exact h2)
        exact ⟨this.1, OkOr.bind a3 this.2⟩

theorem stringLoop_ends (cfg : Cfg) (ml fs : Bool) : ∀ (f : Nat) (x : Ss) (res : LexResult) (y : Ss),
    stringLoop cfg ml fs f x = .ok (res, y) → res ≠ .cont := by
  intro f
  induction f with
  | zero => intro x res y h; cases h
  | succ f ih =>
    intro x res y h
    rw [stringLoop] at h
    obtain ⟨⟨r1, z⟩, h1, h2⟩ := Res.bind_eq_ok.1 h
    cases r1 with
    | cont => exact ih _ _ _ h2
    | done => cases h2; simp
    | fail => cases h2; simp

/-! ### Tokens are only added -/

theorem skip_toks (cfg : Cfg) : ∀ (f : Nat) (st st' : Lx), skip cfg f st = .ok st' → ∃ us, st'.toks = st.toks ++ us := by
  intro f
  induction f with
  | zero => intro st st' h; cases h
  | succ f ih =>
    intro st st' h
    rw [skip] at h
    split at h
    · cases h; exact ⟨[], by simp⟩
    · next c r he =>
      split at h
      · dsimp only at h
        split at h
        · obtain ⟨d, h1, h2⟩ := Res.bind_eq_ok.1 h
          obtain ⟨us, hu⟩ := ih _ _ h2
          exact ⟨_, by rw [hu, List.append_assoc]⟩
        · have := ih _ _ h; exact this
      · split at h
        · have := ih _ _ h; exact this
        · cases h; exact ⟨[], by simp⟩

theorem stringEscape_toks {cfg : Cfg} {x : Ss} {e : UInt8} {r : Bytes} {p : LexResult × Ss} (h : stringEscape cfg x e r = .ok p) :
    p.2.toks = x.toks := by
  unfold stringEscape at h
  split at h
  · rw [put_cont h]
  · dsimp only at h
    repeat' split at h
    all_goals first
      | rw [put_cont h]
      | (cases h; rfl)

theorem stringChar_toks {cfg : Cfg} {ml fs : Bool} {x : Ss} {p : LexResult × Ss} (h : stringChar cfg ml fs x = .ok p) :
    ∃ us, p.2.toks = x.toks ++ us := by
  unfold stringChar at h
  split at h
  · cases h; exact ⟨[], by simp⟩
  · repeat' split at h
    all_goals first
      | (rw [put_cont h]; exact ⟨[], by simp⟩)
      | (obtain ⟨⟨t, d, r'⟩, _, h2⟩ := Res.bind_eq_ok.1 h; cases h2; exact ⟨_, rfl⟩)
      | (rw [stringEscape_toks h]; exact ⟨[], by simp⟩)
      | (cases h; exact ⟨[], by simp⟩)
      | cases h

theorem stringLoop_toks (cfg : Cfg) (ml fs : Bool) : ∀ (f : Nat) (x : Ss) (p : LexResult × Ss),
    stringLoop cfg ml fs f x = .ok p → ∃ us, p.2.toks = x.toks ++ us := by
  intro f
  induction f with
  | zero => intro x p h; cases h
  | succ f ih =>
    intro x p h
    rw [stringLoop] at h
    obtain ⟨⟨r1, z⟩, h1, h2⟩ := Res.bind_eq_ok.1 h
    obtain ⟨us, hu⟩ := stringChar_toks h1
    cases r1 with
    | cont =>
      obtain ⟨vs, hv⟩ := ih _ _ h2
      exact ⟨us ++ vs, by rw [hv, hu, List.append_assoc]⟩
    | done => cases h2; exact ⟨us, hu⟩
    | fail => cases h2; exact ⟨us, hu⟩

theorem lexString_toks {cfg : Cfg} {st : Lx} {fs : Bool} {p : LexResult × Lx} (h : lexString cfg st fs = .ok p) :
    ∃ us, p.2.toks = st.toks ++ us := by
  unfold lexString at h
  dsimp only at h
  obtain ⟨⟨res, y⟩, h1, h2⟩ := Res.bind_eq_ok.1 h
  obtain ⟨us, hu⟩ := stringLoop_toks _ _ _ _ _ _ h1
  dsimp only at h2 hu
  split at h2
  · obtain ⟨d, _, h3⟩ := Res.bind_eq_ok.1 h2
    cases h3
    exact ⟨_, by rw [hu, List.append_assoc]⟩
  · cases h2
    exact ⟨_, by rw [hu, List.append_assoc]⟩

theorem number_toks {cfg : Cfg} {st : Lx} {p : LexResult × Lx} (h : number cfg st = .ok p) :
    ∃ us, p.2.toks = st.toks ++ us := by
  unfold number at h
  dsimp only at h
  split at h
  · split at h
    · obtain ⟨d, _, h3⟩ := Res.bind_eq_ok.1 h
      cases h3
      exact ⟨_, rfl⟩
    · cases h; exact ⟨_, rfl⟩
  · split at h
    · cases h; exact ⟨[], by simp⟩
    · split at h
      · cases h; exact ⟨[], by simp⟩
      · split at h
        · obtain ⟨d, _, h3⟩ := Res.bind_eq_ok.1 h
          cases h3
          exact ⟨_, rfl⟩
        · cases h; exact ⟨_, rfl⟩

theorem lexOne_toks (cfg : Cfg) : ∀ (f : Nat) (st : Lx) (p : LexResult × Lx), lexOne cfg f st = .ok p → ∃ us, p.2.toks = st.toks ++ us := by
  intro f
  induction f with
  | zero => intro st p h; cases h
  | succ f ih =>
    intro st p h
    rw [lexOne] at h
    obtain ⟨st1, h1, h2⟩ := Res.bind_eq_ok.1 h
    obtain ⟨us, hu⟩ := skip_toks _ _ _ _ h1
    have key : (∃ vs, p.2.toks = st1.toks ++ vs) → ∃ us, p.2.toks = st.toks ++ us := by
      rintro ⟨vs, hv⟩
      exact ⟨us ++ vs, by rw [hv, hu, List.append_assoc]⟩
    refine key ?_
    clear key
    split at h2
    · cases h2; exact ⟨_, rfl⟩
    · next c r he =>
      clear h h1 hu us
      dsimp only at h2
      by_cases c1 : c = 92 ∧ r.headD 0 = 10
      · rw [if_pos c1] at h2; have := ih _ _ h2; exact this
      rw [if_neg c1] at h2
      by_cases c2 : c = 102 ∧ r.headD 0 = 39
      · rw [if_pos c2] at h2; exact lexString_toks h2
      rw [if_neg c2] at h2
      by_cases c3 : c = 39
      · rw [if_pos c3] at h2; exact lexString_toks h2
      rw [if_neg c3] at h2
      by_cases c4 : isIdentStart c = true
      · rw [if_pos c4] at h2
        obtain ⟨⟨t, d, r'⟩, _, h3⟩ := Res.bind_eq_ok.1 h2
        cases h3; exact ⟨_, rfl⟩
      rw [if_neg c4] at h2
      by_cases c5 : isDigit c = true
      · rw [if_pos c5] at h2; exact number_toks h2
      rw [if_neg c5] at h2
      clear c1 c2 c3 c4 c5 ih
      repeat' split at h2
      all_goals (cases h2; first | exact ⟨_, rfl⟩ | exact ⟨[], by simp⟩)

theorem tokenize_toks (cfg : Cfg) : ∀ (f : Nat) (b : Bool) (st : Lx) (p : Bool × List Tok), tokenize cfg f b st = .ok p →
    ∃ us, p.2 = st.toks ++ us := by
  intro f
  induction f with
  | zero => intro b st p h; cases h
  | succ f ih =>
    intro b st p h
    rw [tokenize] at h
    obtain ⟨⟨res, z⟩, h1, h2⟩ := Res.bind_eq_ok.1 h
    obtain ⟨us, hu⟩ := lexOne_toks _ _ _ _ h1
    dsimp only at hu
    cases res with
    | cont =>
      obtain ⟨vs, hv⟩ := ih _ _ _ h2
      exact ⟨us ++ vs, by rw [hv, hu, List.append_assoc]⟩
    | fail =>
      obtain ⟨vs, hv⟩ := ih _ _ _ h2
      exact ⟨us ++ vs, by rw [hv]; simp [hu]⟩
    | done => cases h2; exact ⟨us, hu⟩

/-- The first step of lexing a literal does not fail and its token is the first one. -/
theorem lex_first {fmt : Bool} {src : Bytes} {t : Tok} (h : lex fmt false src = .ok (true, [t, .eof])) :
    ∃ p, lexOne { len := src.length, fmt, funcs := false } (src.length + 1) { r := src } = .ok p ∧ p.1 ≠ .fail ∧
      (∃ us, [t, .eof] = p.2.toks ++ us) := by
  unfold lex at h
  rw [tokenize] at h
  obtain ⟨⟨res, z⟩, h2, h3⟩ := Res.bind_eq_ok.1 h
  refine ⟨_, h2, ?_⟩
  cases res with
  | done => injection h3 with h3; injection h3 with _ h3; exact ⟨by simp, [], by simp [h3]⟩
  | fail => exact absurd (tokenize_failed _ _ _ _ h3) (by simp)
  | cont => exact ⟨by simp, tokenize_toks _ _ _ _ _ h3⟩

theorem lexOne_quote (cfg : Cfg) (st : Lx) (b : Bytes) (f : Nat) (h : st.r = 39 :: b) : lexOne cfg (f + 1) st = lexString cfg st false := by
  rw [lexOne, skip_none cfg st 39 b h (by decide), Res.ok_bind, h]
  dsimp only
  rw [if_neg (fun h => absurd h.1 (by decide)), if_neg (fun h => absurd h.1 (by decide)), if_pos rfl]

theorem lexOne_digit (cfg : Cfg) (st : Lx) (c : UInt8) (b : Bytes) (f : Nat) (h : st.r = c :: b) (hc : isDigit c = true) :
    lexOne cfg (f + 1) st = number cfg st := by
  have key : ∀ c : UInt8, isDigit c = true → c ∉ ([35, 13, 32, 9] : Bytes) ∧ c ≠ 92 ∧ c ≠ 102 ∧ c ≠ 39 ∧ isIdentStart c = false :=
    forall_byte (by decide +kernel)
  obtain ⟨k1, k2, k3, k4, k5⟩ := key c hc
  rw [lexOne, skip_none cfg st c b h k1, Res.ok_bind, h]
  dsimp only
  rw [if_neg (fun h => absurd h.1 k2), if_neg (fun h => absurd h.1 k3), if_neg k4, k5, if_neg (by simp), if_pos hc]

theorem take_all {l : Bytes} {n : Nat} (h : l.take n = l) : l.length ≤ n := by
  have := congrArg List.length h
  rw [List.length_take] at this
  omega

theorem string_lexes {raw s : Bytes} (h : StringLit raw s) : Lexes .any Sep raw [.string s] := by
  obtain ⟨hq, hT, hF⟩ := h
  obtain ⟨b, rfl⟩ : ∃ b, raw = 39 :: b := by
    cases raw with
    | nil => cases hq
    | cons c b => cases hq; exact ⟨b, rfl⟩
  have a : ascii "'''" = [39, 39, 39] := by decide +kernel
  obtain ⟨pT, e1, n1, us, t1⟩ := lex_first hT
  obtain ⟨pF, e2, n2, vs, t2⟩ := lex_first hF
  rw [lexOne_quote _ _ b _ rfl] at e1 e2
  unfold lexString at e1 e2
  simp only [Bool.false_and, Bool.false_eq_true, if_false] at e1 e2
  obtain ⟨ml, hml⟩ : ∃ ml, (ascii "'''" == (39 :: b).take 3) = ml := ⟨_, rfl⟩
  obtain ⟨body, hbody⟩ : ∃ body, (39 :: b).drop (if ml = true then 3 else 1) = body := ⟨_, rfl⟩
  rw [hml, hbody] at e1 e2
  obtain ⟨⟨res, y⟩, e3, e4⟩ := Res.bind_eq_ok.1 e1
  obtain ⟨⟨res', z⟩, e5, e6⟩ := Res.bind_eq_ok.1 e2
  have hr : res = .done := by
    cases res with
    | cont => exact absurd rfl (stringLoop_ends _ _ _ _ _ _ _ e3)
    | done => rfl
    | fail =>
      dsimp only at e4
      obtain ⟨d, _, e7⟩ := Res.bind_eq_ok.1 e4
      cases e7
      exact absurd rfl n1
  subst hr
  have hloc := fun x hx cfg' d' tk' f' hf => stringLoop_local _ cfg' _ _ d' _ tk' x y hx _ f' _ _ hf e3
  obtain ⟨k1, k2⟩ := hloc [] (by decide) { len := (39 :: b).length, fmt := false, funcs := false } 0 [] _ (Nat.le_refl _)
  rw [List.append_nil, e5] at k2
  have k3 : (res', z) = (LexResult.done, ⟨y.r ++ [], 0, y.s, []⟩) := by
    rcases k2 with k2 | k2
    · injection k2
    · cases k2
  cases k3
  simp only [reduceCtorEq, if_false] at e4 e6
  obtain ⟨d, _, e7⟩ := Res.bind_eq_ok.1 e4
  cases e7
  cases e6
  dsimp only at t1 t2
  rw [k1] at t1
  simp only [List.nil_append, List.cons_append, List.cons.injEq, Tok.string.injEq] at t1 t2
  have hrest : y.r = [] := by
    have := take_all t1.1.symm
    rw [List.length_cons] at this
    exact List.length_eq_zero_iff.1 (by omega)
  refine Lexes.step (by simp) fun cfg st x f hf hn _ hx => ?_
  obtain ⟨l1, l2⟩ := hloc x ⟨hx.local.2.1, hx.local.1⟩ cfg st.dataI st.toks (((if ml then [39, 39, 39] else [39]) ++ (body ++ x) : Bytes).length + 1)
    (by
      rw [← hbody]
      cases ml <;> simp <;> omega)
  rw [hrest, List.nil_append] at l2
  have hraw : 39 :: b = (if ml then [39, 39, 39] else [39]) ++ body := by
    rw [← hbody]
    cases ml with
    | false => rfl
    | true =>
      rw [a] at hml
      have : (39 :: b).take 3 = [39, 39, 39] := (beq_iff_eq.1 hml).symm
      have h2 := List.take_append_drop 3 (39 :: b)
      rw [this] at h2
      exact h2.symm
  refine ⟨st.dataI + y.s.length + 1, ?_⟩
  have := lexOne_quoted cfg { st with r := 39 :: b ++ x } f false ml (body ++ x) ⟨x, st.dataI, y.s, st.toks⟩ hf
    (by
      dsimp only
      rw [hraw]; simp)
    (by
      rintro rfl
      have hb : body = b := by rw [← hbody]; rfl
      subst hb
      rw [a] at hml
      match body, hml with
      | [], _ =>
        rcases hx with rfl | ⟨c, y, rfl, hc⟩
        · decide
        · have key : ∀ c : UInt8, c ≠ 39 → ∀ r : Bytes, ([39, 39, 39] == (39 :: ([] ++ c :: r)).take 3) = false := by
            intro c hc r
            simp only [List.nil_append, List.take_succ_cons]
            rw [beq_eq_false_iff_ne]
            intro h
            simp only [List.cons.injEq] at h
            exact hc h.2.1.symm
          exact key c (Sep.cons hc (y := y)).local.1 _
      | [e], _ =>
        rcases hx with rfl | ⟨c, y, rfl, hc⟩
        · rw [beq_eq_false_iff_ne]
          intro h
          simp at h
        · rw [beq_eq_false_iff_ne]
          intro h
          simp only [List.cons_append, List.nil_append, List.take_succ_cons, List.cons.injEq] at h
          exact (Sep.cons hc (y := y)).local.1 h.2.2.1.symm
      | e :: g :: b, hml =>
        simpa using hml) l2
  rw [t2.1]
  exact this

theorem mem_takeWhile' {p : UInt8 → Bool} {l : Bytes} {c : UInt8} (h : c ∈ l.takeWhile p) : p c = true := by
  induction l with
  | nil => cases h
  | cons d l ih =>
    rw [List.takeWhile_cons] at h
    split at h
    · next hd =>
      rcases List.mem_cons.1 h with rfl | h
      · exact hd
      · exact ih h
    · cases h

theorem dropWhile_stop' (p : UInt8 → Bool) (q x : Bytes) (hall : ∀ c ∈ q, p c = true) (hx : p (x.headD 0) = false) :
    (q ++ x).dropWhile p = x := by
  induction q with
  | nil =>
    cases x with
    | nil => rfl
    | cons c x => rw [List.headD_cons] at hx; simp [hx]
  | cons c q ih =>
    rw [List.cons_append, List.dropWhile_cons, hall c (by simp), if_pos rfl]
    exact ih (fun d hd => hall d (by simp [hd]))

theorem strtol_local (base : Nat) (hb : base ≤ 36) (r x : Bytes) (v : Int) (hr : ∀ c ∈ r, isAlnum c = true) (hx : digitVal (x.headD 0) = 36)
    (h : strtol base r = some (v, [])) : strtol base (r ++ x) = some (v, x) := by
  have key : ∀ c : UInt8, isAlnum c = true → isSpace c = false ∧ c ≠ 45 ∧ c ≠ 43 := forall_byte (by decide +kernel)
  cases r with
  | nil =>
    exfalso
    have : strtol base [] = none := rfl
    rw [this] at h
    cases h
  | cons c r =>
    obtain ⟨p1, p2, p3⟩ := key c (hr c (by simp))
    have sg : ∀ t, signOf ((c :: t).dropWhile isSpace) = (false, c :: t) := by
      intro t
      rw [List.dropWhile_cons, p1, if_neg (by simp)]
      unfold signOf
      split
      · next h => cases h; exact absurd rfl p2
      · next h => cases h; exact absurd rfl p3
      · rfl
    have sp : skipPrefix base (c :: r ++ x) = skipPrefix base (c :: r) ++ x := by
      match r with
      | [] =>
        match x, hx with
        | [], _ => simp [skipPrefix]
        | [e], _ => simp [skipPrefix]
        | e :: g :: x, hx =>
          have he : ¬ (e = 120 ∨ e = 88) := by
            rintro (rfl | rfl)
            · rw [List.headD_cons] at hx; exact absurd hx (by decide)
            · rw [List.headD_cons] at hx; exact absurd hx (by decide)
          by_cases hc : c = 48
          · subst hc
            simp [skipPrefix, he]
          · simp [skipPrefix, hc]
      | [e] =>
        match x, hx with
        | [], _ => simp [skipPrefix]
        | g :: x, hx =>
          have : digitVal g = 36 := hx
          by_cases hc : c = 48
          · subst hc
            simp only [List.cons_append, List.nil_append, skipPrefix, this]
            rw [if_neg (by omega)]
          · simp [skipPrefix, hc]
      | e :: g :: r =>
        by_cases hc : c = 48
        · subst hc
          simp only [List.cons_append, skipPrefix]
          split <;> rfl
        · simp [skipPrefix, hc]
    unfold strtol at h ⊢
    rw [List.cons_append, sg, ← List.cons_append]
    rw [sg] at h
    dsimp only at h ⊢
    rw [sp]
    generalize skipPrefix base (c :: r) = q at h ⊢
    have hstop : (decide (digitVal (x.headD 0) < base)) = false := by rw [hx]; simp; omega
    rw [takeWhile_append_stop (fun c => decide (digitVal c < base)) q x hstop]
    split at h
    · cases h
    · next hne =>
      rw [if_neg hne]
      have h := Option.some.inj h
      have e1 := congrArg Prod.fst h
      have e2 := congrArg Prod.snd h
      dsimp only at e1 e2
      rw [e1]
      congr 2
      have hall : ∀ c ∈ q, (decide (digitVal c < base)) = true := by
        intro d hd
        have := List.takeWhile_append_dropWhile (p := fun c => decide (digitVal c < base)) (l := q)
        rw [e2, List.append_nil] at this
        rw [← this] at hd
        exact mem_takeWhile' hd
      exact dropWhile_stop' _ q x hall hstop

/-- The base and the digits of a number do not depend on what follows. -/
theorem numberBase_local (raw x : Bytes) (hx : digitVal (x.headD 0) = 36) :
    (numberBase raw).1 ∈ [0, 2, 8, 10, 16] ∧ numberBase (raw ++ x) = ((numberBase raw).1, (numberBase raw).2 ++ x) ∧
      (∃ u, raw = u ++ (numberBase raw).2) := by
  have key : ∀ c : UInt8, digitVal c = 36 → ¬ (c = 88 ∨ c = 120) ∧ ¬ (c = 66 ∨ c = 98) ∧ ¬ (c = 79 ∨ c = 111) := forall_byte (by decide +kernel)
  match raw with
  | [] =>
    refine ⟨by decide, ?_, [], rfl⟩
    match x, hx with
    | [], _ => rfl
    | c :: x, hx =>
      have h48 : c ≠ 48 := by rintro rfl; exact absurd (show digitVal 48 = 36 from hx) (by decide)
      show numberBase (c :: x) = (10, c :: x)
      unfold numberBase
      split
      · next h => cases h; exact absurd rfl h48
      · next h => cases h; exact absurd rfl h48
      · rfl
  | [c] =>
    by_cases hc : c = 48
    · subst hc
      refine ⟨by decide, ?_, [48], rfl⟩
      match x, hx with
      | [], _ => rfl
      | d :: x, hx =>
        obtain ⟨k1, k2, k3⟩ := key d hx
        show numberBase (48 :: d :: x) = (0, d :: x)
        simp only [numberBase]
        rw [if_neg k1, if_neg k2, if_neg k3]
    · have e : ∀ t, numberBase (c :: t) = (10, c :: t) := by
        intro t
        unfold numberBase
        split
        · next h => cases h; exact absurd rfl hc
        · next h => cases h; exact absurd rfl hc
        · rfl
      rw [List.cons_append, e, e]
      exact ⟨by simp, rfl, [], rfl⟩
  | c :: d :: r =>
    by_cases hc : c = 48
    · subst hc
      simp only [List.cons_append, numberBase]
      split
      · exact ⟨by simp, rfl, [48, d], rfl⟩
      split
      · exact ⟨by simp, rfl, [48, d], rfl⟩
      split
      · exact ⟨by simp, rfl, [48, d], rfl⟩
      · exact ⟨by simp, rfl, [48], rfl⟩
    · have e : ∀ t, numberBase (c :: t) = (10, c :: t) := by
        intro t
        unfold numberBase
        split
        · next h => cases h; exact absurd rfl hc
        · next h => cases h; exact absurd rfl hc
        · rfl
      rw [List.cons_append, e, e]
      exact ⟨by simp, rfl, [], rfl⟩

theorem number_lexes {raw : Bytes} {n : Int} (h : NumberLit raw n) : Lexes .any Sep raw [.number n] := by
  obtain ⟨⟨c, hc, hd⟩, hall, hT, hF⟩ := h
  obtain ⟨b, rfl⟩ : ∃ b, raw = c :: b := by
    cases raw with
    | nil => cases hc
    | cons c' b => cases hc; exact ⟨b, rfl⟩
  obtain ⟨pT, e1, n1, us, t1⟩ := lex_first hT
  obtain ⟨pF, e2, n2, vs, t2⟩ := lex_first hF
  rw [lexOne_digit _ _ c b _ rfl hd] at e1 e2
  refine Lexes.step (by simp) fun cfg st x f hf hn _ hx => ?_
  refine ⟨st.dataI, Or.inl ?_⟩
  rw [lexOne_digit cfg _ c (b ++ x) f rfl hd]
  obtain ⟨hb, hloc, u, hu⟩ := numberBase_local (c :: b) x hx.local.2.2
  unfold number at e1 e2 ⊢
  dsimp only at e1 e2 ⊢
  rw [hloc, hf]
  dsimp only
  generalize hB : (numberBase (c :: b)).1 = B at *
  generalize hR : (numberBase (c :: b)).2 = R at *
  have hRl : ∀ R' : Bytes, (c :: b).take ((c :: b).length - R'.length) = c :: b → R' = [] := by
    intro R' h
    have := take_all h
    rw [List.length_cons] at this
    exact List.length_eq_zero_iff.1 (by omega)
  by_cases h0 : B = 0
  · rw [if_pos h0] at e1 e2 ⊢
    rw [if_pos rfl] at e1
    simp only [Bool.false_eq_true, if_false] at e2 ⊢
    obtain ⟨d, _, e3⟩ := Res.bind_eq_ok.1 e1
    cases e3
    cases e2
    simp only [List.nil_append, List.cons_append, List.cons.injEq, Tok.numberText.injEq, Tok.number.injEq] at t1 t2
    rw [hRl _ t1.1.symm, t2.1]
    rfl
  · rw [if_neg h0] at e1 e2 ⊢
    cases hs : strtol B R with
    | none => rw [hs] at e1; cases e1; exact absurd rfl n1
    | some vr =>
      obtain ⟨v, r'⟩ := vr
      rw [hs] at e1 e2
      dsimp only at e1 e2
      split at e1
      · cases e1; exact absurd rfl n1
      · next hv =>
        rw [if_pos rfl] at e1
        rw [if_neg hv] at e2
        simp only [Bool.false_eq_true, if_false] at e2
        obtain ⟨d, _, e3⟩ := Res.bind_eq_ok.1 e1
        cases e3
        cases e2
        simp only [List.nil_append, List.cons_append, List.cons.injEq, Tok.numberText.injEq, Tok.number.injEq] at t1 t2
        have hr' := hRl _ t1.1.symm
        subst hr'
        have := strtol_local B (by simp at hb; omega) R x v (fun e he => hall e (by rw [hu]; simp [he])) hx.local.2.2 hs
        rw [this]
        dsimp only
        rw [if_neg hv]
        simp only [Bool.false_eq_true, if_false, t2.1]
        rfl

end Muon.Fmt
