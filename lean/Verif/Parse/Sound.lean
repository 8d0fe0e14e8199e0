import Verif.Parse.Grammar
/-
Helper lemmas: what the parser accepts is in the grammar.
-/
namespace Muon.Parse
open Muon Lex Spec

/-- An expression of a level, or nothing. -/
def Found (L : Lv) (r : Nat) (ts : List Tok) (e : Node) (rest : List Tok) : Prop :=
  (e = .empty ∧ rest = ts ∧ (L = .atom ∨ L = .post ∨ ts.head? ≠ some .kNot)) ∨ (e ≠ .empty ∧ ∃ us, ts = us ++ rest ∧ Derives muonLevel True L r e us)

/-- What the outcome of a call says about the tokens. -/
def SoundAt (c : Call) (d : Nat) (ts : List Tok) (e : Node) (rest : List Tok) : Prop :=
  match c with
  | .expr => Found .expr (4096 - d) ts e rest
  | .e2 => Found .or (4096 - d) ts e rest
  | .e3 => Found .and (4096 - d) ts e rest
  | .e4 => Found .comp (4096 - d) ts e rest
  | .arith op => Found (.arith (muonLevel op)) (4096 - d) ts e rest
  | .arithLoop op l => (e = l ∧ rest = ts) ∨ (l ≠ .empty ∧ e ≠ .empty ∧ ∃ us, ts = us ++ rest ∧ ∀ vs,
      Derives muonLevel True (.arith (muonLevel op)) (4096 - d) l vs → Derives muonLevel True (.arith (muonLevel op)) (4096 - d) e (vs ++ us))
  | .e6 => Found (.arith 5) (4096 - d) ts e rest
  | .e7 => Found .post (4096 - d) ts e rest
  | .e8 => Found .atom (4096 - d) ts e rest
  | .chained l => (e = l ∧ rest = ts) ∨ (l ≠ .empty ∧ e ≠ .empty ∧ ∃ us, ts = us ++ rest ∧ ∀ vs,
      Derives muonLevel True .post (4096 - d) l vs → Derives muonLevel True .post (4096 - d) e (vs ++ us))
  | .list m => ∃ us, ts = us ++ rest ∧ (d < 4096 → Derives muonLevel True (.args m) (4096 - d) e us)

theorem Found.lift {L L' : Lv} {r r' : Nat} {ts : List Tok} {e : Node} {rest : List Tok} (h : Found L r ts e rest)
    (hL : L = .atom ∧ L' = .post ∨ ¬ (L = .atom ∨ L = .post))
    (hl : ∀ us, Derives muonLevel True L r e us → Derives muonLevel True L' r' e us) : Found L' r' ts e rest := by
  rcases h with h | ⟨h1, us, h2, h3⟩
  · refine Or.inl ⟨h.1, h.2.1, ?_⟩
    rcases hL with hL | hL
    · exact Or.inr (Or.inl hL.2)
    · rcases h.2.2 with h' | h' | h'
      · exact absurd (Or.inl h') hL
      · exact absurd (Or.inr h') hL
      · exact Or.inr (Or.inr h')
  · exact Or.inr ⟨h1, us, h2, hl us h3⟩

theorem Found.get {L : Lv} {r : Nat} {ts : List Tok} {e : Node} {rest : List Tok} (h : Found L r ts e rest) (he : e ≠ .empty) :
    ∃ us, ts = us ++ rest ∧ Derives muonLevel True L r e us := by
  rcases h with h | h
  · exact absurd h.1 he
  · exact h.2

theorem binary_ok {f : Node → Node → Node} {l r e : Node} {ts rest : List Tok} (h : binary f l r ts = .ok (e, rest)) :
    l ≠ .empty ∧ r ≠ .empty ∧ e = f l r ∧ rest = ts := by
  unfold binary at h
  split at h
  · cases h
  · next hn => simp only [not_or] at hn; cases h; exact ⟨hn.1, hn.2, rfl, rfl⟩

theorem expect_ok {t : Tok} {ts r : List Tok} (h : expect t ts = .ok r) : ts = t :: r := by
  unfold expect at h
  split at h
  · next hr => cases h; exact accept_eq hr
  · cases h

theorem name_ok {ts : List Tok} {p : Bytes × List Tok} (h : name ts = .ok p) : ts = .identifier p.1 :: p.2 := by
  unfold name at h
  split at h
  · cases h; rfl
  · cases h

theorem ok_ite {α : Type} {p : Prop} [Decidable p] {x y : PR α} {a : α} (h : (if p then x else y) = .ok a) :
    (p ∧ x = .ok a) ∨ (¬ p ∧ y = .ok a) := by
  split at h
  · next hp => exact Or.inl ⟨hp, h⟩
  · next hp => exact Or.inr ⟨hp, h⟩

theorem compOp_some {ts r : List Tok} {op : Comp} (h : compOp ts = (some op, r)) : ts = compToks op ++ r := by
  unfold compOp at h
  split at h
  · cases h
  · next t ts =>
    split at h
    · next c hc =>
      cases h
      cases t <;> first | (cases hc; done) | (cases hc; rfl)
    · split at h
      · next ht =>
        split at h
        · next u hu => cases h; rw [ht, accept_eq hu]; rfl
        · cases h
      · cases h

theorem compOp_none {ts r : List Tok} (h : compOp ts = (none, r)) : r = ts ∨ ts = .kNot :: r := by
  unfold compOp at h
  split at h
  · cases h; exact Or.inl rfl
  · next t ts =>
    split at h
    · cases h
    · split at h
      · next ht =>
        split at h
        · cases h
        · cases h; right; rw [ht]
      · cases h; exact Or.inl rfl

theorem upper_level (op : Arith) (d : Nat) (ts : List Tok) (e : Node) (rest : List Tok) (h : SoundAt (upper op) d ts e rest) :
    Found (.arith (muonLevel op + 1)) (4096 - d) ts e rest := by cases op <;> exact h

theorem sound_arg (m : ListMode) (d : Nat) (s : Node) (us : List Tok) (hm : m ≠ .dictionary) (h : d < 4096 → Derives muonLevel True .expr (4096 - d) s us)
    (a : Node) (rest ts : List Tok) (n : Nat) (ih : ∀ c d ts e rest, run n c d ts = .ok (e, rest) → SoundAt c d ts e rest)
    (hmore : more (run n) m d ts = .ok (a, rest)) :
    ∃ vs, us ++ ts = vs ++ rest ∧ (d < 4096 → Derives muonLevel True (.args m) (4096 - d) (.argument s a) vs) := by
  unfold more at hmore
  split at hmore
  · next r hr =>
    obtain ⟨vs, h1, h2⟩ := ih _ _ _ _ _ hmore
    refine ⟨us ++ .comma :: vs, by rw [accept_eq hr, h1]; simp, fun hd => ?_⟩
    exact .arg hm (h hd) (h2 hd)
  · cases hmore
    exact ⟨us, rfl, fun hd => .lastArg hm (h hd)⟩

theorem sound_key (m : ListMode) (d : Nat) (k v : Node) (us ws : List Tok) (hm : m = .dictionary ∨ m = .arguments ∧ ∃ s, k = .id s)
    (h : d < 4096 → Derives muonLevel True .expr (4096 - d) k us) (h' : d < 4096 → Derives muonLevel True .expr (4096 - d) v ws)
    (a : Node) (rest ts : List Tok) (n : Nat) (ih : ∀ c d ts e rest, run n c d ts = .ok (e, rest) → SoundAt c d ts e rest)
    (hmore : more (run n) m d ts = .ok (a, rest)) :
    ∃ vs, us ++ .colon :: ws ++ ts = vs ++ rest ∧ (d < 4096 → Derives muonLevel True (.args m) (4096 - d) (.kwarg k v a) vs) := by
  unfold more at hmore
  split at hmore
  · next r hr =>
    obtain ⟨vs, h1, h2⟩ := ih _ _ _ _ _ hmore
    refine ⟨us ++ .colon :: ws ++ .comma :: vs, by rw [accept_eq hr, h1]; simp, fun hd => ?_⟩
    exact .key hm (h hd) (h' hd) (h2 hd)
  · cases hmore
    exact ⟨us ++ .colon :: ws, rfl, fun hd => .lastKey hm (h hd) (h' hd)⟩

theorem sound : ∀ (n : Nat) (c : Call) (d : Nat) (ts : List Tok) (e : Node) (rest : List Tok),
    run n c d ts = .ok (e, rest) → SoundAt c d ts e rest := by
  intro n
  induction n with
  | zero => intro c d ts e rest h; cases h
  | succ n ih =>
    intro c d ts e rest h
    rw [run] at h
    cases c with
    | expr =>
      rcases ok_ite h with ⟨_, h⟩ | ⟨hd, h⟩
      · cases h
      have hd' : 4096 - d = (4096 - (d + 1)) + 1 := by omega
      obtain ⟨⟨l, t1⟩, h1, h⟩ := PR.bind_ok h
      have i1 : Found .or _ _ _ _ := ih _ _ _ _ _ h1
      dsimp only at h
      split at h
      · next r hr =>
        obtain ⟨⟨a, t2⟩, h2, h⟩ := PR.bind_ok h
        have i2 : Found .expr _ _ _ _ := ih _ _ _ _ _ h2
        obtain ⟨t3, h3, h⟩ := PR.bind_ok h
        obtain ⟨⟨b, t4⟩, h4, h⟩ := PR.bind_ok h
        have i4 : Found .expr _ _ _ _ := ih _ _ _ _ _ h4
        rcases ok_ite h with ⟨_, h⟩ | ⟨hne, h⟩
        · cases h
        cases h
        simp only [not_or] at hne
        obtain ⟨u1, e1, d1⟩ := i1.get hne.1
        obtain ⟨u2, e2, d2⟩ := i2.get hne.2.1
        obtain ⟨u4, e4, d4⟩ := i4.get hne.2.2
        refine Or.inr ⟨by simp, u1 ++ .question :: u2 ++ .colon :: u4, ?_, ?_⟩
        · have h3 : t2 = .colon :: t3 := expect_ok h3
          rw [e1, accept_eq hr, e2, h3, e4]; simp
        · show Derives muonLevel True .expr (4096 - d) _ _
          rw [hd']; exact .ternary d1 d2 d4
      · cases h
        show Found _ _ _ _ _
        rw [hd']
        exact i1.lift (Or.inr (by simp)) (fun us hu => .orExpr hu)
    | e2 =>
      obtain ⟨⟨l, t1⟩, h1, h⟩ := PR.bind_ok h
      have i1 : Found .and _ _ _ _ := ih _ _ _ _ _ h1
      dsimp only at h
      split at h
      · next r hr =>
        obtain ⟨⟨a, t2⟩, h2, h⟩ := PR.bind_ok h
        have i2 : Found .or _ _ _ _ := ih _ _ _ _ _ h2
        obtain ⟨n1, n2, rfl, rfl⟩ := binary_ok h
        obtain ⟨u1, e1, d1⟩ := i1.get n1
        obtain ⟨u2, e2, d2⟩ := i2.get n2
        refine Or.inr ⟨by simp, u1 ++ .kOr :: u2, ?_, .or d1 d2⟩
        rw [e1, accept_eq hr, e2]; simp
      · cases h; exact i1.lift (Or.inr (by simp)) (fun us hu => .andOr hu)
    | e3 =>
      obtain ⟨⟨l, t1⟩, h1, h⟩ := PR.bind_ok h
      have i1 : Found .comp _ _ _ _ := ih _ _ _ _ _ h1
      dsimp only at h
      split at h
      · next r hr =>
        obtain ⟨⟨a, t2⟩, h2, h⟩ := PR.bind_ok h
        have i2 : Found .and _ _ _ _ := ih _ _ _ _ _ h2
        obtain ⟨n1, n2, rfl, rfl⟩ := binary_ok h
        obtain ⟨u1, e1, d1⟩ := i1.get n1
        obtain ⟨u2, e2, d2⟩ := i2.get n2
        refine Or.inr ⟨by simp, u1 ++ .kAnd :: u2, ?_, .and d1 d2⟩
        rw [e1, accept_eq hr, e2]; simp
      · cases h; exact i1.lift (Or.inr (by simp)) (fun us hu => .compAnd hu)
    | e4 =>
      obtain ⟨⟨l, t1⟩, h1, h⟩ := PR.bind_ok h
      have i1 : Found (.arith 0) _ _ _ _ := ih _ _ _ _ _ h1
      dsimp only at h
      split at h
      · next op r hr =>
        obtain ⟨⟨a, t2⟩, h2, h⟩ := PR.bind_ok h
        have i2 : Found (.arith 0) _ _ _ _ := ih _ _ _ _ _ h2
        obtain ⟨n1, n2, rfl, rfl⟩ := binary_ok h
        obtain ⟨u1, e1, d1⟩ := i1.get n1
        obtain ⟨u2, e2, d2⟩ := i2.get n2
        refine Or.inr ⟨by simp, u1 ++ compToks op ++ u2, ?_, .comparison d1 d2⟩
        rw [e1, compOp_some hr, e2]; simp
      · next r hr =>
        cases h
        rcases compOp_none hr with rfl | hk
        · exact i1.lift (Or.inr (by simp)) (fun us hu => .arithComp hu)
        · rcases i1 with ⟨_, h2, h3⟩ | ⟨h1, us, h2, h3⟩
          · rcases h3 with h3 | h3 | h3
            · cases h3
            · cases h3
            · rw [← h2, hk] at h3; exact absurd rfl h3
          · exact Or.inr ⟨h1, us ++ [.kNot], by rw [h2, hk]; simp, .strayNot trivial h3⟩
    | arith op =>
      obtain ⟨⟨l, t1⟩, h1, h⟩ := PR.bind_ok h
      have i1 := upper_level op _ _ _ _ (ih _ _ _ _ _ h1)
      have i1 : Found (.arith (muonLevel op)) (4096 - d) ts l t1 := i1.lift (Or.inr (by simp)) (fun us hu => .arithLift (lvOp_muon op).2.1 hu)
      have i2 := ih _ _ _ _ _ h
      rcases i2 with ⟨rfl, rfl⟩ | ⟨hne, hne', us, e2, i2⟩
      · exact i1
      · obtain ⟨u1, e1, d1⟩ := i1.get hne
        exact Or.inr ⟨hne', u1 ++ us, by rw [e1]; have : t1 = us ++ rest := e2; rw [this]; simp, i2 u1 d1⟩
    | arithLoop op l =>
      simp only [body] at h
      split at h
      · next r hr =>
        obtain ⟨⟨a, t2⟩, h2, h⟩ := PR.bind_ok h
        have i2 := upper_level op _ _ _ _ (ih _ _ _ _ _ h2)
        obtain ⟨⟨l', t3⟩, h3, h⟩ := PR.bind_ok h
        obtain ⟨n1, n2, rfl, rfl⟩ := binary_ok h3
        obtain ⟨u2, e2, d2⟩ := i2.get n2
        have i3 := ih _ _ _ _ _ h
        rcases i3 with ⟨rfl, rfl⟩ | ⟨_, hne', us, e3, i3⟩
        · refine Or.inr ⟨n1, by simp, opTok op :: u2, ?_, fun vs hv => ?_⟩
          · rw [accept_eq hr, (lvOp_muon op).2.2, e2]; rfl
          · exact .arith hv d2
        · refine Or.inr ⟨n1, hne', opTok op :: (u2 ++ us), ?_, fun vs hv => ?_⟩
          · rw [accept_eq hr, (lvOp_muon op).2.2, e2]; have : t3 = us ++ rest := e3; rw [this]; simp
          · have := i3 (vs ++ opTok op :: u2) (.arith hv d2)
            simpa using this
      · cases h; exact Or.inl ⟨rfl, rfl⟩
    | e6 =>
      simp only [body] at h
      split at h
      · next f r hr =>
        obtain ⟨⟨l, t1⟩, h1, h⟩ := PR.bind_ok h
        have i1 : Found .post _ _ _ _ := ih _ _ _ _ _ h1
        rcases ok_ite h with ⟨_, h⟩ | ⟨hne, h⟩
        · cases h
        cases h
        obtain ⟨u1, e1, d1⟩ := i1.get hne
        unfold unary at hr
        split at hr
        · cases hr; exact Or.inr ⟨by simp, .kNot :: u1, by rw [e1]; rfl, .not d1⟩
        · cases hr; exact Or.inr ⟨by simp, .minus :: u1, by rw [e1]; rfl, .uminus d1⟩
        · cases hr; exact Or.inr ⟨by simp, .stringify :: u1, by rw [e1]; rfl, .stringify d1⟩
        · cases hr
      · next r hr =>
        have hrt : r = ts := by
          unfold unary at hr
          split at hr
          · cases hr
          · cases hr
          · cases hr
          · cases hr; rfl
        subst hrt
        have i1 : Found .post _ _ _ _ := ih _ _ _ _ _ h
        rcases i1 with h | ⟨h1, us, h2, h3⟩
        · refine Or.inl ⟨h.1, h.2.1, Or.inr (Or.inr ?_)⟩
          intro hk
          cases r with
          | nil => cases hk
          | cons a r => cases hk; cases hr
        · exact Or.inr ⟨h1, us, h2, .postUnary h3⟩
    | e7 =>
      obtain ⟨⟨l, t1⟩, h1, h⟩ := PR.bind_ok h
      have i1 : Found .atom (4096 - d) ts l t1 := ih _ _ _ _ _ h1
      have i1 : Found .post (4096 - d) ts l t1 := i1.lift (Or.inl ⟨rfl, rfl⟩) (fun us hu => .atomPost hu)
      have i2 := ih _ _ _ _ _ h
      rcases i2 with ⟨rfl, rfl⟩ | ⟨hne, hne', us, e2, i2⟩
      · exact i1
      · obtain ⟨u1, e1, d1⟩ := i1.get hne
        exact Or.inr ⟨hne', u1 ++ us, by rw [e1]; have : t1 = us ++ rest := e2; rw [this]; simp, i2 u1 d1⟩
    | chained l =>
      have step : ∀ (l' : Node) (ws t2 : List Tok), l ≠ .empty → l' ≠ .empty → ts = ws ++ t2 → run n (.chained l') d t2 = .ok (e, rest) →
          (∀ vs, Derives muonLevel True .post (4096 - d) l vs → Derives muonLevel True .post (4096 - d) l' (vs ++ ws)) →
          SoundAt (.chained l) d ts e rest := by
        intro l' ws t2 hl hl' hts h hD
        rcases ih _ _ _ _ _ h with ⟨rfl, rfl⟩ | ⟨_, hne', us, e3, i3⟩
        · exact Or.inr ⟨hl, hl', ws, hts, hD⟩
        · refine Or.inr ⟨hl, hne', ws ++ us, ?_, fun vs hv => ?_⟩
          · rw [hts]; have : t2 = us ++ rest := e3; rw [this]; simp
          · have := i3 (vs ++ ws) (hD vs hv)
            simpa using this
      have lt_of_list : ∀ {ts' : List Tok} {a : Node} {r : List Tok}, run n (.list .arguments) d ts' = .ok (a, r) → d < 4096 := by
        intro ts' a r hh
        by_cases hd : d < 4096
        · exact hd
        · exfalso
          cases n with
          | zero => cases hh
          | succ k =>
            rw [run] at hh
            obtain ⟨⟨l, t1⟩, h1, _⟩ := PR.bind_ok hh
            cases k with
            | zero => cases h1
            | succ k =>
              rw [run] at h1
              rcases ok_ite h1 with ⟨_, h⟩ | ⟨hd', _⟩
              · cases h
              · omega
      simp only [body] at h
      split at h
      · next r hr =>
        rcases ok_ite h with ⟨_, h⟩ | ⟨hne, h⟩
        · cases h
        obtain ⟨nm, h1, h⟩ := PR.bind_ok h
        obtain ⟨t2, h2, h⟩ := PR.bind_ok h
        obtain ⟨⟨a, t3⟩, h3, h⟩ := PR.bind_ok h
        obtain ⟨t4, h4, h⟩ := PR.bind_ok h
        obtain ⟨us, e3, i3⟩ := ih _ _ _ _ _ h3
        refine step (.method l nm.1 a) (.dot :: .identifier nm.1 :: .lparen :: us ++ [.rparen]) t4 hne (by simp) ?_ h ?_
        · have h4 : t3 = .rparen :: t4 := expect_ok h4
          rw [accept_eq hr, name_ok h1, expect_ok h2, e3, h4]; simp
        · intro vs hv
          have := Derives.method (n := nm.1) hv (i3 (lt_of_list h3))
          simpa using this
      · split at h
        · next r hr =>
          rcases ok_ite h with ⟨_, h⟩ | ⟨hne, h⟩
          · cases h
          obtain ⟨⟨i, t1⟩, h1, h⟩ := PR.bind_ok h
          rcases ok_ite h with ⟨_, h⟩ | ⟨hne', h⟩
          · cases h
          obtain ⟨t2, h2, h⟩ := PR.bind_ok h
          have i1 : Found .expr _ _ _ _ := ih _ _ _ _ _ h1
          obtain ⟨us, e3, d3⟩ := i1.get hne'
          refine step (.index l i) (.lbrack :: us ++ [.rbrack]) t2 hne (by simp) ?_ h ?_
          · rw [accept_eq hr, e3]; have : t1 = .rbrack :: t2 := expect_ok h2; rw [this]; simp
          · intro vs hv
            have := Derives.index hv d3
            simpa using this
        · split at h
          · next r hr =>
            rcases ok_ite h with ⟨_, h⟩ | ⟨hne, h⟩
            · cases h
            obtain ⟨⟨a, t3⟩, h3, h⟩ := PR.bind_ok h
            obtain ⟨t4, h4, h⟩ := PR.bind_ok h
            obtain ⟨us, e3, i3⟩ := ih _ _ _ _ _ h3
            refine step (.call l a) (.lparen :: us ++ [.rparen]) t4 hne (by simp) ?_ h ?_
            · have h4 : t3 = .rparen :: t4 := expect_ok h4
              rw [accept_eq hr, e3, h4]; simp
            · intro vs hv
              have := Derives.call hv (i3 (lt_of_list h3))
              simpa using this
          · cases h; exact Or.inl ⟨rfl, rfl⟩
    | e8 =>
      have lt_of_list : ∀ {m} {ts' : List Tok} {a : Node} {r : List Tok}, run n (.list m) d ts' = .ok (a, r) → d < 4096 := by
        intro m ts' a r hh
        by_cases hd : d < 4096
        · exact hd
        · exfalso
          cases n with
          | zero => cases hh
          | succ k =>
            rw [run] at hh
            obtain ⟨⟨l, t1⟩, h1, _⟩ := PR.bind_ok hh
            cases k with
            | zero => cases h1
            | succ k =>
              rw [run] at h1
              rcases ok_ite h1 with ⟨_, h⟩ | ⟨hd', _⟩
              · cases h
              · omega
      simp only [body] at h
      split at h
      · next r hr =>
        obtain ⟨⟨v, t1⟩, h1, h⟩ := PR.bind_ok h
        obtain ⟨t2, h2, h⟩ := PR.bind_ok h
        rcases ok_ite h with ⟨_, h⟩ | ⟨hne, h⟩
        · cases h
        cases h
        have i1 : Found .expr _ _ _ _ := ih _ _ _ _ _ h1
        obtain ⟨us, e3, d3⟩ := i1.get hne
        refine Or.inr ⟨hne, .lparen :: us ++ [.rparen], ?_, .paren d3⟩
        rw [accept_eq hr, e3]; have : t1 = .rparen :: _ := expect_ok h2; rw [this]; simp
      · split at h
        · next r hr =>
          obtain ⟨⟨v, t1⟩, h1, h⟩ := PR.bind_ok h
          obtain ⟨t2, h2, h⟩ := PR.bind_ok h
          cases h
          obtain ⟨us, e3, i3⟩ := ih _ _ _ _ _ h1
          refine Or.inr ⟨by simp, .lbrack :: us ++ [.rbrack], ?_, .array (i3 (lt_of_list h1))⟩
          rw [accept_eq hr, e3]; have : t1 = .rbrack :: _ := expect_ok h2; rw [this]; simp
        · split at h
          · next r hr =>
            obtain ⟨⟨v, t1⟩, h1, h⟩ := PR.bind_ok h
            obtain ⟨t2, h2, h⟩ := PR.bind_ok h
            cases h
            obtain ⟨us, e3, i3⟩ := ih _ _ _ _ _ h1
            refine Or.inr ⟨by simp, .lcurl :: us ++ [.rcurl], ?_, .dict (i3 (lt_of_list h1))⟩
            rw [accept_eq hr, e3]; have : t1 = .rcurl :: _ := expect_ok h2; rw [this]; simp
          · have h : e9 ts = (e, rest) := PR.ok.inj h
            unfold e9 at h
            split at h
            · cases h; exact Or.inr ⟨by simp, _, rfl, .true⟩
            · cases h; exact Or.inr ⟨by simp, _, rfl, .false⟩
            · cases h; exact Or.inr ⟨by simp, _, rfl, .id⟩
            · cases h; exact Or.inr ⟨by simp, _, rfl, .number⟩
            · cases h; exact Or.inr ⟨by simp, _, rfl, .string⟩
            · cases h; exact Or.inl ⟨rfl, rfl, Or.inl rfl⟩
    | list mode =>
      obtain ⟨⟨s, t1⟩, h1, h⟩ := PR.bind_ok h
      have i1 : Found .expr _ _ _ _ := ih _ _ _ _ _ h1
      rcases ok_ite h with ⟨he, h⟩ | ⟨hne, h⟩
      · cases h
        have he : s = .empty := he
        rcases i1 with ⟨_, rfl, _⟩ | ⟨hx, _⟩
        · refine ⟨[], rfl, fun hd => ?_⟩
          rw [show 4096 - d = (4096 - d - 1) + 1 by omega]
          exact .noArgs
        · exact absurd he hx
      obtain ⟨us, e1, d1⟩ := i1.get hne
      obtain ⟨o, h2, h⟩ := PR.bind_ok h
      dsimp only at h
      have hcol : (mode ≠ .dictionary ∧ o = none) ∨ ∃ r, o = some r ∧ t1 = .colon :: r ∧ mode ≠ .array := by
        unfold colon at h2
        cases mode with
        | array => cases h2; exact Or.inl ⟨by simp, rfl⟩
        | arguments =>
          have h2 : accept .colon t1 = o := PR.ok.inj h2
          cases o with
          | none => exact Or.inl ⟨by simp, rfl⟩
          | some r => exact Or.inr ⟨r, rfl, accept_eq h2, by simp⟩
        | dictionary =>
          obtain ⟨r, h3, h4⟩ := PR.bind_ok h2
          cases h4
          exact Or.inr ⟨r, rfl, expect_ok h3, by simp⟩
      rcases hcol with ⟨hm, rfl⟩ | ⟨r, rfl, rfl, hm⟩
      · dsimp only at h
        obtain ⟨⟨a, t3⟩, h3, h⟩ := PR.bind_ok h
        cases h
        rw [e1]
        exact sound_arg mode d s us hm (fun _ => d1) _ _ _ n ih h3
      · dsimp only at h
        obtain ⟨⟨v, t2⟩, h4, h⟩ := PR.bind_ok h
        obtain ⟨⟨a, t3⟩, h3, h⟩ := PR.bind_ok h
        cases h
        have hv : (mode = .dictionary ∨ mode = .arguments ∧ ∃ x, s = .id x) ∧ ∃ ws, r = ws ++ t2 ∧ Derives muonLevel True .expr (4096 - d) v ws := by
          have hb : ∀ {w : PR (Node × List Tok)}, w = (do let (v, ts) ← run n .expr d r; if v = .empty then .fail else .ok (v, ts)) → w = .ok (v, t2) →
              ∃ ws, r = ws ++ t2 ∧ Derives muonLevel True .expr (4096 - d) v ws := by
            rintro w rfl hw
            obtain ⟨⟨v', t2'⟩, h5, h6⟩ := PR.bind_ok hw
            rcases ok_ite h6 with ⟨_, h6⟩ | ⟨hne, h6⟩
            · cases h6
            cases h6
            have i2 : Found .expr _ _ _ _ := ih _ _ _ _ _ h5
            exact i2.get hne
          cases mode with
          | array => exact absurd rfl hm
          | dictionary => exact ⟨Or.inl rfl, hb rfl h4⟩
          | arguments =>
            cases s with
            | id x => exact ⟨Or.inr ⟨rfl, x, rfl⟩, hb rfl h4⟩
            | _ => cases h4
        obtain ⟨hk, ws, e2, d2⟩ := hv
        rw [e1, e2]
        have := sound_key mode d s v us ws hk (fun _ => d1) (fun _ => d2) _ _ _ n ih h3
        rw [List.append_assoc, List.cons_append] at this
        exact this

end Muon.Parse
