import Verif.Lex.Model
/-
Helper lemmas about the lexer: progress and the space used in the literal buffer.
-/
namespace Muon.Lex
open Muon

/-- The outcome is not `error`, is `bad` only if that is allowed, and otherwise satisfies `P`. -/
def Safe {α : Type} (allow : Prop) (x : Res α) (P : α → Prop) : Prop :=
  match x with
  | .ok a => P a
  | .error => False
  | .bad => allow

theorem Safe.bind {α β : Type} {allow : Prop} {x : Res α} {f : α → Res β} {Q : α → Prop} {P : β → Prop}
    (hx : Safe allow x Q) (hf : ∀ a, Q a → Safe allow (f a) P) : Safe allow (x >>= f) P := by
  cases x with
  | ok a => exact hf a hx
  | error => exact hx
  | bad => exact hx

theorem Safe.mono {α : Type} {allow : Prop} {x : Res α} {Q P : α → Prop}
    (hx : Safe allow x Q) (h : ∀ a, Q a → P a) : Safe allow x P := by
  cases x with
  | ok a => exact h a hx
  | error => exact hx
  | bad => exact hx

theorem Safe.ite {α : Type} {allow p : Prop} [Decidable p] {x y : Res α} {P : α → Prop}
    (h1 : p → Safe allow x P) (h2 : ¬ p → Safe allow y P) : Safe allow (if p then x else y) P := by
  split
  · next h => exact h1 h
  · next h => exact h2 h

theorem not_ident_zero : isIdent 0 = false := by decide +kernel

theorem copyInto_safe (cfg : Cfg) (dataI : Nat) (s : Bytes) (h : cfg.fmt = false → dataI + s.length ≤ cfg.len) :
    Safe (cfg.fmt = true) (copyInto cfg dataI s) (fun d => d = dataI + s.length + 1) := by
  unfold copyInto
  split
  · rfl
  · next hn =>
    show cfg.fmt = true
    cases hf : cfg.fmt with
    | true => rfl
    | false => have := h hf; omega

theorem length_tw_dw (p : UInt8 → Bool) (r : Bytes) : (r.takeWhile p).length + (r.dropWhile p).length = r.length := by
  rw [← List.length_append, List.takeWhile_append_dropWhile]

theorem head_dropWhile (p : UInt8 → Bool) (h0 : p 0 = false) (r : Bytes) : p ((r.dropWhile p).headD 0) = false := by
  induction r with
  | nil => simpa using h0
  | cons c r ih =>
    rw [List.dropWhile_cons]
    split
    · exact ih
    · next h => simpa using h

theorem length_dropWhile_le (p : UInt8 → Bool) (r : Bytes) : (r.dropWhile p).length ≤ r.length := by
  have := length_tw_dw p r; omega

theorem identifier_safe (cfg : Cfg) (dataI : Nat) (r : Bytes) (k : Nat) (hr : isIdent (r.headD 0) = true)
    (h : cfg.fmt = false → dataI + r.length + k ≤ cfg.len) :
    Safe (cfg.fmt = true) (identifier cfg dataI r) (fun x =>
      x.2.2 = r.dropWhile isIdent ∧ x.2.2.length < r.length ∧ isIdent (x.2.2.headD 0) = false ∧
      (cfg.fmt = false → x.2.1 + x.2.2.length + k ≤ cfg.len + 1)) := by
  have hl := length_tw_dw isIdent r
  have h1 : (r.dropWhile isIdent).length < r.length := by
    cases r with
    | nil => simp [not_ident_zero] at hr
    | cons c r =>
      rw [List.dropWhile_cons, if_pos (by simpa using hr)]
      have := length_dropWhile_le isIdent r
      simp; omega
  have h2 := head_dropWhile isIdent not_ident_zero r
  unfold identifier
  simp only []
  split
  · exact ⟨rfl, h1, h2, fun hf => by have := h hf; simp only; omega⟩
  · refine Safe.bind (copyInto_safe cfg dataI _ (fun hf => by have := h hf; omega)) ?_
    intro d hd
    refine ⟨rfl, h1, h2, fun hf => ?_⟩
    have := h hf
    simp only; omega

/-- What is known inside a string: room for the rest of the text, and two bytes more in an f-string (one at the end of the
text). -/
def SInv (cfg : Cfg) (fs : Bool) (x : Ss) : Prop :=
  cfg.fmt = false → x.dataI + x.s.length + x.r.length ≤ cfg.len ∧
    (fs = true → x.dataI + x.s.length + x.r.length + 2 ≤ cfg.len ∨ x.r = [] ∧ x.dataI + x.s.length + 1 ≤ cfg.len)

def SPost (cfg : Cfg) (fs : Bool) (n : Nat) (p : LexResult × Ss) : Prop :=
  p.2.r.length ≤ n ∧ (p.1 ≠ .fail → p.2.r.length < n) ∧
  (p.1 ≠ .done → SInv cfg fs p.2) ∧
  (cfg.fmt = false → p.1 = .done → p.2.dataI + p.2.s.length + 1 + p.2.r.length ≤ cfg.len)

theorem put_safe (cfg : Cfg) (fs : Bool) (x : Ss) (bs r : Bytes) (hi : SInv cfg fs x) (hl : bs.length + r.length ≤ x.r.length)
    (hb : bs ≠ []) : Safe (cfg.fmt = true) (put cfg x bs r) (SPost cfg fs x.r.length) := by
  have hb' : 1 ≤ bs.length := by cases bs with
    | nil => exact absurd rfl hb
    | cons => simp
  unfold put
  split
  · refine ⟨by simp only; omega, fun _ => by simp only; omega, fun _ hf => ?_, fun _ h => by cases h⟩
    obtain ⟨h1, h2⟩ := hi hf
    refine ⟨by simp; omega, fun hfs => ?_⟩
    rcases h2 hfs with h2 | ⟨h2, _⟩
    · left; simp; omega
    · exfalso; rw [h2, List.length_nil] at hl; omega
  · next hn =>
    show cfg.fmt = true
    cases hf : cfg.fmt with
    | true => rfl
    | false => obtain ⟨h1, _⟩ := hi hf; omega

theorem fail_safe (cfg : Cfg) (fs : Bool) (x : Ss) (r : Bytes) (hi : SInv cfg fs x) (hl : r.length ≤ x.r.length) :
    SPost cfg fs x.r.length (.fail, { x with r }) := by
  refine ⟨hl, fun h => absurd rfl h, fun _ hf => ?_, fun _ h => by cases h⟩
  obtain ⟨h1, h2⟩ := hi hf
  refine ⟨by simp only; omega, fun hfs => ?_⟩
  rcases h2 hfs with h2 | ⟨h2, h3⟩
  · left; simp only; omega
  · right
    rw [h2] at hl
    exact ⟨List.length_eq_zero_iff.1 (by simpa using hl), h3⟩

theorem writeUtf8_length (v : Nat) (bs : Bytes) (h : writeUtf8 v = some bs) : 1 ≤ bs.length ∧ bs.length ≤ 4 ∧
    (v ≤ 0x7f → bs.length = 1) ∧ (v ≤ 0x7ff → bs.length ≤ 2) ∧ (v ≤ 0xffff → bs.length ≤ 3) := by
  unfold writeUtf8 at h
  simp only [] at h
  split at h
  · cases h; simp
  · split at h
    · cases h; simp; omega
    · split at h
      · cases h; simp; omega
      · split at h
        · cases h; simp; omega
        · cases h

theorem stringEscape_safe (cfg : Cfg) (fs : Bool) (x : Ss) (r : Bytes) (hl : x.r.length = r.length + 1) (hi : SInv cfg fs x) :
    Safe (cfg.fmt = true) (stringEscape cfg x (r.headD 0) r) (SPost cfg fs x.r.length) := by
  unfold stringEscape
  split
  · exact put_safe cfg fs x _ _ hi (by simp; omega) (by simp)
  · split
    · generalize hk : (if r.headD 0 = 120 then 2 else if r.headD 0 = 117 then 4 else 8 : Nat) = k
      have hk2 : 2 ≤ k := by
        rw [← hk]; split
        · omega
        · split <;> omega
      dsimp only
      split
      · exact fail_safe cfg fs x _ hi (by simp; omega)
      · next hlen =>
        have h1 := (List.takeWhile_prefix isHexDigit (l := (r.drop 1).take k)).length_le
        simp only [List.length_take, List.length_drop] at h1
        split
        · exact fail_safe cfg fs x _ hi (by simp; omega)
        · next bs hbs =>
          have hb := writeUtf8_length _ _ hbs
          refine put_safe cfg fs x _ _ hi ?_ (by intro h; rw [h] at hb; simp at hb)
          simp only [List.length_drop]
          omega
    · split
      · exact put_safe cfg fs x _ _ hi (by simp; omega) (by simp)
      · split
        · exact fail_safe cfg fs x x.r hi (Nat.le_refl _)
        · next h0 =>
          cases r with
          | nil => simp at h0
          | cons d r => exact put_safe cfg fs x _ _ hi (by simp at hl ⊢; omega) (by simp)

theorem stringChar_safe (cfg : Cfg) (multiline fs : Bool) (x : Ss) (hi : SInv cfg fs x) :
    Safe (cfg.fmt = true) (stringChar cfg multiline fs x) (SPost cfg fs x.r.length) := by
  unfold stringChar
  split
  · next h => exact fail_safe cfg fs x x.r hi (Nat.le_refl _)
  · next c r hr =>
    have hl : x.r.length = r.length + 1 := by rw [hr]; simp
    have hdone : ∀ r' : Bytes, r'.length ≤ r.length → Safe (cfg.fmt = true)
        (if x.dataI + x.s.length < cfg.len + 1 then Res.ok (LexResult.done, { x with r := r' }) else .bad)
        (SPost cfg fs x.r.length) := by
      intro r' hr'
      split
      · refine ⟨by simp only; omega, fun _ => by simp only; omega, fun h => absurd rfl h, fun hf _ => ?_⟩
        obtain ⟨h1, _⟩ := hi hf
        simp only; omega
      · show cfg.fmt = true
        cases hf : cfg.fmt with
        | true => rfl
        | false => obtain ⟨h1, _⟩ := hi hf; omega
    split
    · split
      · exact put_safe cfg fs x _ _ hi (by simp; omega) (by simp)
      · exact fail_safe cfg fs x x.r hi (Nat.le_refl _)
    · split
      · split
        · exact put_safe cfg fs x _ _ hi (by simp; omega) (by simp)
        · exact stringEscape_safe cfg fs x r hl hi
      · split
        · exact fail_safe cfg fs x x.r hi (Nat.le_refl _)
        · split
          · split
            · split
              · exact hdone _ (by simp; omega)
              · exact put_safe cfg fs x _ _ hi (by simp; omega) (by simp)
            · exact hdone _ (Nat.le_refl _)
          · split
            · split
              · next hcond =>
                simp only [Bool.and_eq_true] at hcond
                have hid : isIdent (r.headD 0) = true := by
                  unfold isIdent; rw [hcond.2]; rfl
                refine Safe.bind (identifier_safe cfg _ r 2 hid ?_) ?_
                · intro hf
                  obtain ⟨_, h2⟩ := hi hf
                  rcases h2 hcond.1 with h2 | ⟨h2, _⟩
                  · omega
                  · rw [h2] at hr; cases hr
                · rintro ⟨t, d, r'⟩ ⟨h1, h2, h3, h4⟩
                  simp only [] at h1 h2 h3 h4
                  refine ⟨by simp; omega, fun _ => by simp; omega, fun _ hf => ?_, fun _ h => by cases h⟩
                  have h5 := h4 hf
                  refine ⟨by simp; omega, fun _ => ?_⟩
                  cases r' with
                  | nil => right; simp only [List.length_nil] at h5; exact ⟨rfl, by simp only [List.length_nil]; omega⟩
                  | cons e r' => left; simp only [List.length_cons, List.length_nil, List.drop_succ_cons, List.drop_zero] at h5 ⊢; omega
              · exact put_safe cfg fs x _ _ hi (by simp; omega) (by simp)
            · exact put_safe cfg fs x _ _ hi (by simp; omega) (by simp)

theorem stringLoop_safe (cfg : Cfg) (multiline fs : Bool) : ∀ (fuel : Nat) (x : Ss), x.r.length < fuel → SInv cfg fs x →
    Safe (cfg.fmt = true) (stringLoop cfg multiline fs fuel x) (fun p => p.1 ≠ .cont ∧ SPost cfg fs x.r.length p) := by
  intro fuel
  induction fuel with
  | zero => intro x h; omega
  | succ fuel ih =>
    intro x hf hi
    rw [stringLoop]
    refine Safe.bind (stringChar_safe cfg multiline fs x hi) ?_
    rintro ⟨res, x'⟩ hp
    cases res with
    | cont =>
      have h1 := hp.2.1 (by simp)
      simp only [] at h1 ⊢
      refine Safe.mono (ih x' (by omega) (hp.2.2.1 (by simp))) ?_
      rintro p ⟨h2, h3, h4, h5, h6⟩
      exact ⟨h2, by omega, fun h => by have := h4 h; omega, h5, h6⟩
    | done => exact ⟨by simp, hp⟩
    | fail => exact ⟨by simp, hp⟩

theorem skipFailed_length (m : Bool) : ∀ (r : Bytes) (q : Nat), (skipFailed m q r).length ≤ r.length := by
  intro r
  induction r with
  | nil => intro q; rw [skipFailed]; simp
  | cons c r ih =>
    intro q
    rw [skipFailed]
    split
    · simp
    · split
      · split
        · simp
        · have := ih (q + 1); simp; omega
      · have := ih q; simp; omega

/-- What is known between tokens: the literals so far took no more space than the text before the current position,
except that after an identifier they may take one byte more. -/
def Inv (cfg : Cfg) (st : Lx) : Prop :=
  cfg.fmt = false → st.dataI + st.r.length ≤ cfg.len ∨
    (st.dataI + st.r.length ≤ cfg.len + 1 ∧ isIdent (st.r.headD 0) = false)

def Post (cfg : Cfg) (n : Nat) (p : LexResult × Lx) : Prop :=
  match p.1 with
  | .cont => p.2.r.length < n ∧ Inv cfg p.2
  | .fail => p.2.r.length ≤ n ∧ 0 < n ∧ (cfg.fmt = false → p.2.dataI + p.2.r.length ≤ cfg.len + 1)
  | .done => ∃ ts, p.2.toks = ts ++ [.eof]

theorem skip_safe (cfg : Cfg) : ∀ (fuel : Nat) (st : Lx), st.r.length < fuel → Inv cfg st →
    Safe (cfg.fmt = true) (skip cfg fuel st) (fun st' => st'.r.length ≤ st.r.length ∧ Inv cfg st' ∧
      (cfg.fmt = false → st'.toks = st.toks ∧ st'.dataI = st.dataI) ∧
      st'.paren = st.paren ∧ st'.bracket = st.bracket ∧ st'.curl = st.curl) := by
  intro fuel
  induction fuel with
  | zero => intro st h; omega
  | succ fuel ih =>
    intro st hf hi
    have hstep : ∀ (r : Bytes), r.length < st.r.length → Safe (cfg.fmt = true) (skip cfg fuel { st with r })
        (fun st' => st'.r.length ≤ st.r.length ∧ Inv cfg st' ∧
          (cfg.fmt = false → st'.toks = st.toks ∧ st'.dataI = st.dataI) ∧
          st'.paren = st.paren ∧ st'.bracket = st.bracket ∧ st'.curl = st.curl) := by
      intro r hr
      refine Safe.mono (ih { st with r } (by simp only; omega) ?_) ?_
      · intro h
        left
        rcases hi h with h1 | ⟨h1, _⟩ <;> simp only <;> omega
      · rintro st' ⟨h1, h2, h3, h4⟩
        exact ⟨by simp only at h1; omega, h2, h3, h4⟩
    rw [skip]
    split
    · exact ⟨Nat.le_refl _, hi, fun _ => ⟨rfl, rfl⟩, rfl, rfl, rfl⟩
    · next c r hr =>
      split
      · have hl := length_dropWhile_le (fun c => decide (c ≠ 0 ∧ c ≠ 10)) r
        simp only []
        split
        · next hfmt =>
          refine Safe.bind (copyInto_safe cfg _ _ (fun h => by rw [hfmt] at h; cases h)) ?_
          intro d hd
          refine Safe.mono (ih _ (by simp only [hr, List.length_cons] at hf ⊢; omega) (fun h => by rw [hfmt] at h; cases h)) ?_
          rintro st' ⟨h1, h2, h3, h4⟩
          exact ⟨by simp only [hr, List.length_cons] at h1 ⊢; omega, h2, (fun h => by rw [hfmt] at h; cases h), h4⟩
        · exact hstep _ (by rw [hr, List.length_cons]; omega)
      · split
        · exact hstep _ (by rw [hr]; simp)
        · exact ⟨Nat.le_refl _, hi, fun _ => ⟨rfl, rfl⟩, rfl, rfl, rfl⟩

theorem lexString_safe (cfg : Cfg) (st : Lx) (f : Bool) (t : Bytes) (hr : st.r = (if f then [102, 39] else [39]) ++ t)
    (hi : Inv cfg st) : Safe (cfg.fmt = true) (lexString cfg st f) (Post cfg st.r.length) := by
  unfold lexString
  simp only []
  have hrr : (if f = true then st.r.drop 1 else st.r) = 39 :: t := by rw [hr]; cases f <;> simp
  rw [hrr]
  have hl : st.r.length = t.length + (if f then 2 else 1) := by rw [hr]; cases f <;> simp
  generalize hm : (ascii "'''" == (39 :: t).take 3) = m
  have hx : ∃ t', (39 :: t).drop (if m = true then 3 else 1) = t' ∧ t'.length ≤ t.length :=
    ⟨_, rfl, by split <;> simp⟩
  obtain ⟨t', ht', htl⟩ := hx
  rw [ht']
  refine Safe.bind (stringLoop_safe cfg m (f && !cfg.fmt) _ ⟨t', st.dataI, [], st.toks⟩ (by simp; omega) ?_) ?_
  · intro hf
    refine ⟨?_, ?_⟩
    · rcases hi hf with h | ⟨h, _⟩ <;> simp only [List.length_nil] <;> (split at hl <;> omega)
    · intro hff
      have : f = true := by cases f <;> simp_all
      subst this
      left
      rcases hi hf with h | ⟨_, h⟩
      · simp only [List.length_nil] at hl ⊢; simp at hl; omega
      · rw [hr] at h; simp [isIdent, isIdentStart] at h
  · rintro ⟨res, x⟩ ⟨h1, h2, h3, h4, h5⟩
    simp only [] at h1 h2 h3 h4 h5 ⊢
    have hsk := skipFailed_length m x.r 0
    generalize hrx : (if res = LexResult.fail then skipFailed m 0 x.r else x.r) = rx
    have hrl : rx.length ≤ x.r.length := by rw [← hrx]; split <;> omega
    have hpos : 1 ≤ (if f = true then 2 else 1 : Nat) := by split <;> omega
    by_cases hfmt : cfg.fmt = true
    · rw [if_pos hfmt]
      refine Safe.bind (copyInto_safe cfg _ _ (fun h => by rw [hfmt] at h; cases h)) ?_
      intro d hd
      unfold Post
      cases res with
      | cont => exact absurd rfl h1
      | fail => exact ⟨by simp only; omega, by omega, fun h => by rw [hfmt] at h; cases h⟩
      | done => exact ⟨by simp only; omega, fun h => by rw [hfmt] at h; cases h⟩
    · rw [if_neg hfmt]
      unfold Post
      cases res with
      | cont => exact absurd rfl h1
      | fail =>
        refine ⟨by simp only; omega, by omega, fun h => ?_⟩
        have := (h4 (by simp) h).1
        simp only; omega
      | done =>
        refine ⟨by simp only; omega, fun h => Or.inl ?_⟩
        have := h5 h rfl
        simp only; omega

theorem signOf_length (r : Bytes) : (signOf r).2.length ≤ r.length := by
  unfold signOf; split <;> simp

theorem skipPrefix_length (base : Nat) (r : Bytes) : (skipPrefix base r).length ≤ r.length := by
  unfold skipPrefix
  split
  · split <;> simp
  · exact Nat.le_refl _

theorem strtol_length (base : Nat) (s : Bytes) (v : Int) (r : Bytes) (h : strtol base s = some (v, r)) :
    r.length < s.length ∧ ∀ p : UInt8 → Bool, p 0 = false → (∀ c, p c = true → digitVal c < base) → p (r.headD 0) = false := by
  unfold strtol at h
  have l1 := length_dropWhile_le isSpace s
  have l2 := signOf_length (s.dropWhile isSpace)
  have l3 := skipPrefix_length base (signOf (s.dropWhile isSpace)).2
  simp only [] at h
  generalize skipPrefix base (signOf (s.dropWhile isSpace)).2 = r3 at *
  split at h
  · cases h
  · next hne =>
    cases h
    have := length_tw_dw (fun c => decide (digitVal c < base)) r3
    have hpos : 0 < (r3.takeWhile fun c => decide (digitVal c < base)).length := List.length_pos_iff.2 hne
    refine ⟨by omega, fun p h0 hp => ?_⟩
    cases hd : (r3.dropWhile fun c => decide (digitVal c < base)) with
    | nil => simpa using h0
    | cons c t =>
      have hc := List.head_dropWhile_not (p := fun c => decide (digitVal c < base)) (l := r3) (by rw [hd]; simp)
      simp only [hd, List.head_cons, decide_eq_false_iff_not] at hc
      simp only [List.headD_cons]
      cases hpc : p c with
      | false => rfl
      | true => exact absurd (hp c hpc) hc

theorem number_safe (cfg : Cfg) (st : Lx) (hd : isDigit (st.r.headD 0) = true) (hi : Inv cfg st) :
    Safe (cfg.fmt = true) (number cfg st) (Post cfg st.r.length) := by
  have hid : isIdent (st.r.headD 0) = true := by unfold isIdent; rw [hd]; simp
  have hi' : cfg.fmt = false → st.dataI + st.r.length ≤ cfg.len := by
    intro h
    rcases hi h with h | ⟨_, h⟩
    · exact h
    · rw [hid] at h; cases h
  have hpos : 0 < st.r.length := by
    cases hr : st.r with
    | nil => rw [hr] at hd; simp [isDigit] at hd
    | cons => simp
  unfold number
  simp only []
  generalize hb : numberBase st.r = b
  have hlen : b.2.length ≤ st.r.length ∧ (b.1 = 0 → b.2.length < st.r.length) := by
    rw [← hb]
    unfold numberBase
    split
    · next c r hr =>
      rw [hr]
      split
      · simp; omega
      · split
        · simp; omega
        · split
          · simp; omega
          · simp
    · next hr => rw [hr]; simp
    · exact ⟨Nat.le_refl _, fun h => by simp at h⟩
  have fin : ∀ (r : Bytes) (t : Tok), r.length < st.r.length →
      Post cfg st.r.length (.cont, { st with r, toks := st.toks ++ [t] }) := by
    intro r t hr
    refine ⟨hr, fun h => Or.inl ?_⟩
    have := hi' h
    simp only; omega
  have finF : ∀ (r : Bytes) (d : Nat) (t : Tok), cfg.fmt = true → r.length < st.r.length →
      Post cfg st.r.length (.cont, { st with r, dataI := d, toks := st.toks ++ [t] }) := by
    intro r d t hf hr
    exact ⟨hr, fun h => by rw [hf] at h; cases h⟩
  have fail : Post cfg st.r.length (.fail, { st with r := b.2 }) := by
    refine ⟨hlen.1, hpos, fun h => ?_⟩
    have := hi' h
    simp only; omega
  split
  · next h0 =>
    split
    · next hf =>
      refine Safe.bind (copyInto_safe cfg _ _ (fun h => by rw [hf] at h; cases h)) ?_
      intro d _
      exact finF _ _ _ hf (hlen.2 h0)
    · exact fin _ _ (hlen.2 h0)
  · split
    · exact fail
    · next v r' hs =>
      have := (strtol_length _ _ _ _ hs).1
      split
      · exact fail
      · split
        · next hf =>
          refine Safe.bind (copyInto_safe cfg _ _ (fun h => by rw [hf] at h; cases h)) ?_
          intro d _
          exact finF _ _ _ hf (by omega)
        · exact fin _ _ (by omega)

theorem operator_length (cfg : Cfg) (c n : UInt8) (t : Tok) (k : Nat) (h : operator cfg c n = some (t, k)) :
    1 ≤ k ∧ (k = 2 → n ≠ 0) ∧ k ≤ 2 := by
  revert t k h
  have ite : ∀ (p : Prop) [Decidable p] (a b : Option (Tok × Nat)),
      (p → ∀ t k, a = some (t, k) → 1 ≤ k ∧ (k = 2 → n ≠ 0) ∧ k ≤ 2) →
      (∀ t k, b = some (t, k) → 1 ≤ k ∧ (k = 2 → n ≠ 0) ∧ k ≤ 2) →
      ∀ t k, (if p then a else b) = some (t, k) → 1 ≤ k ∧ (k = 2 → n ≠ 0) ∧ k ≤ 2 := by
    intro p _ a b h1 h2
    split
    · next hp => exact h1 hp
    · exact h2
  have one : ∀ (x : Tok) t k, some (x, 1) = some (t, k) → 1 ≤ k ∧ (k = 2 → n ≠ 0) ∧ k ≤ 2 := by
    rintro x t k h; cases h; simp
  have non : ∀ t k, (none : Option (Tok × Nat)) = some (t, k) → 1 ≤ k ∧ (k = 2 → n ≠ 0) ∧ k ≤ 2 := by
    rintro t k h; cases h
  have two : ∀ (x : Tok), n = 61 ∨ n = 62 → ∀ t k, some (x, 2) = some (t, k) → 1 ≤ k ∧ (k = 2 → n ≠ 0) ∧ k ≤ 2 := by
    rintro x (rfl | rfl) t k h <;> cases h <;> simp
  unfold operator
  repeat' first
    | exact one _
    | exact non
    | exact two _ (Or.inl (by assumption))
    | exact two _ (Or.inr (by rename_i h; rw [Bool.and_eq_true, beq_iff_eq] at h; exact h.2))
    | (apply ite; intro _)
    | apply ite

theorem lexOne_safe (cfg : Cfg) : ∀ (fuel : Nat) (st : Lx), st.r.length < fuel → Inv cfg st →
    Safe (cfg.fmt = true) (lexOne cfg fuel st) (fun p => (p.1 = .done ∧ ∃ ts, p.2.toks = ts ++ [.eof]) ∨
      (p.1 ≠ .done ∧ Post cfg st.r.length p)) := by
  intro fuel
  induction fuel with
  | zero => intro st h; omega
  | succ fuel ih =>
    intro st0 hf hi0
    rw [lexOne]
    refine Safe.bind (skip_safe cfg _ st0 (by omega) hi0) ?_
    rintro st ⟨hlen, hi, _⟩
    have weak : ∀ p, Post cfg st.r.length p → Post cfg st0.r.length p := by
      rintro ⟨res, p⟩ h
      cases res with
      | cont => exact ⟨by have := h.1; omega, h.2⟩
      | fail => exact ⟨by have := h.1; omega, by have := h.2.1; omega, h.2.2⟩
      | done => exact h
    split
    · exact Or.inl ⟨rfl, _, rfl⟩
    · next c r hr =>
      have hl : st.r.length = r.length + 1 := by rw [hr]; simp
      have one : ∀ (st' : Lx), st'.r.length < st.r.length → st'.dataI = st.dataI →
          (LexResult.cont = .done ∧ ∃ ts, st'.toks = ts ++ [.eof]) ∨ (LexResult.cont ≠ .done ∧ Post cfg st0.r.length (.cont, st')) := by
        intro st' h1 h2
        refine Or.inr ⟨by simp, weak _ ⟨h1, fun h => Or.inl ?_⟩⟩
        simp only [h2]
        rcases hi h with h3 | ⟨h3, _⟩ <;> omega
      have bad : (LexResult.fail = .done ∧ ∃ ts, st.toks = ts ++ [.eof]) ∨ (LexResult.fail ≠ .done ∧ Post cfg st0.r.length (.fail, st)) := by
        refine Or.inr ⟨by simp, weak _ ⟨Nat.le_refl _, by omega, fun h => ?_⟩⟩
        rcases hi h with h3 | ⟨h3, _⟩ <;> simp only <;> omega
      have str : ∀ f t, st.r = (if f then [102, 39] else [39]) ++ t → Safe (cfg.fmt = true) (lexString cfg st f)
          (fun p => (p.1 = .done ∧ ∃ ts, p.2.toks = ts ++ [.eof]) ∨ (p.1 ≠ .done ∧ Post cfg st0.r.length p)) := by
        intro f t h
        refine Safe.mono (lexString_safe cfg st f t h hi) ?_
        rintro ⟨res, p⟩ hp
        cases res with
        | cont => exact Or.inr ⟨by simp, weak _ hp⟩
        | fail => exact Or.inr ⟨by simp, weak _ hp⟩
        | done => exact Or.inl ⟨rfl, hp⟩
      refine Safe.ite (fun _ => ?_) (fun _ => ?_)
      · refine Safe.mono (ih { st with r := r.drop 1 } (by simp; omega) (fun h => Or.inl ?_)) ?_
        · rcases hi h with h3 | ⟨h3, _⟩ <;> simp only [List.length_drop] <;> omega
        · rintro ⟨res, p⟩ hp
          rcases hp with hp | ⟨h1, hp⟩
          · exact Or.inl hp
          · refine Or.inr ⟨h1, ?_⟩
            cases res with
            | cont => exact ⟨by have := hp.1; simp only [List.length_drop] at this ⊢; omega, hp.2⟩
            | fail => exact ⟨by have := hp.1; simp only [List.length_drop] at this ⊢; omega, by omega, hp.2.2⟩
            | done => exact hp
      refine Safe.ite (fun hc => ?_) (fun _ => ?_)
      · obtain ⟨rfl, hn⟩ := hc
        cases r with
        | nil => simp at hn
        | cons d r =>
          simp at hn; subst hn
          exact str true r (by rw [hr]; rfl)
      refine Safe.ite (fun hc => ?_) (fun _ => ?_)
      · subst hc; exact str false r (by rw [hr]; rfl)
      refine Safe.ite (fun hc => ?_) (fun _ => ?_)
      · have hid : isIdent (st.r.headD 0) = true := by rw [hr]; simp [isIdent, hc]
        refine Safe.bind (identifier_safe cfg _ st.r 0 hid ?_) ?_
        · intro h
          rcases hi h with h3 | ⟨_, h3⟩
          · omega
          · rw [hid] at h3; cases h3
        · rintro ⟨t, d, r'⟩ ⟨h1, h2, h3, h4⟩
          refine Or.inr ⟨by simp, weak _ ⟨h2, fun h => Or.inr ⟨?_, h3⟩⟩⟩
          have := h4 h
          simp only at this ⊢; omega
      refine Safe.ite (fun hc => ?_) (fun _ => ?_)
      · refine Safe.mono (number_safe cfg st (by rw [hr]; simpa using hc) hi) ?_
        rintro ⟨res, p⟩ hp
        cases res with
        | cont => exact Or.inr ⟨by simp, weak _ hp⟩
        | fail => exact Or.inr ⟨by simp, weak _ hp⟩
        | done => exact Or.inl ⟨rfl, hp⟩
      have hr' : r.length < st.r.length := by omega
      refine Safe.ite (fun _ => Safe.ite (fun _ => one _ hr' rfl) (fun _ => one _ hr' rfl)) (fun _ => ?_)
      refine Safe.ite (fun _ => one _ hr' rfl) (fun _ => ?_)
      refine Safe.ite (fun _ => Safe.ite (fun _ => bad) (fun _ => one _ hr' rfl)) (fun _ => ?_)
      refine Safe.ite (fun _ => one _ hr' rfl) (fun _ => ?_)
      refine Safe.ite (fun _ => Safe.ite (fun _ => bad) (fun _ => one _ hr' rfl)) (fun _ => ?_)
      refine Safe.ite (fun _ => one _ hr' rfl) (fun _ => ?_)
      refine Safe.ite (fun _ => Safe.ite (fun _ => bad) (fun _ => one _ hr' rfl)) (fun _ => ?_)
      cases ho : operator cfg c (r.headD 0) with
      | none => exact bad
      | some p =>
        obtain ⟨t, n⟩ := p
        have := operator_length _ _ _ _ _ ho
        exact one _ (by simp; omega) rfl

theorem tokenize_safe (cfg : Cfg) : ∀ (fuel : Nat) (b : Bool) (st : Lx), st.r.length < fuel → Inv cfg st →
    Safe (cfg.fmt = true) (tokenize cfg fuel b st) (fun p => ∃ ts, p.2 = ts ++ [.eof]) := by
  intro fuel
  induction fuel with
  | zero => intro b st h; omega
  | succ fuel ih =>
    intro b st hf hi
    rw [tokenize]
    refine Safe.bind (lexOne_safe cfg _ st (by omega) hi) ?_
    rintro ⟨res, st'⟩ (⟨h1, h2⟩ | ⟨h1, h2⟩)
    · simp only [] at h1; subst h1; exact h2
    · cases res with
      | done => exact absurd rfl h1
      | cont => exact ih b st' (by have := h2.1; simp only at this; omega) h2.2
      | fail =>
        obtain ⟨h2, h3, h4⟩ := h2
        simp only [] at h2 h4
        refine ih false _ (by simp only [List.length_drop]; omega) (fun h => ?_)
        have := h4 h
        cases hr : st'.r with
        | nil => right; rw [hr] at this; simp at this ⊢; exact ⟨this, not_ident_zero⟩
        | cons c r => left; rw [hr] at this; simp at this ⊢; omega

end Muon.Lex
