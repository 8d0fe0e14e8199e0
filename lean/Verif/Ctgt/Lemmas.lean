import Verif.Ctgt.Spec
import Verif.Path.Props
import Verif.Str.Format

namespace Muon.Ctgt
open Muon Muon.Ctgt.Spec

/-! ### Texts -/

theorem emit_ok {e : Bytes} {r : Res Bytes} {t : Bytes} : emit e r = .ok t ↔ ∃ u, r = .ok u ∧ t = e ++ u := by
  unfold emit
  rw [Res.bind_eq_ok]
  constructor
  · rintro ⟨u, h1, h2⟩; cases h2; exact ⟨u, h1, rfl⟩
  · rintro ⟨u, h1, rfl⟩; exact ⟨u, h1, rfl⟩

theorem emit_emit (e f : Bytes) (r : Res Bytes) : emit e (emit f r) = emit (e ++ f) r := by
  cases r <;> simp [emit, Bind.bind, Res.bind]

theorem emit_nil (r : Res Bytes) : emit [] r = r := by cases r <;> simp [emit, Bind.bind, Res.bind]

/-- The text with the values of the keys, one after the other. -/
def fill (cb : Bytes → Res (Option Bytes)) : List Piece → Res Bytes
  | [] => .ok []
  | .text t :: ps => emit t (fill cb ps)
  | .at_ :: ps => emit [64] (fill cb ps)
  | .key k :: ps => cb k >>= fun v => emit (v.getD []) (fill cb ps)

theorem fmt_at (cb : Bytes → Res (Option Bytes)) (k e s : Bytes) : fmt cb false k e (64 :: s) = emit e (fmt cb true [] (e ++ [64]) s) := by
  rw [fmt.eq_def]; simp

theorem fmt_end (cb : Bytes → Res (Option Bytes)) (k e s : Bytes) : fmt cb true k e (64 :: s) =
    if k = [] then emit [64] (fmt cb true [] [] s)
    else cb k >>= fun v =>
      match v with
      | some v => emit v (fmt cb false [] [] s)
      | none => emit (64 :: k) (fmt cb true [] (k ++ [64]) s) := by
  rw [fmt.eq_def]
  simp only [if_true, Bool.not_true, Bool.false_eq_true, if_false]
  congr 2

theorem fmt_esc (cb : Bytes → Res (Option Bytes)) (r : Bool) (k e s : Bytes) : fmt cb r k e (92 :: 64 :: s) =
    emit (if r then 64 :: e else e) (fmt cb false [] [64] s) := by
  rw [fmt.eq_def]; cases r <;> simp

theorem fmt_other (cb : Bytes → Res (Option Bytes)) (r : Bool) (k e : Bytes) {c : UInt8} {s : Bytes} (hc : c ≠ 64)
    (hs : c = 92 → s.head? ≠ some 64) : fmt cb r k e (c :: s) = fmt cb r (k ++ [c]) (e ++ [c]) s := by
  rw [fmt.eq_def]
  by_cases h92 : c = 92
  · have hs := hs h92
    cases r <;> simp only [if_neg hc, if_pos h92] <;>
      (split
       · next h => simp at hs
       · rfl)
  · cases r <;> simp only [if_neg hc, if_neg h92]

theorem head_ne {c : UInt8} {t r : Bytes} (h : 64 ∉ t) (hl : (c :: t).getLast? ≠ some 92) : c = 92 → (t ++ r).head? ≠ some 64 := by
  intro hc
  cases t with
  | nil => simp [hc] at hl
  | cons d t => simp; intro hd; exact h (by simp [hd])

theorem fmt_text (cb : Bytes → Res (Option Bytes)) (t r : Bytes) (h : 64 ∉ t) (hl : t.getLast? ≠ some 92) : ∀ (k e : Bytes),
    ∃ k', fmt cb false k e (t ++ r) = fmt cb false k' (e ++ t) r := by
  induction t with
  | nil => intro k e; exact ⟨k, by simp⟩
  | cons c t ih =>
    intro k e
    have hc : c ≠ 64 := fun hc => h (by simp [hc])
    have ht : 64 ∉ t := fun ht => h (by simp [ht])
    have hl' : t.getLast? ≠ some 92 := by
      cases t with
      | nil => simp
      | cons d t => simpa using hl
    obtain ⟨k', hk⟩ := ih ht hl' (k ++ [c]) (e ++ [c])
    refine ⟨k', ?_⟩
    rw [show e ++ c :: t = e ++ [c] ++ t by simp, ← hk]
    exact fmt_other cb false k e hc (head_ne ht hl)

theorem fmt_key (cb : Bytes → Res (Option Bytes)) (t r : Bytes) (h : 64 ∉ t) (hl : t.getLast? ≠ some 92) : ∀ (k e : Bytes), k ++ t ≠ [] →
    fmt cb true k e (t ++ 64 :: r) = cb (k ++ t) >>= fun v =>
      match v with
      | some v => emit v (fmt cb false [] [] r)
      | none => emit (64 :: (k ++ t)) (fmt cb true [] (k ++ t ++ [64]) r) := by
  induction t with
  | nil =>
    intro k e hk
    simp only [List.append_nil] at hk ⊢
    rw [List.nil_append, fmt_end, if_neg hk]
  | cons c t ih =>
    intro k e _
    have hc : c ≠ 64 := fun hc => h (by simp [hc])
    have ht : 64 ∉ t := fun ht => h (by simp [ht])
    have hl' : t.getLast? ≠ some 92 := by
      cases t with
      | nil => simp
      | cons d t => simpa using hl
    have e1 : k ++ c :: t = k ++ [c] ++ t := by simp
    rw [e1, ← ih ht hl' (k ++ [c]) (e ++ [c]) (by simp)]
    exact fmt_other cb true k e hc (head_ne ht hl)

theorem fmt_pieces (cb : Bytes → Res (Option Bytes)) (ps : List Piece) (hok : ∀ p ∈ ps, p.Ok)
    (hkey : ∀ k, Piece.key k ∈ ps → cb k ≠ .ok none) : ∀ (k e : Bytes), fmt cb false k e (written ps) = emit e (fill cb ps) := by
  induction ps with
  | nil => intro k e; simp [written, fmt, fill, emit, Bind.bind, Res.bind]
  | cons p ps ih =>
    intro k e
    have ih := ih (fun q hq => hok q (by simp [hq])) (fun k hk => hkey k (by simp [hk]))
    have hp := hok p (by simp)
    have hw : written (p :: ps) = p.written ++ written ps := by simp [written]
    rw [hw]
    cases p with
    | text t =>
      obtain ⟨k', hk⟩ := fmt_text cb t (written ps) hp.1 hp.2 k e
      simp only [Piece.written]
      rw [hk, ih, fill, emit_emit]
    | at_ =>
      simp only [Piece.written, List.cons_append, List.nil_append]
      rw [fmt_esc, ih, fill]
      simp only [Bool.false_eq_true, if_false]
    | key q =>
      have h1 : Piece.written (.key q) ++ written ps = 64 :: (q ++ 64 :: written ps) := by simp [Piece.written]
      rw [h1, fmt_at]
      rw [fmt_key cb q _ hp.2.1 hp.2.2 _ _ (by simpa using hp.1)]
      rw [fill]
      have hq := hkey q (by simp)
      simp only [List.nil_append]
      cases hc : cb q with
      | error => rfl
      | bad => rfl
      | ok v =>
        cases v with
        | none => exact absurd hc hq
        | some v =>
          simp only [Res.ok_bind, Option.getD_some]
          rw [ih, emit_nil]

theorem format_pieces (cb : Bytes → Res (Option Bytes)) (ps : List Piece) (hok : ∀ p ∈ ps, p.Ok)
    (hkey : ∀ k, Piece.key k ∈ ps → cb k ≠ .ok none) : format cb (written ps) = fill cb ps := by
  rw [format, fmt_pieces cb ps hok hkey, emit_nil]

theorem fill_filled (cb : Bytes → Res (Option Bytes)) (V : Bytes → Bytes → Prop) (ps : List Piece)
    (h : ∀ k v, Piece.key k ∈ ps → cb k = .ok (some v) → V k v) (hkey : ∀ k, Piece.key k ∈ ps → cb k ≠ .ok none) :
    ∀ t, fill cb ps = .ok t → Filled V ps t := by
  induction ps with
  | nil => intro t ht; simp [fill] at ht; subst ht; exact .nil
  | cons p ps ih =>
    intro t ht
    have ih := ih (fun k v hk => h k v (by simp [hk])) (fun k hk => hkey k (by simp [hk]))
    cases p with
    | text x =>
      rw [fill, emit_ok] at ht
      obtain ⟨u, h1, rfl⟩ := ht
      exact .text x (ih u h1)
    | at_ =>
      rw [fill, emit_ok] at ht
      obtain ⟨u, h1, rfl⟩ := ht
      exact .at_ (ih u h1)
    | key k =>
      rw [fill, Res.bind_eq_ok] at ht
      obtain ⟨v, h1, h2⟩ := ht
      rw [emit_ok] at h2
      obtain ⟨u, h2, rfl⟩ := h2
      cases v with
      | none => exact absurd h1 (hkey k (by simp))
      | some v => exact .key (h k v (by simp) h1) (ih u h2)

theorem filled_fill (cb : Bytes → Res (Option Bytes)) (V : Bytes → Bytes → Prop) {ps : List Piece} {t : Bytes} (hf : Filled V ps t)
    (h : ∀ k v, V k v → ∃ v', cb k = .ok (some v')) : ∃ t', fill cb ps = .ok t' := by
  induction hf with
  | nil => exact ⟨[], rfl⟩
  | text x _ ih =>
    obtain ⟨t', ht⟩ := ih
    exact ⟨x ++ t', by rw [fill, ht]; rfl⟩
  | at_ _ ih =>
    obtain ⟨t', ht⟩ := ih
    exact ⟨[64] ++ t', by rw [fill, ht]; rfl⟩
  | key hv _ ih =>
    obtain ⟨t', ht⟩ := ih
    obtain ⟨v', hv'⟩ := h _ _ hv
    exact ⟨v' ++ t', by rw [fill, hv', ht]; rfl⟩

/-! ### Paths -/

theorem abs_iff (p : Bytes) : Path.isAbsolute p = true ↔ p.head? = some 47 := by
  rw [Path.isAbsolute_eq]
  cases p <;> simp [Path.Spec.isAbs]

theorem relative_word {E : Env} {o : Opts} {first : Bool} {p w : Bytes} (h : relative E o first p = .ok w) : Word E.build o.relativize p w := by
  unfold relative at h
  unfold Word
  cases hr : o.relativize with
  | false => rw [hr] at h; simp at h; simp [h]
  | true =>
    rw [hr] at h
    simp only [Bool.not_true, Bool.false_eq_true, if_false, true_and] at h ⊢
    by_cases ha : Path.isAbsolute p = true
    · rw [if_pos ((abs_iff p).mp ha)]
      rw [ha] at h
      simp only [Bool.not_true, Bool.false_eq_true, if_false] at h
      rw [Res.bind_eq_ok] at h
      obtain ⟨r, h1, h2⟩ := h
      refine ⟨r, h1, ?_⟩
      cases first <;> simp at h2 <;> simp [h2]
    · rw [if_neg (fun h => ha ((abs_iff p).mpr h))]
      simp [ha] at h
      exact h.symm

theorem word_relative {E : Env} {o : Opts} {p w : Bytes} (h : Word E.build o.relativize p w) (first : Bool) : ∃ w', relative E o first p = .ok w' := by
  unfold Word at h
  unfold relative
  cases hr : o.relativize with
  | false => exact ⟨p, by simp⟩
  | true =>
    rw [hr] at h
    simp only [Bool.not_true, Bool.false_eq_true, if_false, true_and] at h ⊢
    by_cases ha : Path.isAbsolute p = true
    · rw [if_pos ((abs_iff p).mp ha)] at h
      obtain ⟨r, h1, _⟩ := h
      rw [ha, h1]
      simp
    · simp [ha]

theorem files_words {E : Env} {o : Opts} {dep : Bool} : ∀ {l : List Bytes} {st st' : St}, files E o dep l st = .ok st' →
    ∃ ws, Words E.build o.relativize l ws ∧ st'.res = st.res ++ ws ∧ st'.deps = st.deps ++ (if dep then ws else []) := by
  intro l
  induction l with
  | nil => intro st st' h; simp [files] at h; subst h; exact ⟨[], .nil, by simp, by simp⟩
  | cons p l ih =>
    intro st st' h
    rw [files, Res.bind_eq_ok] at h
    obtain ⟨w, h1, h2⟩ := h
    obtain ⟨ws, h3, h4, h5⟩ := ih h2
    refine ⟨w :: ws, .cons (relative_word h1) h3, ?_, ?_⟩
    · rw [h4]; simp [St.push]
    · rw [h5]; cases dep <;> simp [St.push]

theorem words_files {E : Env} {o : Opts} {dep : Bool} {l ws : List Bytes} (h : Words E.build o.relativize l ws) :
    ∀ st, ∃ st', files E o dep l st = .ok st' := by
  induction h with
  | nil => intro st; exact ⟨st, rfl⟩
  | cons hw _ ih =>
    intro st
    obtain ⟨w', h1⟩ := word_relative hw (st.i = 0)
    obtain ⟨st', h2⟩ := ih (st.push w' dep)
    exact ⟨st', by rw [files, h1]; exact h2⟩

/-! ### Keys -/

theorem named_index (E : Env) (o : Opts) (ds : Bytes) (h : ds ≠ []) : named E o (ascii "INPUT" ++ ds) = none ∧ named E o (ascii "OUTPUT" ++ ds) = none := by
  have hI : ∀ n : Bytes, n.take 5 ≠ ascii "INPUT" ∨ n = ascii "INPUT" → ascii "INPUT" ++ ds ≠ n := by
    intro n hn he
    rcases hn with hn | hn
    · exact hn (by rw [← he]; rfl)
    · rw [hn] at he
      exact h (by simpa using he)
  have hO : ∀ n : Bytes, n.take 6 ≠ ascii "OUTPUT" ∨ n = ascii "OUTPUT" → ascii "OUTPUT" ++ ds ≠ n := by
    intro n hn he
    rcases hn with hn | hn
    · exact hn (by rw [← he]; rfl)
    · rw [hn] at he
      exact h (by simpa using he)
  constructor
  · unfold named
    repeat rw [if_neg (hI _ (by decide +kernel))]
  · unfold named
    repeat rw [if_neg (hO _ (by decide +kernel))]

theorem plusIndex_digits (pre ds : Bytes) (hne : ds ≠ []) (hd : ∀ c ∈ ds, isDigit c = true) :
    plusIndex (pre ++ ds) pre = some (min Str.int64Max (number ds : Int)) := by
  have hp : pre.isPrefixOf (pre ++ ds) = true := by simp
  have hl : (pre ++ ds).length - pre.length = ds.length := by simp
  have hdr : (pre ++ ds).drop pre.length = ds := by simp
  unfold plusIndex
  rw [hp, hl, hdr]
  simp only [if_true]
  have hst := Str.strtol_digits false ds [64] hne hd (by simp; decide)
  simp only [Bool.false_eq_true, if_false, List.nil_append, Nat.zero_add] at hst
  have hn : (number ds : Int) = (Str.digitsVal ds : Int) := by
    rw [← Str.natVal_eq]; rfl
  have hm : max Str.int64Min (min Str.int64Max (Str.digitsVal ds : Int)) = min Str.int64Max (Str.digitsVal ds : Int) := by
    simp only [Str.int64Max, Str.int64Min]; omega
  simp only [Str.strToI, Bool.false_eq_true, if_false, List.drop_zero, hst, Nat.zero_add, if_true, hm, hn]

theorem element_some (l : List Bytes) (n : Nat) (hl : l.length < 2 ^ 32) :
    element (some l) (min Str.int64Max (n : Int)) = match l[n]? with | some p => .ok p | none => .error := by
  have hnn : ¬ min Str.int64Max (n : Int) < 0 := by simp only [Str.int64Max]; omega
  simp only [element, Str.indexArray, Str.boundsAdjust, hnn, if_false]
  by_cases h : n < l.length
  · have h1 : min Str.int64Max (n : Int) = (n : Int) := by simp only [Str.int64Max]; omega
    have h2 : (n : Int) < (l.length : Int) := by omega
    rw [h1]
    simp [h2, Str.arrayIndex, List.getElem?_eq_getElem h]
  · have h2 : ¬ min Str.int64Max (n : Int) < (l.length : Int) := by simp only [Str.int64Max]; omega
    have h3 : l[n]? = none := List.getElem?_eq_none (by omega)
    simp [h2, h3]

theorem need_ok {α : Type} {a : Option α} {x : α} : need a = .ok x ↔ a = some x := by
  cases a <;> simp [need]

theorem head_ok {l : List Bytes} {p : Bytes} : head l = .ok p ↔ ∃ r, l = p :: r := by
  cases l <;> simp [head]

theorem only_ok {l : List Bytes} {p : Bytes} : only l = .ok p ↔ l = [p] := by
  match l with
  | [] => simp [only]
  | [q] => simp [only]
  | _ :: _ :: _ => simp [only]

/-- The path of a key that there is. -/
def pathOf (E : Env) (o : Opts) (k : Bytes) : Res Bytes :=
  match named E o k with
  | some p => p
  | none =>
    match indexed o k with
    | some p => p
    | none => .error

theorem named_lit (E : Env) (o : Opts) {k : Bytes}
    (h : k ∈ ["INPUT", "OUTPUT", "OUTDIR", "DEPFILE", "PLAINNAME", "BASENAME", "PRIVATE_DIR", "SOURCE_ROOT", "BUILD_ROOT", "BUILD_DIR",
      "CURRENT_SOURCE_DIR"].map ascii) : ∃ r, named E o k = some r ∧ (∀ p, r = .ok p ↔ Path' E o k p) := by
  simp only [List.map_cons, List.map_nil, List.mem_cons, List.not_mem_nil, or_false] at h
  have hx : ∀ {P : Bytes} {k ds : Bytes}, P ++ ds = k → ds ≠ [] → k.take P.length ≠ P ∨ k = P → False := by
    intro P k ds he hne h
    rcases h with h | h
    · exact h (by rw [← he]; simp)
    · rw [h] at he; exact hne (by simpa using he)
  rcases h with h | h | h | h | h | h | h | h | h | h | h <;> subst h
  · refine ⟨_, rfl, fun p => ?_⟩
    rw [Res.bind_eq_ok]
    constructor
    · rintro ⟨l, h1, h2⟩
      rw [need_ok] at h1; rw [head_ok] at h2
      obtain ⟨r, rfl⟩ := h2
      exact .input h1
    · intro h
      generalize hk : ascii "INPUT" = k at h
      cases h
      case input l hi => exact ⟨_, need_ok.mpr hi, head_ok.mpr ⟨l, rfl⟩⟩
      case inputN h1 _ _ _ => exact absurd hk (by simpa using h1)
      case outputN h1 _ _ _ => exact (hx hk.symm h1 (by decide +kernel)).elim
      all_goals exact absurd hk (by decide +kernel)
  · refine ⟨_, rfl, fun p => ?_⟩
    constructor
    · intro h
      rw [Res.bind_eq_ok] at h
      obtain ⟨l, h1, h2⟩ := h
      rw [need_ok] at h1; rw [head_ok] at h2
      obtain ⟨r, rfl⟩ := h2
      exact .output h1
    · intro h
      generalize hk : ascii "OUTPUT" = k at h
      cases h
      case output l hi => exact Res.bind_eq_ok.mpr ⟨_, need_ok.mpr hi, head_ok.mpr ⟨l, rfl⟩⟩
      case inputN h1 _ _ _ => exact (hx hk.symm h1 (by decide +kernel)).elim
      case outputN h1 _ _ _ => exact (hx hk.symm h1 (by decide +kernel)).elim
      all_goals exact absurd hk (by decide +kernel)
  · refine ⟨_, rfl, fun p => ?_⟩
    constructor
    · intro h
      rw [Res.bind_eq_ok] at h
      obtain ⟨l, h1, h2⟩ := h
      rw [need_ok] at h1; cases h2
      exact .outdir h1
    · intro h
      generalize hk : ascii "OUTDIR" = k at h
      cases h
      case outdir l hi => exact Res.bind_eq_ok.mpr ⟨_, need_ok.mpr hi, rfl⟩
      case inputN h1 _ _ _ => exact (hx hk.symm h1 (by decide +kernel)).elim
      case outputN h1 _ _ _ => exact (hx hk.symm h1 (by decide +kernel)).elim
      all_goals exact absurd hk (by decide +kernel)
  · refine ⟨_, rfl, fun p => ?_⟩
    constructor
    · intro h
      exact .depfile (need_ok.mp h)
    · intro h
      generalize hk : ascii "DEPFILE" = k at h
      cases h
      case depfile hi => exact need_ok.mpr hi
      case inputN h1 _ _ _ => exact (hx hk.symm h1 (by decide +kernel)).elim
      case outputN h1 _ _ _ => exact (hx hk.symm h1 (by decide +kernel)).elim
      all_goals exact absurd hk (by decide +kernel)
  · refine ⟨_, rfl, fun p => ?_⟩
    constructor
    · intro h
      rw [Res.bind_eq_ok] at h
      obtain ⟨q, h1, h2⟩ := h
      rw [Res.bind_eq_ok] at h1
      obtain ⟨l, h1, h3⟩ := h1
      rw [need_ok] at h1; rw [only_ok] at h3; cases h2; subst h3
      exact .plain h1
    · intro h
      generalize hk : ascii "PLAINNAME" = k at h
      cases h
      case plain q hi => exact Res.bind_eq_ok.mpr ⟨q, Res.bind_eq_ok.mpr ⟨_, need_ok.mpr hi, only_ok.mpr rfl⟩, rfl⟩
      case inputN h1 _ _ _ => exact (hx hk.symm h1 (by decide +kernel)).elim
      case outputN h1 _ _ _ => exact (hx hk.symm h1 (by decide +kernel)).elim
      all_goals exact absurd hk (by decide +kernel)
  · refine ⟨_, rfl, fun p => ?_⟩
    constructor
    · intro h
      rw [Res.bind_eq_ok] at h
      obtain ⟨q, h1, h2⟩ := h
      rw [Res.bind_eq_ok] at h1
      obtain ⟨l, h1, h3⟩ := h1
      rw [need_ok] at h1; rw [only_ok] at h3; cases h2; subst h3
      exact .base h1
    · intro h
      generalize hk : ascii "BASENAME" = k at h
      cases h
      case base q hi => exact Res.bind_eq_ok.mpr ⟨q, Res.bind_eq_ok.mpr ⟨_, need_ok.mpr hi, only_ok.mpr rfl⟩, rfl⟩
      case inputN h1 _ _ _ => exact (hx hk.symm h1 (by decide +kernel)).elim
      case outputN h1 _ _ _ => exact (hx hk.symm h1 (by decide +kernel)).elim
      all_goals exact absurd hk (by decide +kernel)
  · refine ⟨_, rfl, fun p => ?_⟩
    constructor
    · intro h
      rw [Res.bind_eq_ok] at h
      obtain ⟨l, h1, h2⟩ := h
      rw [Res.bind_eq_ok] at h2
      obtain ⟨n, h2, h3⟩ := h2
      rw [need_ok] at h1 h2; cases h3
      exact .priv h1 h2
    · intro h
      generalize hk : ascii "PRIVATE_DIR" = k at h
      cases h
      case priv l n hi hn => exact Res.bind_eq_ok.mpr ⟨l, need_ok.mpr hi, Res.bind_eq_ok.mpr ⟨n, need_ok.mpr hn, rfl⟩⟩
      case inputN h1 _ _ _ => exact (hx hk.symm h1 (by decide +kernel)).elim
      case outputN h1 _ _ _ => exact (hx hk.symm h1 (by decide +kernel)).elim
      all_goals exact absurd hk (by decide +kernel)
  · refine ⟨_, rfl, fun p => ?_⟩
    constructor
    · intro h
      cases h
      exact .source
    · intro h
      generalize hk : ascii "SOURCE_ROOT" = k at h
      cases h
      case source => rfl
      case inputN h1 _ _ _ => exact (hx hk.symm h1 (by decide +kernel)).elim
      case outputN h1 _ _ _ => exact (hx hk.symm h1 (by decide +kernel)).elim
      all_goals exact absurd hk (by decide +kernel)
  · refine ⟨_, rfl, fun p => ?_⟩
    constructor
    · intro h
      cases h
      exact .build
    · intro h
      generalize hk : ascii "BUILD_ROOT" = k at h
      cases h
      case build => rfl
      case inputN h1 _ _ _ => exact (hx hk.symm h1 (by decide +kernel)).elim
      case outputN h1 _ _ _ => exact (hx hk.symm h1 (by decide +kernel)).elim
      all_goals exact absurd hk (by decide +kernel)
  · refine ⟨_, rfl, fun p => ?_⟩
    constructor
    · intro h
      exact .buildDir (need_ok.mp h)
    · intro h
      generalize hk : ascii "BUILD_DIR" = k at h
      cases h
      case buildDir hi => exact need_ok.mpr hi
      case inputN h1 _ _ _ => exact (hx hk.symm h1 (by decide +kernel)).elim
      case outputN h1 _ _ _ => exact (hx hk.symm h1 (by decide +kernel)).elim
      all_goals exact absurd hk (by decide +kernel)
  · refine ⟨_, rfl, fun p => ?_⟩
    constructor
    · intro h
      cases h
      exact .cwd
    · intro h
      generalize hk : ascii "CURRENT_SOURCE_DIR" = k at h
      cases h
      case cwd => rfl
      case inputN h1 _ _ _ => exact (hx hk.symm h1 (by decide +kernel)).elim
      case outputN h1 _ _ _ => exact (hx hk.symm h1 (by decide +kernel)).elim
      all_goals exact absurd hk (by decide +kernel)

/-- The path of a numbered key. -/
theorem indexed_path (E : Env) (o : Opts) (hi : ∀ l, o.input = some l → l.length < 2 ^ 32) (ho : ∀ l, o.output = some l → l.length < 2 ^ 32)
    {ds k : Bytes} (hne : ds ≠ []) (hd : ∀ c ∈ ds, isDigit c = true) (hk : k = ascii "INPUT" ++ ds ∨ k = ascii "OUTPUT" ++ ds) :
    ∃ r, indexed o k = some r ∧ (∀ p, r = .ok p ↔ Path' E o k p) := by
  have hx : ∀ {P : Bytes} {k ds : Bytes}, P ++ ds = k → k.take P.length ≠ P → False := by
    intro P k ds he h
    exact h (by rw [← he]; simp)
  rcases hk with hk | hk <;> subst hk
  · have h1 : indexed o (ascii "INPUT" ++ ds) = some (element o.input (min Str.int64Max (number ds : Int))) := by
      unfold indexed
      rw [plusIndex_digits _ _ hne hd]
    refine ⟨_, h1, fun p => ?_⟩
    constructor
    · intro h
      cases hin : o.input with
      | none => rw [hin] at h; simp [element] at h
      | some l =>
        rw [hin, element_some l _ (hi l hin)] at h
        cases hl : l[number ds]? with
        | none => simp [hl] at h
        | some q => rw [hl] at h; cases h; exact .inputN hne hd hin hl
    · intro h
      generalize hk : ascii "INPUT" ++ ds = k at h
      cases h
      case inputN l es e1 e2 e3 e4 =>
        have : es = ds := by simpa using hk.symm
        subst this
        rw [e3, element_some l _ (hi l e3), e4]
      case outputN l es e1 e2 e3 e4 =>
        have := congrArg List.head? hk
        simp [ascii] at this
      case input => exact absurd hk (by simpa using hne)
      all_goals exact (hx hk (by decide +kernel)).elim
  · have h0 : plusIndex (ascii "OUTPUT" ++ ds) (ascii "INPUT") = none := by
      unfold plusIndex
      rw [if_neg]
      intro h
      rw [List.isPrefixOf_iff_prefix] at h
      obtain ⟨t, ht⟩ := h
      have := congrArg List.head? ht
      revert this
      exact (by decide : ¬ (some (73 : UInt8) = some 79))
    have h1 : indexed o (ascii "OUTPUT" ++ ds) = some (element o.output (min Str.int64Max (number ds : Int))) := by
      unfold indexed
      rw [h0, plusIndex_digits _ _ hne hd]
    refine ⟨_, h1, fun p => ?_⟩
    constructor
    · intro h
      cases hin : o.output with
      | none => rw [hin] at h; simp [element] at h
      | some l =>
        rw [hin, element_some l _ (ho l hin)] at h
        cases hl : l[number ds]? with
        | none => simp [hl] at h
        | some q => rw [hl] at h; cases h; exact .outputN hne hd hin hl
    · intro h
      generalize hk : ascii "OUTPUT" ++ ds = k at h
      cases h
      case outputN l es e1 e2 e3 e4 =>
        have : es = ds := by simpa using hk.symm
        subst this
        rw [e3, element_some l _ (ho l e3), e4]
      case inputN l es e1 e2 e3 e4 =>
        have := congrArg List.head? hk
        revert this
        exact fun h => absurd (show some (79 : UInt8) = some 73 from h) (by decide)
      case output => exact absurd hk (by simpa using hne)
      all_goals exact (hx hk (by decide +kernel)).elim

/-- What a key that there is stands for. -/
theorem value_path (E : Env) (o : Opts) (hi : ∀ l, o.input = some l → l.length < 2 ^ 32) (ho : ∀ l, o.output = some l → l.length < 2 ^ 32)
    {k : Bytes} (hk : Known k) (first : Bool) :
    ∃ r, value E o first k = (r >>= relative E o first >>= fun v => .ok (some v)) ∧ (∀ p, r = .ok p ↔ Path' E o k p) := by
  rcases hk with hk | ⟨ds, hne, hd, hk⟩
  · obtain ⟨r, h1, h2⟩ := named_lit E o hk
    exact ⟨r, by unfold value; rw [h1], h2⟩
  · obtain ⟨r, h1, h2⟩ := indexed_path E o hi ho hne hd hk
    have hn : named E o k = none := by
      have := named_index E o ds hne
      rcases hk with hk | hk <;> subst hk
      · exact this.1
      · exact this.2
    exact ⟨r, by unfold value; rw [hn]; simp only [h1], h2⟩

theorem value_sound (E : Env) (o : Opts) (hi : ∀ l, o.input = some l → l.length < 2 ^ 32) (ho : ∀ l, o.output = some l → l.length < 2 ^ 32)
    {k v : Bytes} {first : Bool} (hk : Known k) (h : value E o first k = .ok (some v)) : Value E o k v := by
  obtain ⟨r, h1, h2⟩ := value_path E o hi ho hk first
  rw [h1, Res.bind_eq_ok] at h
  obtain ⟨w, h3, h4⟩ := h
  cases h4
  rw [Res.bind_eq_ok] at h3
  obtain ⟨p, h3, h4⟩ := h3
  exact ⟨p, (h2 p).mp h3, relative_word h4⟩

theorem value_some (E : Env) (o : Opts) (hi : ∀ l, o.input = some l → l.length < 2 ^ 32) (ho : ∀ l, o.output = some l → l.length < 2 ^ 32)
    {k : Bytes} {first : Bool} (hk : Known k) : value E o first k ≠ .ok none := by
  obtain ⟨r, h1, _⟩ := value_path E o hi ho hk first
  rw [h1]
  intro h
  rw [Res.bind_eq_ok] at h
  obtain ⟨w, _, h4⟩ := h
  cases h4

theorem path_known {E : Env} {o : Opts} {k p : Bytes} (h : Path' E o k p) : Known k := by
  cases h
  case inputN l ds h1 h2 _ _ => exact .inr ⟨ds, h1, h2, .inl rfl⟩
  case outputN l ds h1 h2 _ _ => exact .inr ⟨ds, h1, h2, .inr rfl⟩
  all_goals exact .inl (by simp)

theorem value_complete (E : Env) (o : Opts) (hi : ∀ l, o.input = some l → l.length < 2 ^ 32) (ho : ∀ l, o.output = some l → l.length < 2 ^ 32)
    {k v : Bytes} (first : Bool) (h : Value E o k v) : ∃ v', value E o first k = .ok (some v') := by
  obtain ⟨p, h1, h2⟩ := h
  obtain ⟨r, h3, h4⟩ := value_path E o hi ho (path_known h1) first
  obtain ⟨w', h5⟩ := word_relative h2 first
  exact ⟨w', by rw [h3, (h4 p).mpr h1]; simp [h5]⟩

end Muon.Ctgt
