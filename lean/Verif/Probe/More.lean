import Verif.Probe.Props
/-
C99: functions, symbols, attributes, definitions, libraries and the command line.
-/
namespace Muon.Probe
open Muon Spec

/-! ### Functions and symbols -/

theorem hasInclude_iff (s : Bytes) : hasInclude s = true ↔ ∃ p q, s = p ++ ascii "#include" ++ q := by
  induction s with
  | nil =>
    simp only [hasInclude, Bool.false_eq_true, false_iff]
    rintro ⟨p, q, h⟩
    have := congrArg List.length h
    simp [ascii] at this
  | cons c s ih =>
    simp only [hasInclude, Bool.or_eq_true, ih]
    constructor
    · rintro (h | ⟨p, q, h⟩)
      · obtain ⟨t, ht⟩ := List.isPrefixOf_iff_prefix.1 h
        exact ⟨[], t, by rw [← ht]; simp⟩
      · exact ⟨c :: p, q, by rw [h]; simp⟩
    · rintro ⟨p, q, h⟩
      cases p with
      | nil =>
        left
        exact List.isPrefixOf_iff_prefix.2 ⟨q, by rw [h]; simp⟩
      | cons d p =>
        right
        simp only [List.cons_append, List.cons.injEq] at h
        exact ⟨p, q, h.2⟩

/-- The two programs of `has_function()`. -/
structure Spec.FunctionTexts (kw : Kw) (f a b : Bytes) : Prop where
  first : ((∃ p q, lines kw = p ++ ascii "#include" ++ q) ∧ a = Spec.functionText kw f) ∨
    ((¬ ∃ p q, lines kw = p ++ ascii "#include" ++ q) ∧ a = declaredText kw f)
  second : ∃ n i name : Bytes,
    ((∃ p q, lines kw = p ++ ascii "#include" ++ q) ∧ n = ascii "0" ∨ (¬ ∃ p q, lines kw = p ++ ascii "#include" ++ q) ∧ n = ascii "1") ∧
    ((∃ r, f = ascii "__builtin_" ++ r) ∧ i = ascii "1" ∧ name = f ∨
      (¬ ∃ r, f = ascii "__builtin_" ++ r) ∧ i = ascii "0" ∧ name = ascii "__builtin_" ++ f) ∧ b = Spec.builtinText kw n i f name
  short : a.length < 4096 ∧ b.length < 4096

theorem texts_eq {kw : Kw} {f a b : Bytes} (h : FunctionTexts kw f a b) :
    Probe.functionText (prefixOf kw.pre) f = a ∧ Probe.builtinText (prefixOf kw.pre) f = b := by
  obtain ⟨h1, ⟨n, i, name, h2, h3, h4⟩, h5, h6⟩ := h
  rw [prefixOf_eq]
  constructor
  · unfold Probe.functionText
    rcases h1 with ⟨hi, rfl⟩ | ⟨hi, rfl⟩
    · rw [if_pos ((hasInclude_iff _).2 hi)]
      exact fit_eq h5
    · rw [if_neg (fun h => hi ((hasInclude_iff _).1 h))]
      exact fit_eq h5
  · have hn : digit (!hasInclude (lines kw)) = n := by
      rcases h2 with ⟨hi, rfl⟩ | ⟨hi, rfl⟩
      · rw [(hasInclude_iff _).2 hi]; rfl
      · have : hasInclude (lines kw) = false := by
          cases hh : hasInclude (lines kw) with
          | false => rfl
          | true => exact absurd ((hasInclude_iff _).1 hh) hi
        rw [this]; rfl
    have hb : digit ((ascii "__builtin_").isPrefixOf f) = i ∧ (if (ascii "__builtin_").isPrefixOf f then [] else ascii "__builtin_") ++ f = name := by
      rcases h3 with ⟨⟨r, hr⟩, hi, hname⟩ | ⟨hi, hi', hname⟩
      · have : (ascii "__builtin_").isPrefixOf f = true := List.isPrefixOf_iff_prefix.2 ⟨r, hr.symm⟩
        rw [this, hi, hname]; exact ⟨rfl, rfl⟩
      · have : (ascii "__builtin_").isPrefixOf f = false := by
          cases hh : (ascii "__builtin_").isPrefixOf f with
          | false => rfl
          | true =>
            obtain ⟨r, hr⟩ := List.isPrefixOf_iff_prefix.1 hh
            exact absurd ⟨r, hr.symm⟩ hi
        rw [this, hi', hname]; exact ⟨rfl, rfl⟩
    unfold Probe.builtinText
    simp only
    rw [hn, hb.1, hb.2]
    rw [h4] at h6 ⊢
    exact fit_eq h6

/-- C99: `has_function()` is true exactly if the function can be linked, or if that program is rejected and it is a
builtin. -/
theorem has_function_partial (W : World) (E : Env) (kw : Kw) (f a b : Bytes) (hr : kw.req = .auto) (ht : FunctionTexts kw f a b) :
    (direct W (hasFunction E kw f) = .ok (.bool true) ↔
      Accepts W (line E kw .link) a ∨ Rejects W (line E kw .link) a ∧ Accepts W (line E kw .link) b) ∧
    (direct W (hasFunction E kw f) = .ok (.bool false) ↔ Rejects W (line E kw .link) a ∧ Rejects W (line E kw .link) b) := by
  obtain ⟨e1, e2⟩ := texts_eq ht
  unfold hasFunction
  rw [e1, e2]
  have hc : ∀ x, carriedOut W (check E kw .link .plain x) = verdict .auto (W.cc (line E kw .link) x) := by
    intro x
    rw [carriedOut_plain _ _ rfl (by simp [check]), ← hr]
    rfl
  simp only [direct, hc]
  unfold Accepts Rejects
  rcases verdict_auto (W.cc (line E kw .link) a) with ⟨e, hst⟩ | ⟨e, hst⟩ | ⟨e, s, hs, hst⟩
  · rw [e, hst]; simp [orFail, direct]
  · rw [e, hst]; simp [orFail, direct]
  · rw [e, hst]
    simp only [direct_single, hc]
    rcases verdict_auto (W.cc (line E kw .link) b) with ⟨e', hst'⟩ | ⟨e', hst'⟩ | ⟨e', s', hs', hst'⟩
    · rw [e', hst']; simp [hs]
    · rw [e', hst']; simp [hs]
    · rw [e', hst']; simp [hs, hs']

/-- C99: `has_header_symbol()` is true exactly if the program that uses the symbol compiles, for C++ also if that one is
rejected and the one with `using` compiles. -/
theorem has_symbol_partial (W : World) (E : Env) (kw : Kw) (h s : Bytes) (hr : kw.req = .auto)
    (h1 : (symbolText kw h s).length < 4096) (h2 : (usingText kw h s).length < 4096) :
    (direct W (hasSymbol E kw h s) = .ok (.bool true) ↔
      Accepts W (line E kw .compile) (symbolText kw h s) ∨
      (Rejects W (line E kw .compile) (symbolText kw h s) ∧ E.cpp = true ∧ Accepts W (line E kw .compile) (usingText kw h s))) ∧
    (direct W (hasSymbol E kw h s) = .ok (.bool false) ↔
      Rejects W (line E kw .compile) (symbolText kw h s) ∧ (E.cpp = true → Rejects W (line E kw .compile) (usingText kw h s))) := by
  have e1 : symbolC (prefixOf kw.pre) h s = symbolText kw h s := by rw [prefixOf_eq]; exact fit_eq h1
  have e2 : symbolCpp (prefixOf kw.pre) h s = usingText kw h s := by rw [prefixOf_eq]; exact fit_eq h2
  unfold hasSymbol
  rw [e1, e2]
  have hc : ∀ x, carriedOut W (check E kw .compile .plain x) = verdict .auto (W.cc (line E kw .compile) x) := by
    intro x
    rw [carriedOut_plain _ _ rfl (by simp [check]), ← hr]
    rfl
  simp only [direct, hc]
  unfold Accepts Rejects
  rcases verdict_auto (W.cc (line E kw .compile) (symbolText kw h s)) with ⟨e, hst⟩ | ⟨e, hst⟩ | ⟨e, t, ht, hst⟩
  · rw [e, hst]; simp [orFail, direct]
  · rw [e, hst]; simp [orFail, direct]
  · rw [e, hst]
    cases hcpp : E.cpp with
    | false => simp [direct, ht]
    | true =>
      simp only [if_true, direct_single, hc]
      rcases verdict_auto (W.cc (line E kw .compile) (usingText kw h s)) with ⟨e', hst'⟩ | ⟨e', hst'⟩ | ⟨e', s', hs', hst'⟩
      · rw [e', hst']; simp [ht]
      · rw [e', hst']; simp [ht]
      · rw [e', hst']; simp [ht, hs']

/-! ### Attributes -/

/-- C99: `has_function_attribute()`: an error for attributes that are not known, and otherwise whether the program of the
attribute compiles. -/
theorem has_attribute (W : World) (E : Env) (a : Bytes) :
    direct W (hasAttribute E a) = match E.attr a with
      | none => .error
      | some t => verdict .auto (W.cc (line E {} .compile) t) := by
  unfold hasAttribute
  cases E.attr a with
  | none => rfl
  | some t =>
    simp only
    rw [direct_single, carriedOut_plain _ _ rfl (by simp [attrCheck, check])]
    rfl

/-- The program of an attribute compiles. -/
def Spec.AttributeOk (W : World) (E : Env) (a : Bytes) : Prop := ∃ t, E.attr a = some t ∧ Accepts W (line E {} .compile) t

/-- C99: `get_supported_function_attributes()` gives those that are, in order. -/
theorem supported_attributes (W : World) (E : Env) (l : List Bytes) (p : Bytes → Bool) (hp : ∀ a, p a = true ↔ AttributeOk W E a)
    (hk : ∀ a ∈ l, ∃ t, E.attr a = some t ∧ W.cc (line E {} .compile) t ≠ none) :
    direct W (supportedAttributes E l) = .ok (.strs (l.filter p)) := by
  have key : ∀ (l acc : List Bytes), (∀ a ∈ l, ∃ t, E.attr a = some t ∧ W.cc (line E {} .compile) t ≠ none) →
      direct W (supported (fun a => (E.attr a).map (attrCheck E)) l acc) = .ok (.strs (acc ++ l.filter p)) := by
    intro l
    induction l with
    | nil => intro acc _; simp [supported, direct]
    | cons a l ih =>
      intro acc h
      obtain ⟨t, ht, hne⟩ := h a (by simp)
      have hc : carriedOut W (attrCheck E t) = verdict .auto (W.cc (line E {} .compile) t) := by
        rw [carriedOut_plain _ _ rfl (by simp [attrCheck, check])]
        rfl
      simp only [supported, ht, Option.map_some, direct, hc]
      rcases verdict_auto (W.cc (line E {} .compile) t) with ⟨e, hst⟩ | ⟨e, hst⟩ | ⟨e, s, hs, hst⟩
      · exact absurd hst hne
      · have hpa : p a = true := (hp a).2 ⟨t, ht, hst⟩
        rw [e]
        simp only
        rw [ih _ (fun b hb => h b (by simp [hb])), List.filter_cons_of_pos hpa]
        simp
      · have hpa : ¬ p a = true := by
          intro hpa
          obtain ⟨t', ht', ha⟩ := (hp a).1 hpa
          rw [ht] at ht'
          cases ht'
          unfold Accepts at ha
          rw [hst] at ha
          exact hs (by simpa using ha)
        rw [e]
        simp only
        rw [ih _ (fun b hb => h b (by simp [hb])), List.filter_cons_of_neg hpa]
  have := key l [] hk
  simpa [supportedAttributes] using this

/-- C99: an attribute that is not known, where the ones before it can be checked, is an error. -/
theorem unknown_attribute (W : World) (E : Env) (l r : List Bytes) (a : Bytes) (ha : E.attr a = none)
    (hk : ∀ a ∈ l, ∃ t, E.attr a = some t ∧ W.cc (line E {} .compile) t ≠ none) :
    direct W (supportedAttributes E (l ++ a :: r)) = .error := by
  have key : ∀ (l acc : List Bytes), (∀ a ∈ l, ∃ t, E.attr a = some t ∧ W.cc (line E {} .compile) t ≠ none) →
      direct W (supported (fun a => (E.attr a).map (attrCheck E)) (l ++ a :: r) acc) = .error := by
    intro l
    induction l with
    | nil => intro acc _; simp [supported, direct, ha]
    | cons b l ih =>
      intro acc h
      obtain ⟨t, ht, hne⟩ := h b (by simp)
      have hc : carriedOut W (attrCheck E t) = verdict .auto (W.cc (line E {} .compile) t) := by
        rw [carriedOut_plain _ _ rfl (by simp [attrCheck, check])]
        rfl
      simp only [List.cons_append, supported, ht, Option.map_some, direct, hc]
      rcases verdict_auto (W.cc (line E {} .compile) t) with ⟨e, hst⟩ | ⟨e, hst⟩ | ⟨e, s, hs, hst⟩
      · exact absurd hst hne
      · rw [e]; exact ih _ (fun b hb => h b (by simp [hb]))
      · rw [e]; exact ih _ (fun b hb => h b (by simp [hb]))
  exact key l [] hk

/-! ### Definitions -/

theorem afterDelim_first (before rest : Bytes)
    (h : ∀ p q, before ++ marker ++ rest = p ++ marker ++ q → before.length ≤ p.length) : afterDelim (before ++ marker ++ rest) = some rest := by
  induction before with
  | nil =>
    have hm : marker = 77 :: marker.tail := by decide +kernel
    rw [List.nil_append]
    conv => lhs; rw [hm]
    rw [List.cons_append]
    unfold afterDelim
    have e : (77 :: (marker.tail ++ rest)) = marker ++ rest := by
      conv => rhs; rw [hm]
      rfl
    rw [e, show delim = marker from rfl, if_pos (List.isPrefixOf_iff_prefix.2 ⟨rest, rfl⟩)]
    simp
  | cons c s ih =>
    simp only [List.cons_append]
    unfold afterDelim
    rw [if_neg, ih]
    · intro p q hp
      have := h (c :: p) q (by simp only [List.cons_append]; rw [hp])
      simpa using this
    · intro hpre
      obtain ⟨t, ht⟩ := List.isPrefixOf_iff_prefix.1 hpre
      have := h [] t (by rw [List.nil_append, List.cons_append, List.cons_append, ← ht]; rfl)
      simp at this

theorem scan_plain (x r : Bytes) (hx : Plain x) : ∀ (n : Nat) (q j : Bool), x.length ≤ n →
    scan n q false j (x ++ r) = x ++ scan (n - x.length) q false j r := by
  induction hx with
  | nil => intro n q j _; simp
  | char h1 h2 h3 _ ih =>
    intro n q j hn
    obtain ⟨m, rfl⟩ : ∃ m, n = m + 1 := ⟨n - 1, by simp at hn; omega⟩
    simp only [List.cons_append, scan, h1, h2, h3, if_false]
    rw [ih m q j (by simp at hn; omega)]
    simp
  | quote _ ih =>
    intro n q j hn
    obtain ⟨m, rfl⟩ : ∃ m, n = m + 2 := ⟨n - 2, by simp at hn; omega⟩
    have e : ¬ (92 : UInt8) = 34 := by decide
    simp only [List.cons_append, scan, e, if_false, if_true]
    rw [ih m q j (by simp at hn; omega)]
    simp

theorem scan_noquote (x r : Bytes) (hx : ∀ c ∈ x, c ≠ 34 ∧ c ≠ 10) : ∀ (n : Nat) (q e j : Bool), x.length < n →
    scan n q e j (x ++ 10 :: r) = x := by
  induction x with
  | nil =>
    intro n q e j hn
    obtain ⟨m, rfl⟩ : ∃ m, n = m + 1 := ⟨n - 1, by omega⟩
    simp [scan]
  | cons c x ih =>
    intro n q e j hn
    obtain ⟨m, rfl⟩ : ∃ m, n = m + 1 := ⟨n - 1, by omega⟩
    obtain ⟨h1, h2⟩ := hx c (by simp)
    have hi := fun e' => ih (fun d hd => hx d (by simp [hd])) m q e' j (by simp at hn; omega)
    simp only [List.cons_append, scan, h1, h2, if_false]
    split
    · rw [hi]
    · rw [hi]

theorem dropWhile_blank (b r : Bytes) (hb : ∀ c ∈ b, c = 9 ∨ c = 32) (hr : ∀ c, r.head? = some c → isBlank c = false) :
    (b ++ r).dropWhile isBlank = r := by
  induction b with
  | nil =>
    cases r with
    | nil => rfl
    | cons c r => simp [hr c rfl]
  | cons c b ih =>
    have hc : isBlank c = true := by rcases hb c (by simp) with rfl | rfl <;> decide +kernel
    rw [List.cons_append, List.dropWhile_cons, if_pos hc]
    exact ih (fun d hd => hb d (by simp [hd]))

theorem scan_rest (l : List (Bytes × Bytes)) (rest : Bytes)
    (hl : ∀ p ∈ l, (∀ c ∈ p.1, c = 9 ∨ c = 32) ∧ Plain p.2 ∧ p.2 ≠ [] ∧ p.2.head? ≠ some 92) : ∀ (n : Nat) (q j : Bool), (q || j) = true →
    (literals l).length + 2 ≤ n → scan n q false j (34 :: (literals l ++ 10 :: rest)) = l.flatMap (·.2) ++ [34] := by
  induction l with
  | nil =>
    intro n q j hqj hn
    obtain ⟨m, rfl⟩ : ∃ m, n = m + 2 := ⟨n - 2, by omega⟩
    simp [literals, scan, hqj, isBlank]
  | cons p l ih =>
    intro n q j hqj hn
    obtain ⟨b, x⟩ := p
    obtain ⟨hb, hx, hne, h92⟩ := hl (b, x) (by simp)
    simp only at hb hx hne h92
    obtain ⟨d, x', rfl⟩ := List.exists_cons_of_ne_nil hne
    have hlen : (literals ((b, d :: x') :: l)).length = b.length + x'.length + 3 + (literals l).length := by
      simp [literals]; omega
    rw [hlen] at hn
    obtain ⟨m, rfl⟩ : ∃ m, n = m + 1 := ⟨n - 1, by omega⟩
    have htext : literals ((b, d :: x') :: l) ++ 10 :: rest = b ++ (34 :: d :: (x' ++ (34 :: (literals l ++ 10 :: rest)))) := by
      simp [literals]
    have hblank : isBlank 34 = false := by decide +kernel
    have hd10 : d ≠ 10 ∧ Plain x' := by
      cases hx with
      | char _ _ h h' => exact ⟨h, h'⟩
      | quote _ => simp at h92
    rw [htext]
    simp only [scan, if_true, Bool.false_eq_true, if_false, hqj]
    rw [dropWhile_blank b _ hb (by intro c hc; simp at hc; rw [← hc]; exact hblank)]
    simp only [hd10.1, if_false]
    rw [scan_plain x' _ hd10.2 m _ _ (by omega)]
    rw [ih (fun p hp => hl p (by simp [hp])) _ _ _ (by simp) (by omega)]
    simp

/-- A value as the preprocessor prints it, and what it stands for: a text without quotes, or string literals one after
the other, of which only the first may be empty or begin with an escape, which are one literal. -/
inductive Spec.Value : Bytes → Bytes → Prop
  | text (x : Bytes) : (∀ c ∈ x, c ≠ 34 ∧ c ≠ 10) → Value x x
  | strings (x : Bytes) (l : List (Bytes × Bytes)) : Plain x → (∀ p ∈ l, (∀ c ∈ p.1, c = 9 ∨ c = 32) ∧ Plain p.2 ∧ p.2 ≠ [] ∧ p.2.head? ≠ some 92) →
      Value ([34] ++ x ++ [34] ++ literals l) ([34] ++ x ++ l.flatMap (·.2) ++ [34])

/-- C99: `get_define()` gives the value of the definition. -/
theorem get_define_partial (W : World) (E : Env) (kw : Kw) (d before v w rest : Bytes) (hr : kw.req = .auto)
    (hl : (defineText kw d).length < 4096) (hacc : Accepts W (defineLine E kw) (defineText kw d))
    (hout : W.out (defineLine E kw) (defineText kw d) = some (before ++ marker ++ (v ++ 10 :: rest)))
    (hfirst : ∀ p q, before ++ marker ++ (v ++ 10 :: rest) = p ++ marker ++ q → before.length ≤ p.length) (hv : Value v w) :
    direct W (getDefine E kw d) = .ok (.str w) := by
  have hp : getDefine E kw d = single ⟨defineLine E kw, E.ver, defineText kw d, false, .preprocess, .define, .auto⟩ := by
    unfold getDefine
    rw [prefixOf_eq, show lines kw ++ ascii "\n#ifndef " ++ d ++ ascii "\n#define " ++ d ++ ascii "\n#endif \n" ++ delim ++ d ++ [10] = defineText kw d from rfl,
      fit_eq hl, hr]
    rfl
  have hdef : defineOf (before ++ marker ++ (v ++ 10 :: rest)) = w := by
    unfold defineOf
    rw [afterDelim_first _ _ hfirst]
    simp only
    cases hv with
    | text x hx => exact scan_noquote v rest hx _ _ _ _ (by simp)
    | strings x l hx hl =>
      have : [34] ++ x ++ [34] ++ literals l ++ 10 :: rest = 34 :: (x ++ (34 :: (literals l ++ 10 :: rest))) := by simp
      rw [this]
      have hlen : (34 :: (x ++ (34 :: (literals l ++ 10 :: rest)))).length = (x.length + (literals l).length + 2 + rest.length) + 1 := by simp; omega
      rw [hlen]
      simp only [scan, if_true, Bool.false_eq_true, if_false, Bool.or_self]
      rw [scan_plain x _ hx _ _ _ (by omega), scan_rest l rest hl _ _ _ (by simp) (by omega)]
      simp
  rw [hp, direct_single]
  unfold Accepts at hacc
  simp only [carriedOut, attempt, textOf, Bool.false_eq_true, if_false, hacc, answer, defineVal, hout, Option.map_some, hdef]
  rfl

/-! ### Libraries -/

theorem places_eq (static : Bool) (n : Bytes) (dirs : List Bytes) :
    (dirs.flatMap fun d => (libNames static n).map (Path.join d)) = dirs.flatMap (places static n) := by
  congr 1
  funext d
  cases static <;> simp [libNames, places, ascii]

theorem first_iff (there : Bytes → Bool) (l : List Bytes) (p : Bytes) : l.find? there = some p ↔ First there l p := by
  unfold First
  rw [List.find?_eq_some_iff_append]
  constructor
  · rintro ⟨h1, as, bs, h2, h3⟩
    exact ⟨as, bs, h2, h1, fun q hq => by simpa using h3 q hq⟩
  · rintro ⟨as, bs, h2, h1, h3⟩
    exact ⟨h1, as, bs, h2, fun q hq => by simp [h3 q hq]⟩

/-- C99: `find_library()` without headers gives the first file there is, in the given directories, then in those of the
compiler. -/
theorem find_library (W : World) (E : Env) (there : Bytes → Bool) (req : Req) (static dis : Bool) (dirs : List Bytes) (kw : Kw) (n p : Bytes)
    (fd : Bool) :
    direct W (findLibrary E there req static dis dirs [] kw n) = .ok (.lib p fd) ↔
      req ≠ .skip ∧ ((fd = true ∧ First there (dirs.flatMap (places static n)) p) ∨
        (fd = false ∧ (∀ q ∈ dirs.flatMap (places static n), there q = false) ∧ First there (E.libdirs.flatMap (places static n)) p)) := by
  unfold findLibrary libIn
  rw [places_eq, places_eq, ← first_iff, ← first_iff]
  by_cases hs : req = .skip
  · rw [if_pos hs]; simp [direct, hs]
  rw [if_neg hs]
  have hnone : (∀ q ∈ dirs.flatMap (places static n), there q = false) ↔ (dirs.flatMap (places static n)).find? there = none := by
    rw [List.find?_eq_none]
    constructor
    · intro h q hq; simp [h q hq]
    · intro h q hq; simpa using h q hq
  rw [hnone]
  have hmiss : ∀ p fd, direct W (libMissing req dis) ≠ .ok (.lib p fd) := by
    intro p fd
    unfold libMissing
    repeat' split
    all_goals simp [direct]
  cases h1 : (dirs.flatMap (places static n)).find? there with
  | some a => cases h2 : (E.libdirs.flatMap (places static n)).find? there <;> simp [headersFrom, direct, hs, eq_comm, and_comm]
  | none =>
    cases h2 : (E.libdirs.flatMap (places static n)).find? there with
    | some a => simp [headersFrom, direct, hs, eq_comm, and_comm]
    | none => simp [hs, hmiss]

/-- C99: it is not found if there is no such file, and then it is an error if the library is required. -/
theorem library_missing (W : World) (E : Env) (there : Bytes → Bool) (req : Req) (static dis : Bool) (dirs headers : List Bytes) (kw : Kw) (n : Bytes)
    (hs : req ≠ .skip) (h1 : ∀ q ∈ dirs.flatMap (places static n) ++ E.libdirs.flatMap (places static n), there q = false) :
    direct W (findLibrary E there req static dis dirs headers kw n) =
      if req = .required then .error else .ok (if dis then .disabler else .noLib) := by
  unfold findLibrary libIn
  rw [places_eq, places_eq, if_neg hs]
  have h2 : (dirs.flatMap (places static n)).find? there = none := by
    rw [List.find?_eq_none]; intro q hq; simp [h1 q (by simp only [List.mem_append]; exact Or.inl hq)]
  have h3 : (E.libdirs.flatMap (places static n)).find? there = none := by
    rw [List.find?_eq_none]; intro q hq; simp [h1 q (by simp only [List.mem_append]; exact Or.inr hq)]
  rw [h2, h3]
  simp only
  unfold libMissing
  split
  · rfl
  · cases dis <;> rfl

/-- C99: with headers that need not be there, the library is found exactly if it is there and all headers are. -/
theorem library_headers_partial (W : World) (E : Env) (there : Bytes → Bool) (req : Req) (static dis : Bool) (dirs headers : List Bytes) (kw : Kw) (n p : Bytes)
    (fd : Bool) (hr : kw.req = .auto) (hl : ∀ h ∈ headers, (headerText kw h).length < 4096)
    (hc : ∀ h ∈ headers, W.cc (line E kw .preprocess) (headerText kw h) ≠ none) :
    direct W (findLibrary E there req static dis dirs headers kw n) = .ok (.lib p fd) ↔
      direct W (findLibrary E there req static dis dirs [] kw n) = .ok (.lib p fd) ∧
        ∀ h ∈ headers, Accepts W (line E kw .preprocess) (headerText kw h) := by
  have hmiss : ∀ p fd, direct W (libMissing req dis) ≠ .ok (.lib p fd) := by
    intro p fd
    unfold libMissing
    repeat' split
    all_goals simp [direct]
  have hfalse : ∀ (k : Bool → Prog), (∀ p fd, direct W (k false) ≠ .ok (.lib p fd)) → ∀ (hs : List Bytes),
      (∀ h ∈ hs, (headerText kw h).length < 4096) → (∀ h ∈ hs, W.cc (line E kw .preprocess) (headerText kw h) ≠ none) → ∀ (ok : Bool),
      ∀ p fd, direct W (headersFrom E kw k hs ok) = .ok (.lib p fd) ↔ direct W (k ok) = .ok (.lib p fd) ∧
        ∀ h ∈ hs, Accepts W (line E kw .preprocess) (headerText kw h) := by
    intro k hk hs
    induction hs with
    | nil => intro _ _ ok p fd; simp [headersFrom]
    | cons h hs ih =>
      intro g1 g2 ok p fd
      have i := ih (fun x hx => g1 x (by simp [hx])) (fun x hx => g2 x (by simp [hx]))
      have hcar : carriedOut W (headerCheck E kw .preprocess h) = verdict .auto (W.cc (line E kw .preprocess) (headerText kw h)) := by
        have := has_header_partial W E kw h (g1 h (by simp))
        rw [hr] at this
        unfold hasHeader at this
        rw [direct_single] at this
        exact this
      simp only [headersFrom, direct, hcar]
      rcases verdict_auto (W.cc (line E kw .preprocess) (headerText kw h)) with ⟨e, hst⟩ | ⟨e, hst⟩ | ⟨e, s, hs', hst⟩
      · exact absurd hst (g2 h (by simp))
      · rw [e]
        simp only [Bool.and_true, i, List.forall_mem_cons]
        simp [Accepts, hst]
      · rw [e]
        simp only [Bool.and_false, i, List.forall_mem_cons]
        constructor
        · rintro ⟨h1, _⟩; exact absurd h1 (hk p fd)
        · rintro ⟨_, h1, _⟩
          unfold Accepts at h1
          rw [hst] at h1
          exact absurd (by simpa using h1) hs'
  unfold findLibrary
  by_cases hs : req = .skip
  · rw [if_pos hs, if_pos hs]; simp [direct]
  rw [if_neg hs, if_neg hs]
  cases libIn there static n dirs with
  | some a =>
    simp only
    rw [hfalse (fun ok => if ok then .ret (.lib a true) else libMissing req dis) (by intro p fd; simpa using hmiss p fd) headers hl hc]
    simp [headersFrom]
  | none =>
    cases libIn there static n E.libdirs with
    | some a =>
      simp only
      rw [hfalse (fun ok => if ok then .ret (.lib a false) else libMissing req dis) (by intro p fd; simpa using hmiss p fd) headers hl hc]
      simp [headersFrom]
    | none =>
      simp only
      constructor
      · intro h; exact absurd h (hmiss p fd)
      · rintro ⟨h, _⟩; exact absurd h (hmiss p fd)

/-! ### The command line -/

/-- C99: the command line begins with the command of the compiler and ends with `args`; what is in between comes from the
options, the keywords and the mode. -/
theorem command_line (E : Env) (kw : Kw) (mode : Mode) (source output : Bytes) :
    ∃ pre post, command E kw mode source output = E.cmd ++ pre ++ E.modeArgs mode ++ [source] ++ post ++ kw.args ∧
      (∀ a, a ∈ pre ↔ a ∈ E.std ∨ (E.cpp = true ∧ a = ascii "-fpermissive") ∨ ((mode = .run ∨ mode = .link) ∧ a ∈ E.linkOpt) ∨
        (mode ≠ .preprocess ∧ a ∈ E.compileOpt) ∨ a ∈ kw.depCompile ∨ a ∈ E.includes (kw.includes ++ kw.depIncludes)) ∧
      (∀ a, a ∈ post ↔ a ∈ E.output output ∨ a ∈ kw.depLink) := by
  refine ⟨E.std ++ (if E.cpp then [ascii "-fpermissive"] else []) ++ (if mode = .run ∨ mode = .link then E.linkOpt else []) ++
    (if mode = .preprocess then [] else E.compileOpt) ++ kw.depCompile ++ E.includes (kw.includes ++ kw.depIncludes), E.output output ++ kw.depLink, ?_, ?_, ?_⟩
  · unfold command
    simp only [List.append_assoc]
  · intro a
    simp only [List.mem_append]
    have e1 : a ∈ (if E.cpp = true then [ascii "-fpermissive"] else []) ↔ E.cpp = true ∧ a = ascii "-fpermissive" := by
      split <;> simp_all
    have e2 : a ∈ (if mode = .run ∨ mode = .link then E.linkOpt else []) ↔ (mode = .run ∨ mode = .link) ∧ a ∈ E.linkOpt := by
      split <;> simp_all
    have e3 : a ∈ (if mode = .preprocess then [] else E.compileOpt) ↔ mode ≠ .preprocess ∧ a ∈ E.compileOpt := by
      split <;> simp_all
    rw [e1, e2, e3]
    simp only [or_assoc]
  · intro a
    simp

end Muon.Probe
