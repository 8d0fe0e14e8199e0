import Verif.Pc.Collect
import Verif.Esc.Lemmas
/-
The file that `pkgconfig.generate()` writes is read by pkg-config as what was to be written.
-/
namespace Muon.Pc
open Muon
open Spec

/-! ### Lines -/

theorem lines_line {a b : Bytes} (h : 10 ∉ a) : lines (a ++ 10 :: b) = a :: lines b := by
  induction a with
  | nil => simp [lines]
  | cons c a ih =>
    have hc : c ≠ 10 := fun e => h (by simp [e])
    have ih := ih (fun e => h (by simp [e]))
    rw [List.cons_append, lines, if_neg hc, ih]

theorem lines_all (ls : List Bytes) (h : ∀ l ∈ ls, 10 ∉ l) : lines (ls.flatMap (· ++ [10])) = ls ++ [[]] := by
  induction ls with
  | nil => rfl
  | cons l ls ih =>
    rw [List.flatMap_cons, List.append_assoc, List.singleton_append, lines_line (h l (by simp)),
      ih (fun m hm => h m (by simp [hm]))]
    rfl

theorem read_all (ls : List Bytes) (h : ∀ l ∈ ls, 10 ∉ l) : Spec.read (ls.flatMap (· ++ [10])) = ls.filterMap readLine := by
  unfold Spec.read
  rw [lines_all ls h, List.filterMap_append]
  have : List.filterMap readLine [[]] = [] := by decide +kernel
  rw [this, List.append_nil]

theorem key_facts : ∀ c : UInt8, keyChar c = true → c ≠ 35 ∧ blank c = false ∧ c ≠ 61 ∧ c ≠ 58 ∧ c ≠ 10 :=
  forall_byte (by decide +kernel)

theorem takeWhile_all {p : UInt8 → Bool} {a : Bytes} (h : ∀ c ∈ a, p c = true) : a.takeWhile p = a := by
  induction a with
  | nil => rfl
  | cons c a ih => rw [List.takeWhile_cons_of_pos (h c (by simp)), ih (fun d hd => h d (by simp [hd]))]

theorem trim_clean {v : Bytes} (h : Clean v) : trim v = v := by
  obtain ⟨_, _, h1, h2⟩ := h
  unfold trim
  have e1 : v.dropWhile blank = v := by
    cases v with
    | nil => rfl
    | cons c v =>
      rw [List.dropWhile_cons_of_neg (by simpa using h1)]
  rw [e1]
  have e2 : v.reverse.dropWhile blank = v.reverse := by
    cases hr : v.reverse with
    | nil => rfl
    | cons c w =>
      have : v.getLast? = some c := by rw [List.getLast?_eq_head?_reverse, hr]; rfl
      rw [this] at h2
      simp only [Option.all_some, Bool.and_eq_true] at h2
      rw [List.dropWhile_cons_of_neg (by simpa using h2.1)]
  rw [e2, List.reverse_reverse]

theorem trim_blank {v : Bytes} (h : Clean v) : trim (32 :: v) = v := by
  have : trim (32 :: v) = trim v := by unfold trim; rw [List.dropWhile_cons_of_pos (by decide)]
  rw [this, trim_clean h]

/-- The name and the rest of a line. -/
theorem line_key {k r : Bytes} {o : UInt8} (hk : ∀ c ∈ k, keyChar c = true) (ho : o = 61 ∨ o = 58) (hr : 35 ∉ r) :
    readLine (k ++ o :: r) = some (if o = 61 then .var k (trim r) else .fld k (trim r)) := by
  have hof : o ≠ 35 ∧ blank o = false ∧ keyChar o = false := by rcases ho with rfl | rfl <;> decide
  have e1 : (k ++ o :: r).takeWhile (fun c => decide (c ≠ 35)) = k ++ o :: r := by
    apply takeWhile_all
    intro c hc
    rcases List.mem_append.1 hc with hc | hc
    · simpa using (key_facts c (hk c hc)).1
    · rcases List.mem_cons.1 hc with rfl | hc
      · simpa using hof.1
      · have : c ≠ 35 := fun e => hr (e ▸ hc)
        simpa using this
  have e2 : (k ++ o :: r).dropWhile blank = k ++ o :: r := by
    cases k with
    | nil => rw [List.nil_append, List.dropWhile_cons_of_neg (by simp [hof.2.1])]
    | cons c k => rw [List.cons_append, List.dropWhile_cons_of_neg (by simp [(key_facts c (hk c (by simp))).2.1])]
  have e3 : (k ++ o :: r).dropWhile keyChar = o :: r := by
    rw [List.dropWhile_append_of_pos hk, List.dropWhile_cons_of_neg (by simp [hof.2.2])]
  have e4 : (k ++ o :: r).takeWhile keyChar = k := by
    rw [List.takeWhile_append_of_pos hk, List.takeWhile_cons_of_neg (by simp [hof.2.2]), List.append_nil]
  have e5 : (o :: r).dropWhile blank = o :: r := List.dropWhile_cons_of_neg (by simp [hof.2.1])
  unfold readLine
  simp only [e1, e2, e3, e4, e5]
  rcases ho with rfl | rfl <;> rfl

/-- A variable and its value. -/
structure Def where
  key : Bytes
  val : Bytes

/-- It can be read. -/
def Def.Ok (d : Def) : Prop := (∀ c ∈ d.key, keyChar c = true) ∧ Clean d.val

/-- The line of a variable. -/
def Def.line (d : Def) : Bytes := d.key ++ [61] ++ d.val

theorem read_var {d : Def} (h : d.Ok) : readLine d.line = some (.var d.key d.val) := by
  unfold Def.line
  rw [List.append_assoc, List.singleton_append, line_key h.1 (Or.inl rfl) h.2.2.1]
  rw [trim_clean h.2]
  rfl

theorem read_vars {ds : List Def} (h : ∀ d ∈ ds, d.Ok) :
    (ds.map Def.line).filterMap readLine = ds.map (fun d => Line.var d.key d.val) := by
  induction ds with
  | nil => rfl
  | cons d ds ih =>
    rw [List.map_cons, List.filterMap_cons, read_var (h d (by simp)), List.map_cons, ih (fun e he => h e (by simp [he]))]

theorem read_fld {k v : Bytes} (hk : (k.all keyChar) = true) (hv : Clean v) :
    readLine (k ++ ascii ": " ++ v) = some (.fld k v) := by
  have e : ascii ": " = [58, 32] := by decide +kernel
  rw [e, List.append_assoc]
  have := line_key (k := k) (r := 32 :: v) (o := 58) (by simpa using hk) (Or.inr rfl) (by
    intro h
    rcases List.mem_cons.1 h with h | h
    · exact absurd h (by decide)
    · exact hv.2.1 h)
  rw [trim_blank hv] at this
  exact this

theorem line_no_nl {d : Def} (h : d.Ok) : 10 ∉ d.line := by
  unfold Def.line
  intro hm
  simp only [List.mem_append, List.mem_singleton] at hm
  rcases hm with (hm | hm) | hm
  · exact (key_facts 10 (h.1 10 hm)).2.2.2.2 rfl
  · exact absurd hm (by decide)
  · exact h.2.1 hm

theorem sepBy_lines {l : List Bytes} (h : l ≠ []) : sepBy [10] l ++ [10] = l.flatMap (· ++ [10]) := by
  induction l with
  | nil => exact absurd rfl h
  | cons x l ih =>
    cases l with
    | nil => simp [sepBy]
    | cons y l =>
      rw [sepBy, List.flatMap_cons, ← ih (by simp)]
      simp

/-- A field, if there is a value. -/
def optFld (k : Bytes) : Option Bytes → List (Bytes × Bytes)
  | none => []
  | some v => [(k, v)]

/-- The fields that are written. -/
def fldLines (f : File) (desc : Bytes) (cflags : Option Bytes) : List (Bytes × Bytes) :=
  [(ascii "Name", f.name), (ascii "Description", desc)] ++
  optFld (ascii "URL") f.url ++
  [(ascii "Version", f.version)] ++
  (if f.reqs .pub = [] then [] else [(ascii "Requires", sepBy (ascii ", ") (f.reqs .pub))]) ++
  (if f.reqs .priv = [] then [] else [(ascii "Requires.private", sepBy (ascii ", ") (f.reqs .priv))]) ++
  (if f.libs .pub = [] then [] else [(ascii "Libs", sepBy [32] (f.libs .pub))]) ++
  (if f.libs .priv = [] then [] else [(ascii "Libs.private", sepBy [32] (f.libs .priv))]) ++
  optFld (ascii "Cflags") cflags

theorem field_lines {key sep : Bytes} {l : List Bytes} :
    field key sep l = (if l = [] then [] else [(key, sepBy sep l)]).flatMap (fun kv => kv.1 ++ ascii ": " ++ kv.2 ++ [10]) := by
  unfold field
  by_cases h : l = []
  · rw [if_pos h, if_pos h]; rfl
  · rw [if_neg h, if_neg h]; simp

/-- The text is the lines. -/
theorem write_lines {f : File} {t : Bytes} (h : write f = .ok t) :
    ∃ desc cflags, f.description = some desc ∧
      ((f.dataonly = true ∨ f.cflags = []) ∧ cflags = none ∨
        (f.dataonly = false ∧ f.cflags ≠ []) ∧ ∃ c, Esc.joinArgsPkgconf f.cflags = .ok c ∧ cflags = some c) ∧
      t = (f.builtins ++ ((if f.variables = [] then [] else [] :: f.variables) ++ ([] ::
        (fldLines f desc cflags).map (fun kv => kv.1 ++ ascii ": " ++ kv.2)))).flatMap (· ++ [10]) := by
  unfold write at h
  cases hd : f.description with
  | none => rw [hd] at h; cases h
  | some desc =>
    rw [hd] at h
    dsimp only at h
    obtain ⟨cf, h1, h2⟩ := (Res.bind_eq_ok (x := if f.dataonly = true ∨ f.cflags = [] then Res.ok []
     else (Esc.joinArgsPkgconf f.cflags).bind fun c => .ok (ascii "Cflags: " ++ c ++ [10]))).1 h
    cases h2
    have hb : (if f.builtins = [] then [] else sepBy [10] f.builtins ++ [10]) = f.builtins.flatMap (· ++ [10]) := by
      by_cases hb : f.builtins = []
      · rw [if_pos hb, hb]; rfl
      · rw [if_neg hb, sepBy_lines hb]
    have hv : (if f.variables = [] then [] else [10] ++ sepBy [10] f.variables ++ [10]) =
        (if f.variables = [] then [] else [] :: f.variables).flatMap (· ++ [10]) := by
      by_cases hv : f.variables = []
      · rw [if_pos hv, if_pos hv]; rfl
      · rw [if_neg hv, if_neg hv, List.append_assoc, sepBy_lines hv]; rfl
    have hc : ∃ cflags, ((f.dataonly = true ∨ f.cflags = []) ∧ cflags = none ∨
        (f.dataonly = false ∧ f.cflags ≠ []) ∧ ∃ c, Esc.joinArgsPkgconf f.cflags = .ok c ∧ cflags = some c) ∧
        cf = (optFld (ascii "Cflags") cflags).flatMap
          (fun kv : Bytes × Bytes => kv.1 ++ ascii ": " ++ kv.2 ++ [10]) := by
      by_cases hc : f.dataonly = true ∨ f.cflags = []
      · rw [if_pos hc] at h1; cases h1
        exact ⟨none, Or.inl ⟨hc, rfl⟩, rfl⟩
      · rw [if_neg hc] at h1
        obtain ⟨c, h2, h3⟩ := (Res.bind_eq_ok (x := Esc.joinArgsPkgconf f.cflags)).1 h1
        cases h3
        refine ⟨some c, Or.inr ⟨⟨by simpa using (not_or.1 hc).1, (not_or.1 hc).2⟩, c, h2, rfl⟩, ?_⟩
        have e : ascii "Cflags: " = ascii "Cflags" ++ ascii ": " := by decide +kernel
        unfold optFld; rw [e]; simp
    obtain ⟨cflags, hc1, hc2⟩ := hc
    have hu : urlText f.url =
        (optFld (ascii "URL") f.url).flatMap
          (fun kv : Bytes × Bytes => kv.1 ++ ascii ": " ++ kv.2 ++ [10]) := by
      cases f.url with
      | none => rfl
      | some u =>
        have e : ascii "URL: " = ascii "URL" ++ ascii ": " := by decide +kernel
        unfold urlText optFld; rw [e]; simp
    refine ⟨desc, cflags, rfl, hc1, ?_⟩
    rw [hb, hv, hu, hc2]
    simp only [field_lines]
    have e1 : ascii "Name: " = ascii "Name" ++ ascii ": " := by decide +kernel
    have e2 : ascii "Description: " = ascii "Description" ++ ascii ": " := by decide +kernel
    have e3 : ascii "Version: " = ascii "Version" ++ ascii ": " := by decide +kernel
    rw [e1, e2, e3]
    have em : ∀ l : List (Bytes × Bytes), (l.map (fun kv => kv.1 ++ ascii ": " ++ kv.2)).flatMap (· ++ [10]) =
        l.flatMap (fun kv => kv.1 ++ ascii ": " ++ kv.2 ++ [10]) := by
      intro l
      rw [List.flatMap_map]
    rw [List.flatMap_append, List.flatMap_append, List.flatMap_cons, em]
    unfold fldLines
    simp only [List.flatMap_append, List.flatMap_cons, List.flatMap_nil, List.append_assoc, List.nil_append,
      List.append_nil]

/-- The parts of a file that have to be such that a line can hold them. -/
structure Readable (f : File) : Prop where
  name : Clean f.name
  description : ∀ d, f.description = some d → Clean d
  url : ∀ u, f.url = some u → Clean u
  version : Clean f.version
  reqs : ∀ v, Clean (sepBy (ascii ", ") (f.reqs v))
  libs : ∀ v, Clean (sepBy [32] (f.libs v))
  cflags : ∀ c, Esc.joinArgsPkgconf f.cflags = .ok c → Clean c

theorem fldLines_clean {f : File} (hr : Readable f) {desc : Bytes} (hd : f.description = some desc) {cflags : Option Bytes}
    (hc : ∀ c, cflags = some c → Esc.joinArgsPkgconf f.cflags = .ok c) :
    ∀ kv ∈ fldLines f desc cflags, (kv.1.all keyChar) = true ∧ Clean kv.2 := by
  have keys : ∀ k ∈ [ascii "Name", ascii "Description", ascii "URL", ascii "Version", ascii "Requires",
      ascii "Requires.private", ascii "Libs", ascii "Libs.private", ascii "Cflags"], k.all keyChar = true := by decide +kernel
  intro kv hkv
  unfold fldLines at hkv
  simp only [List.mem_append] at hkv
  rcases hkv with ((((((hkv | hkv) | hkv) | hkv) | hkv) | hkv) | hkv) | hkv
  · simp only [List.mem_cons, List.not_mem_nil, or_false] at hkv
    rcases hkv with rfl | rfl
    · exact ⟨keys _ (by simp), hr.name⟩
    · exact ⟨keys _ (by simp), hr.description _ hd⟩
  · cases hu : f.url with
    | none => rw [hu] at hkv; cases hkv
    | some u =>
      rw [hu, optFld, List.mem_singleton] at hkv
      subst hkv
      exact ⟨keys _ (by simp), hr.url u hu⟩
  · rw [List.mem_singleton] at hkv
    subst hkv
    exact ⟨keys _ (by simp), hr.version⟩
  · split at hkv
    · cases hkv
    · rw [List.mem_singleton] at hkv; subst hkv; exact ⟨keys _ (by simp), hr.reqs .pub⟩
  · split at hkv
    · cases hkv
    · rw [List.mem_singleton] at hkv; subst hkv; exact ⟨keys _ (by simp), hr.reqs .priv⟩
  · split at hkv
    · cases hkv
    · rw [List.mem_singleton] at hkv; subst hkv; exact ⟨keys _ (by simp), hr.libs .pub⟩
  · split at hkv
    · cases hkv
    · rw [List.mem_singleton] at hkv; subst hkv; exact ⟨keys _ (by simp), hr.libs .priv⟩
  · cases cflags with
    | none => cases hkv
    | some c =>
      rw [optFld, List.mem_singleton] at hkv
      subst hkv
      exact ⟨keys _ (by simp), hr.cflags c (hc c rfl)⟩

theorem flds_read {l : List (Bytes × Bytes)} (h : ∀ kv ∈ l, (kv.1.all keyChar) = true ∧ Clean kv.2) :
    (l.map (fun kv => kv.1 ++ ascii ": " ++ kv.2)).filterMap readLine = l.map (fun kv => Line.fld kv.1 kv.2) := by
  induction l with
  | nil => rfl
  | cons kv l ih =>
    rw [List.map_cons, List.filterMap_cons, read_fld (h kv (by simp)).1 (h kv (by simp)).2, List.map_cons,
      ih (fun e he => h e (by simp [he]))]

/-- **The file is read as what was to be written**: the variables in order, and then the fields. -/
theorem write_reads {f : File} {t : Bytes} (h : write f = .ok t) (hr : Readable f) {bs vs : List Def}
    (hb : f.builtins = bs.map Def.line) (hv : f.variables = vs.map Def.line) (hbo : ∀ d ∈ bs, d.Ok) (hvo : ∀ d ∈ vs, d.Ok) :
    ∃ desc cflags, f.description = some desc ∧
      ((f.dataonly = true ∨ f.cflags = []) ∧ cflags = none ∨
        (f.dataonly = false ∧ f.cflags ≠ []) ∧ ∃ c, Esc.joinArgsPkgconf f.cflags = .ok c ∧ cflags = some c) ∧
      Spec.read t = bs.map (fun d => Line.var d.key d.val) ++ vs.map (fun d => Line.var d.key d.val) ++
        (fldLines f desc cflags).map (fun kv => Line.fld kv.1 kv.2) := by
  obtain ⟨desc, cflags, hd, hc, ht⟩ := write_lines h
  have hcl := fldLines_clean hr hd (cflags := cflags) (by
    rintro c rfl
    rcases hc with ⟨_, h⟩ | ⟨_, c', h1, h2⟩
    · cases h
    · cases h2; exact h1)
  refine ⟨desc, cflags, hd, hc, ?_⟩
  have hnl : ∀ l ∈ (fldLines f desc cflags).map (fun kv => kv.1 ++ ascii ": " ++ kv.2), 10 ∉ l := by
    intro l hl
    obtain ⟨kv, hkv, rfl⟩ := List.mem_map.1 hl
    intro hm
    simp only [List.mem_append] at hm
    rcases hm with (hm | hm) | hm
    · have := List.all_eq_true.1 (hcl kv hkv).1 10 hm
      exact absurd this (by decide)
    · exact absurd hm (by decide +kernel)
    · exact (hcl kv hkv).2.1 hm
  have e0 : readLine [] = none := by decide +kernel
  rw [ht, read_all]
  · rw [List.filterMap_append, hb, read_vars hbo, List.filterMap_append, List.filterMap_cons, e0, flds_read hcl, hv]
    have : (if vs.map Def.line = [] then [] else [] :: vs.map Def.line).filterMap readLine =
        vs.map (fun d => Line.var d.key d.val) := by
      cases vs with
      | nil => rfl
      | cons d ds =>
        rw [if_neg (by simp), List.filterMap_cons, e0, read_vars hvo]
    rw [this, List.append_assoc]
  · intro l hl
    rw [hb, hv] at hl
    simp only [List.mem_append, List.mem_cons] at hl
    rcases hl with hl | hl | rfl | hl
    · obtain ⟨d, hd, rfl⟩ := List.mem_map.1 hl; exact line_no_nl (hbo d hd)
    · split at hl
      · cases hl
      · rcases List.mem_cons.1 hl with rfl | hl
        · simp
        · obtain ⟨d, hd, rfl⟩ := List.mem_map.1 hl; exact line_no_nl (hvo d hd)
    · simp
    · exact hnl l hl

/-! ### Arguments -/

theorem escape_eq (s : Bytes) : Esc.pkgconfEscape s = if 10 ∈ s then .bad else .ok (quoted s) := by
  unfold Esc.pkgconfEscape
  induction s with
  | nil => rfl
  | cons c s ih =>
    unfold Esc.simpleEscape
    rw [ih]
    by_cases h : c = 32
    · subst h
      by_cases hs : (10 : UInt8) ∈ s
      · simp [hs]
      · simp [hs, quoted]
    · have h' : ([32] : Bytes).contains c = false := by simpa using h
      rw [h']
      by_cases h10 : c = 10
      · subst h10; simp
      · have h10' : ¬ (10 : UInt8) = c := fun e => h10 e.symm
        by_cases hs : (10 : UInt8) ∈ s
        · simp [hs, h10]
        · simp [hs, h10, h10', h, quoted]

theorem args_quoted {s r : Bytes} (h : 92 ∉ s ∧ 9 ∉ s) (cur : Bytes) :
    argsFrom (some cur) (quoted s ++ r) = argsFrom (some (cur ++ s)) r := by
  induction s generalizing cur with
  | nil => simp [quoted]
  | cons c s ih =>
    have ih := ih ⟨fun e => h.1 (by simp [e]), fun e => h.2 (by simp [e])⟩
    have hc : c ≠ 92 ∧ c ≠ 9 := ⟨fun e => h.1 (by simp [e]), fun e => h.2 (by simp [e])⟩
    have e : quoted (c :: s) = (if c = 32 then [92, 32] else [c]) ++ quoted s := by simp [quoted]
    rw [e]
    by_cases h32 : c = 32
    · subst h32
      rw [if_pos rfl]
      show argsFrom (some cur) (92 :: 32 :: (quoted s ++ r)) = _
      rw [argsFrom.eq_def]
      simp only [if_true, Option.getD_some]
      rw [ih]
      simp
    · rw [if_neg h32]
      show argsFrom (some cur) (c :: (quoted s ++ r)) = _
      rw [argsFrom.eq_def]
      simp only [hc.1, if_false, Option.getD_some]
      rw [if_neg (by simp [blank, h32, hc.2]), ih]
      simp

theorem args_joined {l : List Bytes} (hl : ∀ a ∈ l, a ≠ [] ∧ 92 ∉ a ∧ 9 ∉ a) :
    args (((l.map quoted).intersperse [32]).flatten) = l := by
  unfold args
  induction l with
  | nil => rfl
  | cons a l ih =>
    have ih := ih (fun b hb => hl b (by simp [hb]))
    obtain ⟨h1, h2, h3⟩ := hl a (by simp)
    have first : ∀ r, argsFrom none (quoted a ++ r) = argsFrom (some a) r := by
      intro r
      cases a with
      | nil => exact absurd rfl h1
      | cons c a =>
        have := args_quoted (s := c :: a) (r := r) ⟨h2, h3⟩ []
        rw [List.nil_append] at this
        rw [← this]
        by_cases h32 : c = 32
        · subst h32
          show argsFrom none (92 :: 32 :: (quoted a ++ r)) = argsFrom (some []) (92 :: 32 :: (quoted a ++ r))
          rw [argsFrom.eq_def none, argsFrom.eq_def (some [])]
          simp
        · have e : quoted (c :: a) = c :: quoted a := by simp [quoted, h32]
          have hc : c ≠ 92 ∧ c ≠ 9 := ⟨fun e => h2 (by simp [e]), fun e => h3 (by simp [e])⟩
          rw [e]
          show argsFrom none (c :: (quoted a ++ r)) = argsFrom (some []) (c :: (quoted a ++ r))
          rw [argsFrom.eq_def none, argsFrom.eq_def (some [])]
          simp [hc.1, blank, h32, hc.2]
    cases l with
    | nil =>
      have := first []
      simpa [argsFrom] using this
    | cons b l =>
      rw [List.map_cons, List.map_cons, List.intersperse_cons_cons, List.flatten_cons, List.flatten_cons, first]
      rw [List.map_cons] at ih
      show argsFrom (some a) (32 :: _) = _
      rw [argsFrom.eq_def]
      simp only [show (32 : UInt8) ≠ 92 by decide, if_false]
      rw [if_pos (by decide)]
      have : argsFrom none ([].append (List.intersperse [32] (quoted b :: List.map quoted l)).flatten) = b :: l := ih
      rw [this]
      rfl

/-- **Arguments survive.** pkg-config splits the text into exactly the arguments, if they have no backslash, tab, quote or
newline and none is empty. -/
theorem cflags_args_partial {l : List Bytes} {t : Bytes} (h : Esc.joinArgsPkgconf l = .ok t)
    (hl : ∀ a ∈ l, a ≠ [] ∧ 92 ∉ a ∧ 9 ∉ a ∧ 34 ∉ a ∧ 39 ∉ a ∧ 10 ∉ a) : args t = l := by
  have hj := Esc.joinArgsFrom_ok Esc.pkgconfEscape quoted l.length l 0 []
    (fun a ha => by rw [escape_eq, if_neg (hl a ha).2.2.2.2.2]) (by simp)
  unfold Esc.joinArgsPkgconf at h
  rw [hj] at h
  cases h
  rw [List.nil_append]
  exact args_joined fun a ha => ⟨(hl a ha).1, (hl a ha).2.1, (hl a ha).2.2.1⟩

example : Esc.joinArgsPkgconf [ascii "-I${includedir}", ascii "-DX=a b"] = .ok (ascii "-I${includedir} -DX=a\\ b") := by
  decide +kernel

/-- **Counterexample: quotes and backslashes** are not escaped, so that a backslash in an argument is lost. -/
theorem cflags_args_counterexample :
    Esc.joinArgsPkgconf [ascii "-DX=a\\b"] = .ok (ascii "-DX=a\\b") ∧ args (ascii "-DX=a\\b") = [ascii "-DX=ab"] := by
  decide +kernel

end Muon.Pc
