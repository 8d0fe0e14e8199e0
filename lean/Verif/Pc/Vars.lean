import Verif.Pc.Read
/-
The variables of the file that `pkgconfig.generate()` writes.
-/
namespace Muon.Pc
open Muon
open Spec

/-! ### Texts with references -/

theorem ascii_open : ascii "${" = [36, 123] := by decide +kernel
theorem ascii_close : ascii "}" = [125] := by decide +kernel

theorem expand_name (e : Bytes → Bytes) {n r : Bytes} (hn : 125 ∉ n) (m : Bytes) :
    expandFrom e (some m) (n ++ 125 :: r) = e (m ++ n) ++ expandFrom e none r := by
  induction n generalizing m with
  | nil => simp [expandFrom]
  | cons c n ih =>
    have hc : c ≠ 125 := fun h => hn (by simp [h])
    rw [List.cons_append, expandFrom, if_neg hc, ih (fun h => hn (by simp [h]))]
    simp

theorem expand_plain (e : Bytes → Bytes) {s r : Bytes} (hs : 36 ∉ s) :
    expandFrom e none (s ++ r) = s ++ expandFrom e none r := by
  induction s with
  | nil => rfl
  | cons c s ih =>
    have hc : c ≠ 36 := fun h => hs (by simp [h])
    rw [List.cons_append, expandFrom.eq_def]
    simp only [hc, if_false]
    rw [ih (fun h => hs (by simp [h]))]
    rfl

/-- The value of a part. -/
def pieceVal (e : Bytes → Bytes) : Piece → Bytes
  | .txt s => s
  | .ref n => e n

theorem key_no_close : ∀ c : UInt8, keyChar c = true → c ≠ 125 ∧ c ≠ 32 ∧ c ≠ 36 := forall_byte (by decide +kernel)

theorem expand_pieces (e : Bytes → Bytes) {ps : List Piece} (hp : ∀ p ∈ ps, p.ok = true) (r : Bytes) :
    expandFrom e none (ps.flatMap Piece.text ++ r) = ps.flatMap (pieceVal e) ++ expandFrom e none r := by
  induction ps with
  | nil => rfl
  | cons p ps ih =>
    have ih := ih (fun q hq => hp q (by simp [hq]))
    have h1 := hp p (by simp)
    rw [List.flatMap_cons, List.flatMap_cons, List.append_assoc]
    cases p with
    | txt s =>
      have : (36 : UInt8) ∉ s := by simpa [Piece.ok] using h1
      rw [Piece.text, expand_plain e this, ih, pieceVal, List.append_assoc]
    | ref n =>
      have hn : (125 : UInt8) ∉ n := fun h => (key_no_close 125 (List.all_eq_true.1 h1 125 h)).1 rfl
      rw [Piece.text, ascii_open, ascii_close]
      simp only [List.append_assoc, List.cons_append, List.nil_append]
      rw [expandFrom.eq_def]
      simp only [if_true]
      rw [expand_name e hn, ih, List.nil_append, pieceVal]

theorem quoted_append (a b : Bytes) : quoted (a ++ b) = quoted a ++ quoted b := by simp [quoted]

theorem quoted_id {a : Bytes} (h : 32 ∉ a) : quoted a = a := by
  induction a with
  | nil => rfl
  | cons c a ih =>
    have hc : c ≠ 32 := fun e => h (by simp [e])
    have := ih (fun e => h (by simp [e]))
    unfold quoted at this ⊢
    rw [List.flatMap_cons, if_neg hc, this]; rfl

theorem mem_quoted {x : UInt8} {a : Bytes} (h : x ∈ quoted a) : x ∈ a ∨ x = 92 := by
  unfold quoted at h
  obtain ⟨c, hc, hx⟩ := List.mem_flatMap.1 h
  split at hx
  · rename_i e
    subst e
    simp only [List.mem_cons, List.not_mem_nil, or_false] at hx
    rcases hx with rfl | rfl
    · exact Or.inr rfl
    · exact Or.inl hc
  · rw [List.mem_singleton] at hx
    exact Or.inl (hx ▸ hc)

/-- The parts with backslashes. -/
def quotedPiece : Piece → Piece
  | .txt s => .txt (quoted s)
  | .ref n => .ref n

theorem quoted_key {n : Bytes} (h : n.all keyChar = true) : quoted n = n :=
  quoted_id fun h' => (key_no_close 32 (List.all_eq_true.1 h 32 h')).2.1 rfl

theorem quoted_pieces {ps : List Piece} (hp : ∀ p ∈ ps, p.ok = true) :
    quoted (ps.flatMap Piece.text) = (ps.map quotedPiece).flatMap Piece.text ∧ ∀ p ∈ ps.map quotedPiece, p.ok = true := by
  induction ps with
  | nil => exact ⟨rfl, fun _ h => nomatch h⟩
  | cons p ps ih =>
    obtain ⟨i1, i2⟩ := ih (fun q hq => hp q (by simp [hq]))
    have h1 := hp p (by simp)
    rw [List.flatMap_cons, quoted_append, i1, List.map_cons, List.flatMap_cons]
    cases p with
    | txt s =>
      refine ⟨rfl, fun q hq => ?_⟩
      rcases List.mem_cons.1 hq with rfl | hq
      · have : (36 : UInt8) ∉ s := by simpa [Piece.ok] using h1
        have : (36 : UInt8) ∉ quoted s := fun h => by
          rcases mem_quoted h with h | h
          · exact this h
          · exact absurd h (by decide)
        simpa [Piece.ok, quotedPiece] using this
      · exact i2 q hq
    | ref n =>
      have e : quoted (Piece.ref n).text = (Piece.ref n).text := by
        rw [Piece.text, ascii_open, ascii_close, quoted_append, quoted_append, quoted_key h1,
          quoted_id (show (32 : UInt8) ∉ [36, 123] by decide), quoted_id (show (32 : UInt8) ∉ [125] by decide)]
      refine ⟨by rw [e]; rfl, fun q hq => ?_⟩
      rcases List.mem_cons.1 hq with rfl | hq
      · exact h1
      · exact i2 q hq

/-- **Escaping and references do not get in each other's way.** -/
theorem expand_quoted {e f : Bytes → Bytes} (h : ∀ n, n.all keyChar = true → e n = quoted (f n)) {s : Bytes} (hs : WellRef s)
    (r : Bytes) : expandFrom e none (quoted s ++ r) = quoted (expand f s) ++ expandFrom e none r := by
  obtain ⟨ps, hp, rfl⟩ := hs
  obtain ⟨h1, h2⟩ := quoted_pieces hp
  rw [h1, expand_pieces e h2]
  have h3 : expand f (ps.flatMap Piece.text) = ps.flatMap (pieceVal f) := by
    have := expand_pieces f hp []
    rw [List.append_nil] at this
    unfold expand
    rw [this]
    simp [expandFrom]
  rw [h3]
  congr 1
  clear h1 h2 h3
  induction ps with
  | nil => rfl
  | cons p ps ih =>
    rw [List.map_cons, List.flatMap_cons, List.flatMap_cons, quoted_append, ih (fun q hq => hp q (by simp [hq]))]
    congr 1
    cases p with
    | txt s => rfl
    | ref n => exact h n (hp (.ref n) (by simp))

theorem expand_quoted' {e f : Bytes → Bytes} (h : ∀ n, n.all keyChar = true → e n = quoted (f n)) {s : Bytes} (hs : WellRef s) :
    expand e (quoted s) = quoted (expand f s) := by
  have := expand_quoted h hs []
  simp only [List.append_nil] at this
  unfold expand at this ⊢
  rw [this]; simp [expandFrom]

/-- The definitions with backslashes in their values. -/
def quotedDef (d : Def) : Def := ⟨d.key, quoted d.val⟩

theorem env_quoted (ds : List Def) (hd : ∀ d ∈ ds, WellRef d.val) (fs : List (Bytes × Bytes)) {e f : Bytes → Bytes}
    (h : ∀ n, n.all keyChar = true → e n = quoted (f n)) :
    ∀ n, n.all keyChar = true → env ((ds.map quotedDef).map (fun d => Line.var d.key d.val) ++
      fs.map (fun kv => Line.fld kv.1 kv.2)) e n = quoted (env (ds.map (fun d => Line.var d.key d.val)) f n) := by
  induction ds generalizing e f with
  | nil =>
    induction fs with
    | nil => exact h
    | cons x fs ih => intro n hn; exact ih n hn
  | cons d ds ih =>
    intro n hn
    rw [List.map_cons, List.map_cons, List.map_cons, List.cons_append, env, env]
    refine ih (fun d hd' => hd d (by simp [hd'])) ?_ n hn
    intro n hn
    by_cases hk : n = d.key
    · have : n = (quotedDef d).key := hk
      rw [if_pos this, if_pos hk]
      exact expand_quoted' h (hd d (by simp))
    · have : n ≠ (quotedDef d).key := hk
      rw [if_neg this, if_neg hk]
      exact h n hn

/-- Values of lists of definitions, one after the other. -/
theorem env_append (a b : List Line) (e : Bytes → Bytes) : env (a ++ b) e = env b (env a e) := by
  induction a generalizing e with
  | nil => rfl
  | cons x a ih =>
    cases x with
    | var k v => rw [List.cons_append, env, env, ih]
    | fld k v => rw [List.cons_append, env, env, ih]

/-- A variable that is not defined keeps its value. -/
theorem env_other {ds : List Def} {n : Bytes} (h : ∀ d ∈ ds, d.key ≠ n) (e : Bytes → Bytes) :
    env (ds.map (fun d => Line.var d.key d.val)) e n = e n := by
  induction ds generalizing e with
  | nil => rfl
  | cons d ds ih =>
    rw [List.map_cons, env, ih (fun d hd => h d (by simp [hd]))]
    exact if_neg (fun e => h d (by simp) e.symm)

/-! ### Which variables there are -/

theorem splitVar_some {x k v : Bytes} (h : splitVar x = some (k, v)) : 61 ∉ k ∧ x = k ++ 61 :: v := by
  unfold splitVar at h
  split at h
  · rename_i hm
    cases h
    refine ⟨?_, ?_⟩
    · intro h
      have := List.all_takeWhile (l := x) (p := fun c => decide (c ≠ 61))
      have := List.all_eq_true.1 this 61 h
      exact absurd this (by decide)
    · have h2 : ∀ y : Bytes, 61 ∈ y → y = y.takeWhile (· ≠ 61) ++ 61 :: (y.dropWhile (· ≠ 61)).drop 1 := by
        intro y hy
        induction y with
        | nil => cases hy
        | cons c y ih =>
          by_cases hc : c = 61
          · subst hc; simp
          · rw [List.takeWhile_cons_of_pos (by simpa using hc), List.dropWhile_cons_of_pos (by simpa using hc)]
            rcases List.mem_cons.1 hy with hy | hy
            · exact absurd hy.symm hc
            · rw [List.cons_append]; congr 1; exact ih hy
      exact h2 x hm
  · cases h

/-- What declaring variables does to the two sets. -/
structure Noted (ps : List (Bytes × Bytes)) (ds : List Bytes) (s t : Vars) : Prop where
  out : t.out = s.out
  added : ∀ d, d ∈ t.added ↔ d ∈ s.added ∨ d ∈ ds ∧ ∃ p ∈ ps, p.1 = d
  refd : ∀ d, d ∈ t.refd ↔ d ∈ s.refd ∨ d ∈ ds ∧ ∃ p ∈ ps, (ref d) <+: p.2

theorem noteDirs_noted (k v : Bytes) (ds : List Bytes) (s : Vars) (hp : ascii "prefix" ∈ s.refd) :
    Noted [(k, v)] ds s (noteDirs k v ds s) := by
  induction ds generalizing s with
  | nil => exact ⟨rfl, by simp [noteDirs], by simp [noteDirs]⟩
  | cons d ds ih =>
    rw [noteDirs]
    generalize hs1 : (if k = d then { s with added := d :: s.added } else s) = s1
    generalize hs2 : (if d ∈ s1.refd then s1
      else if (ref d).isPrefixOf v = true then { s1 with refd := d :: ascii "prefix" :: s1.refd } else s1) = s2
    have f1 : s1.out = s.out ∧ (∀ x, x ∈ s1.added ↔ x ∈ s.added ∨ x = d ∧ k = d) ∧ s1.refd = s.refd := by
      rw [← hs1]
      by_cases h : k = d
      · rw [if_pos h]
        refine ⟨rfl, fun x => ?_, rfl⟩
        simp only [List.mem_cons, h, and_true]
        exact or_comm
      · rw [if_neg h]; exact ⟨rfl, fun x => by simp [h], rfl⟩
    have f2 : s2.out = s1.out ∧ s2.added = s1.added ∧ ∀ x, x ∈ s2.refd ↔ x ∈ s1.refd ∨ x = d ∧ ref d <+: v := by
      have hp1 : ascii "prefix" ∈ s1.refd := f1.2.2 ▸ hp
      rw [← hs2]
      by_cases h : d ∈ s1.refd
      · rw [if_pos h]
        refine ⟨rfl, rfl, fun x => ⟨Or.inl, ?_⟩⟩
        rintro (h' | ⟨rfl, _⟩) <;> assumption
      · rw [if_neg h]
        by_cases h2 : (ref d).isPrefixOf v = true
        · rw [if_pos h2]
          have h3 := List.isPrefixOf_iff_prefix.1 h2
          refine ⟨rfl, rfl, fun x => ?_⟩
          simp only [List.mem_cons, h3, and_true]
          constructor
          · rintro (h | rfl | h)
            · exact Or.inr h
            · exact Or.inl hp1
            · exact Or.inl h
          · rintro (h | h)
            · exact Or.inr (Or.inr h)
            · exact Or.inl h
        · rw [if_neg h2]
          have h3 : ¬ ref d <+: v := fun h => h2 (List.isPrefixOf_iff_prefix.2 h)
          exact ⟨rfl, rfl, fun x => by simp [h3]⟩
    obtain ⟨i1, i2, i3⟩ := ih s2 (by rw [f2.2.2, f1.2.2]; exact Or.inl hp)
    refine ⟨by rw [i1, f2.1, f1.1], fun x => ?_, fun x => ?_⟩
    · rw [i2, f2.2.1, f1.2.1]
      simp only [List.mem_singleton, exists_eq_left, List.mem_cons (a := x)]
      constructor
      · rintro ((h | ⟨rfl, h⟩) | ⟨h1, h2⟩)
        · exact Or.inl h
        · exact Or.inr ⟨Or.inl rfl, h⟩
        · exact Or.inr ⟨Or.inr h1, h2⟩
      · rintro (h | ⟨rfl | h1, h2⟩)
        · exact Or.inl (Or.inl h)
        · exact Or.inl (Or.inr ⟨rfl, h2⟩)
        · exact Or.inr ⟨h1, h2⟩
    · rw [i3, f2.2.2, f1.2.2]
      simp only [List.mem_singleton, exists_eq_left, List.mem_cons (a := x)]
      constructor
      · rintro ((h | ⟨rfl, h⟩) | ⟨h1, h2⟩)
        · exact Or.inl h
        · exact Or.inr ⟨Or.inl rfl, h⟩
        · exact Or.inr ⟨Or.inr h1, h2⟩
      · rintro (h | ⟨rfl | h1, h2⟩)
        · exact Or.inl (Or.inl h)
        · exact Or.inl (Or.inr ⟨rfl, h2⟩)
        · exact Or.inr ⟨h1, h2⟩

/-- The names that only `generate()` itself may define. -/
def reserved : List Bytes := [ascii "prefix", ascii "libdir", ascii "includedir"]

/-- What declaring these variables comes to. -/
structure Declared (escape skip : Bool) (ps : List (Bytes × Bytes)) (s t : Vars) : Prop where
  out : t.out = s.out ++ ps.map (fun p => p.1 ++ [61] ++ (if escape = true then quoted p.2 else p.2))
  nonl : escape = true → ∀ p ∈ ps, 10 ∉ p.2
  free : skip = false → ∀ p ∈ ps, p.1 ∉ reserved
  added : ∀ d, d ∈ t.added ↔ d ∈ s.added ∨ skip = false ∧ d ∈ dirs ∧ ∃ p ∈ ps, p.1 = d
  refd : ∀ d, d ∈ t.refd ↔ d ∈ s.refd ∨ skip = false ∧ d ∈ dirs ∧ ∃ p ∈ ps, ref d <+: p.2

theorem declareVar_declared {escape skip : Bool} {k v : Bytes} {s t : Vars} (h : declareVar escape skip k v s = .ok t)
    (hp : skip = false → ascii "prefix" ∈ s.refd) : Declared escape skip [(k, v)] s t := by
  unfold declareVar at h
  split at h
  · cases h
  · rename_i hr
    dsimp only at h
    obtain ⟨w, h1, h2⟩ := (Res.bind_eq_ok (x := if escape = true then Esc.pkgconfEscape v else Res.ok v)).1 h
    cases h2
    have hw : w = (if escape = true then quoted v else v) ∧ (escape = true → 10 ∉ v) := by
      cases escape with
      | false => simp only [Bool.false_eq_true, if_false] at h1; cases h1; simp
      | true =>
        simp only [if_true] at h1
        rw [escape_eq] at h1
        split at h1
        · cases h1
        · cases h1; simp_all
    have hf : skip = false → ∀ p ∈ [(k, v)], p.1 ∉ reserved := by
      rintro rfl p hp'
      rw [List.mem_singleton] at hp'
      subst hp'
      simp only [Bool.not_false, Bool.true_and, Bool.or_eq_true, decide_eq_true_eq, not_or] at hr
      simp [reserved, hr.1.1, hr.1.2, hr.2]
    cases skip with
    | true =>
      simp only [if_true]
      refine ⟨?_, fun he p hp' => ?_, hf, by simp, by simp⟩
      · rw [hw.1]; rfl
      · rw [List.mem_singleton] at hp'; subst hp'; exact hw.2 he
    | false =>
      simp only [Bool.false_eq_true, if_false]
      obtain ⟨n1, n2, n3⟩ := noteDirs_noted k v dirs s (hp rfl)
      refine ⟨?_, fun he p hp' => ?_, hf, fun d => ?_, fun d => ?_⟩
      · dsimp only; rw [n1, hw.1]; rfl
      · rw [List.mem_singleton] at hp'; subst hp'; exact hw.2 he
      · dsimp only; rw [n2]; simp
      · dsimp only; rw [n3]; simp

theorem Declared.trans {escape skip : Bool} {ps qs : List (Bytes × Bytes)} {s t u : Vars} (h : Declared escape skip ps s t)
    (h' : Declared escape skip qs t u) : Declared escape skip (ps ++ qs) s u := by
  refine ⟨by rw [h'.out, h.out]; simp, fun he p hp => ?_, fun hs p hp => ?_, fun d => ?_, fun d => ?_⟩
  · rcases List.mem_append.1 hp with hp | hp
    · exact h.nonl he p hp
    · exact h'.nonl he p hp
  · rcases List.mem_append.1 hp with hp | hp
    · exact h.free hs p hp
    · exact h'.free hs p hp
  · rw [h'.added, h.added]
    constructor
    · rintro ((h | ⟨h1, h2, p, h3, h4⟩) | ⟨h1, h2, p, h3, h4⟩)
      · exact Or.inl h
      · exact Or.inr ⟨h1, h2, p, by simp [h3], h4⟩
      · exact Or.inr ⟨h1, h2, p, by simp [h3], h4⟩
    · rintro (h | ⟨h1, h2, p, h3, h4⟩)
      · exact Or.inl (Or.inl h)
      · rcases List.mem_append.1 h3 with h3 | h3
        · exact Or.inl (Or.inr ⟨h1, h2, p, h3, h4⟩)
        · exact Or.inr ⟨h1, h2, p, h3, h4⟩
  · rw [h'.refd, h.refd]
    constructor
    · rintro ((h | ⟨h1, h2, p, h3, h4⟩) | ⟨h1, h2, p, h3, h4⟩)
      · exact Or.inl h
      · exact Or.inr ⟨h1, h2, p, by simp [h3], h4⟩
      · exact Or.inr ⟨h1, h2, p, by simp [h3], h4⟩
    · rintro (h | ⟨h1, h2, p, h3, h4⟩)
      · exact Or.inl (Or.inl h)
      · rcases List.mem_append.1 h3 with h3 | h3
        · exact Or.inl (Or.inr ⟨h1, h2, p, h3, h4⟩)
        · exact Or.inr ⟨h1, h2, p, h3, h4⟩

theorem declared_nil (escape skip : Bool) (s : Vars) : Declared escape skip [] s s :=
  ⟨by simp, (fun _ _ h => nomatch h), (fun _ _ h => nomatch h), by simp, by simp⟩

theorem declareStrs_declared {escape skip : Bool} {l : List Bytes} {s t : Vars} (h : declareStrs escape skip l s = .ok t)
    (hp : skip = false → ascii "prefix" ∈ s.refd) : ∃ ps, Pairs (.strs l) ps ∧ Declared escape skip ps s t := by
  induction l generalizing s with
  | nil => simp only [declareStrs] at h; cases h; exact ⟨[], .nil, declared_nil ..⟩
  | cons x l ih =>
    simp only [declareStrs] at h
    cases hx : splitVar x with
    | none => rw [hx] at h; cases h
    | some kv =>
      obtain ⟨k, v⟩ := kv
      rw [hx] at h
      obtain ⟨u, h1, h2⟩ := (Res.bind_eq_ok (x := declareVar escape skip k v s)).1 h
      have d1 := declareVar_declared h1 hp
      obtain ⟨ps, i1, i2⟩ := ih h2 (fun hs => (d1.refd _).2 (Or.inl (hp hs)))
      obtain ⟨f1, rfl⟩ := splitVar_some hx
      exact ⟨_, .cons f1 i1, d1.trans i2⟩

theorem declareDict_declared {escape skip : Bool} {l : List (Bytes × Bytes)} {s t : Vars}
    (h : declareDict escape skip l s = .ok t) (hp : skip = false → ascii "prefix" ∈ s.refd) : Declared escape skip l s t := by
  induction l generalizing s with
  | nil => simp only [declareDict] at h; cases h; exact declared_nil ..
  | cons x l ih =>
    obtain ⟨k, v⟩ := x
    simp only [declareDict] at h
    obtain ⟨u, h1, h2⟩ := (Res.bind_eq_ok (x := declareVar escape skip k v s)).1 h
    have d1 := declareVar_declared h1 hp
    exact d1.trans (ih h2 (fun hs => (d1.refd _).2 (Or.inl (hp hs))))

theorem declareOpt_declared {escape skip : Bool} {g : Option Given} {s t : Vars} (h : declareOpt escape skip g s = .ok t)
    (hp : skip = false → ascii "prefix" ∈ s.refd) : ∃ ps, PairsOpt g ps ∧ Declared escape skip ps s t := by
  cases g with
  | none => simp only [declareOpt] at h; cases h; exact ⟨[], rfl, declared_nil ..⟩
  | some g =>
    cases g with
    | strs l => exact declareStrs_declared h hp
    | dict l => exact ⟨l, .dict l, declareDict_declared h hp⟩

/-- The definition of a directory, before it is escaped. -/
def dirDef (opt : Bytes → Bytes) (d : Bytes) : Def :=
  ⟨d, if d = ascii "prefix" then opt d else ascii "${prefix}/" ++ opt d⟩

theorem builtins_eq {opt : Bytes → Bytes} {refd added : List Bytes} {ds b : List Bytes}
    (h : builtins opt refd added ds = .ok b) :
    b = ((ds.filter (fun d => decide (d ∈ refd ∧ d ∉ added))).map (fun d => quotedDef (dirDef opt d))).map Def.line ∧
    ∀ d ∈ ds, d ∈ refd → d ∉ added → 10 ∉ (dirDef opt d).val := by
  induction ds generalizing b with
  | nil => simp only [builtins] at h; cases h; exact ⟨rfl, fun _ h => nomatch h⟩
  | cons d ds ih =>
    simp only [builtins] at h
    split at h
    · rename_i hd
      obtain ⟨v, h1, h2⟩ := (Res.bind_eq_ok (x := Esc.pkgconfEscape
        (if d = ascii "prefix" then opt d else ascii "${prefix}/" ++ opt d))).1 h
      obtain ⟨r, h3, h4⟩ := (Res.bind_eq_ok (x := builtins opt refd added ds)).1 h2
      cases h4
      obtain ⟨i1, i2⟩ := ih h3
      rw [escape_eq] at h1
      by_cases hn : 10 ∈ (if d = ascii "prefix" then opt d else ascii "${prefix}/" ++ opt d)
      · rw [if_pos hn] at h1; cases h1
      · rw [if_neg hn] at h1
        cases h1
        refine ⟨?_, fun x hx => ?_⟩
        · rw [List.filter_cons_of_pos (by simpa using hd), List.map_cons, List.map_cons, i1]; rfl
        · rcases List.mem_cons.1 hx with rfl | hx
          · exact fun _ _ => hn
          · exact i2 x hx
    · rename_i hd
      obtain ⟨i1, i2⟩ := ih h
      refine ⟨?_, fun x hx => ?_⟩
      · rw [List.filter_cons_of_neg (by simpa using hd), i1]
      · rcases List.mem_cons.1 hx with rfl | hx
        · exact fun h1 h2 => absurd ⟨h1, h2⟩ hd
        · exact i2 x hx

/-- **The variables of a file**: for each directory that is needed, and was not defined by a variable given to this or an
earlier call, its option; and then the variables given. -/
theorem variables_exact {opt : Bytes → Bytes} {added : List Bytes} {c : Call} {hl : Bool} {b out added' : List Bytes}
    (h : variables opt added c hl = .ok (b, out, added')) (hd : c.dataonly = false) :
    ∃ vs us, PairsOpt c.variables vs ∧ PairsOpt c.unescapedVariables us ∧
      out = (vs.map (fun p => quotedDef (Def.mk p.1 p.2)) ++ us.map (fun p => Def.mk p.1 p.2)).map Def.line ∧
      (∀ p ∈ vs ++ us, p.1 ∉ reserved) ∧ (∀ p ∈ vs, 10 ∉ p.2) ∧
      (∀ d, d ∈ added' ↔ d ∈ added ∨ d ∈ dirs ∧ ∃ p ∈ vs ++ us, p.1 = d) ∧
      ∃ refd : List Bytes, (∀ d, d ∈ refd ↔ d = ascii "prefix" ∨ d = ascii "includedir" ∨ d = ascii "libdir" ∧ hl = true ∨
          d ∈ dirs ∧ ∃ p ∈ vs ++ us, ref d <+: p.2) ∧
        b = ((dirs.filter (fun d => decide (d ∈ refd ∧ d ∉ added'))).map (fun d => quotedDef (dirDef opt d))).map Def.line ∧
        ∀ d ∈ dirs, d ∈ refd → d ∉ added' → 10 ∉ (dirDef opt d).val := by
  unfold variables at h
  rw [hd] at h
  obtain ⟨s, h1, h⟩ := (Res.bind_eq_ok (x := declareOpt true false c.variables ⟨firstRefd false hl, added, []⟩)).1 h
  obtain ⟨t, h2, h⟩ := (Res.bind_eq_ok (x := declareOpt false false c.unescapedVariables s)).1 h
  obtain ⟨b', h3, h⟩ := (Res.bind_eq_ok (x := builtins opt t.refd t.added dirs)).1 h
  cases h
  have hp : ascii "prefix" ∈ firstRefd false hl := by simp [firstRefd]
  obtain ⟨vs, v1, v2⟩ := declareOpt_declared h1 (fun _ => hp)
  obtain ⟨us, u1, u2⟩ := declareOpt_declared h2 (fun _ => (v2.refd _).2 (Or.inl hp))
  obtain ⟨b1, b2⟩ := builtins_eq h3
  refine ⟨vs, us, v1, u1, ?_, ?_, v2.nonl rfl, fun d => ?_, t.refd, fun d => ?_, b1, b2⟩
  · rw [u2.out, v2.out]
    simp only [List.nil_append, List.map_append, List.map_map, if_true, Bool.false_eq_true, if_false]
    rfl
  · intro p hp'
    rcases List.mem_append.1 hp' with hp' | hp'
    · exact v2.free rfl p hp'
    · exact u2.free rfl p hp'
  · rw [u2.added, v2.added]
    constructor
    · rintro ((h | ⟨_, h2, p, h3, h4⟩) | ⟨_, h2, p, h3, h4⟩)
      · exact Or.inl h
      · exact Or.inr ⟨h2, p, by simp [h3], h4⟩
      · exact Or.inr ⟨h2, p, by simp [h3], h4⟩
    · rintro (h | ⟨h2, p, h3, h4⟩)
      · exact Or.inl (Or.inl h)
      · rcases List.mem_append.1 h3 with h3 | h3
        · exact Or.inl (Or.inr ⟨rfl, h2, p, h3, h4⟩)
        · exact Or.inr ⟨rfl, h2, p, h3, h4⟩
  · rw [u2.refd, v2.refd]
    have hf : d ∈ firstRefd false hl ↔ d = ascii "prefix" ∨ d = ascii "includedir" ∨ d = ascii "libdir" ∧ hl = true := by
      cases hl <;> simp [firstRefd]
    dsimp only
    rw [hf]
    constructor
    · rintro (((h | h | h) | ⟨_, h2, p, h3, h4⟩) | ⟨_, h2, p, h3, h4⟩)
      · exact Or.inl h
      · exact Or.inr (Or.inl h)
      · exact Or.inr (Or.inr (Or.inl h))
      · exact Or.inr (Or.inr (Or.inr ⟨h2, p, by simp [h3], h4⟩))
      · exact Or.inr (Or.inr (Or.inr ⟨h2, p, by simp [h3], h4⟩))
    · rintro (h | h | h | ⟨h2, p, h3, h4⟩)
      · exact Or.inl (Or.inl (Or.inl h))
      · exact Or.inl (Or.inl (Or.inr (Or.inl h)))
      · exact Or.inl (Or.inl (Or.inr (Or.inr h)))
      · rcases List.mem_append.1 h3 with h3 | h3
        · exact Or.inl (Or.inr ⟨rfl, h2, p, h3, h4⟩)
        · exact Or.inr ⟨rfl, h2, p, h3, h4⟩

end Muon.Pc
