import Verif.Depfile.Model
import Verif.Depfile.Spec
import Verif.Canon.Model
/-
C85: dependency files are read as what compilers write.
-/
namespace Muon.Depfile
open Muon Spec

instance (c : UInt8) : Decidable (NameByte c) := by unfold NameByte; exact inferInstance

/-! ### Names -/

/-- Bytes that a name does not contain without a backslash. -/
def Stops (p : Bytes) : Prop := ∀ c, p.head? = some c → nameChar c = false

theorem name_slashes (buf : Bytes) (n k : Nat) (s : Bytes) : name buf n (List.replicate k 92 ++ s) = name buf (n + k) s := by
  induction k generalizing n with
  | zero => rfl
  | succ k ih =>
    rw [List.replicate_succ, List.cons_append, name, if_pos rfl, ih]
    congr 1; omega

theorem kept_eq (k : Nat) : kept (k + 1) = List.replicate k 92 := by
  unfold kept
  rw [List.replicate_append_replicate]
  congr 1; omega

theorem nameByte_key : ∀ c : UInt8, NameByte c → c ≠ 92 → c ≠ 32 → c ≠ 9 → c ≠ 35 → c ≠ 36 → nameChar c = true ∧ blank c = false ∧ c ≠ 10 := forall_byte (by decide +kernel)

/-- A name that was written is read. -/
theorem name_munge (s : Bytes) : ∀ (buf : Bytes) (k : Nat) (p : Bytes), (∀ c ∈ s, NameByte c) → (s = [] → k = 0) → s.getLast? ≠ some 92 →
    name buf k (munge k s ++ p) = name (buf ++ (List.replicate k 92 ++ s)) 0 p := by
  induction s with
  | nil =>
    intro buf k p _ hk _
    rw [hk rfl, munge]; simp
  | cons c s ih =>
    intro buf k p hb _ hl
    have hs : ∀ c ∈ s, NameByte c := fun c hc => hb c (by simp [hc])
    have hl' : s.getLast? ≠ some 92 := by
      cases s with
      | nil => simp
      | cons d s => rwa [List.getLast?_cons_cons] at hl
    by_cases h1 : c = 92
    · subst h1
      rw [munge, if_pos rfl, List.cons_append, name, if_pos rfl]
      rw [ih buf (k + 1) p hs (by intro h; subst h; simp at hl) hl']
      congr 2
      rw [List.replicate_succ', List.append_assoc]; rfl
    · by_cases h2 : c = 32 ∨ c = 9
      · rw [munge, if_neg h1, if_pos h2, List.append_assoc, name_slashes, List.cons_append, name, if_neg h1, if_pos]
        · rw [ih _ 0 p hs (by simp) hl']
          congr 1
          rw [show (k + (k + 1)) / 2 = k by omega]; simp
        · refine ⟨by omega, ?_⟩
          rcases h2 with h2 | h2 <;> subst h2 <;> rfl
      · by_cases h3 : c = 35
        · subst h3
          rw [munge, if_neg h1, if_neg h2, if_pos rfl, List.cons_append, name, if_pos rfl, List.cons_append, name, if_neg h1, if_neg, if_pos, kept_eq, ih _ 0 p hs (by simp) hl']
          · congr 1; simp
          · exact ⟨by omega, rfl⟩
          · simp [blank]
        · by_cases h4 : c = 36
          · subst h4
            rw [munge, if_neg h1, if_neg h2, if_neg h3, if_pos rfl, List.cons_append, List.cons_append, name, if_neg h1, if_neg (by simp [blank]), if_neg (by simp),
              if_neg (by simp)]
            simp only [if_true]
            rw [ih _ 0 p hs (by simp) hl']
            congr 1
            cases k with
            | zero => simp
            | succ k => rw [if_neg (by omega), kept_eq, List.replicate_succ']; simp
          · obtain ⟨g1, g2, g3⟩ := nameByte_key c (hb c (by simp)) h1 (fun h => h2 (Or.inl h)) (fun h => h2 (Or.inr h)) h3 h4
            rw [munge, if_neg h1, if_neg h2, if_neg h3, if_neg h4, List.cons_append, name, if_neg h1, if_neg (by simp [g2]), if_neg (by simp [h3]), if_neg (by simp [g3])]
            simp only [if_neg h4, if_pos g1]
            rw [ih _ 0 p hs (by simp) hl']
            congr 1
            cases k with
            | zero => simp
            | succ k => rw [if_neg (by omega), kept_eq, List.replicate_succ']; simp

theorem name_stop (buf p : Bytes) (h : Stops p) : name buf 0 p = .ok (buf, p) := by
  cases p with
  | nil => rfl
  | cons c s =>
    have hc := h c rfl
    have k : ∀ c, nameChar c = false → c ≠ 92 ∧ c ≠ 36 := forall_byte (by decide +kernel)
    rw [name, if_neg (k c hc).1, if_neg (by simp), if_neg (by simp), if_neg (by simp)]
    simp [(k c hc).2, hc]

theorem name_cont (buf p : Bytes) : name buf 0 (92 :: 10 :: p) = .ok (buf, 32 :: p) := by
  rw [name, if_pos rfl, name, if_neg (by decide), if_neg (by decide), if_neg (by decide), if_pos (by decide)]
  simp [kept]

/-! ### Gaps -/

/-- The position is not in a gap. -/
def Solid (p : Bytes) : Prop := ∀ c, p.head? = some c → c ≠ 92 ∧ blank c = false

theorem skip_other (c : UInt8) (s : Bytes) (h : c ≠ 92) : skip (c :: s) = if blank c then skip s else .ok (c :: s) := by
  rw [skip.eq_def]
  simp only [if_neg h]

theorem skip_solid (p : Bytes) (h : Solid p) : skip p = .ok p := by
  cases p with
  | nil => rfl
  | cons c s => rw [skip_other c s (h c rfl).1, if_neg (by simp [(h c rfl).2])]

theorem blank_of {c : UInt8} (h : c = 32 ∨ c = 9) : blank c = true ∧ c ≠ 92 ∧ c ≠ 10 ∧ space c = true ∧ nameChar c = false := by
  rcases h with h | h <;> subst h <;> decide

theorem skip_gap {g : Bytes} (h : Gap g) (p : Bytes) : skip (g ++ p) = skip p := by
  induction h with
  | nil => rfl
  | blank c hc h ih => rw [List.cons_append, skip_other c _ (blank_of hc).2.1, if_pos (blank_of hc).1, ih]
  | cont h ih =>
    rw [List.cons_append, List.cons_append, skip, if_pos rfl]
    simp only [if_true]; exact ih

theorem munge_solid {d : Bytes} (h : Dep d) (p : Bytes) : Solid (munge 0 d ++ p) := by
  obtain ⟨⟨hne, hb, hl⟩, h1, h2, h3, h4⟩ := h
  cases d with
  | nil => exact absurd rfl hne
  | cons c s =>
    have g1 : c ≠ 92 := fun h => h1 (by rw [h]; rfl)
    have g2 : c ≠ 35 := fun h => h2 (by rw [h]; rfl)
    have g3 : c ≠ 32 := fun h => h3 (by rw [h]; rfl)
    have g4 : c ≠ 9 := fun h => h4 (by rw [h]; rfl)
    intro x hx
    rw [munge, if_neg g1, if_neg (by simp [g3, g4]), if_neg g2] at hx
    split at hx
    · cases hx; decide
    · cases hx
      exact ⟨g1, by simp [blank, g3, g4]⟩

theorem munge_ne {d : Bytes} (h : d ≠ []) (k : Nat) : munge k d ≠ [] := by
  cases d with
  | nil => exact absurd rfl h
  | cons c s =>
    rw [munge]
    split
    · simp
    · split
      · simp
      · split
        · simp
        · split <;> simp

/-- A tail after a list of dependencies. -/
def Tail (n : Nat) (t' : Bytes) : Prop := (n = 0 → t' = []) ∧ t'.head? ≠ some 10

theorem tail_solid {n : Nat} {t' : Bytes} (h : Tail n t') : Solid (List.replicate n 10 ++ t') := by
  intro c hc
  cases n with
  | zero => rw [h.1 rfl] at hc; cases hc
  | succ n => rw [List.replicate_succ, List.cons_append] at hc; cases hc; decide

theorem deps_skip {first : Bool} {ds : List Bytes} {t : Bytes} (h : Deps first ds t) {n : Nat} {t' : Bytes} (ht : Tail n t') :
    ∃ p, skip (t ++ (List.replicate n 10 ++ t')) = .ok p := by
  cases h with
  | nil first h => exact ⟨_, by rw [skip_gap h, skip_solid _ (tail_solid ht)]⟩
  | cons first h hg d hd ht' => exact ⟨_, by rw [List.append_assoc, skip_gap h, List.append_assoc, skip_solid _ (munge_solid hd _)]⟩

/-! ### The list of dependencies -/

/-- What is left to do after a rule: the dependencies are complete, or there is another rule. -/
def After (o : Option Bytes) (D : List Bytes) (t' : Bytes) (r : Res (List Bytes)) : Prop := (t' = [] ∧ r = .ok D) ∨ (t' ≠ [] ∧ Solid t' ∧ Loop step ⟨false, o, D, t'⟩ r)

theorem drop_newlines (n : Nat) (t' : Bytes) (h : t'.head? ≠ some 10) : (List.replicate n (10 : UInt8) ++ t').dropWhile (· = 10) = t' := by
  induction n with
  | zero =>
    cases t' with
    | nil => rfl
    | cons c s =>
      have hc : c ≠ 10 := fun hc => h (by rw [hc]; rfl)
      simp [hc]
  | succ n ih => rw [List.replicate_succ, List.cons_append, List.dropWhile_cons, if_pos (by simp), ih]

/-- The end of a rule, after the name `buf`. -/
theorem end_loop (o : Option Bytes) (D : List Bytes) (buf p : Bytes) (n : Nat) (t' : Bytes) (ht : Tail n t') (r : Res (List Bytes))
    (hn : name [] 0 p = .ok (buf, List.replicate n 10 ++ t')) (ha : After o (push D buf) t' r) : Loop step ⟨true, o, D, p⟩ r := by
  cases n with
  | zero =>
    rw [ht.1 rfl] at hn ha
    rcases ha with ⟨-, ha⟩ | ⟨ha, -⟩
    · subst ha
      refine .done ?_
      unfold step
      simp only [hn]
      rfl
    · exact absurd rfl ha
  | succ n =>
    rcases ha with ⟨ha, hr⟩ | ⟨ha, hs, hl⟩
    · subst hr
      refine .done ?_
      unfold step
      simp only [hn, if_true]
      rw [List.replicate_succ, List.cons_append, afterDep, if_neg (by decide), if_pos rfl, drop_newlines _ _ ht.2, if_pos ha]
    · refine .next (s' := ⟨false, o, push D buf, t'⟩) ?_ hl
      unfold step
      simp only [hn, if_true]
      rw [List.replicate_succ, List.cons_append, afterDep, if_neg (by decide), if_pos rfl, drop_newlines _ _ ht.2, if_neg ha]
      simp only [skip_solid _ hs]

theorem push_ne (D : List Bytes) (d : Bytes) (h : d ≠ []) : push D d = D ++ [d] := if_neg h

/-- A name in the list, before a gap. -/
theorem dep_step (o : Option Bytes) (D : List Bytes) (d x p : Bytes) (hd : Name d) (hx : ∃ c y, (c = 32 ∨ c = 9) ∧ (x = c :: y ∨ (c = 32 ∧ x = 92 :: 10 :: y)))
    (hs : skip x = .ok p) : step ⟨true, o, D, munge 0 d ++ x⟩ = .inl ⟨true, o, D ++ [d], p⟩ := by
  obtain ⟨c, y, hc, hx⟩ := hx
  obtain ⟨b1, b2, b3, b4, b5⟩ := blank_of hc
  have hn : name [] 0 (munge 0 d ++ x) = .ok (d, c :: y) := by
    rw [name_munge d [] 0 x hd.bytes (by simp) hd.last]
    rcases hx with hx | ⟨hc', hx⟩
    · subst hx
      rw [name_stop]
      · simp
      · intro z hz; cases hz; exact b5
    · subst hx hc'
      rw [name_cont]; simp
  have hs' : skip (c :: y) = .ok p := by
    rcases hx with hx | ⟨hc', hx⟩
    · rw [← hx]; exact hs
    · rw [skip_other c y b2, if_pos b1]
      rw [hx, skip, if_pos rfl] at hs
      simpa using hs
  unfold step
  simp only [hn, if_true]
  rw [afterDep, if_neg (by simp [b4]), if_neg b3, push_ne _ _ hd.ne]
  simp only [hs']

theorem deps_loop {first : Bool} {ds : List Bytes} {t : Bytes} (h : Deps first ds t) : ∀ (o : Option Bytes) (D : List Bytes) (n : Nat) (t' : Bytes), Tail n t' → ∀ (r : Res (List Bytes)) (p : Bytes),
    skip (t ++ (List.replicate n 10 ++ t')) = .ok p → After o (D ++ ds) t' r → Loop step ⟨true, o, D, p⟩ r := by
  induction h with
  | nil first h =>
    intro o D n t' ht r p hp ha
    rw [skip_gap h, skip_solid _ (tail_solid ht)] at hp
    cases hp
    refine end_loop o D [] _ n t' ht r (name_stop _ _ ?_) (by simpa [push] using ha)
    intro c hc
    cases n with
    | zero => rw [ht.1 rfl] at hc; cases hc
    | succ n => rw [List.replicate_succ, List.cons_append] at hc; cases hc; decide
  | @cons first g h hg d hd ds t ht' ih =>
    intro o D n t' ht r p hp ha
    rw [List.append_assoc, skip_gap h, List.append_assoc, skip_solid _ (munge_solid hd _)] at hp
    cases hp
    obtain ⟨q, hq⟩ := deps_skip ht' ht
    have ha' : After o (D ++ [d] ++ ds) t' r := by simpa using ha
    have mid : (∃ c y, (c = 32 ∨ c = 9) ∧ ((t ++ (List.replicate n 10 ++ t')) = c :: y ∨ (c = 32 ∧ (t ++ (List.replicate n 10 ++ t')) = 92 :: 10 :: y))) → Loop step ⟨true, o, D, munge 0 d ++ (t ++ (List.replicate n 10 ++ t'))⟩ r := by
      intro hx
      exact .next (dep_step o D d _ q hd.toName hx hq) (ih o (D ++ [d]) n t' ht r q hq ha')
    have gap : ∀ {g z : Bytes}, Gap g → g ≠ [] → ∃ c y, (c = 32 ∨ c = 9) ∧ (g ++ z = c :: y ∨ (c = 32 ∧ g ++ z = 92 :: 10 :: y)) := by
      intro g z hg hne
      cases hg with
      | nil => exact absurd rfl hne
      | blank c hc h => exact ⟨c, _, hc, Or.inl rfl⟩
      | cont h => exact ⟨32, _, Or.inl rfl, Or.inr ⟨rfl, rfl⟩⟩
    cases ht' with
    | nil first h' =>
      cases t with
      | nil =>
        refine end_loop o D d _ n t' ht r ?_ (by rw [push_ne _ _ hd.ne]; simpa using ha)
        rw [name_munge d [] 0 _ hd.bytes (by simp) hd.last, List.nil_append, name_stop]
        · simp
        · intro c hc
          cases n with
          | zero => rw [ht.1 rfl] at hc; cases hc
          | succ n => rw [List.replicate_succ, List.cons_append] at hc; cases hc; decide
      | cons c t => exact mid (gap h' (by simp))
    | cons first h' hg' d' hd' ht'' =>
      refine mid ?_
      rw [List.append_assoc]
      exact gap h' (by rcases hg' with hg' | hg' <;> simp_all)

/-! ### Rules -/

theorem colon_step (o : Option Bytes) (out : Bytes) (ho : o = none ∨ o = some out) (hn : Name out) (D : List Bytes) (bl x p : Bytes) (hb : ∀ c ∈ bl, c = 32 ∨ c = 9) (hs : skip x = .ok p) :
    step ⟨false, o, D, munge 0 out ++ (bl ++ 58 :: x)⟩ = .inl ⟨true, some out, D, p⟩ := by
  have h1 : name [] 0 (munge 0 out ++ (bl ++ 58 :: x)) = .ok (out, bl ++ 58 :: x) := by
    rw [name_munge out [] 0 _ hn.bytes (by simp) hn.last, name_stop]
    · simp
    · intro c hc
      cases bl with
      | nil => cases hc; decide
      | cons b bl => cases hc; exact (blank_of (hb _ (by simp))).2.2.2.2
  have h2 : (bl ++ 58 :: x).dropWhile blank = 58 :: x := by
    clear h1
    induction bl with
    | nil => rfl
    | cons b bl ih =>
      rw [List.cons_append, List.dropWhile_cons, if_pos (blank_of (hb b (by simp))).1]
      exact ih (fun c hc => hb c (by simp [hc]))
  unfold step
  simp only [h1, Bool.false_eq_true, if_false]
  unfold afterOut
  simp only [h2]
  rw [if_neg (by decide), if_pos ho]
  simp only [hs]

theorem rules_loop {out : Bytes} (hn : Name out) {ds : List Bytes} {t : Bytes} (h : Rules out ds t) : ∀ (o : Option Bytes), o = none ∨ o = some out → ∀ (D : List Bytes),
    Loop step ⟨false, o, D, t⟩ (.ok (D ++ ds)) := by
  induction h with
  | last ds hb ht n =>
    intro o ho D
    have htl : Tail n [] := ⟨fun _ => rfl, by simp⟩
    obtain ⟨p, hp⟩ := deps_skip ht htl
    refine .next (colon_step o out ho hn D _ _ p hb (by simpa using hp)) ?_
    exact deps_loop ht _ D n [] htl _ p hp (Or.inl ⟨rfl, rfl⟩)
  | more hd ds hb ht n h ih =>
    rename_i bl t ds' t'
    intro o ho D
    have hx : ∃ z, t' = munge 0 out ++ z := by cases h <;> exact ⟨_, rfl⟩
    obtain ⟨z, hz⟩ := hx
    have hsol : Solid t' := by rw [hz]; exact munge_solid hd z
    have hne : t' ≠ [] := by rw [hz]; simp [munge_ne hn.ne 0]
    have h10 : t'.head? ≠ some 10 := by
      rw [hz]
      obtain ⟨hne, hb', hl⟩ := hn
      cases hout : out with
      | nil => exact absurd hout hne
      | cons c s =>
        have hc := hb' c (by rw [hout]; simp)
        have key : ∀ c, NameByte c → c ≠ 10 := forall_byte (by decide +kernel)
        rw [munge]
        split
        · simp
        · split
          · simp [List.replicate_succ]
          · split
            · simp
            · split
              · simp
              · simp [key c hc]
    have htl : Tail (n + 1) t' := ⟨fun h => absurd h (by omega), h10⟩
    obtain ⟨p, hp⟩ := deps_skip ht htl
    refine .next (colon_step o out ho hn D _ _ p hb hp) ?_
    refine deps_loop ht _ D (n + 1) t' htl _ p hp (Or.inr ⟨hne, hsol, ?_⟩)
    have := ih (some out) (Or.inr rfl) (D ++ ds)
    simpa using this

/-! ### Bytes of the file -/

theorem crlf_dos {s t : Bytes} (h : Dos s t) (h13 : 13 ∉ t) : crlf s = t := by
  induction h with
  | nil => rfl
  | @same c s t h ih =>
    have hc : c ≠ 13 := fun hc => h13 (by rw [hc]; simp)
    have ih := ih (fun h => h13 (by simp [h]))
    cases s with
    | nil => rw [← ih]; rfl
    | cons d s => rw [crlf]; simp only [hc, false_and, if_false]; rw [ih]
  | crlf h ih =>
    rw [crlf]
    simp only [true_and, if_true]
    rw [ih (fun h => h13 (by simp [h]))]

theorem munge_bytes (s : Bytes) (h : ∀ c ∈ s, NameByte c) : ∀ k, ∀ c ∈ munge k s, c ≠ 13 ∧ c ≠ 255 := by
  have key : ∀ c, NameByte c → c ≠ 13 ∧ c ≠ 255 := forall_byte (by decide +kernel)
  induction s with
  | nil => intro k c hc; cases hc
  | cons d s ih =>
    have ih := ih (fun c hc => h c (by simp [hc]))
    have hd := key d (h d (by simp))
    intro k c hc
    rw [munge] at hc
    split at hc
    · simp only [List.mem_cons] at hc
      rcases hc with hc | hc
      · subst hc; decide
      · exact ih _ c hc
    · split at hc
      · simp only [List.mem_append, List.mem_replicate, List.mem_cons] at hc
        rcases hc with ⟨-, hc⟩ | hc | hc
        · subst hc; decide
        · subst hc; exact hd
        · exact ih _ c hc
      · split at hc
        · simp only [List.mem_cons] at hc
          rcases hc with hc | hc | hc
          · subst hc; decide
          · subst hc; decide
          · exact ih _ c hc
        · split at hc
          · simp only [List.mem_cons] at hc
            rcases hc with hc | hc | hc
            · subst hc; decide
            · subst hc; decide
            · exact ih _ c hc
          · simp only [List.mem_cons] at hc
            rcases hc with hc | hc
            · subst hc; exact hd
            · exact ih _ c hc

theorem gap_bytes {g : Bytes} (h : Gap g) : ∀ c ∈ g, c ≠ 13 ∧ c ≠ 255 := by
  induction h with
  | nil => intro c hc; cases hc
  | blank c hc h ih =>
    intro d hd
    rcases List.mem_cons.1 hd with hd | hd
    · subst hd; rcases hc with hc | hc <;> subst hc <;> decide
    · exact ih d hd
  | cont h ih =>
    intro d hd
    simp only [List.mem_cons] at hd
    rcases hd with hd | hd | hd
    · subst hd; decide
    · subst hd; decide
    · exact ih d hd

theorem deps_bytes {first : Bool} {ds : List Bytes} {t : Bytes} (h : Deps first ds t) : ∀ c ∈ t, c ≠ 13 ∧ c ≠ 255 := by
  induction h with
  | nil first h => exact gap_bytes h
  | cons first h hg d hd ht ih =>
    intro c hc
    simp only [List.mem_append] at hc
    rcases hc with hc | hc | hc
    · exact gap_bytes h c hc
    · exact munge_bytes d hd.bytes 0 c hc
    · exact ih c hc

theorem rules_bytes {out : Bytes} (hn : Name out) {ds : List Bytes} {t : Bytes} (h : Rules out ds t) : ∀ c ∈ t, c ≠ 13 ∧ c ≠ 255 := by
  have bl_bytes : ∀ {bl : Bytes}, (∀ c ∈ bl, c = 32 ∨ c = 9) → ∀ c ∈ bl, c ≠ 13 ∧ c ≠ 255 := by
    intro bl hb c hc
    rcases hb c hc with h | h <;> subst h <;> decide
  induction h with
  | last ds hb ht n =>
    intro c hc
    simp only [List.mem_append, List.mem_cons, List.mem_replicate] at hc
    rcases hc with hc | hc | hc | hc | ⟨-, hc⟩
    · exact munge_bytes out hn.bytes 0 c hc
    · exact bl_bytes hb c hc
    · subst hc; decide
    · exact deps_bytes ht c hc
    · subst hc; decide
  | more hd ds hb ht n h ih =>
    intro c hc
    simp only [List.mem_append, List.mem_cons, List.mem_replicate] at hc
    rcases hc with hc | hc | hc | hc | ⟨-, hc⟩ | hc
    · exact munge_bytes out hn.bytes 0 c hc
    · exact bl_bytes hb c hc
    · subst hc; decide
    · exact deps_bytes ht c hc
    · subst hc; decide
    · exact ih c hc

/-- C85: from a dependency file as compilers write it exactly the dependencies that were written are read, for all names of outputs and dependencies, and whatever the lines are
wrapped like and end with. **Partial**: names consist of letters, digits, `+,-./@_` and the bytes that are escaped (blanks, `#`, `$`, backslashes), dependencies do not begin with
one that is escaped. -/
theorem depfile_read_partial (out : Bytes) (ho : Name out) (ds : List Bytes) (t src : Bytes) (h : Rules out ds t) (hs : Dos src t) : Parses src (.ok ds) := by
  have hb := rules_bytes ho h
  unfold Parses
  rw [show input src = t from by
    unfold input
    rw [crlf_dos hs (fun h => (hb 13 h).1 rfl)]
    have : ∀ s : Bytes, (∀ c ∈ s, c ≠ 255) → s.takeWhile (· ≠ 255) = s := by
      intro s hs
      induction s with
      | nil => rfl
      | cons c s ih => rw [List.takeWhile_cons, if_pos (by simpa using hs c (by simp)), ih (fun c hc => hs c (by simp [hc]))]
    exact this t (fun c hc => (hb c hc).2)]
  exact rules_loop ho h none (Or.inl rfl) []

/-- The result is unique. -/
theorem parses_det (src : Bytes) (r r' : Res (List Bytes)) (h : Parses src r) (h' : Parses src r') : r = r' := h.det h'

instance (s : Bytes) : Decidable (Name s) :=
  decidable_of_iff (s ≠ [] ∧ (∀ c ∈ s, NameByte c) ∧ s.getLast? ≠ some 92) ⟨fun h => ⟨h.1, h.2.1, h.2.2⟩, fun h => ⟨h.1, h.2, h.3⟩⟩
instance (s : Bytes) : Decidable (Dep s) :=
  decidable_of_iff (Name s ∧ s.head? ≠ some 92 ∧ s.head? ≠ some 35 ∧ s.head? ≠ some 32 ∧ s.head? ≠ some 9) ⟨fun h => ⟨h.1, h.2⟩, fun h => ⟨h.toName, h.first⟩⟩

/-- C85: a name may also end with an even number of backslashes, if a blank is after it. (With an odd number what compilers write is the same as for one name with a blank in
it.) -/
theorem depfile_backslashes_partial (out d e : Bytes) (ho : Name out) (hd : Dep d) (he : Dep e) (k : Nat) :
    Parses (munge 0 out ++ 58 :: 32 :: (munge 0 d ++ (List.replicate (2 * k + 2) 92 ++ 32 :: (munge 0 e ++ [10])))) (.ok [d ++ List.replicate (2 * k + 2) 92, e]) := by
  have hin : input (munge 0 out ++ 58 :: 32 :: (munge 0 d ++ (List.replicate (2 * k + 2) 92 ++ 32 :: (munge 0 e ++ [10])))) =
      munge 0 out ++ ([] ++ 58 :: (32 :: (munge 0 d ++ (List.replicate (2 * k + 2) 92 ++ 32 :: (munge 0 e ++ [10]))))) := by
    have hb : ∀ c ∈ munge 0 out ++ 58 :: 32 :: (munge 0 d ++ (List.replicate (2 * k + 2) 92 ++ 32 :: (munge 0 e ++ [10]))), c ≠ 13 ∧ c ≠ 255 := by
      intro c hc
      simp only [List.mem_append, List.mem_cons, List.mem_replicate, List.not_mem_nil, or_false] at hc
      rcases hc with hc | hc | hc | hc | ⟨-, hc⟩ | hc | hc | hc
      · exact munge_bytes out ho.bytes 0 c hc
      · subst hc; decide
      · subst hc; decide
      · exact munge_bytes d hd.bytes 0 c hc
      · subst hc; decide
      · subst hc; decide
      · exact munge_bytes e he.bytes 0 c hc
      · subst hc; decide
    have same : ∀ s : Bytes, Dos s s := by
      intro s
      induction s with
      | nil => exact .nil
      | cons c s ih => exact .same c ih
    unfold input
    rw [crlf_dos (same _) (fun h => (hb 13 h).1 rfl), List.nil_append]
    have : ∀ s : Bytes, (∀ c ∈ s, c ≠ 255) → s.takeWhile (· ≠ 255) = s := by
      intro s hs
      induction s with
      | nil => rfl
      | cons c s ih => rw [List.takeWhile_cons, if_pos (by simpa using hs c (by simp)), ih (fun c hc => hs c (by simp [hc]))]
    exact this _ (fun c hc => (hb c hc).2)
  unfold Parses
  rw [hin]
  have hsk : ∀ (x y : Bytes), Dep x → skip (32 :: (munge 0 x ++ y)) = .ok (munge 0 x ++ y) := by
    intro x y hx
    rw [skip_other 32 _ (by decide), if_pos (by decide), skip_solid _ (munge_solid hx _)]
  refine .next (colon_step none out (Or.inl rfl) ho [] [] _ _ (by simp) (hsk d _ hd)) ?_
  have hnm : name [] 0 (munge 0 d ++ (List.replicate (2 * k + 2) 92 ++ 32 :: (munge 0 e ++ [10]))) = .ok (d ++ List.replicate (2 * k + 2) 92, 32 :: (munge 0 e ++ [10])) := by
    rw [name_munge d [] 0 _ hd.bytes (by simp) hd.last, name_slashes, name, if_neg (by decide), if_neg (by rintro ⟨h, -⟩; omega), if_neg (by simp), if_neg (by simp)]
    dsimp only
    rw [if_neg (by decide), if_neg (by decide), if_neg (by omega), show 0 + (2 * k + 2) = 2 * k + 1 + 1 by omega, kept_eq, ← List.replicate_succ']
    simp
  refine .next (s' := ⟨true, some out, [d ++ List.replicate (2 * k + 2) 92], munge 0 e ++ [10]⟩) ?_ ?_
  · unfold step
    simp only [hnm, if_true]
    rw [afterDep, if_neg (by decide), if_neg (by decide), push_ne _ _ (by simp)]
    simp only [hsk e _ he, List.nil_append]
  · refine end_loop (some out) [d ++ List.replicate (2 * k + 2) 92] e _ 1 [] ⟨by simp, by simp⟩ _ ?_ (Or.inl ⟨rfl, ?_⟩)
    · rw [name_munge e [] 0 _ he.bytes (by simp) he.last, name_stop]
      · simp
      · intro c hc; cases hc; decide
    · rw [push_ne _ _ he.ne]; rfl

example : Name (ascii "a.o") ∧ Dep (ascii "b") ∧ Dep (ascii "c#") := by decide +kernel

/-- `a.o: b\ c.h \⏎ $$x#.h⏎`. -/
example : Rules (ascii "a.o") [ascii "b c.h", ascii "$x#.h"] (ascii "a.o: b\\ c.h \\\n $$x\\#.h\n") ∧ Name (ascii "a.o") :=
  ⟨Rules.last (out := ascii "a.o") [ascii "b c.h", ascii "$x#.h"] (bl := []) (by simp)
    (Deps.cons true (g := [32]) (.blank 32 (Or.inl rfl) .nil) (Or.inl rfl) (ascii "b c.h") (by decide +kernel)
      (Deps.cons false (g := [32, 92, 10, 32]) (.blank 32 (Or.inl rfl) (.cont (.blank 32 (Or.inl rfl) .nil))) (Or.inr (by simp)) (ascii "$x#.h") (by decide +kernel) (Deps.nil false .nil))) 1,
   by decide +kernel⟩

/-! ### Termination -/

theorem name_shape (m : Nat) : ∀ (s : Bytes), s.length ≤ m → ∀ (buf : Bytes) (n : Nat), name buf n s = .error ∨ ∃ b p, name buf n s = .ok (b, p) ∧ p.length ≤ s.length ∧ ∀ c ∈ p, c ∈ s ∨ c = 32 := by
  induction m with
  | zero =>
    intro s hs buf n
    have : s = [] := List.length_eq_zero_iff.1 (by omega)
    subst this
    exact Or.inr ⟨_, _, rfl, by simp, by simp⟩
  | succ m ih =>
    intro s hs buf n
    cases s with
    | nil => exact Or.inr ⟨_, _, rfl, by simp, by simp⟩
    | cons c s =>
      have lift : ∀ {s' : Bytes} (h : s'.length ≤ s.length) (hsub : ∀ c ∈ s', c ∈ s) (buf : Bytes) (n : Nat), name buf n s' = .error ∨
          ∃ b p, name buf n s' = .ok (b, p) ∧ p.length ≤ (c :: s).length ∧ ∀ x ∈ p, x ∈ c :: s ∨ x = 32 := by
        intro s' h hsub buf n
        rcases ih s' (by simp only [List.length_cons] at hs; omega) buf n with h1 | ⟨b, p, h1, h2, h3⟩
        · exact Or.inl h1
        · refine Or.inr ⟨b, p, h1, by simp only [List.length_cons]; omega, ?_⟩
          intro x hx
          rcases h3 x hx with h | h
          · exact Or.inl (by simp [hsub x h])
          · exact Or.inr h
      rw [name.eq_def]
      dsimp only
      split
      · exact lift (Nat.le_refl _) (fun _ h => h) _ _
      · split
        · exact lift (Nat.le_refl _) (fun _ h => h) _ _
        · split
          · exact lift (Nat.le_refl _) (fun _ h => h) _ _
          · split
            · refine Or.inr ⟨_, _, rfl, by simp, ?_⟩
              intro x hx
              rcases List.mem_cons.1 hx with hx | hx
              · exact Or.inr hx
              · exact Or.inl (by simp [hx])
            · split
              · cases s with
                | nil => exact Or.inl rfl
                | cons d s' =>
                  dsimp only
                  split
                  · exact lift (by simp) (fun _ h => by simp [h]) _ _
                  · exact Or.inl rfl
              · split
                · exact lift (Nat.le_refl _) (fun _ h => h) _ _
                · exact Or.inr ⟨_, _, rfl, Nat.le_refl _, fun x hx => Or.inl hx⟩

theorem skip_shape (m : Nat) : ∀ (s : Bytes), s.length ≤ m → skip s = .error ∨ ∃ p, skip s = .ok p ∧ p.length ≤ s.length ∧ ∀ c ∈ p, c ∈ s := by
  induction m with
  | zero =>
    intro s hs
    have : s = [] := List.length_eq_zero_iff.1 (by omega)
    subst this
    exact Or.inr ⟨_, rfl, by simp, by simp⟩
  | succ m ih =>
    intro s hs
    cases s with
    | nil => exact Or.inr ⟨_, rfl, by simp, by simp⟩
    | cons c s =>
      rw [skip.eq_def]
      dsimp only
      split
      · cases s with
        | nil => exact Or.inl rfl
        | cons d s' =>
          dsimp only
          split
          · rcases ih s' (by simp only [List.length_cons] at hs; omega) with h | ⟨p, h1, h2, h3⟩
            · exact Or.inl h
            · exact Or.inr ⟨p, h1, by simp only [List.length_cons]; omega, fun x hx => by simp [h3 x hx]⟩
          · exact Or.inl rfl
      · split
        · rcases ih s (by simp only [List.length_cons] at hs; omega) with h | ⟨p, h1, h2, h3⟩
          · exact Or.inl h
          · exact Or.inr ⟨p, h1, by simp only [List.length_cons]; omega, fun x hx => by simp [h3 x hx]⟩
        · exact Or.inr ⟨_, rfl, Nat.le_refl _, fun x hx => hx⟩

/-- Vertical tabs, form feeds, carriage returns. -/
def Odd (c : UInt8) : Prop := c = 11 ∨ c = 12 ∨ c = 13

theorem dropWhile_sub (f : UInt8 → Bool) (s : Bytes) : (s.dropWhile f).length ≤ s.length ∧ ∀ c ∈ s.dropWhile f, c ∈ s := by
  have := List.dropWhile_suffix (l := s) f
  exact ⟨this.length_le, fun c hc => this.mem hc⟩

theorem step_shape (s : St) (h : ∀ c ∈ s.rest, ¬Odd c) : (∃ r, r ≠ .bad ∧ step s = .inr r) ∨ ∃ t, step s = .inl t ∧ t.rest.length < s.rest.length ∧ ∀ c ∈ t.rest, ¬Odd c := by
  have odd32 : ¬Odd 32 := by unfold Odd; decide
  have key : ∀ c : UInt8, (!space c) = false → ¬Odd c → c ≠ 10 → blank c = true := by unfold Odd; exact forall_byte (by decide +kernel)
  unfold step
  rcases name_shape _ s.rest (Nat.le_refl _) [] 0 with h1 | ⟨buf, p, h1, h2, h3⟩
  · rw [h1]; exact Or.inl ⟨.error, by simp, rfl⟩
  · have hp : ∀ c ∈ p, ¬Odd c := by
      intro c hc
      rcases h3 c hc with h' | h'
      · exact h c h'
      · rw [h']; exact odd32
    rw [h1]
    dsimp only
    have fin : ∀ (t : St), t.rest.length < s.rest.length → (∀ c ∈ t.rest, ¬Odd c) →
        (∃ r, r ≠ Res.bad ∧ (match skip t.rest with | .ok p => (.inl { t with rest := p } : St ⊕ Res (List Bytes)) | .error => .inr .error | .bad => .inr .bad) = .inr r) ∨
        ∃ t', (match skip t.rest with | .ok p => (.inl { t with rest := p } : St ⊕ Res (List Bytes)) | .error => .inr .error | .bad => .inr .bad) = .inl t' ∧
          t'.rest.length < s.rest.length ∧ ∀ c ∈ t'.rest, ¬Odd c := by
      intro t ht ho
      rcases skip_shape _ t.rest (Nat.le_refl _) with k1 | ⟨q, k1, k2, k3⟩
      · rw [k1]; exact Or.inl ⟨.error, by simp, rfl⟩
      · rw [k1]; exact Or.inr ⟨_, rfl, Nat.lt_of_le_of_lt k2 ht, fun c hc => ho c (k3 c hc)⟩
    cases hsc : s.sawcolon with
    | true =>
      simp only [if_true]
      unfold afterDep
      cases p with
      | nil => exact Or.inl ⟨_, by simp, rfl⟩
      | cons c r =>
        dsimp only
        cases hspc : !space c with
        | true => exact Or.inl ⟨.error, by simp, rfl⟩
        | false =>
          simp only [Bool.false_eq_true, if_false]
          by_cases h10 : c = 10
          · simp only [h10, if_true]
            by_cases hd : r.dropWhile (· = 10) = []
            · simp only [hd, if_true]
              exact Or.inl ⟨_, by simp, rfl⟩
            · simp only [hd, if_false]
              refine fin ⟨false, s.out, push s.deps buf, r.dropWhile (· = 10)⟩ ?_ ?_
              · have := (dropWhile_sub (· = 10) r).1
                simp only [List.length_cons] at h2
                show (r.dropWhile (· = 10)).length < _
                omega
              · intro x hx
                exact hp x (by simp [(dropWhile_sub (· = 10) r).2 x hx])
          · simp only [h10, if_false]
            have hb := key c hspc (hp c (by simp)) h10
            have hsk : skip (c :: r) = skip r := by
              rw [skip_other c r (by intro hc; rw [hc] at hb; cases hb), if_pos hb]
            simp only [hsk]
            refine fin ⟨true, s.out, push s.deps buf, r⟩ ?_ ?_
            · simp only [List.length_cons] at h2
              show r.length < _
              omega
            · intro x hx
              exact hp x (by simp [show x ∈ r from hx])
    | false =>
      simp only [Bool.false_eq_true, if_false]
      unfold afterOut
      have hdw := dropWhile_sub blank p
      cases hq : p.dropWhile blank with
      | nil => exact Or.inl ⟨_, by simp, rfl⟩
      | cons c r =>
        rw [hq] at hdw
        dsimp only
        by_cases h58 : c ≠ 58
        · simp only [if_pos h58]; exact Or.inl ⟨.error, by simp, rfl⟩
        · simp only [if_neg h58]
          by_cases ho : s.out = none ∨ s.out = some buf
          · simp only [if_pos ho]
            refine fin ⟨true, some buf, s.deps, r⟩ ?_ ?_
            · have := hdw.1
              simp only [List.length_cons] at this
              show r.length < _
              omega
            · intro x hx
              exact hp x (hdw.2 x (by simp [show x ∈ r from hx]))
          · simp only [if_neg ho]; exact Or.inl ⟨.error, by simp, rfl⟩

/-- C85: reading any file comes to an end, with the dependencies or an error. **Partial**: unless there is a vertical tab, a form feed, or a carriage return without newline. -/
theorem depfile_ends_partial (src : Bytes) (h : ∀ c ∈ input src, c ≠ 11 ∧ c ≠ 12 ∧ c ≠ 13) : ∃ r, r ≠ .bad ∧ Parses src r := by
  have main : ∀ (m : Nat) (s : St), s.rest.length ≤ m → (∀ c ∈ s.rest, ¬Odd c) → ∃ r, r ≠ .bad ∧ Loop step s r := by
    intro m
    induction m with
    | zero =>
      intro s hs ho
      rcases step_shape s ho with ⟨r, h1, h2⟩ | ⟨t, h1, h2, h3⟩
      · exact ⟨r, h1, .done h2⟩
      · omega
    | succ m ih =>
      intro s hs ho
      rcases step_shape s ho with ⟨r, h1, h2⟩ | ⟨t, h1, h2, h3⟩
      · exact ⟨r, h1, .done h2⟩
      · obtain ⟨r, k1, k2⟩ := ih t (by omega) h3
        exact ⟨r, k1, .next h1 k2⟩
  exact main _ ⟨false, none, [], input src⟩ (Nat.le_refl _) (fun c hc => by
    obtain ⟨h1, h2, h3⟩ := h c hc
    rintro (h | h | h) <;> contradiction)

example : ∀ c ∈ input (ascii "a.o: b.h\r\n"), c ≠ 11 ∧ c ≠ 12 ∧ c ≠ 13 := by decide +kernel

/-! ### Where it fails -/

/-- A form feed between dependencies: ninja hangs. -/
theorem depfile_hang_counterexample : ¬ ∃ r, Parses (ascii "a: b" ++ [12]) r := by
  refine Loop.diverges (fun s => s = ⟨false, none, [], ascii "a: b" ++ [12]⟩ ∨ s = ⟨true, some (ascii "a"), [], ascii "b" ++ [12]⟩ ∨ s = ⟨true, some (ascii "a"), [ascii "b"], [12]⟩) ?_ (Or.inl rfl)
  intro s hs
  rcases hs with hs | hs | hs
  · subst hs; exact ⟨_, rfl, Or.inr (Or.inl rfl)⟩
  · subst hs; exact ⟨_, rfl, Or.inr (Or.inr rfl)⟩
  · subst hs; exact ⟨_, rfl, Or.inr (Or.inr rfl)⟩

/-- The byte 255 is taken for the end of the file: the dependencies after it are lost without an error. -/
theorem depfile_ff_counterexample : Parses (ascii "a: x" ++ [255] ++ ascii ".h c.h\n") (.ok [ascii "x"]) := Loop.of_exec (n := 9) (by decide +kernel)

/-- A dependency that begins with `#`, as GCC writes it, is an error. -/
theorem depfile_first_counterexample : munge 0 (ascii "#x.h") = ascii "\\#x.h" ∧ Parses (ascii "a.o: \\#x.h\n") .error := ⟨by decide +kernel, Loop.of_exec (n := 9) (by decide +kernel)⟩

/-- Other characters in names are errors: a file name in UTF-8, `=`, `~`. -/
theorem depfile_char_counterexample : Parses (ascii "a.o: x" ++ [0xc3, 0xa9] ++ ascii ".h\n") .error ∧ Parses (ascii "a.o: x=1.h\n") .error ∧ Parses (ascii "a.o: x~.h\n") .error :=
  ⟨Loop.of_exec (n := 9) (by decide +kernel), Loop.of_exec (n := 9) (by decide +kernel), Loop.of_exec (n := 9) (by decide +kernel)⟩

/-- Rules for the headers, as GCC writes them for `-MP`, are errors. -/
theorem depfile_phony_counterexample : Parses (ascii "a.o: b.h\nb.h:\n") .error := Loop.of_exec (n := 9) (by decide +kernel)

/-- A file that was cut off before the colon says that there are no dependencies. -/
theorem depfile_cut_counterexample : Parses (ascii "a.o") (.ok []) := Loop.of_exec (n := 9) (by decide +kernel)

/-- The names of dependencies are not brought into canonical form, as those in build.ninja are: `./gen.h` is not the file `gen.h` that an edge makes. -/
theorem depfile_canon_counterexample : Parses (ascii "a.o: ./gen.h\n") (.ok [ascii "./gen.h"]) ∧ Canon.canonpath (ascii "./gen.h") = .ok (ascii "gen.h") :=
  ⟨Loop.of_exec (n := 9) (by decide +kernel), by decide +kernel⟩

end Muon.Depfile
