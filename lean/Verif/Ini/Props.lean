import Verif.Ini.Spec
/-
Property C46.
-/
namespace Muon.Ini
open Muon Muon.Lines Muon.Str Muon.Ini.Spec

theorem blank_iff {c : UInt8} (h10 : c ≠ 10) : isWhitespace c = true ↔ Blank c := by
  unfold isWhitespace Blank
  simp only [Bool.or_eq_true, beq_iff_eq]
  constructor
  · rintro (((h | h) | h) | h)
    · exact .inl h
    · exact .inr (.inl h)
    · exact absurd h h10
    · exact .inr (.inr h)
  · rintro (h | h | h)
    · exact .inl (.inl (.inl h))
    · exact .inl (.inl (.inr h))
    · exact .inr h

theorem blank_ne {c : UInt8} (h : Blank c) : c ≠ 10 ∧ c ≠ 61 ∧ c ≠ 35 ∧ c ≠ 59 ∧ c ≠ 91 := by
  rcases h with rfl | rfl | rfl <;> decide

theorem blanks_all {b : Bytes} (h10 : 10 ∉ b) : b.all isWhitespace = true ↔ Blanks b := by
  rw [List.all_eq_true]
  unfold Blanks
  constructor
  · intro h c hc; exact (blank_iff (fun e => h10 (e ▸ hc))).mp (h c hc)
  · intro h c hc; exact (blank_iff (fun e => h10 (e ▸ hc))).mpr (h c hc)

theorem dropWhile_ws (a b : Bytes) (ha : Blanks a) (hb : StartTrimmed b) (h10 : 10 ∉ b) : (a ++ b).dropWhile isWhitespace = b := by
  induction a with
  | nil =>
    cases b with
    | nil => rfl
    | cons c b =>
      have : ¬ isWhitespace c = true := by
        rw [blank_iff (fun e => h10 (by simp [e]))]
        exact hb c rfl
      rw [List.nil_append, List.dropWhile_cons, if_neg this]
  | cons c a ih =>
    have hc := ha c (by simp)
    rw [List.cons_append, List.dropWhile_cons, if_pos ((blank_iff (blank_ne hc).1).mpr hc)]
    exact ih (fun c hc => ha c (by simp [hc]))

theorem dropWhile_split (b : Bytes) (h10 : 10 ∉ b) : ∃ a, b = a ++ b.dropWhile isWhitespace ∧ Blanks a ∧ StartTrimmed (b.dropWhile isWhitespace) := by
  induction b with
  | nil => exact ⟨[], rfl, by simp [Blanks], by simp [StartTrimmed]⟩
  | cons c b ih =>
    have h10' : 10 ∉ b := fun h => h10 (by simp [h])
    have hc10 : c ≠ 10 := fun h => h10 (by simp [h])
    obtain ⟨a, ha, hb, ht⟩ := ih h10'
    rw [List.dropWhile_cons]
    by_cases hc : isWhitespace c = true
    · rw [if_pos hc]
      refine ⟨c :: a, by rw [List.cons_append, ← ha], ?_, ht⟩
      intro d hd
      rcases List.mem_cons.mp hd with rfl | hd
      · exact (blank_iff hc10).mp hc
      · exact hb d hd
    · rw [if_neg hc]
      refine ⟨[], rfl, by simp [Blanks], ?_⟩
      intro d hd
      cases hd
      exact fun h => hc ((blank_iff hc10).mpr h)

theorem trimEnd_append (a b : Bytes) (hb : Blanks b) (ha : EndTrimmed a) (h10 : 10 ∉ a) : trimEnd (a ++ b) = a := by
  unfold trimEnd
  rw [List.reverse_append, dropWhile_ws]
  · exact List.reverse_reverse a
  · intro c hc; exact hb c (List.mem_reverse.mp hc)
  · intro c hc; rw [List.head?_reverse] at hc; exact ha c hc
  · intro h; exact h10 (List.mem_reverse.mp h)

theorem trimEnd_split (b : Bytes) (h10 : 10 ∉ b) : ∃ a, b = trimEnd b ++ a ∧ Blanks a ∧ EndTrimmed (trimEnd b) := by
  obtain ⟨a, ha, hb, ht⟩ := dropWhile_split b.reverse (fun h => h10 (List.mem_reverse.mp h))
  refine ⟨a.reverse, ?_, fun c hc => hb c (List.mem_reverse.mp hc), ?_⟩
  · have := congrArg List.reverse ha
    rw [List.reverse_reverse, List.reverse_append] at this
    exact this
  · intro c hc
    unfold trimEnd at hc
    rw [List.getLast?_reverse] at hc
    exact ht c hc

theorem takeWhile_ne (d : UInt8) (a r : Bytes) (h : d ∉ a) : (a ++ d :: r).takeWhile (· ≠ d) = a := by
  induction a with
  | nil => rw [List.nil_append, List.takeWhile_cons, if_neg (by simp)]
  | cons c a ih =>
    simp only [List.mem_cons, not_or] at h
    rw [List.cons_append, List.takeWhile_cons_of_pos (by simpa using fun e => h.1 e.symm), ih h.2]

theorem split_at (d : UInt8) (l : Bytes) (h : d ∈ l) : ∃ a r, l = a ++ d :: r ∧ d ∉ a := by
  induction l with
  | nil => cases h
  | cons c l ih =>
    by_cases e : c = d
    · exact ⟨[], l, by rw [e]; rfl, by simp⟩
    · rcases List.mem_cons.mp h with h | h
      · exact absurd h.symm e
      · obtain ⟨a, r, rfl, ha⟩ := ih h
        refine ⟨c :: a, r, rfl, ?_⟩
        simp only [List.mem_cons, not_or]
        exact ⟨fun e' => e e'.symm, ha⟩

/-- The condition under which a line is skipped at once. -/
theorem skipped_iff (keyval : Bool) (c : UInt8) (r : Bytes) (h10 : 10 ∉ c :: r) :
    ((if keyval then c == 35 else c == 59 || c == 35) || (c :: r).all isWhitespace) = true ↔ Skipped keyval (c :: r) := by
  rw [Bool.or_eq_true, blanks_all h10]
  unfold Skipped
  cases keyval <;> simp [or_assoc, or_left_comm]

/-- What is done with a line, for what it is. -/
def act {σ : Type} (cb : σ → Event → σ × Bool) (st : St σ) : Item → Res (St σ × Bool)
  | .nothing => done st
  | .sect name => done (call cb { st with sect := some name } ⟨some name, none, st.line⟩)
  | .pair k v => done (call cb st ⟨st.sect, some (k, v), st.line⟩)
  | .invalid => done { st with success := false }

/-- Every line is something, and that is how it is handled. -/
theorem line_total {σ : Type} (keyval : Bool) (cb : σ → Event → σ × Bool) (first : Bool) (st : St σ) (l : Bytes) (hl : Line l)
    (hk : first = true → ¬ NoKey l ∨ Skipped keyval l ∨ (keyval = false ∧ l.head? = some 91)) :
    ∃ i, Is keyval l i ∧ line keyval cb first st l = act cb st i := by
  cases l with
  | nil => exact ⟨.nothing, .nothing (.inr (.inr (by simp [Blanks]))), rfl⟩
  | cons c r =>
    have hsk := skipped_iff keyval c r hl.1
    unfold line
    dsimp only
    by_cases hs : Skipped keyval (c :: r)
    · exact ⟨.nothing, .nothing hs, by rw [if_pos (hsk.mpr hs)]; rfl⟩
    · rw [if_neg (fun h => hs (hsk.mp h))]
      by_cases hc : (!keyval && c == 91) = true
      · rw [if_pos hc]
        simp only [Bool.and_eq_true, Bool.not_eq_true', beq_iff_eq] at hc
        obtain ⟨rfl, rfl⟩ := hc
        by_cases h93 : 93 ∈ (91 : UInt8) :: r
        · rw [if_pos h93]
          have h93' : 93 ∈ r := by
            rcases List.mem_cons.mp h93 with h | h
            · cases h
            · exact h
          obtain ⟨name, r', rfl, hn⟩ := split_at 93 r h93'
          refine ⟨.sect name, .sect rfl hn, ?_⟩
          rw [takeWhile_ne 93 name r' hn]; rfl
        · rw [if_neg h93]
          exact ⟨.invalid, .noEnd rfl (fun h => h93 (by simp [h])), rfl⟩
      · rw [if_neg hc]
        have hc' : keyval = false → (c :: r).head? ≠ some 91 := by
          rintro rfl h
          cases h; exact hc rfl
        by_cases h61 : 61 ∈ c :: r
        · rw [if_pos h61]
          obtain ⟨k0, r', he, hk0⟩ := split_at 61 (c :: r) h61
          rw [he] at hl hs hc' hk ⊢
          obtain ⟨h10, h0⟩ := hl
          have h10k : 10 ∉ k0 := fun h => h10 (by simp [h])
          have h10r : 10 ∉ r' := fun h => h10 (by simp [h])
          rw [takeWhile_ne 61 k0 r' hk0]
          have hnb : ¬ (first && k0.all isWhitespace) = true := by
            intro h
            simp only [Bool.and_eq_true] at h
            rcases hk h.1 with h' | h' | h'
            · exact h' ⟨k0, r', rfl, (blanks_all h10k).mp h.2⟩
            · exact hs h'
            · exact hc' h'.1 h'.2
          rw [if_neg hnb]
          have ed : (k0 ++ 61 :: r').drop (k0.length + 1) = r' := by
            rw [List.drop_append]; simp
          rw [ed]
          obtain ⟨b1, e1, hb1, ht1⟩ := trimEnd_split k0 h10k
          obtain ⟨b2, e2, hb2, ht2⟩ := dropWhile_split r' h10r
          have h10v : 10 ∉ r'.dropWhile isWhitespace := fun h => h10r (by rw [e2]; simp [h])
          obtain ⟨b3, e3, hb3, ht3⟩ := trimEnd_split _ h10v
          refine ⟨.pair (trimEnd k0) (trimEnd (r'.dropWhile isWhitespace)), ?_, rfl⟩
          have e : k0 ++ 61 :: r' = trimEnd k0 ++ b1 ++ 61 :: b2 ++ trimEnd (r'.dropWhile isWhitespace) ++ b3 := by
            rw [List.append_assoc _ _ b3, ← e3, List.append_assoc _ (61 :: b2), List.cons_append, ← e2, ← e1]
          rw [e] at hs hc' ⊢
          refine .pair hs hc' (fun h => hk0 (by rw [e1]; simp [h])) hb1 hb2 hb3 ht1 ?_ ht3
          intro d hd
          refine ht2 d ?_
          rw [e3]
          cases ht : trimEnd (r'.dropWhile isWhitespace) with
          | nil => rw [ht] at hd; cases hd
          | cons x xs => rw [ht] at hd; cases hd; rfl
        · rw [if_neg h61]
          have := Is.noPair (keyval := keyval) hs hc' h61
          cases keyval
          · exact ⟨.invalid, this, rfl⟩
          · exact ⟨.nothing, this, rfl⟩

/-- The first line is not one that is read outside of the buffer. -/
def FirstOk (keyval : Bool) (l : Bytes) : Prop := ¬ NoKey l ∨ Skipped keyval l ∨ (keyval = false ∧ l.head? = some 91)

/-- A line is handled as what it is. -/
theorem line_is {σ : Type} (keyval : Bool) (cb : σ → Event → σ × Bool) (first : Bool) (st : St σ) (l : Bytes) (i : Item) (hl : Line l)
    (hk : first = true → FirstOk keyval l) (h : Is keyval l i) : line keyval cb first st l = act cb st i := by
  have bracket : ∀ r, ¬ Skipped false (91 :: r) := by
    intro r h
    rcases h with h | h | h
    · cases h
    · cases h.2
    · exact (blank_ne (h 91 (by simp))).2.2.2.2 rfl
  cases h with
  | nothing hs =>
    cases l with
    | nil => rfl
    | cons c r =>
      unfold line
      dsimp only
      rw [if_pos ((skipped_iff keyval c r hl.1).mpr hs)]; rfl
  | @sect name r hkv hn =>
    subst hkv
    unfold line
    dsimp only [List.cons_append]
    rw [if_neg (fun h => bracket _ ((skipped_iff false 91 (name ++ 93 :: r) hl.1).mp h)), if_pos (by rfl), if_pos (by simp), takeWhile_ne 93 name r hn]
    rfl
  | @noEnd r hkv hn =>
    subst hkv
    unfold line
    dsimp only
    rw [if_neg (fun h => bracket _ ((skipped_iff false 91 _ hl.1).mp h)), if_pos (by rfl), if_neg]
    · rfl
    · simpa using hn
  | @pair k b1 b2 v b3 hs hc h61 hb1 hb2 hb3 ht1 ht2 ht3 =>
    have e : k ++ b1 ++ 61 :: b2 ++ v ++ b3 = (k ++ b1) ++ 61 :: (b2 ++ (v ++ b3)) := by simp
    rw [e] at hl hs hc hk ⊢
    obtain ⟨h10, h0⟩ := hl
    have hk61 : 61 ∉ k ++ b1 := by
      intro h
      rcases List.mem_append.mp h with h | h
      · exact h61 h
      · exact (blank_ne (hb1 61 h)).2.1 rfl
    have h10k : 10 ∉ k := fun h => h10 (by simp [h])
    have h10b : 10 ∉ k ++ b1 := fun h => h10 (by rw [List.mem_append]; exact .inl h)
    have h10v : 10 ∉ v := fun h => h10 (by simp [h])
    have h10vb : 10 ∉ v ++ b3 := fun h => h10 (List.mem_append_right _ (List.mem_cons_of_mem _ (List.mem_append_right _ h)))
    have key : ∀ c r, (k ++ b1) ++ 61 :: (b2 ++ (v ++ b3)) = c :: r → line keyval cb first st (c :: r) = act cb st (.pair k v) := by
      intro c r he
      have h10' : 10 ∉ c :: r := by rw [← he]; exact h10
      rw [he] at hs hc hk
      unfold line
      dsimp only
      rw [if_neg (fun h => hs ((skipped_iff keyval c r h10').mp h)), if_neg]
      · rw [← he, if_pos (by simp), takeWhile_ne 61 _ _ hk61, if_neg]
        · have ed : ((k ++ b1) ++ 61 :: (b2 ++ (v ++ b3))).drop ((k ++ b1).length + 1) = b2 ++ (v ++ b3) := by
            rw [List.drop_append]; simp
          rw [ed, trimEnd_append k b1 hb1 ht1 h10k]
          have ev : trimEnd ((b2 ++ (v ++ b3)).dropWhile isWhitespace) = v := by
            cases v with
            | nil =>
              have : ∀ b : Bytes, Blanks b → b.dropWhile isWhitespace = [] := by
                intro b hb
                have := dropWhile_ws b [] hb (by simp [StartTrimmed]) (by simp)
                rwa [List.append_nil] at this
              rw [this]
              · rfl
              · intro c hc
                simp only [List.nil_append, List.mem_append] at hc
                rcases hc with hc | hc
                · exact hb2 c hc
                · exact hb3 c hc
            | cons x v =>
              rw [dropWhile_ws b2 (x :: v ++ b3) hb2 (fun c hc => ht2 c hc) h10vb, trimEnd_append _ b3 hb3 ht3 h10v]
          rw [ev]; rfl
        · intro h
          simp only [Bool.and_eq_true] at h
          rcases hk h.1 with h' | h' | h'
          · exact h' ⟨k ++ b1, b2 ++ (v ++ b3), he.symm, (blanks_all h10b).mp h.2⟩
          · exact hs h'
          · exact hc h'.1 h'.2
      · intro h
        simp only [Bool.and_eq_true, Bool.not_eq_true', beq_iff_eq] at h
        exact hc h.1 (by rw [h.2]; rfl)
    cases hkb : k ++ b1 with
    | nil => rw [List.nil_append]; exact key _ _ (by rw [hkb, List.nil_append])
    | cons c r => exact key c (r ++ 61 :: (b2 ++ (v ++ b3))) (by rw [hkb, List.cons_append])
  | noPair hs hc h61 =>
    cases l with
    | nil => exact absurd (.inr (.inr (by simp [Blanks]))) hs
    | cons c r =>
      unfold line
      dsimp only
      rw [if_neg (fun h => hs ((skipped_iff keyval c r hl.1).mp h)), if_neg, if_neg h61]
      · cases keyval <;> rfl
      · intro h
        simp only [Bool.and_eq_true, Bool.not_eq_true', beq_iff_eq] at h
        exact hc h.1 (by rw [h.2]; rfl)

theorem run_says {σ : Type} (keyval : Bool) (cb : σ → Event → σ × Bool) (s : Option Bytes) (n : Nat) (ls : List Bytes) (es : List Event)
    (ok : Bool) (h : Says keyval s n ls es ok) (hls : ∀ l ∈ ls, Line l) (first : Bool)
    (hf : ∀ l, first = true → ls.head? = some l → FirstOk keyval l) (x : σ) :
    ∃ st, runMem (line keyval cb) first ls ⟨x, s, n, true⟩ = .ok st ∧ st.octx = (feed cb es x).1 ∧
      st.success = ((feed cb es x).2 && ok) := by
  induction h generalizing first x with
  | nil => exact ⟨_, rfl, rfl, rfl⟩
  | @nothing s n l ls es ok hi _ ih =>
    rw [runMem, line_is keyval cb first _ l _ (hls l (by simp)) (fun h => hf l h rfl) hi]
    exact ih (fun l hl => hls l (by simp [hl])) false (fun _ h => by cases h) x
  | @sect s n l name ls es ok hi _ ih =>
    rw [runMem, line_is keyval cb first _ l _ (hls l (by simp)) (fun h => hf l h rfl) hi]
    simp only [act, call, feed]
    rcases hc : cb x ⟨some name, none, n⟩ with ⟨x', b⟩
    cases b
    · exact ⟨_, rfl, rfl, rfl⟩
    · exact ih (fun l hl => hls l (by simp [hl])) false (fun _ h => by cases h) x'
  | @pair s n l k v ls es ok hi _ ih =>
    rw [runMem, line_is keyval cb first _ l _ (hls l (by simp)) (fun h => hf l h rfl) hi]
    simp only [act, call, feed]
    rcases hc : cb x ⟨s, some (k, v), n⟩ with ⟨x', b⟩
    cases b
    · exact ⟨_, rfl, rfl, rfl⟩
    · exact ih (fun l hl => hls l (by simp [hl])) false (fun _ h => by cases h) x'
  | @invalid s n l ls hi =>
    rw [runMem, line_is keyval cb first _ l _ (hls l (by simp)) (fun h => hf l h rfl) hi]
    exact ⟨_, rfl, rfl, by simp [feed]⟩

theorem toLines_file (ls : List Bytes) (hls : ∀ l ∈ ls, Line l) : toLines (file ls) = ls := by
  induction ls with
  | nil => rfl
  | cons l ls ih =>
    have : file (l :: ls) = l ++ 10 :: file ls := by simp [file]
    rw [this, toLines_line _ _ (hls l (by simp)).1, ih (fun l hl => hls l (by simp [hl]))]

theorem file_no0 (ls : List Bytes) (hls : ∀ l ∈ ls, Line l) : 0 ∉ file ls := by
  intro h
  simp only [file, List.mem_flatten, List.mem_map] at h
  obtain ⟨_, ⟨l, hl, rfl⟩, h0⟩ := h
  rcases List.mem_append.mp h0 with h0 | h0
  · exact (hls l hl).2 h0
  · simp at h0

theorem file_last (ls : List Bytes) (hne : ls ≠ []) : (file ls).getLast? = some 10 := by
  induction ls with
  | nil => exact absurd rfl hne
  | cons l ls ih =>
    have : file (l :: ls) = l ++ 10 :: file ls := by simp [file]
    rw [this, List.getLast?_append]
    cases ls with
    | nil => simp [file]
    | cons l' ls =>
      have h := ih (by simp)
      rw [List.getLast?_cons, h]; rfl

/-- A file with lines that all end in a line end, without NUL bytes, and whose first line is not `= value`, is read
without reading or writing outside of the buffer; the sections and pairs of the file are reported in order with their
line numbers, blanks around values and after keys removed, until a line is invalid or the callback refuses one. -/
theorem parse_says_partial {σ : Type} (keyval : Bool) (cb : σ → Event → σ × Bool) (s : σ) (ls : List Bytes) (es : List Event) (ok : Bool)
    (hne : ls ≠ []) (hls : ∀ l ∈ ls, Line l) (hf : ∀ l, ls.head? = some l → FirstOk keyval l) (h : Says keyval none 1 ls es ok) :
    parse keyval cb s (file ls) = .ok ((feed cb es s).1, (feed cb es s).2 && ok) := by
  unfold parse
  rw [eachLineMem_eq _ 0 _ _ _ _ (by omega) ⟨by omega, .inr ⟨file_last ls hne, rfl⟩⟩, takeWhile_no0 _ (file_no0 ls hls), toLines_file ls hls]
  obtain ⟨st, h1, h2, h3⟩ := run_says keyval cb none 1 ls es ok h hls true (fun l _ hl => hf l hl) s
  rw [h1, Res.ok_bind, h2, h3]

/-- Every file says something. -/
theorem says_total (keyval : Bool) (s : Option Bytes) (n : Nat) (ls : List Bytes) (hls : ∀ l ∈ ls, Line l) :
    ∃ es ok, Says keyval s n ls es ok := by
  induction ls generalizing s n with
  | nil => exact ⟨[], true, .nil⟩
  | cons l ls ih =>
    obtain ⟨i, hi, -⟩ := line_total keyval (fun (_ : Unit) _ => ((), true)) false ⟨(), none, 1, true⟩ l (hls l (by simp)) (by simp)
    have ih := fun s n => ih s n (fun l hl => hls l (by simp [hl]))
    cases i with
    | nothing => obtain ⟨es, ok, h⟩ := ih s (n + 1); exact ⟨es, ok, .nothing hi h⟩
    | sect name => obtain ⟨es, ok, h⟩ := ih (some name) (n + 1); exact ⟨_, ok, .sect hi h⟩
    | pair k v => obtain ⟨es, ok, h⟩ := ih s (n + 1); exact ⟨_, ok, .pair hi h⟩
    | invalid => exact ⟨[], false, .invalid hi⟩

/-- A callback that keeps the events. -/
def keep (l : List Event) (e : Event) : List Event × Bool := (l ++ [e], true)

theorem feed_keep (es : List Event) (l : List Event) : feed keep es l = (l ++ es, true) := by
  induction es generalizing l with
  | nil => simp [feed]
  | cons e es ih => simp [feed, keep, ih]

/-- What a file says is determined. -/
theorem says_unique (keyval : Bool) (ls : List Bytes) (hls : ∀ l ∈ ls, Line l) (s : Option Bytes) (n : Nat) (es es' : List Event)
    (ok ok' : Bool) (h : Says keyval s n ls es ok) (h' : Says keyval s n ls es' ok') : es = es' ∧ ok = ok' := by
  obtain ⟨st, h1, h2, h3⟩ := run_says keyval keep s n ls es ok h hls false (by simp) []
  obtain ⟨st', h1', h2', h3'⟩ := run_says keyval keep s n ls es' ok' h' hls false (by simp) []
  rw [h1] at h1'
  cases h1'
  rw [feed_keep] at h2 h3 h2' h3'
  simp only [List.nil_append, Bool.true_and] at h2 h3 h2' h3'
  exact ⟨h2.symm.trans h2', h3.symm.trans h3'⟩

/-- The file of the example. -/
def exFile : Bytes := ascii "; c\n[wrap-git]\nurl = a = b \n  revision=\n"

example : exFile = file [ascii "; c", ascii "[wrap-git]", ascii "url = a = b ", ascii "  revision="] ∧
    parse false keep [] exFile =
      .ok ([⟨some (ascii "wrap-git"), none, 2⟩, ⟨some (ascii "wrap-git"), some (ascii "url", ascii "a = b"), 3⟩,
        ⟨some (ascii "wrap-git"), some (ascii "  revision", []), 4⟩], true) ∧
    FirstOk false (ascii "; c") ∧ (∀ l ∈ [ascii "; c", ascii "[wrap-git]", ascii "url = a = b ", ascii "  revision="], Line l) := by
  refine ⟨by decide +kernel, by decide +kernel, .inr (.inl (.inr (.inl ⟨rfl, rfl⟩))), ?_⟩
  unfold Line
  decide +kernel
example : parse false keep [] (ascii "a\nb = c\n") = .ok ([], false) ∧
    parse true keep [] (ascii "a\n[b = c\n") = .ok ([⟨none, some (ascii "[b", ascii "c"), 2⟩], true) := by
  decide +kernel

/-- Blanks before a key are kept. -/
theorem parse_key_counterexample : Is false (ascii " a=b") (.pair (ascii " a") (ascii "b")) ∧
    parse false keep [] (ascii " a=b\n") = .ok ([⟨none, some (ascii " a", ascii "b"), 1⟩], true) := by
  refine ⟨?_, by decide +kernel⟩
  have := Is.pair (keyval := false) (k := ascii " a") (b1 := []) (b2 := []) (v := ascii "b") (b3 := []) (by
      unfold Skipped Blanks Blank; decide) (by decide) (by decide) (by simp [Blanks]) (by simp [Blanks]) (by simp [Blanks])
      (by unfold EndTrimmed Blank; intro c hc; cases hc; decide) (by unfold StartTrimmed Blank; intro c hc; cases hc; decide)
      (by unfold EndTrimmed Blank; intro c hc; cases hc; decide)
  exact this

/-- A file whose last line has no line end, and an empty file, are read beyond the end of the buffer. -/
theorem parse_end_counterexample : parse false keep [] (ascii "a = b") = .bad ∧ parse false keep [] [] = .bad := by
  decide +kernel

/-- In a file that begins with blanks and `=`, the byte before the buffer is read (and set to NUL if it is a blank). -/
theorem parse_start_counterexample : parse false keep [] (ascii "= b\n") = .bad ∧ parse false keep [] (ascii "x = y\n= b\n") =
    .ok ([⟨none, some (ascii "x", ascii "y"), 1⟩, ⟨none, some ([], ascii "b"), 2⟩], true) := by
  decide +kernel

/-- What comes after a NUL byte is not read, and that is not an error. -/
theorem parse_nul_counterexample : parse false keep [] (ascii "a = b\n" ++ [0] ++ ascii "c = d\ninvalid\n") =
    .ok ([⟨none, some (ascii "a", ascii "b"), 1⟩], true) := by
  decide +kernel

end Muon.Ini
