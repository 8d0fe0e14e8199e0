import Verif.Manifest.Scan
/-
The reader on written files.
-/
namespace Muon.Manifest
open Muon Esc Spec

theorem wfName_cons {n : Bytes} (h : wfName n) : ∃ c t, n = c :: t ∧ isVar c = true := by
  cases n with
  | nil => exact absurd rfl h.1
  | cons c t => exact ⟨c, t, rfl, (nameChar_iff c).2 (h.2 c (by simp))⟩

theorem isVar_ne {c : UInt8} (h : isVar c = true) : c ≠ 32 ∧ c ≠ 36 ∧ c ≠ 35 ∧ c ≠ 13 ∧ c ≠ 10 ∧ c ≠ 255 := by
  have key : ∀ c : UInt8, isVar c = true → c ≠ 32 ∧ c ≠ 36 ∧ c ≠ 35 ∧ c ≠ 13 ∧ c ≠ 10 ∧ c ≠ 255 := forall_byte (by decide +kernel)
  exact key c h

theorem gap_head (g : Gap) (r : Bytes) (h : g ≠ []) : ∀ c, (g.written ++ r).head? = some c → c = 32 ∨ c = 36 := by
  intro c hc
  cases g with
  | nil => exact absurd rfl h
  | cons b g =>
    cases b with
    | sp => simp [Gap.written, Blank.written, asc_sp] at hc; exact Or.inl hc.symm
    | cont e => simp [Gap.written, Blank.written, asc_dollar] at hc; exact Or.inr hc.symm

theorem name_written (n : Bytes) (g : Gap) (r : Bytes) (h : wfName n) (hr : Solid r)
    (hg : g = [] → ∀ c, r.head? = some c → isVar c = false) : name (n ++ (g.written ++ r)) = .ok (n, r) := by
  have ht := takeWhile_all isVar n (g.written ++ r) (fun c hc => (nameChar_iff c).2 (h.2 c hc)) (by
    intro c hc
    by_cases hg0 : g = []
    · subst hg0
      simp only [Gap.written, List.flatMap_nil, List.nil_append] at hc
      exact hg rfl c hc
    · rcases gap_head g r hg0 c hc with rfl | rfl <;> decide +kernel)
  unfold name
  rw [ht.1, ht.2, if_neg h.1, space_gap g r hr]
  simp

theorem scanchar_written (c : UInt8) (g : Gap) (r : Bytes) (hc : c ≠ 255) (hr : Solid r) : scanchar c (c :: (g.written ++ r)) = .ok r := by
  unfold scanchar
  have : chr (c :: (g.written ++ r)) = some c := by simp [chr, hc]
  rw [if_pos this]
  simp [space_gap g r hr]

theorem skipComment_written (t : Bytes) (e : Eol) (r : Bytes) (h : ∀ b ∈ t, b ≠ 10 ∧ b ≠ 13) :
    skipComment (t ++ (e.written ++ r)) = .ok r := by
  induction t with
  | nil => cases e <;> simp [Eol.written, skipComment]
  | cons b t ih =>
    have hb := h b (by simp)
    rw [List.cons_append, skipComment]
    · exact ih (fun c hc => h c (by simp [hc]))
    · simp [hb.1]
    · intro _ h1; simp [hb.2] at h1
    · simp [hb.2]

theorem comment_hash (t : Bytes) (e : Eol) (r : Bytes) (h : ∀ b ∈ t, b ≠ 10 ∧ b ≠ 13) :
    comment (35 :: (t ++ (e.written ++ r))) = .ok (true, r) := by
  rw [comment, skipComment_written t e r h]; rfl

theorem comment_not {r : Bytes} (h : r.head? ≠ some 35) : comment r = .ok (false, r) := by
  rw [comment]
  intro t ht; subst ht; simp at h

theorem eol_head (e : Eol) (r : Bytes) : (e.written ++ r).head? ≠ some 35 := by cases e <;> simp [Eol.written]

theorem comment_text (c : Comment) (r : Bytes) : c.written ++ r = (c.ind.map Gap.written).getD [] ++ (35 :: (c.text ++ (c.eol.written ++ r))) := by
  simp [Comment.written, asc_hash]

theorem solid_hash (r : Bytes) : Solid (35 :: r) := solid_cons r (by decide) (by decide)

theorem space_opt (o : Option Gap) (r : Bytes) (h : Solid r) : ∃ b, space ((o.map Gap.written).getD [] ++ r) = .ok (b, r) := by
  cases o with
  | none => exact ⟨false, by simpa [Solid] using h⟩
  | some g => exact ⟨_, by simpa using space_gap g r h⟩

theorem scanindent_comment (f : Nat) (c : Comment) (r : Bytes) (h : c.wf) : scanindent (f + 1) (c.written ++ r) = scanindent f r := by
  rw [comment_text, scanindent]
  obtain ⟨b, hb⟩ := space_opt c.ind (35 :: (c.text ++ (c.eol.written ++ r))) (solid_hash _)
  rw [hb]
  simp only [Res.ok_bind]
  rw [comment_hash c.text c.eol r h.2]
  simp

theorem scanindent_comments (cs : List Comment) (f : Nat) (r : Bytes) (h : ∀ c ∈ cs, c.wf) :
    scanindent (f + cs.length) (cs.flatMap Comment.written ++ r) = scanindent f r := by
  induction cs with
  | nil => simp
  | cons c cs ih =>
    rw [List.length_cons, ← Nat.add_assoc, List.flatMap_cons, List.append_assoc, scanindent_comment _ c _ (h c (by simp))]
    exact ih (fun c hc => h c (by simp [hc]))

theorem spaced_ne {g : Gap} (h : g.spaced) : g ≠ [] := by rintro rfl; cases h

theorem scanlet_written (l : WLet) (r : Bytes) (h : l.wf) :
    scanlet (l.name ++ (l.g1.written ++ (61 :: (l.g2.written ++ (toks l.val ++ (l.eol.written ++ r)))))) = .ok (l.meaning, r) := by
  unfold scanlet
  rw [name_written l.name l.g1 _ h.2.2.1 (solid_cons _ (by decide) (by decide)) (by intro _ c hc; simp at hc; subst hc; decide +kernel)]
  simp only [Res.ok_bind]
  rw [scanchar_written 61 l.g2 _ (by decide) (toks_solid false _ _ h.2.2.2.1 h.2.2.2.2 (fun _ => solid_eol _ _))]
  simp only [Res.ok_bind]
  rw [scanString_value l.val l.eol r h.2.2.2.1]
  simp only [Res.ok_bind]
  rw [scannewline_eol]
  rfl

theorem wlet_text (l : WLet) (r : Bytes) : l.written ++ r = l.comments.flatMap Comment.written ++ (l.ind.written ++
    (l.name ++ (l.g1.written ++ (61 :: (l.g2.written ++ (toks l.val ++ (l.eol.written ++ r))))))) := by
  simp [WLet.written, asc_eq]

theorem scanindent_let (l : WLet) (f : Nat) (r : Bytes) (h : l.wf) (hf : l.comments.length < f) :
    scanindent f (l.written ++ r) = .ok (true, l.name ++ (l.g1.written ++ (61 :: (l.g2.written ++ (toks l.val ++ (l.eol.written ++ r)))))) := by
  rw [wlet_text]
  obtain ⟨k, rfl⟩ : ∃ k, f = (k + 1) + l.comments.length := ⟨f - l.comments.length - 1, by omega⟩
  rw [scanindent_comments _ _ _ h.1, scanindent]
  obtain ⟨c, t, hn, hc⟩ := wfName_cons h.2.2.1
  obtain ⟨k1, k2, k3, k4, k5, k6⟩ := isVar_ne hc
  have hs : Solid (l.name ++ (l.g1.written ++ (61 :: (l.g2.written ++ (toks l.val ++ (l.eol.written ++ r)))))) := by
    rw [hn]; exact solid_cons _ k1 k2
  rw [space_gap _ _ hs]
  simp only [Res.ok_bind]
  rw [comment_not (by rw [hn]; simpa using k3)]
  simp only [Res.ok_bind]
  rw [hn, List.cons_append, newline_not _ k5 k4]
  simp [spaced_ne h.2.1]

/-! ### The end of a block -/

theorem kw_head (k : Bytes) (r : Bytes) (c : UInt8) (t : Bytes) (hk : k = c :: t) : k ++ r = c :: (t ++ r) := by subst hk; rfl

theorem stmt_head (s : WStmt) (h : s.wf) : ∃ c t, s.written = c :: t ∧ isVar c = true := by
  have key : ∀ (k : Bytes) (r : Bytes), (∃ c t, k = c :: t ∧ isVar c = true) → ∃ c t, k ++ r = c :: t ∧ isVar c = true := by
    rintro k r ⟨c, t, rfl, hc⟩; exact ⟨c, t ++ r, rfl, hc⟩
  cases s with
  | rule g n g2 e ls =>
    simp only [WStmt.written, List.append_assoc]
    exact key _ _ ⟨_, _, rfl, by decide +kernel⟩
  | pool g n g2 e ls =>
    simp only [WStmt.written, List.append_assoc]
    exact key _ _ ⟨_, _, rfl, by decide +kernel⟩
  | build g o oi gc r gr i ii io e ls =>
    simp only [WStmt.written, List.append_assoc]
    exact key _ _ ⟨_, _, rfl, by decide +kernel⟩
  | incl ns g p g2 e =>
    simp only [WStmt.written, List.append_assoc]
    refine key _ _ ?_
    cases ns
    · exact ⟨_, _, rfl, by decide +kernel⟩
    · exact ⟨_, _, rfl, by decide +kernel⟩
  | default g ps e =>
    simp only [WStmt.written, List.append_assoc]
    exact key _ _ ⟨_, _, rfl, by decide +kernel⟩
  | assign n g1 g2 v e =>
    simp only [WStmt.written, List.append_assoc]
    exact key _ _ (wfName_cons h.1)

theorem file_cons (i : Item) (f : File) : File.written (i :: f) = i.written ++ File.written f := by simp [File.written]

/-- After a block of lets: comments and an empty line may already have been read. -/
theorem scanindent_end (f : File) (h : f.wf) : ∀ k, f.length < k →
    ∃ f' : File, f'.wf ∧ scanindent k (File.written f) = .ok (false, File.written f') ∧ f'.meaning = f.meaning ∧ f'.length ≤ f.length := by
  induction f with
  | nil =>
    intro k hk
    obtain ⟨k, rfl⟩ : ∃ j, k = j + 1 := ⟨k - 1, by simp at hk; omega⟩
    refine ⟨[], h, ?_, rfl, by simp⟩
    simp [File.written, scanindent, space, comment]
  | cons i f ih =>
    intro k hk
    obtain ⟨k, rfl⟩ : ∃ j, k = j + 1 := ⟨k - 1, by simp at hk; omega⟩
    simp only [List.length_cons] at hk
    have hi := h i (by simp)
    have hf : File.wf f := fun j hj => h j (by simp [hj])
    rw [file_cons]
    cases i with
    | filler x =>
      cases x with
      | comment c =>
        obtain ⟨f', h1, h2, h3, h4⟩ := ih hf k (by omega)
        refine ⟨f', h1, ?_, by rw [h3]; rfl, by simp; omega⟩
        simp only [Item.written, Filler.written]
        rw [scanindent_comment k c _ hi, h2]
      | empty ind e =>
        cases ind with
        | none =>
          refine ⟨.filler (.empty none e) :: f, h, ?_, rfl, by simp⟩
          rw [file_cons]
          simp only [Item.written, Filler.written, Option.map_none, Option.getD_none, List.nil_append]
          rw [scanindent]
          have := solid_eol e (File.written f)
          unfold Solid at this
          rw [this]
          simp only [Res.ok_bind]
          rw [comment_not (eol_head e _)]
          simp
        | some g =>
          refine ⟨f, hf, ?_, rfl, by simp⟩
          simp only [Item.written, Filler.written, Option.map_some, Option.getD_some, List.append_assoc]
          rw [scanindent, space_gap g _ (solid_eol e _)]
          simp only [Res.ok_bind]
          rw [comment_not (eol_head e _)]
          simp only [Res.ok_bind]
          rw [newline_eol]
          simp [spaced_ne (hi g rfl)]
    | stmt s =>
      refine ⟨.stmt s :: f, h, ?_, rfl, by simp⟩
      obtain ⟨c, t, hs, hc⟩ := stmt_head s hi
      obtain ⟨k1, k2, k3, k4, k5, k6⟩ := isVar_ne hc
      have hsol : Solid (s.written ++ File.written f) := by rw [hs]; exact solid_cons _ k1 k2
      rw [file_cons]
      simp only [Item.written]
      rw [scanindent]
      have hsp := hsol
      unfold Solid at hsp
      rw [hsp]
      simp only [Res.ok_bind]
      rw [comment_not (by rw [hs]; simpa using k3)]
      simp

theorem comment_length (c : Comment) : 1 ≤ c.written.length := by
  unfold Comment.written; simp only [asc_hash, List.length_append, List.length_cons, List.length_nil]; omega

theorem filler_length (x : Filler) : 1 ≤ x.written.length := by
  cases x with
  | comment c => exact comment_length c
  | empty ind e => simp only [Filler.written, List.length_append]; cases e <;> simp only [Eol.written, List.length_cons, List.length_nil] <;> omega

theorem file_length (f : File) (h : f.wf) : f.length ≤ (File.written f).length := by
  induction f with
  | nil => simp
  | cons i f ih =>
    rw [file_cons, List.length_append, List.length_cons]
    have := ih (fun j hj => h j (by simp [hj]))
    have : 1 ≤ i.written.length := by
      cases i with
      | filler x => exact filler_length x
      | stmt s =>
        obtain ⟨c, t, hs, _⟩ := stmt_head s (h _ List.mem_cons_self)
        simp [Item.written, hs]
    omega

theorem comments_length (cs : List Comment) : cs.length ≤ (cs.flatMap Comment.written).length := by
  induction cs with
  | nil => simp
  | cons c cs ih => rw [List.flatMap_cons, List.length_append, List.length_cons]; have := comment_length c; omega

theorem wlet_length (l : WLet) : l.comments.length < l.written.length := by
  have := comments_length l.comments
  simp only [WLet.written, asc_eq, List.length_append, List.length_cons, List.length_nil]; omega

theorem lets_cons (l : WLet) (ls : List WLet) : lets (l :: ls) = l.written ++ lets ls := by simp [lets]

theorem lets_length (ls : List WLet) : ls.length ≤ (lets ls).length := by
  induction ls with
  | nil => simp
  | cons l ls ih => rw [lets_cons, List.length_append, List.length_cons]; have := wlet_length l; omega

/-- The bindings of a statement. -/
theorem scanlets_written (ls : List WLet) (h : ∀ l ∈ ls, l.wf) (f : File) (hf : f.wf) : ∀ k, ls.length < k →
    ∃ f' : File, f'.wf ∧ scanlets k (lets ls ++ File.written f) = .ok (ls.map WLet.meaning, File.written f') ∧ f'.meaning = f.meaning ∧
      f'.length ≤ f.length := by
  induction ls with
  | nil =>
    intro k hk
    obtain ⟨k, rfl⟩ : ∃ j, k = j + 1 := ⟨k - 1, by simp at hk; omega⟩
    obtain ⟨f', h1, h2, h3, h4⟩ := scanindent_end f hf ((File.written f).length + 1) (by have := file_length f hf; omega)
    refine ⟨f', h1, ?_, h3, h4⟩
    simp only [lets, List.flatMap_nil, List.nil_append, List.map_nil]
    rw [scanlets, h2]
    simp
  | cons l ls ih =>
    intro k hk
    obtain ⟨k, rfl⟩ : ∃ j, k = j + 1 := ⟨k - 1, by simp at hk; omega⟩
    simp only [List.length_cons] at hk
    obtain ⟨f', h1, h2, h3, h4⟩ := ih (fun l hl => h l (by simp [hl])) k (by omega)
    refine ⟨f', h1, ?_, h3, h4⟩
    have hl := h l (by simp)
    rw [lets_cons, List.append_assoc, scanlets, scanindent_let l _ _ hl (by have := wlet_length l; simp; omega)]
    simp only [Res.ok_bind, if_true]
    rw [scanlet_written l _ hl]
    simp only [Res.ok_bind]
    rw [h2]
    simp

theorem scanlets_written' (ls : List WLet) (h : ∀ l ∈ ls, l.wf) (f : File) (hf : f.wf) :
    ∃ f' : File, f'.wf ∧ scanlets ((lets ls ++ File.written f).length + 1) (lets ls ++ File.written f) = .ok (ls.map WLet.meaning, File.written f') ∧
      f'.meaning = f.meaning ∧ f'.length ≤ f.length :=
  scanlets_written ls h f hf _ (by have := lets_length ls; rw [List.length_append]; omega)

/-! ### Statements -/

theorem scankeyword_filler (k : Nat) (x : Filler) (r : Bytes) (h : x.wf) : scankeyword (k + 1) (x.written ++ r) = scankeyword k r := by
  rw [scankeyword]
  have hgap : ∀ (g : Gap) (t : Bytes), g.spaced → chr (g.written ++ t) = some 32 := by
    intro g t hg
    cases g with
    | nil => cases hg
    | cons b g =>
      simp only [Gap.spaced, List.head?_cons, Option.some.injEq] at hg
      subst hg
      simp [Gap.written, Blank.written, asc_sp, chr]
  cases x with
  | comment c =>
    simp only [Filler.written]
    rw [comment_text]
    cases hi : c.ind with
    | none =>
      simp only [Option.map_none, Option.getD_none, List.nil_append]
      have : chr (35 :: (c.text ++ (c.eol.written ++ r))) = some 35 := rfl
      rw [this]
      simp only []
      rw [if_neg (by decide), if_pos (by trivial), comment_hash c.text c.eol r h.2]
      simp
    | some g =>
      simp only [Option.map_some, Option.getD_some]
      rw [hgap g _ (h.1 g hi)]
      simp only [if_true]
      rw [space_gap g _ (solid_hash _)]
      simp only [Res.ok_bind]
      rw [comment_hash c.text c.eol r h.2]
      simp
  | empty ind e =>
    cases ind with
    | none =>
      simp only [Filler.written, Option.map_none, Option.getD_none, List.nil_append]
      have hn := newline_eol e r
      cases e
      · simp only [Eol.written, List.cons_append, List.nil_append] at hn ⊢
        have : chr (10 :: r) = some 10 := rfl
        rw [this]
        simp only []
        rw [if_neg (by decide), if_neg (by decide), if_pos (by decide), hn]
        simp
      · simp only [Eol.written, List.cons_append, List.nil_append] at hn ⊢
        have : chr (13 :: 10 :: r) = some 13 := rfl
        rw [this]
        simp only []
        rw [if_neg (by decide), if_neg (by decide), if_pos (by decide), hn]
        simp
    | some g =>
      simp only [Filler.written, Option.map_some, Option.getD_some, List.append_assoc]
      rw [hgap g _ (h g rfl)]
      simp only [if_true]
      rw [space_gap g _ (solid_eol e _)]
      simp only [Res.ok_bind]
      rw [comment_not (eol_head e _)]
      simp only [Res.ok_bind]
      rw [newline_eol]
      simp

/-- A keyword or name. -/
theorem scankeyword_name (k : Nat) (n : Bytes) (g : Gap) (r : Bytes) (h : wfName n) (hr : Solid r)
    (hg : g = [] → ∀ c, r.head? = some c → isVar c = false) : scankeyword (k + 1) (n ++ (g.written ++ r)) = .ok (keyOf n, r) := by
  obtain ⟨c, t, hn, hc⟩ := wfName_cons h
  obtain ⟨k1, k2, k3, k4, k5, k6⟩ := isVar_ne hc
  rw [scankeyword]
  have : chr (n ++ (g.written ++ r)) = some c := by rw [hn]; simp [chr, k6]
  rw [this]
  simp only []
  rw [if_neg k1, if_neg k3, if_neg (by simp [k4, k5]), name_written n g r h hr hg]
  simp

theorem wf_kw : ∀ k ∈ keywords, wfName k := by
  intro k hk
  have key : ∀ k ∈ keywords, k ≠ [] ∧ ∀ c ∈ k, isVar c = true := by decide +kernel
  obtain ⟨h1, h2⟩ := key k hk
  exact ⟨h1, fun c hc => (nameChar_iff c).1 (h2 c hc)⟩

theorem solid_name {n : Bytes} (h : wfName n) (r : Bytes) : Solid (n ++ r) := by
  obtain ⟨c, t, hn, hc⟩ := wfName_cons h
  obtain ⟨k1, k2, _⟩ := isVar_ne hc
  rw [hn]; exact solid_cons _ k1 k2

theorem stops_eol (e : Eol) (r : Bytes) : Stops true (e.written ++ r) := by
  cases e
  · exact Or.inr ⟨10, r, rfl, Or.inl rfl⟩
  · exact Or.inr ⟨13, 10 :: r, rfl, Or.inr (Or.inl rfl)⟩

theorem eol_notVar (e : Eol) (r : Bytes) : ∀ c, (e.written ++ r).head? = some c → isVar c = false := by
  intro c hc
  cases e <;> simp [Eol.written] at hc <;> subst hc <;> decide +kernel

/-- What may follow the paths of a section. -/
def After (r : Bytes) : Prop := Stops true r ∧ Solid r ∧ (∀ c, r.head? = some c → isVar c = false)

theorem after_eol (e : Eol) (r : Bytes) : After (e.written ++ r) := ⟨stops_eol e r, solid_eol e r, eol_notVar e r⟩

theorem after_colon (r : Bytes) : After (58 :: r) :=
  ⟨Or.inr ⟨58, r, rfl, Or.inr (Or.inr ⟨rfl, Or.inl rfl⟩)⟩, solid_cons _ (by decide) (by decide), by
    intro c hc; simp at hc; subst hc; decide +kernel⟩

theorem after_pipe (r : Bytes) : After (124 :: r) :=
  ⟨Or.inr ⟨124, r, rfl, Or.inr (Or.inr ⟨rfl, Or.inr (Or.inl rfl)⟩)⟩, solid_cons _ (by decide) (by decide), by
    intro c hc; simp at hc; subst hc; decide +kernel⟩

theorem after_section (sep : Bytes) (x : Sec) (r : Bytes) (hs : ∃ t, sep = 124 :: t) (hr : After r) : After (x.written sep ++ r) := by
  cases x with
  | none => simpa [Sec.written] using hr
  | some x =>
    obtain ⟨t, rfl⟩ := hs
    simp only [Sec.written, List.append_assoc, List.cons_append]
    exact after_pipe _

theorem scanpipe_none (a b : Bool) (r : Bytes) (h : r.head? ≠ some 124) : scanpipe a b r = .ok (0, r) := by
  rw [scanpipe]
  · intro t ht; subst ht; simp at h
  · intro t ht; subst ht; simp at h

theorem scanpipe_one (b : Bool) (r : Bytes) (h : r.head? ≠ some 124) : scanpipe true b (124 :: r) = space r >>= fun x => .ok (1, x.2) := by
  rw [scanpipe]
  · simp
  · intro t ht; subst ht; simp at h

theorem scanpipe_two (a : Bool) (r : Bytes) : scanpipe a true (124 :: 124 :: r) = space r >>= fun x => .ok (2, x.2) := by
  rw [scanpipe]; simp

theorem toks_head (ts : List Tok) (r : Bytes) (h : wfToks true ts) (hne : ts ≠ []) : ∀ c, (toks ts ++ r).head? = some c → c ≠ 124 := by
  intro c hc
  cases ts with
  | nil => exact absurd rfl hne
  | cons t ts =>
    rw [toks_cons] at hc
    cases t with
    | chr d =>
      simp [Tok.written] at hc
      subst hc
      have := h.2.1 rfl
      rw [asc_path] at this
      simp only [List.mem_cons, List.not_mem_nil, or_false, not_or] at this
      exact this.2.2
    | esc d => simp [Tok.written] at hc; subst hc; decide
    | braced v => simp [Tok.written, asc_brace] at hc; subst hc; decide
    | bare v => simp [Tok.written, asc_dollar] at hc; subst hc; decide
    | cont e g => simp [Tok.written, asc_dollar] at hc; subst hc; decide

theorem paths_head (ps : WPaths) (r : Bytes) (h : ps.wf) (hne : ps ≠ []) : ∀ c, (ps.written ++ r).head? = some c → c ≠ 124 := by
  intro c hc
  cases ps with
  | nil => exact absurd rfl hne
  | cons p ps =>
    have hp : wfPath p.1 := by
      cases ps with
      | nil => exact h.1
      | cons q ps => exact h.1
    have e : WPaths.written (p :: ps) = toks p.1 ++ (p.2.written ++ WPaths.written ps) := by simp [WPaths.written]
    rw [e, List.append_assoc] at hc
    exact toks_head _ _ hp.1 hp.2.2 c hc

theorem gap_paths_head (g : Gap) (ps : WPaths) (r : Bytes) (h : ps.wf) (hne : ps = [] → g ≠ []) :
    (g.written ++ (ps.written ++ r)).head? ≠ some 124 := by
  intro hc
  by_cases hg : g = []
  · subst hg
    simp only [Gap.written, List.flatMap_nil, List.nil_append] at hc
    exact paths_head ps r h (fun e => hne e rfl) 124 hc rfl
  · rcases gap_head g _ hg 124 hc with h | h <;> revert h <;> decide

/-- Implicit outputs. -/
theorem section_one (x : Sec) (r : Bytes) (h : x.wf) (hr : After r) (hp : r.head? ≠ some 124) :
    ∃ n t, scanpipe true false (x.written (ascii "|") ++ r) = .ok (n, t) ∧
      (if n = 1 then scanPaths t else .ok ([], t)) = .ok (x.meaning, r) := by
  cases x with
  | none => exact ⟨0, r, by simpa [Sec.written] using scanpipe_none true false r hp, by simp [Sec.meaning]⟩
  | some x =>
    obtain ⟨g, ps⟩ := x
    refine ⟨1, ps.written ++ r, ?_, ?_⟩
    · simp only [Sec.written, asc_pipe, List.append_assoc, List.cons_append, List.nil_append]
      rw [scanpipe_one _ _ (gap_paths_head g ps r h.1 h.2), space_gap g _ (paths_solid ps r h.1 (fun _ => hr.2.1))]
      rfl
    · rw [if_pos rfl, scanPaths_written ps r h.1 hr.1 hr.2.1]; rfl

/-- Implicit and order-only inputs. -/
theorem section_ins (ii io : Sec) (r : Bytes) (h1 : ii.wf) (h2 : io.wf) (hr : After r)
    (hp : r.head? ≠ some 124) :
    ∃ p : Nat × Bytes, scanpipe true true (ii.written (ascii "|") ++ (io.written (ascii "||") ++ r)) = .ok p ∧
    ∃ q : List (List Part) × (Nat × Bytes),
      (if p.1 = 1 then scanPaths p.2 >>= fun x => scanpipe false true x.2 >>= fun q => .ok (x.1, q) else .ok ([], p)) = .ok q ∧
      q.1 = ii.meaning ∧ (if q.2.1 = 2 then scanPaths q.2.2 else .ok ([], q.2.2)) = .ok (io.meaning, r) := by
  have hord : ∀ a, ∃ q : Nat × Bytes, scanpipe a true (io.written (ascii "||") ++ r) = .ok q ∧ (q.1 = 0 ∨ q.1 = 2) ∧
      (if q.1 = 2 then scanPaths q.2 else .ok ([], q.2)) = .ok (io.meaning, r) := by
    intro a
    cases io with
    | none => exact ⟨(0, r), by simpa [Sec.written] using scanpipe_none a true r hp, Or.inl rfl, by simp [Sec.meaning]⟩
    | some x =>
      obtain ⟨g, ps⟩ := x
      refine ⟨(2, ps.written ++ r), ?_, Or.inr rfl, ?_⟩
      · simp only [Sec.written, asc_pipe2, List.append_assoc, List.cons_append, List.nil_append]
        rw [scanpipe_two, space_gap g _ (paths_solid ps r h2.1 (fun _ => hr.2.1))]
        rfl
      · rw [if_pos rfl, scanPaths_written ps r h2.1 hr.1 hr.2.1]; rfl
  have haft : After (io.written (ascii "||") ++ r) := after_section _ _ _ ⟨[124], asc_pipe2⟩ hr
  cases ii with
  | none =>
    obtain ⟨q, hq1, hq2, hq3⟩ := hord true
    refine ⟨q, by simpa [Sec.written] using hq1, ([], q), ?_, by simp [Sec.meaning], hq3⟩
    rw [if_neg (by omega)]
  | some x =>
    obtain ⟨g, ps⟩ := x
    obtain ⟨q, hq1, hq2, hq3⟩ := hord false
    refine ⟨(1, ps.written ++ (io.written (ascii "||") ++ r)), ?_, (ps.meaning, q), ?_, rfl, hq3⟩
    · rw [show Sec.written (ascii "|") (some (g, ps)) = ascii "|" ++ g.written ++ ps.written from rfl]
      simp only [asc_pipe, List.append_assoc, List.cons_append, List.nil_append]
      rw [scanpipe_one _ _ (gap_paths_head g ps _ h1.1 h1.2), space_gap g _ (paths_solid ps _ h1.1 (fun _ => haft.2.1))]
      rfl
    · rw [if_pos rfl]
      simp only []
      rw [scanPaths_written ps _ h1.1 haft.1 haft.2.1]
      simp only [Res.ok_bind]
      rw [hq1]
      rfl

theorem meaning_nil (ps : WPaths) : ps.meaning = [] ↔ ps = [] := by simp [WPaths.meaning]

/-- An edge. -/
theorem scanedge_written (o : WPaths) (oi : Sec) (gc : Gap) (rn : Bytes) (gr : Gap) (i : WPaths) (ii io : Sec) (e : Eol) (ls : List WLet) (f : File) (hf : f.wf) (ho : o.wf) (hoi : oi.wf) (hne : o ≠ [] ∨ oi.meaning ≠ [])
    (hrn : wfName rn) (hgr : i = [] ∨ gr ≠ []) (hi : i.wf) (hii : ii.wf) (hio : io.wf) (hls : ∀ l ∈ ls, l.wf) :
    ∃ f' : File, f'.wf ∧ scanedge (o.written ++ (oi.written (ascii "|") ++ (58 :: (gc.written ++ (rn ++ (gr.written ++
        (i.written ++ (ii.written (ascii "|") ++ (io.written (ascii "||") ++ (e.written ++ (lets ls ++ File.written f))))))))))) =
      .ok (.build o.meaning oi.meaning rn i.meaning ii.meaning io.meaning (ls.map WLet.meaning), File.written f') ∧ f'.meaning = f.meaning ∧
      f'.length ≤ f.length := by
  obtain ⟨f', h1, h2, h3, h4⟩ := scanlets_written' ls hls f hf
  refine ⟨f', h1, ?_, h3, h4⟩
  have a1 := after_eol e (lets ls ++ File.written f)
  have a1' : (e.written ++ (lets ls ++ File.written f)).head? ≠ some 124 := by cases e <;> simp [Eol.written]
  have a2 := after_section (ascii "||") io _ ⟨[124], asc_pipe2⟩ a1
  have a3 := after_section (ascii "|") ii _ ⟨[], asc_pipe⟩ a2
  have a4 := after_colon (gc.written ++ (rn ++ (gr.written ++
        (i.written ++ (ii.written (ascii "|") ++ (io.written (ascii "||") ++ (e.written ++ (lets ls ++ File.written f))))))))
  have a5 := after_section (ascii "|") oi _ ⟨[], asc_pipe⟩ a4
  obtain ⟨n, t, b1, b2⟩ := section_one oi _ hoi a4 (by simp)
  obtain ⟨p, c1, q, c2, c3, c4⟩ := section_ins ii io _ hii hio a1 a1'
  unfold scanedge
  rw [scanPaths_written o _ ho a5.1 a5.2.1]
  simp only [Res.ok_bind]
  rw [b1]
  simp only [Res.ok_bind]
  rw [b2]
  simp only [Res.ok_bind]
  rw [if_neg (by rw [meaning_nil]; rintro ⟨e1, e2⟩; rcases hne with h | h
                 · exact h e1
                 · exact h e2)]
  rw [scanchar_written 58 gc _ (by decide) (solid_name hrn _)]
  simp only [Res.ok_bind]
  rw [name_written rn gr _ hrn (paths_solid i _ hi (fun _ => a3.2.1)) (by
    intro hg
    rcases hgr with rfl | h
    · simpa [WPaths.written] using a3.2.2
    · exact absurd hg h)]
  simp only [Res.ok_bind]
  rw [scanPaths_written i _ hi a3.1 a3.2.1]
  simp only [Res.ok_bind]
  rw [c1]
  simp only [Res.ok_bind]
  rw [c2]
  simp only [Res.ok_bind]
  rw [c4]
  simp only [Res.ok_bind]
  rw [scannewline_eol]
  simp only [Res.ok_bind]
  rw [h2]
  simp [c3]

theorem keyOf_name {n : Bytes} (h : n ∉ keywords) : keyOf n = .name n := by
  simp only [keywords, List.mem_cons, List.not_mem_nil, or_false, not_or] at h
  unfold keyOf
  rw [if_neg h.1, if_neg h.2.1, if_neg h.2.2.1, if_neg h.2.2.2.1, if_neg h.2.2.2.2.1, if_neg h.2.2.2.2.2]

theorem name_block (g2 : Gap) (n : Bytes) (e : Eol) (ls : List WLet) (f : File) (hn : wfName n) :
    name (n ++ (g2.written ++ (e.written ++ (lets ls ++ File.written f)))) = .ok (n, e.written ++ (lets ls ++ File.written f)) :=
  name_written n g2 _ hn (solid_eol e _) (fun _ => eol_notVar e _)

/-- One statement at the beginning of a file. -/
theorem stmt_written (s : WStmt) (hs : s.wf) (f : File) (hf : f.wf) (k : Nat) :
    ∃ f' : File, f'.wf ∧ (scankeyword (k + 1) (s.written ++ File.written f) >>= fun x => scanstmt x.1 x.2) = .ok (some s.meaning, File.written f') ∧
      f'.meaning = f.meaning ∧ f'.length ≤ f.length := by
  have hkw : ∀ (kw : Bytes) (g : Gap) (r : Bytes), kw ∈ keywords → g ≠ [] → Solid r →
      scankeyword (k + 1) (kw ++ (g.written ++ r)) = .ok (keyOf kw, r) :=
    fun kw g r h1 h2 h3 => scankeyword_name k kw g r (wf_kw kw h1) h3 (fun h => absurd h h2)
  cases s with
  | rule g n g2 e ls =>
    obtain ⟨hg, hn, hls⟩ := hs
    obtain ⟨f', h1, h2, h3, h4⟩ := scanlets_written' ls hls f hf
    refine ⟨f', h1, ?_, h3, h4⟩
    simp only [WStmt.written, List.append_assoc]
    rw [hkw _ g _ (by decide) hg (solid_name hn _)]
    simp only [Res.ok_bind, show keyOf (ascii "rule") = .rule from by decide, scanstmt]
    rw [name_block g2 n e ls f hn]
    simp only [Res.ok_bind]
    rw [scannewline_eol]
    simp only [Res.ok_bind]
    rw [h2]
    rfl
  | pool g n g2 e ls =>
    obtain ⟨hg, hn, hls⟩ := hs
    obtain ⟨f', h1, h2, h3, h4⟩ := scanlets_written' ls hls f hf
    refine ⟨f', h1, ?_, h3, h4⟩
    simp only [WStmt.written, List.append_assoc]
    rw [hkw _ g _ (by decide) hg (solid_name hn _)]
    simp only [Res.ok_bind, show keyOf (ascii "pool") = .pool from by decide, scanstmt]
    rw [name_block g2 n e ls f hn]
    simp only [Res.ok_bind]
    rw [scannewline_eol]
    simp only [Res.ok_bind]
    rw [h2]
    rfl
  | build g o oi gc r gr i ii io e ls =>
    obtain ⟨hg, ho, hoi, hne, hrn, hgr, hi, hii, hio, hls⟩ := hs
    obtain ⟨f', h1, h2, h3, h4⟩ := scanedge_written o oi gc r gr i ii io e ls f hf ho hoi hne hrn hgr hi hii hio hls
    refine ⟨f', h1, ?_, h3, h4⟩
    simp only [WStmt.written, List.append_assoc, asc_colon, List.cons_append, List.nil_append]
    rw [hkw _ g _ (by decide) hg]
    · simp only [Res.ok_bind, show keyOf (ascii "build") = .build from by decide, scanstmt]
      rw [h2]
      rfl
    · refine paths_solid o _ ho (fun _ => ?_)
      exact (after_section (ascii "|") oi _ ⟨[], asc_pipe⟩ (after_colon _)).2.1
  | incl ns g p g2 e =>
    obtain ⟨hg, hp, hg2⟩ := hs
    refine ⟨f, hf, ?_, rfl, Nat.le_refl _⟩
    simp only [WStmt.written, List.append_assoc]
    have hsol : Solid (toks p ++ (g2.written ++ (e.written ++ File.written f))) := toks_solid true p _ hp.1 hp.2.1 (fun h => absurd h hp.2.2)
    have hscan := scanString_path p g2 (e.written ++ File.written f) hp.1 hg2 (stops_eol e _) (solid_eol e _)
    cases ns
    · simp only [Bool.false_eq_true, if_false]
      rw [hkw _ g _ (by decide) hg hsol]
      simp only [Res.ok_bind, show keyOf (ascii "include") = .incl from by decide, scanstmt]
      rw [hscan]
      simp only [Res.ok_bind]
      rw [if_neg (parts_ne p hp.2.1 hp.2.2), scannewline_eol]
      rfl
    · simp only [if_true]
      rw [hkw _ g _ (by decide) hg hsol]
      simp only [Res.ok_bind, show keyOf (ascii "subninja") = .subninja from by decide, scanstmt]
      rw [hscan]
      simp only [Res.ok_bind]
      rw [if_neg (parts_ne p hp.2.1 hp.2.2), scannewline_eol]
      rfl
  | default g ps e =>
    obtain ⟨hg, hp⟩ := hs
    refine ⟨f, hf, ?_, rfl, Nat.le_refl _⟩
    simp only [WStmt.written, List.append_assoc]
    rw [hkw _ g _ (by decide) hg (paths_solid ps _ hp (fun _ => solid_eol e _))]
    simp only [Res.ok_bind, show keyOf (ascii "default") = .default from by decide, scanstmt]
    rw [scanPaths_written ps _ hp (stops_eol e _) (solid_eol e _)]
    simp only [Res.ok_bind]
    rw [scannewline_eol]
    rfl
  | assign n g1 g2 v e =>
    obtain ⟨hn, hk, hv⟩ := hs
    refine ⟨f, hf, ?_, rfl, Nat.le_refl _⟩
    simp only [WStmt.written, List.append_assoc, asc_eq, List.cons_append, List.nil_append]
    rw [scankeyword_name k n g1 _ hn (solid_cons _ (by decide) (by decide)) (by intro _ c hc; simp at hc; subst hc; decide +kernel)]
    simp only [Res.ok_bind, keyOf_name hk, scanstmt]
    rw [scanchar_written 61 g2 _ (by decide) (toks_solid false _ _ hv.1 hv.2 (fun _ => solid_eol _ _))]
    simp only [Res.ok_bind]
    rw [scanString_value v e _ hv.1]
    simp only [Res.ok_bind]
    rw [scannewline_eol]
    rfl

/-- The next statement of a file. -/
theorem next_written (f : File) (hf : f.wf) : ∀ k, f.length < k →
    (f.meaning = [] ∧ (scankeyword k (File.written f) >>= fun x => scanstmt x.1 x.2) = .ok (none, [])) ∨
    ∃ (s : Stmt) (f' : File), f'.wf ∧ (scankeyword k (File.written f) >>= fun x => scanstmt x.1 x.2) = .ok (some s, File.written f') ∧
      f.meaning = s :: f'.meaning ∧ f'.length < f.length := by
  induction f with
  | nil =>
    intro k hk
    obtain ⟨k, rfl⟩ : ∃ j, k = j + 1 := ⟨k - 1, by simp at hk; omega⟩
    left
    exact ⟨rfl, by simp [File.written, scankeyword, chr, scanstmt]⟩
  | cons i f ih =>
    intro k hk
    obtain ⟨k, rfl⟩ : ∃ j, k = j + 1 := ⟨k - 1, by simp at hk; omega⟩
    simp only [List.length_cons] at hk
    have hi := hf i (by simp)
    have hf' : File.wf f := fun j hj => hf j (by simp [hj])
    rw [file_cons]
    cases i with
    | filler x =>
      have e : File.meaning (.filler x :: f) = File.meaning f := rfl
      simp only [Item.written]
      rw [scankeyword_filler k x _ hi, e]
      rcases ih hf' k (by omega) with h | ⟨s, f', h1, h2, h3, h4⟩
      · exact Or.inl h
      · exact Or.inr ⟨s, f', h1, h2, h3, by simp only [List.length_cons]; omega⟩
    | stmt s =>
      right
      obtain ⟨f', h1, h2, h3, h4⟩ := stmt_written s hi f hf' k
      exact ⟨s.meaning, f', h1, h2, by rw [h3]; rfl, by simp only [List.length_cons]; omega⟩

theorem stmts_written : ∀ (n : Nat) (f : File), f.wf → f.length ≤ n → ∀ k, n < k → stmts k (File.written f) = .ok f.meaning := by
  intro n
  induction n with
  | zero =>
    intro f hf hl k hk
    obtain ⟨k, rfl⟩ : ∃ j, k = j + 1 := ⟨k - 1, by omega⟩
    rw [stmts, stmt]
    rcases next_written f hf ((File.written f).length + 1) (by have := file_length f hf; omega) with ⟨h1, h2⟩ | ⟨s, f', _, _, _, h4⟩
    · rw [h2, h1]; rfl
    · omega
  | succ n ih =>
    intro f hf hl k hk
    obtain ⟨k, rfl⟩ : ∃ j, k = j + 1 := ⟨k - 1, by omega⟩
    rw [stmts, stmt]
    rcases next_written f hf ((File.written f).length + 1) (by have := file_length f hf; omega) with ⟨h1, h2⟩ | ⟨s, f', h1, h2, h3, h4⟩
    · rw [h2, h1]; rfl
    · rw [h2]
      simp only [Res.ok_bind]
      rw [ih f' h1 (by omega) k (by omega), h3]
      rfl

theorem file_written (f : File) (hf : f.wf) (hne : File.written f ≠ []) : file (File.written f) = .ok f.meaning := by
  rw [file, if_neg hne]
  exact stmts_written f.length f hf (Nat.le_refl _) _ (by have := file_length f hf; omega)

end Muon.Manifest
