import Verif.Wrap.Props
/-
Fetching subprojects (C100).
-/
namespace Muon.Wrap
open Muon Spec

/-! ### The names of `diff_files` -/

theorem diffs_end (m : Bytes) : ∀ (cur : Bytes) (n : Nat), m ≠ [] → 44 ∉ m → m.length ≤ n → diffs n cur m = ([cur ++ m], false) := by
  induction m with
  | nil => intro _ _ h; exact absurd rfl h
  | cons c m ih =>
    intro cur n _ hm hn
    cases n with
    | zero => simp at hn
    | succ n =>
      cases m with
      | nil => rfl
      | cons d m =>
        simp only [List.mem_cons, not_or] at hm
        rw [diffs, if_neg (Ne.symm hm.2.1), ih _ _ (by simp) (by simp [hm.2]) (by simpa using hn)]
        simp

theorem diffs_comma (m t : Bytes) : ∀ (cur : Bytes) (n : Nat), m ≠ [] → 44 ∉ m →
    diffs (m.length + n) cur (m ++ 44 :: t) =
      match t.dropWhile (fun x => x == 32 || x == 13 || x == 9) with
      | [] => ([cur ++ m], false)
      | x :: r => ((cur ++ m) :: (diffs n [x] r).1, (diffs n [x] r).2) := by
  induction m with
  | nil => intro _ _ h; exact absurd rfl h
  | cons c m ih =>
    intro cur n _ hm
    rw [show (c :: m).length + n = (m.length + n) + 1 from by simp only [List.length_cons]; omega]
    cases m with
    | nil =>
      rw [List.cons_append, List.nil_append, diffs, if_pos rfl]
      simp only [List.length_nil, Nat.zero_add]
      cases t.dropWhile (fun x => x == 32 || x == 13 || x == 9) <;> rfl
    | cons d m =>
      simp only [List.mem_cons, not_or] at hm
      rw [List.cons_append, List.cons_append, diffs, if_neg (Ne.symm hm.2.1), ← List.cons_append, ih _ _ (by simp) (by simp [hm.2])]
      simp

theorem blank_dropWhile (b r : Bytes) (hb : ∀ c ∈ b, c = 32 ∨ c = 13 ∨ c = 9) (hr : ∀ c, r.head? = some c → c ≠ 32 ∧ c ≠ 13 ∧ c ≠ 9) :
    (b ++ r).dropWhile (fun x => x == 32 || x == 13 || x == 9) = r := by
  induction b with
  | nil =>
    cases r with
    | nil => rfl
    | cons c r =>
      obtain ⟨h1, h2, h3⟩ := hr c rfl
      rw [List.nil_append, List.dropWhile_cons_of_neg (by simp [h1, h2, h3])]
  | cons c b ih =>
    rw [List.cons_append, List.dropWhile_cons_of_pos, ih (fun c hc => hb c (by simp [hc]))]
    rcases hb c (by simp) with h | h | h <;> simp [h]

theorem diffs_tail {v : Bytes} {l : List Bytes} (h : DiffNames v l) :
    ∀ x v', v = x :: v' → ∀ n, v'.length ≤ n → diffs n [x] v' = (l, false) := by
  have split : ∀ {n : Bytes}, 2 ≤ n.length → 44 ∉ n → ∃ x m, n = x :: m ∧ m ≠ [] ∧ 44 ∉ m := by
    intro n hl hc
    match n, hl, hc with
    | x :: y :: m, _, hc => exact ⟨x, y :: m, rfl, by simp, fun h => hc (by simp [h])⟩
  induction h with
  | one n hl hc =>
    intro x v' hv k hk
    obtain ⟨y, m, rfl, hm, hmc⟩ := split hl hc
    cases hv
    rw [diffs_end _ _ _ hm hmc hk]
    rfl
  | last n b hl hc hb =>
    intro x v' hv k hk
    obtain ⟨y, m, rfl, hm, hmc⟩ := split hl hc
    obtain ⟨rfl, rfl⟩ : y = x ∧ m ++ 44 :: b = v' := List.cons.inj hv
    simp only [List.length_append, List.length_cons] at hk
    obtain ⟨k', rfl⟩ : ∃ k', k = m.length + k' := ⟨k - m.length, by omega⟩
    rw [diffs_comma _ _ _ _ hm hmc]
    have := blank_dropWhile b [] hb (by simp)
    rw [List.append_nil] at this
    rw [this]; rfl
  | more n b r l hl hc hb hr hD ih =>
    intro x v' hv k hk
    obtain ⟨y, m, rfl, hm, hmc⟩ := split hl hc
    obtain ⟨rfl, rfl⟩ : y = x ∧ m ++ 44 :: (b ++ r) = v' := List.cons.inj hv
    simp only [List.length_append, List.length_cons] at hk
    obtain ⟨k', rfl⟩ : ∃ k', k = m.length + k' := ⟨k - m.length, by omega⟩
    rw [diffs_comma _ _ _ _ hm hmc, blank_dropWhile b r hb hr]
    obtain ⟨z, r', rfl⟩ : ∃ z r', r = z :: r' := by
      cases hD with
      | one n hl _ => match r, hl with | z :: r', _ => exact ⟨z, r', rfl⟩
      | last n b hl _ _ => match n, hl with | z :: r', _ => exact ⟨z, _, rfl⟩
      | more n b r l hl _ _ _ _ => match n, hl with | z :: r', _ => exact ⟨z, _, rfl⟩
    simp only [List.length_cons] at hk
    simp only []
    rw [ih z r' rfl k' (by omega)]
    rfl

/-- The names in `diff_files` are found. Partial: for names of at least two bytes. -/
theorem diffs_spec_partial {v : Bytes} {l : List Bytes} (h : DiffNames v l) : diffs v.length [] v = (l, false) := by
  have h2 := h
  obtain ⟨x, d, r, rfl, hd⟩ : ∃ x d r, v = x :: d :: r ∧ d ≠ 44 := by
    have key : ∀ (n t : Bytes), 2 ≤ n.length → 44 ∉ n → ∃ x d r, n ++ t = x :: d :: r ∧ d ≠ 44 := by
      intro n t hl hc
      match n, hl, hc with
      | x :: d :: m, _, hc => exact ⟨x, d, m ++ t, rfl, fun e => hc (by simp [e])⟩
    cases h with
    | one n hl hc => have := key v [] hl hc; rwa [List.append_nil] at this
    | last n b hl hc _ => exact key n _ hl hc
    | more n b r l hl hc _ _ _ => exact key n _ hl hc
  rw [List.length_cons, diffs, if_neg hd]
  exact diffs_tail h2 x (d :: r) rfl _ (Nat.le_refl _)

/-! ### Sources and patches -/

theorem check_iff {σ : Type} (H : Host σ) (s s' : σ) (data : Bytes) (hash : Option Bytes) (dir : Bytes) :
    checkExtract H s data hash dir = (s', true) ↔ SumOk H data hash ∧ H.extract s data dir = (s', true) := by
  unfold checkExtract SumOk
  cases hash with
  | none => simp
  | some h =>
    simp only []
    by_cases hs : H.sum data h = true
    · rw [if_pos hs]; exact ⟨fun h' => ⟨by rintro _ ⟨⟩; exact hs, h'⟩, fun h' => h'.2⟩
    · rw [if_neg hs]
      constructor
      · intro h'; cases h'
      · intro h'; exact absurd (h'.1 h rfl) hs

theorem obtain_iff {σ : Type} (H : Host σ) (s s' : σ) (f : Bytes) (url hash : Option Bytes) (subprojects dir : Bytes) (download : Bool) :
    obtain' H s f url hash subprojects dir download = (s', true) ↔ Obtained H f url hash subprojects dir download s s' := by
  have hp : Path.push (Path.join subprojects (ascii "packagefiles")) f = package subprojects f := rfl
  unfold obtain'
  simp only [hp]
  cases hf : H.isFile s (package subprojects f) with
  | true =>
    rw [if_pos rfl]
    constructor
    · intro h
      cases hr : H.read s (package subprojects f) with
      | none => rw [hr] at h; cases h
      | some data =>
        rw [hr] at h
        obtain ⟨h1, h2⟩ := (check_iff H s s' data hash dir).1 h
        exact .archive data hf hr h1 h2
    · intro h
      cases h with
      | archive data _ hr h1 h2 => rw [hr]; exact (check_iff H s s' data hash dir).2 ⟨h1, h2⟩
      | directory h1 => rw [hf] at h1; cases h1
      | download _ _ h1 => rw [hf] at h1; cases h1
  | false =>
    rw [if_neg (by simp)]
    cases hd : H.isDir s (package subprojects f) with
    | true =>
      rw [if_pos rfl]
      constructor
      · intro h; exact .directory hf hd h
      · intro h
        cases h with
        | archive _ h1 => rw [hf] at h1; cases h1
        | directory _ _ h => exact h
        | download _ _ _ h1 => rw [hd] at h1; cases h1
    | false =>
      rw [if_neg (by simp)]
      constructor
      · intro h
        cases hu : url with
        | none => rw [hu] at h; cases h
        | some u =>
          rw [hu] at h
          simp only [] at h
          cases hdl : download with
          | false => rw [hdl] at h; cases h
          | true =>
            rw [hdl, if_neg (by simp)] at h
            cases hfe : H.fetch u with
            | none => rw [hfe] at h; cases h
            | some data =>
              rw [hfe] at h
              obtain ⟨h1, h2⟩ := (check_iff H s s' data hash dir).1 h
              exact .download u data hf hd rfl rfl hfe h1 h2
      · intro h
        cases h with
        | archive _ h1 => rw [hf] at h1; cases h1
        | directory _ h1 => rw [hd] at h1; cases h1
        | download u data _ _ hu hdl hfe h1 h2 =>
          rw [hu, hdl]
          simp only [Bool.not_true, Bool.false_eq_true, if_false, hfe]
          exact (check_iff H s s' data hash dir).2 ⟨h1, h2⟩

theorem source_iff {σ : Type} (H : Host σ) (s s' : σ) (w : Wrap) (subprojects : Bytes) (download : Bool) :
    handleSource H s w subprojects download = .ok (s', true) ↔ Source H w subprojects download s s' := by
  have hdest : fileDest w subprojects = if w.fields .leadDirectoryMissing = none then subprojects else w.dest := by
    unfold fileDest
    cases w.fields .leadDirectoryMissing <;> simp
  unfold handleSource
  cases hg : w.git with
  | true =>
    rw [if_pos rfl]
    constructor
    · intro h
      cases hd : download with
      | false => rw [hd] at h; cases h
      | true =>
        rw [hd, if_pos rfl] at h
        unfold handleGit at h
        cases hu : w.fields .url with
        | none => rw [hu] at h; cases h
        | some u =>
          cases hr : w.fields .revision with
          | none => rw [hu, hr] at h; cases h
          | some r =>
            rw [hu, hr] at h
            simp only [] at h
            cases hc : H.run s [ascii "git", ascii "clone", u, w.dest] none none with
            | mk s1 b =>
              rw [hc] at h
              cases b with
              | false => cases h
              | true => exact .git u r s1 hg rfl hu hr hc (Res.ok.inj h)
    · intro h
      cases h with
      | git u r s1 _ hd hu hr hc ho =>
        rw [if_pos hd]
        unfold handleGit
        rw [hu, hr]
        simp only [hc, ho]
      | file _ _ _ h => rw [hg] at h; cases h
  | false =>
    rw [if_neg (by simp)]
    unfold handleFile
    constructor
    · intro h
      cases he : ensure H s (fileDest w subprojects) with
      | mk s1 b =>
        rw [he] at h
        cases b with
        | false => cases h
        | true =>
          simp only [] at h
          cases hf : w.fields .sourceFilename with
          | none => rw [hf] at h; cases h
          | some f =>
            rw [hf] at h
            refine .file f (fileDest w subprojects) s1 hg hf hdest ?_ ((obtain_iff ..).1 (Res.ok.inj h))
            unfold ensure at he
            cases hi : H.isDir s (fileDest w subprojects) with
            | true => rw [hi, if_pos rfl] at he; cases he; exact .inl ⟨rfl, rfl⟩
            | false => rw [hi, if_neg (by simp)] at he; exact .inr ⟨rfl, he⟩
    · intro h
      cases h with
      | git _ _ _ h => rw [hg] at h; cases h
      | file f dir s1 _ hf hd he ho =>
        rw [← hdest] at hd
        subst hd
        have he' : ensure H s (fileDest w subprojects) = (s1, true) := by
          unfold ensure
          rcases he with ⟨h1, h2⟩ | ⟨h1, h2⟩
          · rw [if_pos h1, h2]
          · rw [if_neg (by simp [h1]), h2]
        rw [he']
        simp only [hf]
        rw [(obtain_iff ..).2 ho]

theorem patch_iff {σ : Type} (H : Host σ) (s s' : σ) (w : Wrap) (subprojects : Bytes) (download : Bool) :
    patchFirst H s w subprojects download = (s', true) ↔ Patch H w subprojects download s s' := by
  unfold patchFirst
  constructor
  · intro h
    cases hd : w.fields .patchDirectory with
    | some d => rw [hd] at h; exact .directory d hd ((obtain_iff ..).1 h)
    | none =>
      rw [hd] at h
      cases hf : w.fields .patchFilename with
      | some f => rw [hf] at h; exact .file f hd hf ((obtain_iff ..).1 h)
      | none => rw [hf] at h; cases h; exact .none hd hf rfl
  · intro h
    cases h with
    | none hd hf hs => rw [hd, hf, hs]
    | directory d hd ho => rw [hd]; exact (obtain_iff ..).2 ho
    | file f hd hf ho => rw [hd, hf]; exact (obtain_iff ..).2 ho

theorem applied_iff {σ : Type} (H : Host σ) (subprojects dest : Bytes) (l : List Bytes) :
    ∀ s s', applyAll H subprojects dest false l s = .ok (s', true) ↔ Applied H subprojects dest l s s' := by
  induction l with
  | nil =>
    intro s s'
    constructor
    · intro h; cases h; exact .nil s
    · intro h; cases h; rfl
  | cons d l ih =>
    intro s s'
    unfold applyAll
    constructor
    · intro h
      cases ha : applyDiff H s subprojects dest d with
      | mk s1 b =>
        rw [ha] at h
        cases b with
        | false => cases h
        | true =>
          have hl := (ih s1 s').1 h
          unfold applyDiff at ha
          cases hp : H.hasPatch with
          | true => rw [hp, if_pos rfl] at ha; exact .patch hp ha hl
          | false => rw [hp, if_neg (by simp)] at ha; exact .git hp ha hl
    · intro h
      cases h with
      | @patch _ _ _ s1 _ hp ha hl =>
        have : applyDiff H s subprojects dest d = (s1, true) := by unfold applyDiff; rw [if_pos hp]; exact ha
        rw [this]; exact (ih s1 s').2 hl
      | @git _ _ _ s1 _ hp ha hl =>
        have : applyDiff H s subprojects dest d = (s1, true) := by unfold applyDiff; rw [if_neg (by simp [hp])]; exact ha
        rw [this]; exact (ih s1 s').2 hl

/-- The differences of a wrap. -/
def Diffs (w : Wrap) (names : List Bytes) : Prop := w.fields .diffFiles = none ∧ names = [] ∨ ∃ v, w.fields .diffFiles = some v ∧ DiffNames v names

theorem applyPatch_eq {σ : Type} (H : Host σ) (s : σ) (w : Wrap) (subprojects : Bytes) (download : Bool) (names : List Bytes) (hn : Diffs w names) :
    applyPatch H s w subprojects download =
      if (patchFirst H s w subprojects download).2 then applyAll H subprojects w.dest false names (patchFirst H s w subprojects download).1
      else .ok (patchFirst H s w subprojects download) := by
  unfold applyPatch
  generalize patchFirst H s w subprojects download = r
  obtain ⟨s1, b⟩ := r
  cases b with
  | false => rfl
  | true =>
    rw [if_pos rfl]
    rcases hn with ⟨hf, rfl⟩ | ⟨v, hf, hD⟩
    · simp only [hf]; rfl
    · simp only [hf]
      unfold applyDiffs
      rw [diffs_spec_partial hD]

/-- A subproject that is there already is left as it is. -/
theorem present {σ : Type} (H : Host σ) (s : σ) (w : Wrap) (subprojects : Bytes) (download : Bool)
    (h : H.isFile s (Path.join w.dest (ascii "meson.build")) = true) : handle H s w subprojects download = .ok (s, true) := by
  unfold handle; rw [if_pos h]

/-- Fetching a subproject succeeds exactly if its source, its patch and all its differences are there and are applied.
Partial: for `diff_files` with names of at least two bytes. -/
theorem handle_iff_partial {σ : Type} (H : Host σ) (s s' : σ) (w : Wrap) (subprojects : Bytes) (download : Bool) (names : List Bytes)
    (hn : Diffs w names) (hm : H.isFile s (Path.join w.dest (ascii "meson.build")) = false) :
    handle H s w subprojects download = .ok (s', true) ↔ Complete H w names subprojects download s s' := by
  unfold handle
  rw [if_neg (by simp [hm]), Res.bind_eq_ok]
  constructor
  · rintro ⟨⟨s1, b⟩, h1, h2⟩
    simp only [] at h2
    cases b with
    | false => cases h2
    | true =>
      rw [if_pos rfl, applyPatch_eq _ _ _ _ _ _ hn] at h2
      cases hp : patchFirst H s1 w subprojects download with
      | mk s2 b =>
        rw [hp] at h2
        cases b with
        | false => cases h2
        | true => exact ⟨s1, s2, (source_iff ..).1 h1, (patch_iff ..).1 hp, (applied_iff ..).1 h2⟩
  · rintro ⟨s1, s2, h1, h2, h3⟩
    refine ⟨(s1, true), (source_iff ..).2 h1, ?_⟩
    rw [if_pos rfl, applyPatch_eq _ _ _ _ _ _ hn, (patch_iff ..).2 h2]
    exact (applied_iff ..).2 h3

/-! ### Nothing else is done -/

theorem obtain_kept {σ : Type} (H : Host σ) (I : σ → Prop) (s : σ) (f : Bytes) (url hash : Option Bytes) (subprojects dir : Bytes) (download : Bool)
    (ha : ∀ data, H.read s (package subprojects f) = some data → SumOk H data hash → I (H.extract s data dir).1)
    (hc : I (H.copyDir s (package subprojects f) dir).1)
    (hf : download = true → ∀ u data, url = some u → H.fetch u = some data → SumOk H data hash → I (H.extract s data dir).1)
    (hI : I s) : I (obtain' H s f url hash subprojects dir download).1 := by
  have check : ∀ data, (SumOk H data hash → I (H.extract s data dir).1) → I (checkExtract H s data hash dir).1 := by
    intro data h
    unfold checkExtract
    cases hash with
    | none => exact h (by intro _ h'; cases h')
    | some x =>
      simp only []
      split
      · rename_i hx; exact h (by intro y hy; cases hy; exact hx)
      · exact hI
  have hp : Path.push (Path.join subprojects (ascii "packagefiles")) f = package subprojects f := rfl
  unfold obtain'
  simp only [hp]
  split
  · cases hr : H.read s (package subprojects f) with
    | none => exact hI
    | some data => exact check data (ha data hr)
  · split
    · exact hc
    · cases hu : url with
      | none => exact hI
      | some u =>
        cases hd : download with
        | false => exact hI
        | true =>
          simp only [Bool.not_true, Bool.false_eq_true, if_false]
          cases hfe : H.fetch u with
          | none => exact hI
          | some data => exact check data (hf hd u data hu hfe)

/-- Whatever fetching does, whether it succeeds or not, it does nothing but: making the directory, extracting archives
that have the right hash, copying directories of `packagefiles`, and running git and patch as the wrap says. What none of
these changes remains. -/
theorem handle_kept_partial {σ : Type} (H : Host σ) (s : σ) (w : Wrap) (subprojects : Bytes) (download : Bool) (names : List Bytes)
    (hn : Diffs w names) (I : σ → Prop) (hK : Kept H w names subprojects download I) (hI : I s) (r : σ × Bool)
    (h : handle H s w subprojects download = .ok r) : I r.1 := by
  have hob : ∀ (s : σ) (f : Bytes) (url hash : Option Bytes) (dir : Bytes), (dir = subprojects ∨ dir = w.dest) →
      ((some f = w.fields .sourceFilename ∧ url = w.fields .sourceUrl ∧ hash = w.fields .sourceHash) ∨
       (some f = w.fields .patchFilename ∧ url = w.fields .patchUrl ∧ hash = w.fields .patchHash) ∨
       (some f = w.fields .patchDirectory ∧ url = w.fields .patchUrl ∧ hash = w.fields .patchHash)) → I s →
      I (obtain' H s f url hash subprojects dir download).1 := by
    intro s f url hash dir hdir hf hI
    refine obtain_kept H I s f url hash subprojects dir download ?_ ?_ ?_ hI
    · intro data hr hs
      refine hK.archive s (some f) hash dir data ?_ hdir ⟨f, rfl, hr⟩ hs hI
      rcases hf with ⟨h1, _, h2⟩ | ⟨h1, _, h2⟩ | ⟨h1, _, h2⟩
      · exact .inl (by rw [h1, h2])
      · exact .inr (.inl (by rw [h1, h2]))
      · exact .inr (.inr (by rw [h1, h2]))
    · refine hK.copy s f dir ?_ hdir hI
      rcases hf with ⟨h1, _⟩ | ⟨h1, _⟩ | ⟨h1, _⟩
      · exact .inl h1
      · exact .inr (.inl h1)
      · exact .inr (.inr h1)
    · intro hd u data hu hfe hs
      refine hK.fetched hd s url hash dir data ?_ hdir ⟨u, hu, hfe⟩ hs hI
      rcases hf with ⟨_, h1, h2⟩ | ⟨_, h1, h2⟩ | ⟨_, h1, h2⟩
      · exact .inl (by rw [h1, h2])
      · exact .inr (by rw [h1, h2])
      · exact .inr (by rw [h1, h2])
  have hdest : fileDest w subprojects = subprojects ∨ fileDest w subprojects = w.dest := by
    unfold fileDest; split
    · exact .inr rfl
    · exact .inl rfl
  have hsource : ∀ r, handleSource H s w subprojects download = .ok r → I r.1 := by
    intro r h
    unfold handleSource at h
    split at h
    · rename_i hg
      split at h
      · rename_i hd
        unfold handleGit at h
        cases hu : w.fields .url with
        | none => rw [hu] at h; cases h
        | some u =>
          cases hr : w.fields .revision with
          | none => rw [hu, hr] at h; cases h
          | some v =>
            rw [hu, hr] at h
            simp only [] at h
            have hcl := hK.clone hd hg s u hu hI
            generalize H.run s [ascii "git", ascii "clone", u, w.dest] none none = x at h hcl
            obtain ⟨s1, b⟩ := x
            cases b with
            | false => cases h; exact hcl
            | true => cases h; exact hK.checkout hd hg s1 v hr hcl
      · cases h; exact hI
    · unfold handleFile at h
      have he : I (ensure H s (fileDest w subprojects)).1 := by
        unfold ensure
        split
        · exact hI
        · exact hK.mkdir s _ hdest hI
      generalize ensure H s (fileDest w subprojects) = x at h he
      obtain ⟨s1, b⟩ := x
      cases b with
      | false => cases h; exact he
      | true =>
        simp only [] at h
        cases hf : w.fields .sourceFilename with
        | none => rw [hf] at h; cases h
        | some f => rw [hf] at h; cases h; exact hob s1 f _ _ _ hdest (.inl ⟨hf.symm, rfl, rfl⟩) he
  have happly : ∀ l, (∀ d ∈ l, d ∈ names) → ∀ s r, I s → applyAll H subprojects w.dest false l s = .ok r → I r.1 := by
    intro l
    induction l with
    | nil => intro _ s r hI h; cases h; exact hI
    | cons d l ih =>
      intro hl s r hI h
      unfold applyAll at h
      have hd : I (applyDiff H s subprojects w.dest d).1 := by
        unfold applyDiff
        simp only []
        split
        · exact hK.patch s d (hl d (by simp)) hI
        · exact hK.apply s d (hl d (by simp)) hI
      generalize applyDiff H s subprojects w.dest d = x at h hd
      obtain ⟨s1, b⟩ := x
      cases b with
      | false => cases h; exact hd
      | true => exact ih (fun d hd => hl d (by simp [hd])) s1 r hd h
  unfold handle at h
  split at h
  · cases h; exact hI
  · obtain ⟨⟨s1, b⟩, h1, h2⟩ := Res.bind_eq_ok.1 h
    have hI1 := hsource _ h1
    cases b with
    | false => cases h2; exact hI1
    | true =>
      rw [if_pos rfl, applyPatch_eq _ _ _ _ _ _ hn] at h2
      have hp : I (patchFirst H s1 w subprojects download).1 := by
        unfold patchFirst
        cases hd : w.fields .patchDirectory with
        | some d => exact hob s1 d _ _ _ (.inr rfl) (.inr (.inr ⟨hd.symm, rfl, rfl⟩)) hI1
        | none =>
          cases hf : w.fields .patchFilename with
          | some f => exact hob s1 f _ _ _ (.inl rfl) (.inr (.inl ⟨hf.symm, rfl, rfl⟩)) hI1
          | none => exact hI1
      split at h2
      · exact happly names (fun _ h => h) _ r hp h2
      · cases h2; exact hp

/-- Without permission to download nothing depends on the network, and git wraps are not fetched. -/
theorem offline {σ : Type} (H : Host σ) (fetch : Bytes → Option Bytes) (s : σ) (w : Wrap) (subprojects : Bytes) :
    handle { H with fetch := fetch } s w subprojects false = handle H s w subprojects false := by
  have ho : ∀ s f url hash dir, obtain' { H with fetch := fetch } s f url hash subprojects dir false = obtain' H s f url hash subprojects dir false := by
    intro s f url hash dir
    unfold obtain' checkExtract
    simp only []
    cases url <;> rfl
  have ha : ∀ l over s, applyAll { H with fetch := fetch } subprojects w.dest over l s = applyAll H subprojects w.dest over l s := by
    intro l over
    induction l with
    | nil => intro s; rfl
    | cons d l ih =>
      intro s
      unfold applyAll
      have : applyDiff { H with fetch := fetch } s subprojects w.dest d = applyDiff H s subprojects w.dest d := rfl
      rw [this]
      generalize applyDiff H s subprojects w.dest d = x
      obtain ⟨s1, b⟩ := x
      cases b with
      | false => rfl
      | true => exact ih s1
  have hs : handleSource { H with fetch := fetch } s w subprojects false = handleSource H s w subprojects false := by
    unfold handleSource handleFile
    have : ensure { H with fetch := fetch } s (fileDest w subprojects) = ensure H s (fileDest w subprojects) := rfl
    simp only [this, ho, Bool.false_eq_true, if_false]
  have hp : ∀ s, applyPatch { H with fetch := fetch } s w subprojects false = applyPatch H s w subprojects false := by
    intro s
    unfold applyPatch applyDiffs
    have : patchFirst { H with fetch := fetch } s w subprojects false = patchFirst H s w subprojects false := by
      unfold patchFirst; simp only [ho]
    simp only [this, ha]
  unfold handle
  simp only [hs, hp]

theorem offline_git {σ : Type} (H : Host σ) (s : σ) (w : Wrap) (subprojects : Bytes) (hg : w.git = true)
    (hm : H.isFile s (Path.join w.dest (ascii "meson.build")) = false) : handle H s w subprojects false = .ok (s, false) := by
  unfold handle handleSource
  rw [if_neg (by simp [hm]), if_pos hg, if_neg (by simp), Res.ok_bind, if_neg (by simp)]

/-- Fetching a wrap with a `source_filename` or of git never does anything undefined. -/
theorem handle_defined_partial {σ : Type} (H : Host σ) (s : σ) (w : Wrap) (subprojects : Bytes) (download : Bool) (names : List Bytes)
    (hn : Diffs w names) (hf : w.git = false → w.fields .sourceFilename ≠ none)
    (hg : w.git = true → w.fields .url ≠ none ∧ w.fields .revision ≠ none) : ∃ r, handle H s w subprojects download = .ok r := by
  have hs : ∃ r, handleSource H s w subprojects download = .ok r := by
    unfold handleSource
    split
    · rename_i hgit
      obtain ⟨h1, h2⟩ := hg hgit
      split
      · unfold handleGit
        cases hu : w.fields .url with
        | none => exact absurd hu h1
        | some u =>
          cases hr : w.fields .revision with
          | none => exact absurd hr h2
          | some r =>
            simp only []
            generalize H.run s [ascii "git", ascii "clone", u, w.dest] none none = x
            obtain ⟨s1, b⟩ := x
            cases b <;> exact ⟨_, rfl⟩
      · exact ⟨_, rfl⟩
    · rename_i hgit
      unfold handleFile
      generalize ensure H s (fileDest w subprojects) = x
      obtain ⟨s1, b⟩ := x
      cases b with
      | false => exact ⟨_, rfl⟩
      | true =>
        simp only []
        cases hx : w.fields .sourceFilename with
        | none => exact absurd hx (hf (by simpa using hgit))
        | some f => exact ⟨_, rfl⟩
  have ha : ∀ l s, ∃ r, applyAll H subprojects w.dest false l s = .ok r := by
    intro l
    induction l with
    | nil => intro s; exact ⟨_, rfl⟩
    | cons d l ih =>
      intro s
      unfold applyAll
      generalize applyDiff H s subprojects w.dest d = x
      obtain ⟨s1, b⟩ := x
      cases b with
      | false => exact ⟨_, rfl⟩
      | true => exact ih s1
  unfold handle
  split
  · exact ⟨_, rfl⟩
  · obtain ⟨⟨s1, b⟩, h1⟩ := hs
    rw [h1, Res.ok_bind]
    cases b with
    | false => exact ⟨_, rfl⟩
    | true =>
      rw [if_pos rfl, applyPatch_eq _ _ _ _ _ _ hn]
      split
      · exact ha _ _
      · exact ⟨_, rfl⟩

end Muon.Wrap
