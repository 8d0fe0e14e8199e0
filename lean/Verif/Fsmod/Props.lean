import Verif.Fsmod.Model
import Verif.Fsmod.Spec
import Verif.Path.Props
/-
The module `fs` (C102).
-/
namespace Muon.Fsmod
open Muon Spec Path.Spec

/-- The text of an argument that may be a file. -/
def Arg.text : Arg → Bytes
  | .str s => s
  | .file s => s

theorem cstr_eq (s : Bytes) (h : 0 ∉ s) : cstr s = s := by
  unfold cstr
  induction s with
  | nil => rfl
  | cons c s ih =>
    have h1 : c ≠ 0 := fun e => h (by rw [e]; simp)
    rw [List.takeWhile_cons_of_pos (by simpa using h1), ih (fun e => h (List.mem_cons_of_mem _ e))]

theorem cancel_good {cs : List Bytes} (h : ∀ c ∈ cs, Path.Comp c) : ∀ c ∈ cancel cs, Path.Comp c := fun c hc => h c (Path.cancel_sub cs c hc)

theorem cancel_snoc (l : List Bytes) (c : Bytes) (hc : c ≠ dotdot) : cancel (l ++ [c]) = cancel l ++ [c] := by
  rw [Path.cancel_eq, List.foldl_append, ← Path.cancel_eq]
  simp only [List.foldl_cons, List.foldl_nil, Path.cancelStep]
  rw [if_neg (fun h => hc h.1)]

theorem fixPath_eq (E : Env) (o : Opts) (a : Arg) (hf : o.allowFile = true ∨ a = .str a.text) (hs : Ok a.text) :
    fixPath E o a = place E o a.text >>= fun p => .ok (Path.normalize true p) := by
  have ht : text o a = .ok a.text := by
    cases a with
    | str s => rfl
    | file s =>
      rcases hf with h | h
      · simp [text, h, Arg.text]
      · cases h
  unfold fixPath
  rw [ht, Res.ok_bind, if_neg]
  simp only [Bool.or_eq_true, List.contains_iff_mem, List.isEmpty_iff, not_or]
  exact ⟨hs.2, hs.1⟩

theorem normalize_again (s : Bytes) (h0 : 0 ∉ s) (hs : s ≠ []) : Path.normalize true (Path.normalize false s) = render (isAbs s) (cancel (comps s)) := by
  have hg := Path.comps_good s h0
  rw [Path.normalize_eq_canon false s h0, Path.normalize_eq_canon true _ (Path.canon_no0 _ s h0)]
  have hne : canon false s ≠ [] := fun h => hs ((Path.canon_ne _ _ h0).1 h)
  have hc := Path.canon_comps false s h0
  rw [if_neg (by simp)] at hc
  have hu : ∀ t, t ≠ [] → canon true t = render (isAbs t) (cancel (comps t)) := by
    intro t ht; unfold canon; rw [if_neg ht]; rfl
  rw [hu _ hne, Path.canon_isAbs false s h0, hc]

theorem normalize_join (d s : Bytes) (h1 : 0 ∉ d) (h2 : 0 ∉ s) (hd : d ≠ []) (ha : isAbs s = false) :
    Path.normalize true (Path.join d s) = render (isAbs d) (cancel (comps d ++ comps s)) := by
  obtain ⟨hc, hb⟩ := Path.join_relative d s h1 h2 ha
  have hg : ∀ c ∈ comps d ++ comps s, Path.Comp c := by
    intro c hc
    rcases List.mem_append.1 hc with h | h
    · exact Path.comps_good d h1 c h
    · exact Path.comps_good s h2 c h
  have ht := Path.join_text d s h1 h2 hd ha
  have h0 : 0 ∉ Path.join d s := by
    rw [ht]
    split
    · intro h
      rcases List.mem_append.1 h with h | h
      · exact Path.render_no0 _ _ (Path.comps_good d h1) h
      · simp at h
    · exact Path.render_no0 _ _ hg
  have hne : Path.join d s ≠ [] := by
    rw [ht]
    split
    · simp
    · exact Path.render_ne _ _ hg
  rw [Path.normalize_eq_canon true _ h0]
  unfold canon
  rw [if_neg hne, hc, hb]
  rfl

/-- Paths are canonical paths below the directory of the current project file. -/
theorem fixPath_spec (E : Env) (o : Opts) (a : Arg) (hf : o.allowFile = true ∨ a = .str a.text) (hs : Ok a.text) (hc : Ok E.cwd) (hn : o.noabs = false)
    (he : o.expand = true → a.text.head? ≠ some 126) : fixPath E o a = .ok (canonIn E.cwd a.text) := by
  rw [fixPath_eq E o a hf hs]
  unfold place canonIn
  rw [Path.isAbsolute_eq]
  cases ha : isAbs a.text with
  | true =>
    simp only [if_true, Res.ok_bind]
    unfold Path.copy
    rw [normalize_again _ hs.2 hs.1, ha]
  | false =>
    have : (o.expand && Path.byteAt a.text 0 == 126) = false := by
      cases ho : o.expand with
      | false => rfl
      | true =>
        have := he ho
        cases htx : a.text with
        | nil => rfl
        | cons c t =>
          rw [htx] at this
          simpa [Path.byteAt] using this
    simp only [Bool.false_eq_true, if_false, this, hn, Res.ok_bind]
    rw [normalize_join _ _ hc.2 hs.2 hc.1 ha]

/-- Where paths are not made absolute they are only made canonical. -/
theorem fixPath_noabs (E : Env) (o : Opts) (a : Arg) (hf : o.allowFile = true ∨ a = .str a.text) (hs : Ok a.text) (hn : o.noabs = true)
    (he : o.expand = true → a.text.head? ≠ some 126) : fixPath E o a = .ok (render (isAbs a.text) (cancel (comps a.text))) := by
  rw [fixPath_eq E o a hf hs]
  unfold place
  have : (o.expand && Path.byteAt a.text 0 == 126) = false := by
    cases ho : o.expand with
    | false => rfl
    | true =>
      have := he ho
      cases htx : a.text with
      | nil => rfl
      | cons c t =>
        rw [htx] at this
        simpa [Path.byteAt] using this
  simp only [this, hn, Bool.false_eq_true, if_false, if_true, ite_self, Res.ok_bind]
  unfold Path.copy
  rw [normalize_again _ hs.2 hs.1]

/-- A path is refused exactly if it is a file where only strings are allowed, is empty, contains a NUL, or is in the home directory and there
is none. -/
theorem fixPath_error_iff (E : Env) (o : Opts) (a : Arg) : fixPath E o a = .error ↔
    (o.allowFile = false ∧ a = .file a.text) ∨ a.text = [] ∨ 0 ∈ a.text ∨ (o.expand = true ∧ a.text.head? = some 126 ∧ E.home = none) := by
  have hpl : ∀ s, (place E o s >>= fun p => Res.ok (Path.normalize true p)) = .error ↔ (o.expand = true ∧ s.head? = some 126 ∧ E.home = none) := by
    intro s
    unfold place
    cases s with
    | nil => cases o.expand <;> cases o.noabs <;> simp [Path.isAbsolute, Path.byteAt, Res.ok_bind]
    | cons c t =>
      simp only [Path.isAbsolute, Path.byteAt, List.getD_cons_zero, List.head?_cons, Option.some.injEq]
      by_cases h47 : c = 47
      · subst h47; simp [Res.ok_bind]
      · by_cases h126 : c = 126
        · subst h126
          cases o.expand <;> cases o.noabs <;> cases E.home <;> simp [Res.ok_bind] <;> rfl
        · cases o.expand <;> cases o.noabs <;> simp [h47, h126, Res.ok_bind]
  have hrest : ∀ s, (if s.contains 0 || s.isEmpty then Res.error else place E o s >>= fun p => Res.ok (Path.normalize true p)) = .error ↔
      s = [] ∨ 0 ∈ s ∨ (o.expand = true ∧ s.head? = some 126 ∧ E.home = none) := by
    intro s
    by_cases h : s.contains 0 || s.isEmpty
    · rw [if_pos h]
      simp only [Bool.or_eq_true, List.contains_iff_mem, List.isEmpty_iff] at h
      rcases h with h | h
      · simp [h]
      · simp [h]
    · rw [if_neg h, hpl]
      simp only [Bool.or_eq_true, List.contains_iff_mem, List.isEmpty_iff, not_or] at h
      simp [h.1, h.2]
  unfold fixPath
  cases a with
  | str s =>
    simp only [text, Res.ok_bind, Arg.text]
    rw [hrest]
    simp
  | file s =>
    cases hf : o.allowFile with
    | false => simp [text, hf, Arg.text]
    | true =>
      simp only [text, hf, if_true, Res.ok_bind, Arg.text]
      rw [hrest]
      simp

/-! ### Functions -/

/-- `fs.exists()`, `fs.is_file()` and `fs.is_dir()` look at the canonical path. -/
theorem lookup_partial (E : Env) (probe : Bytes → Bool) (s : Bytes) (hs : Ok s) (hc : Ok E.cwd) (ht : s.head? ≠ some 126) :
    lookup E probe (.str s) = .ok (probe (canonIn E.cwd s)) := by
  unfold lookup
  rw [fixPath_spec E _ (.str s) (.inr rfl) hs hc rfl (fun _ => ht)]
  rfl

theorem isSymlink_partial (E : Env) (probe : Bytes → Bool) (a : Arg) (hs : Ok a.text) (hc : Ok E.cwd) (ht : a.text.head? ≠ some 126) :
    isSymlink E probe a = .ok (probe (canonIn E.cwd a.text)) := by
  unfold isSymlink
  rw [fixPath_spec E _ a (.inl rfl) hs hc rfl (fun _ => ht)]
  rfl

theorem expanduser_partial (E : Env) (s : Bytes) (hs : Ok s) (hc : Ok E.cwd) (ht : s.head? ≠ some 126) :
    expanduser E s = .ok (canonIn E.cwd s) :=
  fixPath_spec E _ (.str s) (.inr rfl) hs hc rfl (fun _ => ht)

/-- `~` is the home directory. -/
theorem expanduser_home (E : Env) (h : Bytes) (hh : E.home = some h) (ho : Ok h) : expanduser E [126] = .ok (render (isAbs h) (cancel (comps h))) := by
  unfold expanduser
  rw [fixPath_eq E _ (.str [126]) (.inr rfl) ⟨by simp [Arg.text], by simp [Arg.text]⟩]
  have : place E { expand := true } (Arg.text (.str [126])) = .ok (Path.join h []) := by
    unfold place
    rw [hh]
    rfl
  rw [this, Res.ok_bind, normalize_join h [] ho.2 (by simp) ho.1 (by decide)]
  have : comps ([] : Bytes) = [] := by decide
  rw [this, List.append_nil]

theorem canonIn_facts (dir s : Bytes) (hs : Ok s) (hc : Ok dir) : 0 ∉ canonIn dir s ∧ canonIn dir s ≠ [] ∧
    comps (canonIn dir s) = cancel (if isAbs s then comps s else comps dir ++ comps s) ∧ isAbs (canonIn dir s) = (isAbs s || isAbs dir) := by
  have hg := cancel_good (Path.comps_good s hs.2)
  have hg2 : ∀ c ∈ cancel (comps dir ++ comps s), Path.Comp c := cancel_good (by
    intro c h
    rcases List.mem_append.1 h with h | h
    · exact Path.comps_good dir hc.2 c h
    · exact Path.comps_good s hs.2 c h)
  unfold canonIn
  cases ha : isAbs s with
  | true =>
    simp only [if_true]
    exact ⟨Path.render_no0 _ _ hg, Path.render_ne _ _ hg, Path.render_comps _ _ hg, by rw [Path.render_isAbs _ _ hg]; rfl⟩
  | false =>
    simp only [Bool.false_eq_true, if_false]
    exact ⟨Path.render_no0 _ _ hg2, Path.render_ne _ _ hg2, Path.render_comps _ _ hg2, by rw [Path.render_isAbs _ _ hg2]; rfl⟩

theorem basename_canonIn (dir s : Bytes) (l : List Bytes) (c : Bytes) (hs : Ok s) (hc : Ok dir) (hl : Last s l c) : Path.basename (canonIn dir s) = c := by
  obtain ⟨h0, hne, hcm, _⟩ := canonIn_facts dir s hs hc
  rw [Path.basename_spec _ h0 hne, hcm]
  obtain ⟨h1, h2⟩ := hl
  have : ∃ l', cancel (if isAbs s then comps s else comps dir ++ comps s) = l' ++ [c] := by
    split
    · exact ⟨_, by rw [h1, cancel_snoc _ _ h2]⟩
    · exact ⟨_, by rw [h1, ← List.append_assoc, cancel_snoc _ _ h2]⟩
  obtain ⟨l', h⟩ := this
  rw [h]
  simp

/-- `fs.name()` is the last component, wherever the project is. -/
theorem name_spec (E : Env) (a : Arg) (l : List Bytes) (c : Bytes) (hs : Ok a.text) (hc : Ok E.cwd) (hl : Last a.text l c) : name E a = .ok c := by
  unfold name
  rw [fixPath_spec E _ a (.inl rfl) hs hc rfl (fun h => by cases h), Res.ok_bind, basename_canonIn _ _ l c hs hc hl]

theorem cutDot_dot (a b : Bytes) (hb : 46 ∉ b) : cutDot (a ++ 46 :: b) = a := by
  unfold cutDot
  have : (a ++ 46 :: b).reverse.dropWhile (· ≠ 46) = 46 :: a.reverse := by
    rw [List.reverse_append, List.reverse_cons, List.append_assoc,
      List.dropWhile_append_of_pos (by intro x hx; simpa using fun h => hb (by rw [← h]; simpa using hx))]
    simp
  rw [this]
  simp

theorem cutDot_none (a : Bytes) (ha : 46 ∉ a) : cutDot a = a := by
  unfold cutDot
  have : a.reverse.dropWhile (· ≠ 46) = [] := by
    have := List.dropWhile_append_of_pos (p := (· ≠ (46 : UInt8))) (l₁ := a.reverse) (l₂ := [])
      (by intro x hx; simpa using fun h => ha (by rw [← h]; simpa using hx))
    simpa using this
  rw [this]

/-- `fs.stem()` is the last component without what follows its last dot. -/
theorem stem_spec (E : Env) (a : Arg) (l : List Bytes) (n ext : Bytes) (hs : Ok a.text) (hc : Ok E.cwd) (he : 46 ∉ ext)
    (hl : Last a.text l (n ++ 46 :: ext)) : stem E a = .ok n := by
  unfold stem
  rw [fixPath_spec E _ a (.inl rfl) hs hc rfl (fun h => by cases h), Res.ok_bind, basename_canonIn _ _ l _ hs hc hl, cutDot_dot n ext he]

/-- Without a dot it is the last component. -/
theorem stem_none (E : Env) (a : Arg) (l : List Bytes) (n : Bytes) (hs : Ok a.text) (hc : Ok E.cwd) (he : 46 ∉ n)
    (hl : Last a.text l n) : stem E a = .ok n := by
  unfold stem
  rw [fixPath_spec E _ a (.inl rfl) hs hc rfl (fun h => by cases h), Res.ok_bind, basename_canonIn _ _ l _ hs hc hl, cutDot_none n he]

/-- `fs.parent()` is the path without the last component; it is not made absolute. -/
theorem parent_partial (E : Env) (a : Arg) (l : List Bytes) (c : Bytes) (hs : Ok a.text) (hl : Last a.text l c) (ht : a.text.head? ≠ some 126) :
    parent E a = .ok (render (isAbs a.text) (cancel l)) := by
  have hg := cancel_good (Path.comps_good _ hs.2)
  unfold parent
  rw [fixPath_noabs E _ a (.inl rfl) hs rfl (fun _ => ht), Res.ok_bind, Path.dirname_spec _ (Path.render_no0 _ _ hg) (Path.render_ne _ _ hg),
    Path.render_isAbs _ _ hg, Path.render_comps _ _ hg, hl.1, cancel_snoc _ _ hl.2]
  simp

/-- The parent and the name together are the path. -/
theorem parent_name_partial (E : Env) (a : Arg) (l : List Bytes) (c p n : Bytes) (hs : Ok a.text) (hc : Ok E.cwd) (hl : Last a.text l c)
    (ht : a.text.head? ≠ some 126) (hp : parent E a = .ok p) (hn : name E a = .ok n) :
    Path.join p n = render (isAbs a.text) (cancel (comps a.text)) := by
  have hg := cancel_good (Path.comps_good _ hs.2)
  have h0 := Path.render_no0 (isAbs a.text) _ hg
  have hne := Path.render_ne (isAbs a.text) _ hg
  rw [name_spec E a l c hs hc hl] at hn
  cases hn
  rw [parent_partial E a l c hs hl ht] at hp
  cases hp
  have hcm : comps (render (isAbs a.text) (cancel (comps a.text))) = cancel l ++ [c] := by
    rw [Path.render_comps _ _ hg, hl.1, cancel_snoc _ _ hl.2]
  have h := Path.dirname_basename _ h0 (by rw [hcm]; simp)
  rw [Path.dirname_spec _ h0 hne, Path.basename_spec _ h0 hne, hcm] at h
  simp only [List.getLast?_append, List.getLast?_singleton, Option.some_or, Path.render_isAbs _ _ hg, List.dropLast_concat] at h
  rw [h, Path.normalize_eq_canon false _ h0]
  unfold canon
  rw [if_neg hne, Path.render_isAbs _ _ hg, Path.render_comps _ _ hg]
  rfl

theorem render_dot (abs : Bool) (l : List Bytes) (n ext : Bytes) : render abs (l ++ [n ++ 46 :: ext]) = render abs (l ++ [n]) ++ 46 :: ext := by
  rw [Path.render_snoc, Path.render_snoc]
  simp

/-- `fs.replace_suffix()` replaces what follows the last dot of the last component, if it has one. -/
theorem replaceSuffix_partial (E : Env) (a : Arg) (l : List Bytes) (n ext suffix : Bytes) (hs : Ok a.text) (he : 46 ∉ ext) (hx : 0 ∉ suffix)
    (hl : Last a.text l (n ++ 46 :: ext)) : replaceSuffix E a suffix = .ok (render (isAbs a.text) (cancel l ++ [n]) ++ suffix) := by
  unfold replaceSuffix
  have hcs := cstr_eq suffix hx
  rw [fixPath_noabs E _ a (.inl rfl) hs rfl (fun h => by cases h), Res.ok_bind, hl.1, cancel_snoc _ _ hl.2, render_dot, cutDot_dot _ _ he, hcs]

/-- If no component has a dot, the suffix is appended. -/
theorem replaceSuffix_none (E : Env) (a : Arg) (suffix : Bytes) (hs : Ok a.text) (hx : 0 ∉ suffix) (hd : 46 ∉ a.text)
    (hne : comps a.text ≠ []) : replaceSuffix E a suffix = .ok (render (isAbs a.text) (comps a.text) ++ suffix) := by
  have hcs := cstr_eq suffix hx
  have hsub : ∀ (s : Bytes), ∀ p ∈ pieces s, ∀ x ∈ p, x ∈ s := by
    intro s
    induction s with
    | nil => intro p hp x hx; simp [pieces] at hp; subst hp; simp at hx
    | cons c s ih =>
      intro p hp x hx
      unfold pieces at hp
      split at hp
      · rcases List.mem_cons.1 hp with rfl | h
        · simp at hx
        · exact List.mem_cons_of_mem _ (ih p h x hx)
      · split at hp
        · simp at hp; subst hp; simp at hx; simp [hx]
        · rename_i q qs hq
          rcases List.mem_cons.1 hp with rfl | h
          · rcases List.mem_cons.1 hx with rfl | h
            · simp
            · exact List.mem_cons_of_mem _ (ih q (by rw [hq]; simp) x h)
          · exact List.mem_cons_of_mem _ (ih p (by rw [hq]; exact List.mem_cons_of_mem _ h) x hx)
  have hcd : ∀ c ∈ comps a.text, 46 ∉ c := fun c hc h => hd (hsub _ c (List.mem_filter.1 hc).1 _ h)
  have hcn : cancel (comps a.text) = comps a.text := by
    rw [Path.cancel_eq]
    exact (Path.cancelFold_nn (comps a.text) (fun c hc h => hcd c hc (by rw [h]; decide)) []).trans (by simp)
  unfold replaceSuffix
  rw [fixPath_noabs E _ a (.inl rfl) hs rfl (fun h => by cases h), Res.ok_bind, hcs, hcn, cutDot_none]
  intro h
  unfold render at h
  have key : 46 ∉ sepJoin (comps a.text) := by
    intro h
    rcases Path.sepJoin_mem _ _ h with h | ⟨c, hc, hx⟩
    · cases h
    · exact hcd c hc hx
  split at h
  · rcases List.mem_cons.1 h with h | h
    · cases h
    · exact key h
  · first | exact key h | (rw [if_neg hne] at h; exact key h)

/-- `fs.is_samepath()` says whether the canonical paths are the same. -/
theorem isSamepath_spec (E : Env) (a b : Arg) (ha : Ok a.text) (hb : Ok b.text) (hc : Ok E.cwd) :
    isSamepath E a b = .ok (decide (canonIn E.cwd a.text = canonIn E.cwd b.text)) := by
  unfold isSamepath
  rw [fixPath_spec E _ a (.inl rfl) ha hc rfl (fun h => by cases h), Res.ok_bind,
    fixPath_spec E _ b (.inl rfl) hb hc rfl (fun h => by cases h), Res.ok_bind]

/-- Where the path leads from the root (symbolic links not considered). -/
def leads (dir s : Bytes) : List Bytes := walk [] (if isAbs s then comps s else comps dir ++ comps s)

/-- Paths that are said to be the same lead to the same place. -/
theorem samepath_sound (E : Env) (a b : Arg) (ha : Ok a.text) (hb : Ok b.text) (hc : Ok E.cwd) (h : isSamepath E a b = .ok true) :
    leads E.cwd a.text = leads E.cwd b.text := by
  rw [isSamepath_spec E a b ha hb hc] at h
  have he : canonIn E.cwd a.text = canonIn E.cwd b.text := by simpa using h
  have h1 := (canonIn_facts E.cwd a.text ha hc).2.2.1
  have h2 := (canonIn_facts E.cwd b.text hb hc).2.2.1
  unfold leads
  rw [← Path.walk_cancel, ← h1, he, h2, Path.walk_cancel]

/-- Paths that lead to the same place, and not above the root, are said to be the same. -/
theorem samepath_complete_partial (E : Env) (a b : Arg) (ha : Ok a.text) (hb : Ok b.text) (hc : Ok E.cwd) (hr : isAbs E.cwd = true)
    (h1 : dotdot ∉ cancel (if isAbs a.text then comps a.text else comps E.cwd ++ comps a.text))
    (h2 : dotdot ∉ cancel (if isAbs b.text then comps b.text else comps E.cwd ++ comps b.text))
    (h : leads E.cwd a.text = leads E.cwd b.text) : isSamepath E a b = .ok true := by
  have hw : ∀ (cs st : List Bytes), dotdot ∉ cs → walk st cs = st ++ cs := by
    intro cs
    induction cs with
    | nil => intro st _; simp [walk]
    | cons c cs ih =>
      intro st hn
      have := ih (st ++ [c]) (fun h => hn (List.mem_cons_of_mem _ h))
      unfold walk at this ⊢
      rw [List.foldl_cons, if_neg (fun h => hn (by rw [h]; simp)), this]
      simp
  unfold leads at h
  rw [← Path.walk_cancel, ← Path.walk_cancel [] (if isAbs b.text then _ else _), hw _ _ h1, hw _ _ h2] at h
  simp only [List.nil_append] at h
  rw [isSamepath_spec E a b ha hb hc]
  have : canonIn E.cwd a.text = canonIn E.cwd b.text := by
    have e : ∀ s, canonIn E.cwd s = render true (cancel (if isAbs s then comps s else comps E.cwd ++ comps s)) := by
      intro s
      unfold canonIn
      cases isAbs s <;> simp [hr]
    rw [e, e, h]
  rw [this]
  simp

/-- `fs.read()` gives the content of the file, all of it, and `fs.size()` its length. -/
theorem read_partial (E : Env) (files : Bytes → Option Bytes) (a : Arg) (enc : Option Bytes) (hs : Ok a.text) (hc : Ok E.cwd) (ht : a.text.head? ≠ some 126) :
    read' E files a enc = (match files (canonIn E.cwd a.text) with | none => .error | some c => .ok c) := by
  unfold read'
  rw [fixPath_spec E _ a (.inl rfl) hs hc rfl (fun _ => ht)]
  rfl

theorem size_spec (E : Env) (files : Bytes → Option Bytes) (a : Arg) (hs : Ok a.text) (hc : Ok E.cwd) (content : Bytes)
    (hf : files (canonIn E.cwd a.text) = some content) (hl : content.length < 2 ^ 63 - 1) : size E files a = .ok content.length := by
  unfold size
  rw [fixPath_spec E _ a (.inl rfl) hs hc rfl (fun h => by cases h), Res.ok_bind, hf]
  simp only [hl, if_true]

/-- What was written is read again under every name of the file; other files are as before. -/
theorem read_write_partial (E : Env) (ok : Bytes → Bool) (files files' : Bytes → Option Bytes) (a b : Arg) (data : Bytes) (enc : Option Bytes)
    (ha : Ok a.text) (hb : Ok b.text) (hc : Ok E.cwd) (ta : a.text.head? ≠ some 126) (tb : b.text.head? ≠ some 126)
    (h : write E ok files a data = .ok files') :
    read' E files' b enc = if canonIn E.cwd b.text = canonIn E.cwd a.text then .ok data else read' E files b enc := by
  rw [read_partial E files' b enc hb hc tb, read_partial E files b enc hb hc tb]
  unfold write at h
  rw [fixPath_spec E _ a (.inl rfl) ha hc rfl (fun _ => ta), Res.ok_bind] at h
  split at h
  · cases h
    by_cases he : canonIn E.cwd b.text = canonIn E.cwd a.text
    · simp [he]
    · simp [he]
  · cases h

/-! ### as_posix -/

theorem posixLoop_pair (s : Bytes) : posixLoop (92 :: 92 :: s) = 47 :: posixLoop s := by rw [posixLoop]

theorem posixLoop_other (c : UInt8) (s : Bytes) (h : c ≠ 92) : posixLoop (c :: s) = c :: posixLoop s := by
  rw [posixLoop]
  · rw [if_neg h]
  · intro s' h1; exact absurd h1 h

/-- `fs.as_posix()` turns every run of `n` backslashes into half as many slashes, rounded up, and keeps everything else. -/
theorem posix_runs (n : Nat) (c : UInt8) (s : Bytes) (h : c ≠ 92) :
    posixLoop (List.replicate n 92 ++ c :: s) = List.replicate ((n + 1) / 2) 47 ++ c :: posixLoop s := by
  induction n using Nat.strongRecOn with
  | _ n ih =>
    match n with
    | 0 => simpa using posixLoop_other c s h
    | 1 =>
      show posixLoop (92 :: c :: s) = 47 :: c :: posixLoop s
      rw [posixLoop]
      · rw [if_pos rfl, posixLoop_other c s h]
      · intro s' _ h2
        exact absurd (List.cons.inj h2).1 h
    | n + 2 =>
      show posixLoop (92 :: 92 :: (List.replicate n 92 ++ c :: s)) = _
      rw [posixLoop_pair, ih n (by omega), show (n + 2 + 1) / 2 = (n + 1) / 2 + 1 by omega, List.replicate_succ]
      rfl

theorem posix_end (n : Nat) : posixLoop (List.replicate n 92) = List.replicate ((n + 1) / 2) 47 := by
  induction n using Nat.strongRecOn with
  | _ n ih =>
    match n with
    | 0 => rfl
    | 1 => rfl
    | n + 2 =>
      show posixLoop (92 :: 92 :: List.replicate n 92) = _
      rw [posixLoop_pair, ih n (by omega), show (n + 2 + 1) / 2 = (n + 1) / 2 + 1 by omega, List.replicate_succ]

/-- A path without NULs and backslashes is the same; other paths have no backslashes afterwards. -/
theorem asPosix_same (s : Bytes) (h0 : 0 ∉ s) (h : 92 ∉ s) : asPosix s = s := by
  have hc := cstr_eq s h0
  unfold asPosix
  rw [hc]
  clear hc h0
  induction s with
  | nil => rfl
  | cons c s ih =>
    rw [posixLoop_other c s (fun e => h (by rw [e]; simp)), ih (fun e => h (List.mem_cons_of_mem _ e))]

theorem asPosix_clean (s : Bytes) : 92 ∉ asPosix s := by
  unfold asPosix
  generalize cstr s = t
  induction hn : t.length using Nat.strongRecOn generalizing t with
  | _ n ih =>
    unfold posixLoop
    split
    · simp
    · rename_i s
      intro h
      rcases List.mem_cons.1 h with h | h
      · cases h
      · exact ih s.length (by simp [← hn]; omega) s rfl h
    · rename_i c s _
      intro h
      rcases List.mem_cons.1 h with h | h
      · split at h
        · cases h
        · exact absurd h.symm (by assumption)
      · exact ih s.length (by simp [← hn]) s rfl h

/-- `fs.relative_to()` needs absolute paths, and following it from the base leads to the path. -/
theorem relativeTo_spec (base p : Bytes) (h1 : 0 ∉ base) (h2 : 0 ∉ p) :
    if isAbs base = true ∧ isAbs p = true then
      ∃ r, relativeTo base p = .ok r ∧ walk [] (comps (Path.join base r)) = walk [] (comps p)
    else relativeTo base p = .error := by
  have hc := cstr_eq
  unfold relativeTo
  rw [hc _ h1, hc _ h2, Path.isAbsolute_eq, Path.isAbsolute_eq]
  split
  · rename_i h
    obtain ⟨r, h3, _, h4⟩ := Path.relativeTo_walk base p h1 h2 h.1 h.2
    refine ⟨r, ?_, h4⟩
    rw [h.1, h.2]
    simpa using h3
  · rename_i h
    cases hb : isAbs base with
    | false => simp
    | true =>
      cases hp : isAbs p with
      | false => simp
      | true => exact absurd ⟨hb, hp⟩ h

/-- `fs.add_suffix()`. -/
theorem addSuffix_spec (p s : Bytes) (h1 : 0 ∉ p) (h2 : 0 ∉ s) (hp : p ≠ []) : addSuffix p s = render (isAbs p) (comps p) ++ s := by
  have hc := cstr_eq
  unfold addSuffix
  rw [hc _ h1, hc _ h2]
  unfold Path.copy
  rw [Path.normalize_eq_canon false p h1]
  unfold canon
  rw [if_neg hp]
  rfl

theorem isAbsolute_spec (s : Bytes) : isAbsolute s = isAbs s := by
  unfold isAbsolute
  rw [Path.isAbsolute_eq]
  cases s with
  | nil => rfl
  | cons c s =>
    by_cases h : c = 0
    · subst h; rfl
    · simp [cstr, isAbs, h]

/-! ### Examples, and what is wrong -/

def exEnv : Env := ⟨ascii "/src/p", some (ascii "/home/me")⟩

example : Ok (ascii "a/../b//c.tar.gz") ∧ Ok exEnv.cwd ∧ Last (ascii "a/../b//c.tar.gz") [ascii "a", dotdot, ascii "b"] (ascii "c.tar" ++ 46 :: ascii "gz") ∧
    46 ∉ ascii "gz" ∧ canonIn exEnv.cwd (ascii "a/../b//c.tar.gz") = ascii "/src/p/b/c.tar.gz" := by
  unfold Ok Last; decide +kernel
example : name exEnv (.file (ascii "a/../b//c.tar.gz")) = .ok (ascii "c.tar.gz") ∧ stem exEnv (.str (ascii "a/../b//c.tar.gz")) = .ok (ascii "c.tar") ∧
    parent exEnv (.str (ascii "a/../b//c.tar.gz")) = .ok (ascii "b") ∧ replaceSuffix exEnv (.str (ascii "x/c.tar.gz")) (ascii ".z") = .ok (ascii "x/c.tar.z") ∧
    isSamepath exEnv (.str (ascii "../p/a")) (.str (ascii "/src/./p/a")) = .ok true ∧ asPosix (ascii "a\\b\\\\c") = ascii "a/b/c" ∧
    expanduser exEnv (ascii "~") = .ok (ascii "/home/me") ∧ lookup exEnv (· == ascii "/src/x") (.str (ascii "../x")) = .ok true ∧
    relativeTo (ascii "/a/b") (ascii "/a/c") = .ok (ascii "../c") ∧ addSuffix (ascii "a/") (ascii ".o") = ascii "a.o" ∧ isAbsolute (ascii "/a") = true := by
  decide +kernel
example : ∃ files', write exEnv (fun _ => true) (fun _ => none) (.str (ascii "a/../b")) (ascii "text") = .ok files' ∧
    read' exEnv files' (.str (ascii "/src/p/b")) none = .ok (ascii "text") := ⟨_, rfl, by decide +kernel⟩

/-- A path in the home directory is taken to be in the root directory. -/
theorem expanduser_counterexample : expanduser exEnv (ascii "~/x") = .ok (ascii "/x") ∧ expanduser exEnv (ascii "~other/x") = .ok (ascii "/home/me/other/x") := by
  decide +kernel
/-- Whatever the home directory. -/
theorem expanduser_slash_counterexample (E : Env) (h s : Bytes) (hh : E.home = some h) (h0 : 0 ∉ h) (hs : 0 ∉ s) :
    expanduser E (126 :: 47 :: s) = .ok (render true (cancel (comps s))) := by
  unfold expanduser
  rw [fixPath_eq E _ (.str (126 :: 47 :: s)) (.inr rfl) ⟨by simp [Arg.text], by simp [Arg.text, hs]⟩]
  have : place E { expand := true } (Arg.text (.str (126 :: 47 :: s))) = .ok (Path.join h (47 :: s)) := by
    unfold place
    rw [hh]
    rfl
  have hz : (0 : UInt8) ∉ 47 :: s := by simp [hs]
  rw [this, Res.ok_bind, Path.join_absolute h (47 :: s) h0 hz (by simp [isAbs]), normalize_again _ hz (by simp)]
  have : comps (47 :: s) = comps s := by
    have := Path.comps_append [] s
    simpa [comps, pieces] using this
  rw [this]
  simp [isAbs]

/-- The suffix that is replaced may be in another component, or be half of `..`. -/
theorem replaceSuffix_counterexample :
    replaceSuffix exEnv (.str (ascii "a.d/b")) (ascii ".c") = .ok (ascii "a.c") ∧ replaceSuffix exEnv (.str (ascii "../b")) (ascii ".c") = .ok (ascii "..c") := by
  decide +kernel

/-- Files whose name begins with a dot have no stem. -/
theorem stem_counterexample : stem exEnv (.str (ascii ".bashrc")) = .ok [] := by decide +kernel

/-- Paths above the root are not the same as paths in the root. -/
theorem samepath_counterexample :
    isSamepath exEnv (.str (ascii "/../a")) (.str (ascii "/a")) = .ok false ∧ leads exEnv.cwd (ascii "/../a") = leads exEnv.cwd (ascii "/a") := by decide +kernel

/-- An encoding that is not supported is an error that stops nothing. -/
theorem encoding_counterexample (E : Env) (files : Bytes → Option Bytes) (a : Arg) (enc : Option Bytes) : read' E files a enc = read' E files a none := rfl

end Muon.Fsmod
