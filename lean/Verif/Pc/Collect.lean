import Verif.Pc.Spec
/-
The libraries and requirements that `pkgconfig.generate()` collects are those that the libraries given stand for.
-/
namespace Muon.Pc
open Muon
open Spec

/-- It is among what was collected. -/
def Has (pc : Pc) : What → Prop
  | .lib v f => f ∈ pc.libs v
  | .req v f => f ∈ pc.reqs v
  | .cflag f => f ∈ pc.cflags
  | .contained f => f ∈ pc.exclude
  | .internal v => pc.internal v = true

/-- Exactly the things of `P` were added. -/
def Effect (P : What → Prop) (a b : Pc) : Prop := ∀ x, Has b x ↔ Has a x ∨ P x

theorem Effect.trans {P Q : What → Prop} {a b c : Pc} (h : Effect P a b) (h' : Effect Q b c) :
    Effect (fun x => P x ∨ Q x) a c := fun x => by rw [h' x, h x, or_assoc]

theorem Effect.congr {P Q : What → Prop} {a b : Pc} (h : Effect P a b) (hpq : ∀ x, P x ↔ Q x) : Effect Q a b :=
  fun x => by rw [h x, hpq]

theorem effect_none {P : What → Prop} {a : Pc} (h : ∀ x, ¬ P x) : Effect P a a :=
  fun x => ⟨Or.inl, fun h' => h'.elim id (fun h' => absurd h' (h x))⟩

theorem effect_lib {a : Pc} {v : Vis} {f : Bytes} : Effect (fun x => x = .lib v f) a (a.addLib v f) := by
  intro x
  cases x with
  | lib u g =>
    simp only [Has, Pc.addLib, What.lib.injEq]
    by_cases h : u = v
    · subst h; simp
    · simp [h]
  | req u g => simp [Has, Pc.addLib]
  | cflag g => simp [Has, Pc.addLib]
  | contained g => simp [Has, Pc.addLib]
  | internal u => simp [Has, Pc.addLib]

theorem effect_req {a : Pc} {v : Vis} {f : Bytes} : Effect (fun x => x = .req v f) a (a.addReq v f) := by
  intro x
  cases x with
  | req u g =>
    simp only [Has, Pc.addReq, What.req.injEq]
    by_cases h : u = v
    · subst h; simp
    · simp [h]
  | lib u g => simp [Has, Pc.addReq]
  | cflag g => simp [Has, Pc.addReq]
  | contained g => simp [Has, Pc.addReq]
  | internal u => simp [Has, Pc.addReq]

theorem effect_mark {a : Pc} {v : Vis} : Effect (fun x => x = .internal v) a (a.mark v) := by
  intro x
  cases x with
  | internal u =>
    simp only [Has, Pc.mark, What.internal.injEq]
    by_cases h : u = v
    · subst h; simp
    · simp [h]
  | lib u g => simp [Has, Pc.mark]
  | req u g => simp [Has, Pc.mark]
  | cflag g => simp [Has, Pc.mark]
  | contained g => simp [Has, Pc.mark]

theorem effect_exclude {a : Pc} {f : Bytes} :
    Effect (fun x => x = .contained f) a { a with exclude := a.exclude ++ [f] } := by
  intro x
  cases x <;> simp [Has]

theorem effect_cflags {a : Pc} {l : List Bytes} :
    Effect (fun x => ∃ f ∈ l, x = .cflag f) a { a with cflags := a.cflags ++ l } := by
  intro x
  cases x <;> simp [Has]

theorem flag_iff {s f : Bytes} : Flag s f ↔ f = lname s := by
  unfold lname
  constructor
  · intro h
    cases h with
    | opt s => rfl
    | lib s =>
      have e : ascii "lib" = [108, 105, 98] := by decide +kernel
      rw [e]
      rfl
    | plain _ h1 h2 =>
      rw [if_neg h1, if_neg]
      intro h3
      obtain ⟨r, hr⟩ := List.isPrefixOf_iff_prefix.1 h3
      exact h2 r hr.symm
  · rintro rfl
    split
    · rename_i h
      cases s with
      | nil => cases h
      | cons c s => cases h; exact .opt s
    · rename_i h
      split
      · rename_i h2
        obtain ⟨r, rfl⟩ := List.isPrefixOf_iff_prefix.1 h2
        have : (ascii "lib" ++ r).drop 3 = r := by
          have e : ascii "lib" = [108, 105, 98] := by decide +kernel
          rw [e]; rfl
        rw [this]
        exact .lib r
      · rename_i h2
        exact .plain s h (fun r hr => h2 (List.isPrefixOf_iff_prefix.2 ⟨r, hr.symm⟩))

theorem cutDot_some {stem ext : Bytes} (h : 46 ∉ ext) : cutDot (stem ++ 46 :: ext) = stem := by
  unfold cutDot
  rw [if_pos (by simp)]
  have h1 : (stem ++ 46 :: ext).reverse = ext.reverse ++ 46 :: stem.reverse := by simp
  rw [h1, List.dropWhile_append_of_pos (by
    intro c hc
    have : c ≠ 46 := fun e => h (e ▸ List.mem_reverse.1 hc)
    simpa using this)]
  simp

theorem cutDot_none {b : Bytes} (h : 46 ∉ b) : cutDot b = b := by unfold cutDot; rw [if_neg h]

theorem last_dot {b : Bytes} (h : 46 ∈ b) : ∃ stem ext, b = stem ++ 46 :: ext ∧ 46 ∉ ext := by
  induction b with
  | nil => cases h
  | cons c b ih =>
    by_cases h1 : 46 ∈ b
    · obtain ⟨s, e, rfl, he⟩ := ih h1
      exact ⟨c :: s, e, rfl, he⟩
    · rcases List.mem_cons.1 h with rfl | h
      · exact ⟨[], b, rfl, h1⟩
      · exact absurd h h1

theorem fileFlag_iff {p f : Bytes} : FileFlag p f ↔ f = fileLname p := by
  unfold FileFlag fileLname
  generalize Path.basename p = b
  constructor
  · rintro (⟨s, e, rfl, he, h⟩ | ⟨h1, h⟩)
    · rw [cutDot_some he]; exact flag_iff.1 h
    · rw [cutDot_none h1]; exact flag_iff.1 h
  · rintro rfl
    by_cases h : 46 ∈ b
    · obtain ⟨s, e, rfl, he⟩ := last_dot h
      exact Or.inl ⟨s, e, rfl, he, flag_iff.2 (by rw [cutDot_some he])⟩
    · exact Or.inr ⟨h, flag_iff.2 (by rw [cutDot_none h])⟩

theorem linkable_iff {p : Bytes} : linkable p = true ↔ Linkable p := by
  unfold linkable Linkable
  rw [List.any_eq_true]
  constructor
  · rintro ⟨s, hs, h⟩
    obtain ⟨a, ha⟩ := List.isSuffixOf_iff_suffix.1 h
    exact ⟨s, hs, a, ha.symm⟩
  · rintro ⟨s, hs, a, ha⟩
    exact ⟨s, hs, List.isSuffixOf_iff_suffix.2 ⟨a, ha.symm⟩⟩

theorem effect_file {R : Roots} {v : Vis} {p : Bytes} {a b : Pc} (h : procFile R v p a = .ok b) :
    Effect (fun x => x = .lib v (fileLname p) ∨ x = .internal v ∧ InTree R p) a b ∧ Linkable p := by
  unfold procFile at h
  by_cases hl : linkable p = true
  · rw [if_neg (by simp [hl])] at h
    obtain ⟨s, h1, h2⟩ := (Res.bind_eq_ok (x := Path.isSubpath R.source p)).1 h
    obtain ⟨t, h3, h4⟩ := (Res.bind_eq_ok (x := if s = true then Res.ok true else Path.isSubpath R.build p)).1 h2
    cases h4
    refine ⟨?_, linkable_iff.1 hl⟩
    have ht : t = true ↔ InTree R p := by
      unfold InTree
      cases s with
      | true => rw [if_pos rfl] at h3; cases h3; simp [h1]
      | false => rw [if_neg (by simp)] at h3; rw [h1, h3]; simp
    cases ht' : t with
    | true =>
      rw [if_pos rfl]
      have := ht.1 ht'
      exact (effect_mark.trans effect_lib).congr (fun x => by simp [this, or_comm])
    | false =>
      rw [if_neg (by simp)]
      have : ¬ InTree R p := fun h => by rw [ht.2 h] at ht'; cases ht'
      exact effect_lib.congr (fun x => by simp [this])
  · rw [if_pos (by simpa using hl)] at h; cases h

theorem effect_files {R : Roots} {v : Vis} (ps : List Bytes) {a b : Pc} (h : procFiles R v ps a = .ok b) :
    Effect (fun x => ∃ p ∈ ps, x = .lib v (fileLname p) ∨ x = .internal v ∧ InTree R p) a b ∧ ∀ p ∈ ps, Linkable p := by
  induction ps generalizing a with
  | nil => cases h; exact ⟨effect_none (fun x h => by obtain ⟨p, hp, _⟩ := h; cases hp), fun _ h => nomatch h⟩
  | cons p ps ih =>
    obtain ⟨c, h1, h2⟩ := (Res.bind_eq_ok (x := procFile R v p a)).1 h
    obtain ⟨e1, l1⟩ := effect_file h1
    obtain ⟨e2, l2⟩ := ih h2
    refine ⟨(e1.trans e2).congr (fun x => by simp), fun q hq => ?_⟩
    rcases List.mem_cons.1 hq with rfl | hq
    · exact l1
    · exact l2 q hq

theorem behind_iff {x z : Item} : Behind x z ↔ x = z ∨ ∃ y, Part x y ∧ Behind y z := by
  constructor
  · intro h
    cases h with
    | self => exact Or.inl rfl
    | part h1 h2 => exact Or.inr ⟨_, h1, h2⟩
  · rintro (rfl | ⟨y, h1, h2⟩)
    · exact .self _
    · exact .part h1 h2

/-- Everything behind the item has been added, and can be a library. -/
def Done (R : Roots) (it : Item) (a b : Pc) : Prop :=
  Effect (fun x => ∃ y, Behind it y ∧ Adds R y x) a b ∧ ∀ y, Behind it y → Proper y

/-- The same for several. -/
def DoneAll (R : Roots) (v : Vis) (w : Bool) (ls : List Lib) (a b : Pc) : Prop :=
  Effect (fun x => ∃ l ∈ ls, ∃ y, Behind ⟨v, w, l⟩ y ∧ Adds R y x) a b ∧ ∀ l ∈ ls, ∀ y, Behind ⟨v, w, l⟩ y → Proper y

/-- An item with nothing behind it. -/
theorem done_leaf {R : Roots} {it : Item} {a b : Pc} (hp : ∀ y, ¬ Part it y) (he : Effect (Adds R it) a b)
    (hpr : Proper it) : Done R it a b := by
  have hb : ∀ y, Behind it y ↔ it = y := by
    intro y
    rw [behind_iff]
    constructor
    · rintro (h | ⟨z, h, _⟩)
      · exact h
      · exact absurd h (hp z)
    · exact Or.inl
  refine ⟨he.congr (fun x => ?_), fun y hy => by rw [← (hb y).1 hy]; exact hpr⟩
  constructor
  · intro h; exact ⟨it, (hb it).2 rfl, h⟩
  · rintro ⟨y, hy, h⟩; rw [(hb y).1 hy]; exact h

theorem effect_target {R : Roots} {v : Vis} {w : Bool} {n : Bytes} {k : Kind} {i : Bool} {ds lw lh : List Lib} {a : Pc}
    (hk : k ≠ .exe) :
    Effect (Adds R ⟨v, w, .target n k i none ds lw lh⟩) a (addTarget v w k i (lname n) a) := by
  unfold addTarget
  cases w with
  | true =>
    rw [if_pos rfl]
    refine effect_exclude.congr (fun x => ⟨?_, ?_⟩)
    · rintro rfl; exact .whole (flag_iff.2 rfl)
    · intro h
      cases h with
      | whole h => rw [flag_iff.1 h]
  | false =>
    rw [if_neg (by simp)]
    cases k with
    | exe => exact absurd rfl hk
    | shared =>
      rw [if_neg (by simp)]
      refine (effect_mark.trans effect_lib).congr (fun x => ⟨?_, ?_⟩)
      · rintro (rfl | rfl)
        · exact .sharedIn
        · exact .shared (flag_iff.2 rfl)
      · intro h
        cases h with
        | shared h => exact Or.inr (by rw [flag_iff.1 h])
        | sharedIn => exact Or.inl rfl
    | static =>
      cases i with
      | false =>
        rw [if_pos (by simp)]
        exact effect_none (fun x h => by cases h)
      | true =>
        rw [if_neg (by simp)]
        refine (effect_mark.trans effect_lib).congr (fun x => ⟨?_, ?_⟩)
        · rintro (rfl | rfl)
          · exact .staticIn
          · exact .static (flag_iff.2 rfl)
        · intro h
          cases h with
          | static h => exact Or.inr (by rw [flag_iff.1 h])
          | staticIn => exact Or.inl rfl

mutual
theorem procLib_done {R : Roots} (v : Vis) (w : Bool) : (l : Lib) → (a b : Pc) → procLib R v w l a = .ok b →
    Done R ⟨v, w, l⟩ a b
  | .str s, a, b, h => by
    simp only [procLib] at h
    cases h
    refine done_leaf (fun y h => by cases h) (effect_lib.congr fun x => ⟨?_, ?_⟩) .str
    · rintro rfl; exact .str (flag_iff.2 rfl)
    · intro h
      cases h with
      | str h => rw [flag_iff.1 h]
  | .file p, a, b, h => by
    simp only [procLib] at h
    obtain ⟨e, hl⟩ := effect_file h
    refine done_leaf (fun y h => by cases h) (e.congr fun x => ⟨?_, ?_⟩) (.file hl)
    · rintro (rfl | ⟨rfl, h⟩)
      · exact .file (fileFlag_iff.2 rfl)
      · exact .fileIn h
    · intro h
      cases h with
      | file h => exact Or.inl (by rw [fileFlag_iff.1 h])
      | fileIn h => exact Or.inr ⟨rfl, h⟩
  | .target n k i (some g) ds lw lh, a, b, h => by
    simp only [procLib] at h
    cases h
    refine done_leaf (fun y h => by cases h) (effect_req.congr fun x => ⟨?_, ?_⟩) .hasPc
    · rintro rfl; exact .hasPc
    · intro h
      cases h with
      | hasPc => rfl
  | .target n k i none ds lw lh, a, b, h => by
    simp only [procLib] at h
    by_cases hk : k = .exe
    · rw [if_pos hk] at h; cases h
    · rw [if_neg hk] at h
      obtain ⟨c, h1, h⟩ := (Res.bind_eq_ok (x := procLibs R .priv false ds a)).1 h
      obtain ⟨d, h2, h⟩ := (Res.bind_eq_ok (x := procLibs R (linkVis k) false lw c)).1 h
      obtain ⟨e, h3, h⟩ := (Res.bind_eq_ok (x := procLibs R (linkVis k) true lh d)).1 h
      cases h
      obtain ⟨e1, p1⟩ := procLibs_done .priv false ds a c h1
      obtain ⟨e2, p2⟩ := procLibs_done (linkVis k) false lw c d h2
      obtain ⟨e3, p3⟩ := procLibs_done (linkVis k) true lh d e h3
      have hpart : ∀ y, Part ⟨v, w, .target n k i none ds lw lh⟩ y ↔
          (∃ l ∈ ds, y = ⟨.priv, false, l⟩) ∨ (∃ l ∈ lw, y = ⟨linkVis k, false, l⟩) ∨ (∃ l ∈ lh, y = ⟨linkVis k, true, l⟩) := by
        intro y
        constructor
        · intro h
          cases h with
          | deps h => exact Or.inl ⟨_, h, rfl⟩
          | withStatic h => exact Or.inr (Or.inl ⟨_, h, rfl⟩)
          | wholeStatic h => exact Or.inr (Or.inr ⟨_, h, rfl⟩)
          | withShared h => exact Or.inr (Or.inl ⟨_, h, rfl⟩)
          | wholeShared h => exact Or.inr (Or.inr ⟨_, h, rfl⟩)
        · cases k with
          | exe => exact absurd rfl hk
          | static =>
            rintro (⟨l, h, rfl⟩ | ⟨l, h, rfl⟩ | ⟨l, h, rfl⟩)
            · exact .deps h
            · exact .withStatic h
            · exact .wholeStatic h
          | shared =>
            rintro (⟨l, h, rfl⟩ | ⟨l, h, rfl⟩ | ⟨l, h, rfl⟩)
            · exact .deps h
            · exact .withShared h
            · exact .wholeShared h
      refine ⟨(((e1.trans e2).trans e3).trans (effect_target (R := R) (v := v) (w := w) (n := n) (i := i) (ds := ds)
        (lw := lw) (lh := lh) hk)).congr (fun x => ⟨?_, ?_⟩), fun y hy => ?_⟩
      · rintro (((⟨l, hl, y, hy, h⟩ | ⟨l, hl, y, hy, h⟩) | ⟨l, hl, y, hy, h⟩) | h)
        · exact ⟨y, .part ((hpart _).2 (Or.inl ⟨l, hl, rfl⟩)) hy, h⟩
        · exact ⟨y, .part ((hpart _).2 (Or.inr (Or.inl ⟨l, hl, rfl⟩))) hy, h⟩
        · exact ⟨y, .part ((hpart _).2 (Or.inr (Or.inr ⟨l, hl, rfl⟩))) hy, h⟩
        · exact ⟨_, .self _, h⟩
      · rintro ⟨y, hy, h⟩
        rcases behind_iff.1 hy with rfl | ⟨z, hz, hzy⟩
        · exact Or.inr h
        · rcases (hpart z).1 hz with ⟨l, hl, rfl⟩ | ⟨l, hl, rfl⟩ | ⟨l, hl, rfl⟩
          · exact Or.inl (Or.inl (Or.inl ⟨l, hl, y, hzy, h⟩))
          · exact Or.inl (Or.inl (Or.inr ⟨l, hl, y, hzy, h⟩))
          · exact Or.inl (Or.inr ⟨l, hl, y, hzy, h⟩)
      · rcases behind_iff.1 hy with rfl | ⟨z, hz, hzy⟩
        · exact .target hk
        · rcases (hpart z).1 hz with ⟨l, hl, rfl⟩ | ⟨l, hl, rfl⟩ | ⟨l, hl, rfl⟩
          · exact p1 l hl y hzy
          · exact p2 l hl y hzy
          · exact p3 l hl y hzy
  | .nothing, a, b, h => by
    simp only [procLib] at h
    cases h
    exact done_leaf (fun y h => by cases h) (effect_none fun x h => by cases h) .nothing
  | .declared c lw lh ds, a, b, h => by
    simp only [procLib] at h
    obtain ⟨d, h1, h⟩ := (Res.bind_eq_ok (x := procLibs R v false lw { a with cflags := a.cflags ++ c })).1 h
    obtain ⟨e, h2, h3⟩ := (Res.bind_eq_ok (x := procLibs R v true lh d)).1 h
    obtain ⟨e1, p1⟩ := procLibs_done v false lw _ d h1
    obtain ⟨e2, p2⟩ := procLibs_done v true lh d e h2
    obtain ⟨e3, p3⟩ := procLibs_done .priv false ds e b h3
    have hpart : ∀ y, Part ⟨v, w, .declared c lw lh ds⟩ y ↔
        (∃ l ∈ lw, y = ⟨v, false, l⟩) ∨ (∃ l ∈ lh, y = ⟨v, true, l⟩) ∨ (∃ l ∈ ds, y = ⟨.priv, false, l⟩) := by
      intro y
      constructor
      · intro h
        cases h with
        | declWith h => exact Or.inl ⟨_, h, rfl⟩
        | declWhole h => exact Or.inr (Or.inl ⟨_, h, rfl⟩)
        | declDeps h => exact Or.inr (Or.inr ⟨_, h, rfl⟩)
      · rintro (⟨l, h, rfl⟩ | ⟨l, h, rfl⟩ | ⟨l, h, rfl⟩)
        · exact .declWith h
        · exact .declWhole h
        · exact .declDeps h
    refine ⟨(((effect_cflags (a := a) (l := c)).trans ((e1.trans e2).trans e3))).congr (fun x => ⟨?_, ?_⟩), fun y hy => ?_⟩
    · rintro (⟨f, hf, rfl⟩ | ((⟨l, hl, y, hy, h⟩ | ⟨l, hl, y, hy, h⟩) | ⟨l, hl, y, hy, h⟩))
      · exact ⟨_, .self _, .cargs hf⟩
      · exact ⟨y, .part ((hpart _).2 (Or.inl ⟨l, hl, rfl⟩)) hy, h⟩
      · exact ⟨y, .part ((hpart _).2 (Or.inr (Or.inl ⟨l, hl, rfl⟩))) hy, h⟩
      · exact ⟨y, .part ((hpart _).2 (Or.inr (Or.inr ⟨l, hl, rfl⟩))) hy, h⟩
    · rintro ⟨y, hy, h⟩
      rcases behind_iff.1 hy with rfl | ⟨z, hz, hzy⟩
      · cases h with
        | cargs h => exact Or.inl ⟨_, h, rfl⟩
      · rcases (hpart z).1 hz with ⟨l, hl, rfl⟩ | ⟨l, hl, rfl⟩ | ⟨l, hl, rfl⟩
        · exact Or.inr (Or.inl (Or.inl ⟨l, hl, y, hzy, h⟩))
        · exact Or.inr (Or.inl (Or.inr ⟨l, hl, y, hzy, h⟩))
        · exact Or.inr (Or.inr ⟨l, hl, y, hzy, h⟩)
    · rcases behind_iff.1 hy with rfl | ⟨z, hz, hzy⟩
      · exact .declared
      · rcases (hpart z).1 hz with ⟨l, hl, rfl⟩ | ⟨l, hl, rfl⟩ | ⟨l, hl, rfl⟩
        · exact p1 l hl y hzy
        · exact p2 l hl y hzy
        · exact p3 l hl y hzy
  | .pkg n, a, b, h => by
    simp only [procLib] at h
    cases h
    refine done_leaf (fun y h => by cases h) (effect_req.congr fun x => ⟨?_, ?_⟩) .pkg
    · rintro rfl; exact .pkg
    · intro h
      cases h with
      | pkg => rfl
  | .threads, a, b, h => by
    simp only [procLib] at h
    cases h
    refine done_leaf (fun y h => by cases h) (effect_lib.congr fun x => ⟨?_, ?_⟩) .threads
    · rintro rfl; exact .threads
    · intro h
      cases h with
      | threads => rfl
  | .external ps, a, b, h => by
    simp only [procLib] at h
    obtain ⟨e, hl⟩ := effect_files ps h
    refine done_leaf (fun y h => by cases h) (e.congr fun x => ⟨?_, ?_⟩) (.ext hl)
    · rintro ⟨p, hp, (rfl | ⟨rfl, h⟩)⟩
      · exact .ext hp (fileFlag_iff.2 rfl)
      · exact .extIn hp h
    · intro h
      cases h with
      | ext hp h => exact ⟨_, hp, Or.inl (by rw [fileFlag_iff.1 h])⟩
      | extIn hp h => exact ⟨_, hp, Or.inr ⟨rfl, h⟩⟩
  | .custom outs, a, b, h => by
    simp only [procLib, procCustom] at h
    split at h
    · rename_i o
      by_cases hl : linkable o = true
      · rw [if_neg (by simp [hl])] at h
        by_cases ha : (ascii ".a").isSuffixOf o = true
        · rw [if_pos ha] at h
          cases h
          obtain ⟨q, hq⟩ := List.isSuffixOf_iff_suffix.1 ha
          refine done_leaf (fun y h => by cases h) (effect_none fun x h => ?_) (.custom (linkable_iff.1 hl))
          cases h with
          | custom h _ => exact h q hq.symm
          | customIn h => exact h q hq.symm
        · rw [if_neg ha] at h
          cases h
          have hn : ∀ q, o ≠ q ++ ascii ".a" := fun q hq => ha (List.isSuffixOf_iff_suffix.2 ⟨q, hq.symm⟩)
          refine done_leaf (fun y h => by cases h) ((effect_mark.trans effect_lib).congr fun x => ⟨?_, ?_⟩)
            (.custom (linkable_iff.1 hl))
          · rintro (rfl | rfl)
            · exact .customIn hn
            · exact .custom hn (fileFlag_iff.2 rfl)
          · intro h
            cases h with
            | custom _ h => exact Or.inr (by rw [fileFlag_iff.1 h])
            | customIn _ => exact Or.inl rfl
      · rw [if_pos (by simpa using hl)] at h; cases h
    · cases h
theorem procLibs_done {R : Roots} (v : Vis) (w : Bool) : (ls : List Lib) → (a b : Pc) → procLibs R v w ls a = .ok b →
    DoneAll R v w ls a b
  | [], a, b, h => by
    simp only [procLibs] at h
    cases h
    exact ⟨effect_none (fun x h => by obtain ⟨l, hl, _⟩ := h; cases hl), fun _ h => nomatch h⟩
  | l :: ls, a, b, h => by
    simp only [procLibs] at h
    obtain ⟨c, h1, h2⟩ := (Res.bind_eq_ok (x := procLib R v w l a)).1 h
    obtain ⟨e1, p1⟩ := procLib_done v w l a c h1
    obtain ⟨e2, p2⟩ := procLibs_done v w ls c b h2
    refine ⟨(e1.trans e2).congr (fun x => by simp), fun m hm => ?_⟩
    rcases List.mem_cons.1 hm with rfl | hm
    · exact p1
    · exact p2 m hm
end

/-- **What is collected.** If the collection succeeds, it has exactly what the libraries given stand for (and the
directories for headers), and each of them can be a library. -/
theorem collect_exact {R : Roots} {c : Call} {pc : Pc} (h : collect R c = .ok pc) :
    (∀ v f, f ∈ pc.libs v ↔ Stands R c (.lib v f)) ∧ (∀ v f, f ∈ pc.reqs v ↔ Stands R c (.req v f)) ∧
    (∀ f, f ∈ pc.cflags ↔ f ∈ includes c.subdirs ∨ Stands R c (.cflag f)) ∧
    (∀ f, f ∈ pc.exclude ↔ Stands R c (.contained f)) ∧ (∀ v, pc.internal v = true ↔ Stands R c (.internal v)) ∧
    ∀ r y, Root c r → Behind r y → Proper y := by
  unfold collect at h
  obtain ⟨p1, h1, h⟩ := (Res.bind_eq_ok (x := match c.main with
    | none => Res.ok ({ cflags := includes c.subdirs } : Pc)
    | some l => procLib R .pub false l { cflags := includes c.subdirs })).1 h
  obtain ⟨p2, h2, h3⟩ := (Res.bind_eq_ok (x := procLibs R .pub false c.libraries p1)).1 h
  obtain ⟨e2, q2⟩ := procLibs_done _ _ _ _ _ h2
  obtain ⟨e3, q3⟩ := procLibs_done _ _ _ _ _ h3
  have hm : Effect (fun x => ∃ l, c.main = some l ∧ ∃ y, Behind ⟨.pub, false, l⟩ y ∧ Adds R y x)
      { cflags := includes c.subdirs } p1 ∧ ∀ l, c.main = some l → ∀ y, Behind ⟨.pub, false, l⟩ y → Proper y := by
    cases hc : c.main with
    | none =>
      rw [hc] at h1; cases h1
      exact ⟨effect_none (fun x h => by obtain ⟨l, hl, _⟩ := h; cases hl), fun _ h => nomatch h⟩
    | some l =>
      rw [hc] at h1
      obtain ⟨e1, q1⟩ := procLib_done _ _ _ _ _ h1
      refine ⟨e1.congr (fun x => ⟨fun h => ⟨l, rfl, h⟩, ?_⟩), fun l' hl => ?_⟩
      · rintro ⟨l', hl, h⟩; cases hl; exact h
      · cases hl; exact q1
  obtain ⟨e1, q1⟩ := hm
  have key : Effect (Stands R c) { cflags := includes c.subdirs } pc := by
    refine ((e1.trans e2).trans e3).congr (fun x => ⟨?_, ?_⟩)
    · rintro ((⟨l, hl, y, hy, h⟩ | ⟨l, hl, y, hy, h⟩) | ⟨l, hl, y, hy, h⟩)
      · exact ⟨_, y, .main hl, hy, h⟩
      · exact ⟨_, y, .pub hl, hy, h⟩
      · exact ⟨_, y, .priv hl, hy, h⟩
    · rintro ⟨r, y, hr, hy, h⟩
      cases hr with
      | main hl => exact Or.inl (Or.inl ⟨_, hl, y, hy, h⟩)
      | pub hl => exact Or.inl (Or.inr ⟨_, hl, y, hy, h⟩)
      | priv hl => exact Or.inr ⟨_, hl, y, hy, h⟩
  refine ⟨fun v f => ?_, fun v f => ?_, fun f => ?_, fun f => ?_, fun v => ?_, fun r y hr hy => ?_⟩
  · have := key (.lib v f); simp only [Has] at this; simpa using this
  · have := key (.req v f); simp only [Has] at this; simpa using this
  · have := key (.cflag f); simp only [Has] at this; simpa using this
  · have := key (.contained f); simp only [Has] at this; simpa using this
  · have := key (.internal v); simp only [Has] at this; simpa using this
  · cases hr with
    | main hl => exact q1 _ hl y hy
    | pub hl => exact q2 _ hl y hy
    | priv hl => exact q3 _ hl y hy

/-! ### Duplicates -/

theorem removeDups_spec (l ex : List Bytes) :
    (removeDups l ex).1.Nodup ∧ (∀ x, x ∈ (removeDups l ex).1 ↔ x ∈ l ∧ x ∉ ex) ∧
    (removeDups l ex).1.Sublist l ∧ ∀ x, x ∈ (removeDups l ex).2 ↔ x ∈ ex ∨ x ∈ l := by
  induction l generalizing ex with
  | nil => exact ⟨List.nodup_nil, by simp [removeDups], List.Sublist.refl _, by simp [removeDups]⟩
  | cons a l ih =>
    unfold removeDups
    by_cases h : a ∈ ex
    · rw [if_pos h]
      obtain ⟨h1, h2, h3, h4⟩ := ih ex
      refine ⟨h1, fun x => ?_, List.Sublist.cons _ h3, fun x => ?_⟩
      · rw [h2]
        constructor
        · rintro ⟨a1, a2⟩; exact ⟨List.mem_cons_of_mem _ a1, a2⟩
        · rintro ⟨a1, a2⟩
          rcases List.mem_cons.1 a1 with rfl | a1
          · exact absurd h a2
          · exact ⟨a1, a2⟩
      · rw [h4]
        constructor
        · rintro (h | h)
          · exact Or.inl h
          · exact Or.inr (List.mem_cons_of_mem _ h)
        · rintro (h' | h')
          · exact Or.inl h'
          · rcases List.mem_cons.1 h' with rfl | h'
            · exact Or.inl h
            · exact Or.inr h'
    · rw [if_neg h]
      dsimp only
      obtain ⟨h1, h2, h3, h4⟩ := ih (ex ++ [a])
      refine ⟨List.nodup_cons.2 ⟨fun hm => ?_, h1⟩, fun x => ?_, List.Sublist.cons_cons _ h3, fun x => ?_⟩
      · exact ((h2 a).1 hm).2 (by simp)
      · rw [List.mem_cons, h2]
        constructor
        · rintro (rfl | ⟨a1, a2⟩)
          · exact ⟨by simp, h⟩
          · exact ⟨List.mem_cons_of_mem _ a1, fun hx => a2 (by simp [hx])⟩
        · rintro ⟨a1, a2⟩
          by_cases hxa : x = a
          · exact Or.inl hxa
          · rcases List.mem_cons.1 a1 with rfl | a1
            · exact absurd rfl hxa
            · exact Or.inr ⟨a1, by simp [a2, hxa]⟩
      · rw [h4]
        simp [or_assoc]

/-- **Each thing is said once.** The lists that are written have nothing twice, a library or requirement is in the first
of the lists it is given for, and what is part of another library is in none. -/
theorem dedup_exact (pc : Pc) :
    (((dedup pc).reqs .pub ++ (dedup pc).libs .pub) ++ ((dedup pc).reqs .priv ++ (dedup pc).libs .priv)).Nodup ∧
    (∀ f, f ∈ (dedup pc).reqs .pub ↔ f ∈ pc.reqs .pub ∧ f ∉ pc.exclude) ∧
    (∀ f, f ∈ (dedup pc).libs .pub ↔ f ∈ pc.libs .pub ∧ f ∉ pc.exclude ∧ f ∉ pc.reqs .pub) ∧
    (∀ f, f ∈ (dedup pc).reqs .priv ↔ f ∈ pc.reqs .priv ∧ f ∉ pc.exclude ∧ f ∉ pc.reqs .pub ∧ f ∉ pc.libs .pub) ∧
    (∀ f, f ∈ (dedup pc).libs .priv ↔ f ∈ pc.libs .priv ∧ f ∉ pc.exclude ∧ f ∉ pc.reqs .pub ∧ f ∉ pc.libs .pub ∧
      f ∉ pc.reqs .priv) ∧
    (∀ v, ((dedup pc).libs v).Sublist (pc.libs v) ∧ ((dedup pc).reqs v).Sublist (pc.reqs v)) := by
  simp only [dedup]
  obtain ⟨a1, a2, a3, a4⟩ := removeDups_spec (pc.reqs .pub) pc.exclude
  obtain ⟨b1, b2, b3, b4⟩ := removeDups_spec (pc.libs .pub) (removeDups (pc.reqs .pub) pc.exclude).2
  obtain ⟨c1, c2, c3, c4⟩ := removeDups_spec (pc.reqs .priv)
    (removeDups (pc.libs .pub) (removeDups (pc.reqs .pub) pc.exclude).2).2
  obtain ⟨d1, d2, d3, d4⟩ := removeDups_spec (pc.libs .priv) (removeDups (pc.reqs .priv)
    (removeDups (pc.libs .pub) (removeDups (pc.reqs .pub) pc.exclude).2).2).2
  refine ⟨?_, a2, fun f => ?_, fun f => ?_, fun f => ?_, fun v => by cases v <;> exact ⟨by assumption, by assumption⟩⟩
  · have dj : ∀ {l m : List Bytes}, l.Nodup → m.Nodup → (∀ x ∈ l, x ∉ m) → (l ++ m).Nodup := by
      intro l m h1 h2 h3
      exact List.nodup_append.2 ⟨h1, h2, fun a ha b hb e => h3 a ha (e ▸ hb)⟩
    refine dj (dj a1 b1 ?_) (dj c1 d1 ?_) ?_
    · intro x hx hx'
      rw [b2, a4] at hx'
      exact hx'.2 (Or.inr ((a2 x).1 hx).1)
    · intro x hx hx'
      rw [d2, c4] at hx'
      exact hx'.2 (Or.inr ((c2 x).1 hx).1)
    · intro x hx hx'
      have h1 : x ∈ (removeDups (pc.libs .pub) (removeDups (pc.reqs .pub) pc.exclude).2).2 := by
        rw [b4, a4]
        rcases List.mem_append.1 hx with h | h
        · exact Or.inl (Or.inr ((a2 x).1 h).1)
        · exact Or.inr ((b2 x).1 h).1
      rcases List.mem_append.1 hx' with h | h
      · exact ((c2 x).1 h).2 h1
      · exact ((d2 x).1 h).2 ((c4 x).2 (Or.inl h1))
  · rw [b2, a4]
    constructor
    · rintro ⟨h, h'⟩; exact ⟨h, fun e => h' (Or.inl e), fun e => h' (Or.inr e)⟩
    · rintro ⟨h, h1, h2⟩; exact ⟨h, fun e => e.elim h1 h2⟩
  · rw [c2, b4, a4]
    constructor
    · rintro ⟨h, h'⟩; exact ⟨h, fun e => h' (Or.inl (Or.inl e)), fun e => h' (Or.inl (Or.inr e)), fun e => h' (Or.inr e)⟩
    · rintro ⟨h, h1, h2, h3⟩; exact ⟨h, fun e => e.elim (fun e => e.elim h1 h2) h3⟩
  · rw [d2, c4, b4, a4]
    constructor
    · rintro ⟨h, h'⟩
      exact ⟨h, fun e => h' (Or.inl (Or.inl (Or.inl e))), fun e => h' (Or.inl (Or.inl (Or.inr e))),
        fun e => h' (Or.inl (Or.inr e)), fun e => h' (Or.inr e)⟩
    · rintro ⟨h, h1, h2, h3, h4⟩
      exact ⟨h, fun e => e.elim (fun e => e.elim (fun e => e.elim h1 h2) h3) h4⟩

end Muon.Pc
