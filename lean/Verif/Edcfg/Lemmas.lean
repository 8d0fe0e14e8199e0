import Verif.Edcfg.Model
import Verif.Edcfg.Spec
/-
Lemmas about matching sections of `.editorconfig` files.
-/
namespace Muon.Edcfg
open Muon Muon.Edcfg.Spec

theorem parse_lit (c : UInt8) (r : Bytes) (h : c ≠ 92 ∧ c ≠ 42 ∧ c ≠ 91 ∧ c ≠ 123 ∧ c ≠ 63) : parsePat (c :: r) = .ok (.lit c, r) := by
  simp only [parsePat]
  rw [if_neg h.1, if_neg h.2.1, if_neg h.2.2.1, if_neg h.2.2.2.1, if_neg h.2.2.2.2]

theorem strchr_found (c : UInt8) (a b : Bytes) (h : c ∉ a) (h0 : 0 ∉ a) : strchr c (a ++ c :: b) = some a.length := by
  induction a with
  | nil => simp [strchr]
  | cons x a ih =>
    simp at h h0
    simp only [List.cons_append, strchr]
    rw [if_neg (fun e => h.1 e.symm), if_neg (fun e => h0.1 e.symm), ih h.2 h0.2]
    rfl

theorem strchr_none (c : UInt8) (a b : Bytes) (h : c ∉ a) (hc : c ≠ 0) : strchr c (a ++ 0 :: b) = none := by
  induction a with
  | nil => simp [strchr, hc.symm]
  | cons x a ih =>
    simp at h
    simp only [List.cons_append, strchr]
    rw [if_neg (fun e => h.1 e.symm), ih h.2]
    simp

theorem dots_none (a b : Bytes) (h : ¬[46, 46] <:+: a) : hasDots (a ++ 0 :: b) = false := by
  induction a with
  | nil => simp [hasDots]
  | cons x a ih =>
    have ih := ih (fun e => h (e.trans (List.suffix_cons x a).isInfix))
    have hn : ∀ t, x :: (a ++ 0 :: b) ≠ 46 :: 46 :: t := by
      intro t e
      simp only [List.cons.injEq] at e
      obtain ⟨rfl, e⟩ := e
      cases a with
      | nil => simp at e
      | cons y a =>
        simp at e
        obtain ⟨rfl, _⟩ := e
        exact h ⟨[], a, rfl⟩
    rw [List.cons_append, hasDots.eq_def]
    split
    · rename_i t e
      exact absurd e (hn t)
    · rename_i y s' _ e
      simp only [List.cons.injEq] at e
      obtain ⟨rfl, rfl⟩ := e
      rw [ih]
      simp
    · rename_i e
      simp at e

/-- The pattern of a part; alternatives also know the text after them. -/
def patOf (rest : Bytes) : Item → Pat
  | .lit c => .lit c
  | .esc c => .lit c
  | .any => .any
  | .alt ps => .alt (commas ps ++ 125 :: rest) (commas ps).length

theorem text_cons (i : Item) (l : List Item) : text (i :: l) = i.text ++ text l := rfl

theorem commas_no (c : UInt8) (hc : c ≠ 44) : ∀ (ps : List Bytes), (∀ p ∈ ps, c ∉ p) → c ∉ commas ps
  | [], _ => by simp [commas]
  | [p], h => h p (by simp)
  | p :: q :: l, h => by
    have := commas_no c hc (q :: l) (fun r hr => h r (by simp at hr ⊢; exact .inr hr))
    simp only [commas, List.mem_append, List.mem_cons]
    exact fun e => e.elim (h p (by simp)) (fun e => e.elim hc this)

/-- Parsing the next part. -/
theorem parse_item (i : Item) (l : List Item) (after : Bytes) (h : Good (i :: l)) :
    parsePat (text (i :: l) ++ 0 :: after) = .ok (patOf (text l ++ 0 :: after) i, text l ++ 0 :: after) := by
  cases i with
  | lit c =>
    obtain ⟨h, _⟩ := h
    simp at h
    exact parse_lit c _ ⟨h.2.1, h.2.2.1, h.2.2.2.1, h.2.2.2.2.1, h.2.2.2.2.2⟩
  | esc c => simp [text_cons, Item.text, parsePat, patOf]
  | any => simp [text_cons, Item.text, parsePat, patOf]
  | alt ps =>
    obtain ⟨h1, h2, h3, h4, h5⟩ := h
    have e : text (.alt ps :: l) ++ 0 :: after = 123 :: (commas ps ++ 125 :: (text l ++ 0 :: after)) := by
      simp [text_cons, Item.text]
    rw [e]
    simp only [parsePat]
    rw [if_neg (by decide), if_neg (by decide), if_neg (by decide), if_pos trivial]
    unfold parseAlt
    rw [strchr_found 125 _ _ (commas_no 125 (by decide) ps (fun p hp => (h2 p hp).2.2)) (commas_no 0 (by decide) ps (fun p hp => (h2 p hp).1))]
    have hd := dots_none (commas ps ++ 125 :: text l) after h3
    rw [List.append_assoc] at hd
    simp only [List.cons_append] at hd
    simp only [hd, patOf]
    rw [if_neg (by simp)]
    simp [List.drop_append]

theorem parse_end (after : Bytes) : parsePat (text [] ++ 0 :: after) = .ok (.lit 0, after) := parse_lit 0 after (by decide)

theorem strncmp_prefix : ∀ (p q t : Bytes), 0 ∉ p → strncmpEq p.length q (p ++ t) = p.isPrefixOf q
  | [], q, t, _ => by cases q <;> simp [strncmpEq]
  | c :: p, [], t, h => by
    simp at h
    simp [strncmpEq, Ne.symm h.1]
  | c :: p, d :: q, t, h => by
    simp at h
    have := strncmp_prefix p q t h.2
    simp [strncmpEq, this, List.isPrefixOf]

theorem alt_loop (q rest : Bytes) (len : Nat) (hr : strchr 44 (125 :: rest) = none) :
    ∀ (ps : List Bytes) (f off : Nat), ps ≠ [] → (∀ p ∈ ps, 0 ∉ p ∧ 44 ∉ p ∧ 125 ∉ p) → ps.length ≤ f →
      len = off + (commas ps).length → len < 2 ^ 32 →
      altLoop q len f (commas ps ++ 125 :: rest) off = .ok ((eat (.alt ps) q).map fun r => (r, true)) := by
  intro ps
  induction ps with
  | nil => intro f off h; exact absurd rfl h
  | cons p ps ih =>
    intro f off _ hp hf hl hl2
    obtain ⟨f, rfl⟩ : ∃ g, f = g + 1 := ⟨f - 1, by simp at hf; omega⟩
    obtain ⟨h0, h44, h125⟩ := hp p (by simp)
    have hpre : (p.isPrefixOf q = true) → p.length ≤ q.length := fun h => (List.isPrefixOf_iff_prefix.1 h).length_le
    cases ps with
    | nil =>
      have hno : strchr 44 (p ++ 125 :: rest) = none := by
        clear ih hl hpre hp hf
        rename_i hdum
        clear hdum
        induction p with
        | nil => exact hr
        | cons x p ihp =>
          simp at h0 h44 h125
          simp only [List.cons_append, strchr]
          rw [if_neg (fun e => h44.1 e.symm), if_neg (fun e => h0.1 e.symm), ihp h0.2 h44.2 h125.2]
          rfl
      simp only [commas] at hl ⊢
      rw [altLoop]
      simp only [hno]
      have hn : (len + 2 ^ 32 - off) % 2 ^ 32 = p.length := by omega
      rw [hn, strncmp_prefix p q _ h0]
      simp only [eat, List.find?_cons, List.find?_nil]
      cases h : p.isPrefixOf q with
      | true => simp [hpre h]
      | false => simp
    | cons p' ps' =>
      have e : commas (p :: p' :: ps') ++ 125 :: rest = p ++ 44 :: (commas (p' :: ps') ++ 125 :: rest) := by simp [commas]
      rw [e, altLoop]
      simp only [strchr_found 44 p _ h44 h0]
      rw [strncmp_prefix p q _ h0]
      have hd : (p ++ 44 :: (commas (p' :: ps') ++ 125 :: rest)).drop (p.length + 1) = commas (p' :: ps') ++ 125 :: rest := by
        simp [List.drop_append]
      rw [hd]
      rw [ih f (off + p.length + 1) (by simp) (fun r hr => hp r (by simp at hr ⊢; exact .inr hr)) (by simp at hf ⊢; omega)
        (by simp only [commas, List.length_append, List.length_cons] at hl; omega) hl2]
      cases h : p.isPrefixOf q with
      | true => simp [eat, h, hpre h]
      | false => simp [eat, List.find?_cons, h]

theorem commas_len : ∀ (ps : List Bytes), ps ≠ [] → ps.length ≤ (commas ps).length + 1
  | [], h => absurd rfl h
  | [p], _ => by simp [commas]
  | p :: q :: l, _ => by
    have := commas_len (q :: l) (by simp)
    simp only [commas, List.length_append, List.length_cons] at *
    omega

/-- Matching the next part. -/
theorem match_item (f : Nat) (i : Item) (l : List Item) (after q c : Bytes) (h : Good (i :: l)) (hq : q ≠ [])
    (hl : (text (i :: l)).length < 2 ^ 32) :
    patMatch (f + 1) (patOf (text l ++ 0 :: after) i) q c = .ok ((eat i q).map fun r => (r, true)) := by
  obtain ⟨y, p, rfl⟩ := List.exists_cons_of_ne_nil hq
  cases i with
  | lit x =>
    rw [patOf, patMatch]
    by_cases hyx : y = x <;> simp [step, eat, hyx]
  | esc x =>
    rw [patOf, patMatch]
    by_cases hyx : y = x <;> simp [step, eat, hyx]
  | any => rw [patOf, patMatch]; simp [step, eat]
  | alt ps =>
    obtain ⟨h1, h2, h3, h4, h5⟩ := h
    rw [patOf, patMatch]
    simp only [text_cons, Item.text, List.length_append, List.length_cons, List.length_nil] at hl
    refine alt_loop _ _ _ ?_ ps _ 0 h1 h2 ?_ (by simp) (by omega)
    · have := strchr_none 44 (125 :: text l) after (by simp [h4]) (by decide)
      simpa using this
    · have := commas_len ps h1
      simp
      omega

theorem good_tail {i : Item} {l : List Item} (h : Good (i :: l)) : Good l := by
  cases i with
  | lit c => exact h.2
  | esc c => exact h.2
  | any => exact h
  | alt ps => exact h.2.2.2.2

theorem eat_suffix {i : Item} {q r : Bytes} (h : eat i q = some r) : r <:+ q := by
  cases i with
  | lit c => simp only [eat] at h; split at h <;> simp at h; exact h ▸ List.tail_suffix q
  | esc c => simp only [eat] at h; split at h <;> simp at h; exact h ▸ List.tail_suffix q
  | any => simp only [eat] at h; split at h <;> simp at h; exact h ▸ List.tail_suffix q
  | alt ps =>
    simp only [eat, Option.map_eq_some_iff] at h
    obtain ⟨p, _, rfl⟩ := h
    exact List.drop_suffix _ _

theorem look_nul (f : Nat) (after q : Bytes) (h : q ≠ []) (h0 : 0 ∉ q) : look (f + 2) (.lit 0) q after = .ok none := by
  obtain ⟨y, p, rfl⟩ := List.exists_cons_of_ne_nil h
  rw [look, patMatch, if_neg (by intro e; apply h0; simp at e; simp [e])]
  rfl

/-- Looking for parts: they are found if the whole path is eaten. -/
theorem look_items (after : Bytes) : ∀ (l : List Item) (i : Item) (q : Bytes) (f : Nat), Good (i :: l) → q ≠ [] → 0 ∉ q →
    (text (i :: l)).length < 2 ^ 32 → l.length + 3 ≤ f →
    look f (patOf (text l ++ 0 :: after) i) q (text l ++ 0 :: after) = .ok (if (run (i :: l) q).isSome then some [] else none) := by
  intro l
  induction l with
  | nil =>
    intro i q f hg hq h0 hl hf
    obtain ⟨f, rfl⟩ : ∃ g, f = g + 3 := ⟨f - 3, by simp at hf; omega⟩
    rw [look, match_item (f + 1) i [] after q _ hg hq hl]
    cases he : eat i q with
    | none => simp [run, he]
    | some r =>
      simp only [Option.map_some, Res.ok_bind]
      cases r with
      | nil => simp [run, he]
      | cons y r =>
        rw [if_neg (by simp), if_pos trivial, parse_end]
        simp only [Res.ok_bind]
        rw [look_nul f after _ (by simp) (fun e => h0 ((eat_suffix he).subset e))]
        simp [run, he]
  | cons j l ih =>
    intro i q f hg hq h0 hl hf
    obtain ⟨f, rfl⟩ : ∃ g, f = g + 2 := ⟨f - 2, by simp at hf; omega⟩
    rw [look, match_item f i (j :: l) after q _ hg hq hl]
    cases he : eat i q with
    | none => simp [run, he]
    | some r =>
      simp only [Option.map_some, Res.ok_bind]
      cases r with
      | nil => simp [run, he]
      | cons y r =>
        rw [if_neg (by simp), if_pos trivial, parse_item j l after (good_tail hg)]
        simp only [Res.ok_bind]
        rw [ih j (y :: r) (f + 1) (good_tail hg) (by simp) (fun e => h0 ((eat_suffix he).subset e))
          (by rw [text_cons, List.length_append] at hl; omega) (by simp at hf; omega)]
        rw [show run (i :: j :: l) q = run (j :: l) (y :: r) by rw [run, he]]

/-- What the end of the loop says when parts are left. -/
def verdict (after : Bytes) : List Item → Res Bool
  | [] => fin after
  | [_] => .ok true
  | _ => .ok false

theorem text_ne (i : Item) (l : List Item) (after : Bytes) (h : Good (i :: l)) : fin (text (i :: l) ++ 0 :: after) = .ok false := by
  cases i with
  | lit c => have := h.1; simp at this; simp [text_cons, Item.text, fin, this.1]
  | esc c => simp [text_cons, Item.text, fin]
  | any => simp [text_cons, Item.text, fin]
  | alt ps => simp [text_cons, Item.text, fin]

/-- Matching a path which is eaten. -/
theorem main_items (after : Bytes) : ∀ (l : List Item) (i : Item) (q : Bytes) (f : Nat) (rest : List Item), Good (i :: l) → q ≠ [] →
    0 ∉ q → (text (i :: l)).length < 2 ^ 32 → l.length + 3 ≤ f → run (i :: l) q = some rest →
    mainLoop f (patOf (text l ++ 0 :: after) i) (text l ++ 0 :: after) q = verdict after rest := by
  intro l
  induction l with
  | nil =>
    intro i q f rest hg hq h0 hl hf hr
    obtain ⟨f, rfl⟩ : ∃ g, f = g + 2 := ⟨f - 2, by simp at hf; omega⟩
    rw [mainLoop, match_item f i [] after q _ hg hq hl]
    rw [run] at hr
    cases he : eat i q with
    | none => rw [he] at hr; cases hr
    | some r =>
      rw [he] at hr
      cases r with
      | nil =>
        simp at hr
        subst hr
        simp only [Option.map_some, Res.ok_bind, if_true, parse_end, verdict]
      | cons y r => simp [run] at hr
  | cons j l ih =>
    intro i q f rest hg hq h0 hl hf hr
    obtain ⟨f, rfl⟩ : ∃ g, f = g + 2 := ⟨f - 2, by simp at hf; omega⟩
    rw [mainLoop, match_item f i (j :: l) after q _ hg hq hl]
    rw [run] at hr
    cases he : eat i q with
    | none => rw [he] at hr; cases hr
    | some r =>
      rw [he] at hr
      simp only [Option.map_some, Res.ok_bind, if_true, parse_item j l after (good_tail hg)]
      cases r with
      | nil =>
        simp only [Option.some.injEq] at hr
        subst hr
        rw [if_pos rfl]
        show fin (text l ++ 0 :: after) = _
        cases l with
        | nil => simp [text, fin, verdict]
        | cons k l => rw [text_ne k l after (good_tail (good_tail hg))]; rfl
      | cons y r =>
        rw [if_neg (by simp)]
        exact ih j (y :: r) (f + 1) rest (good_tail hg) (by simp) (fun e => h0 ((eat_suffix he).subset e))
          (by rw [text_cons, List.length_append] at hl; omega) (by simp at hf; omega) hr

/-- A section of parts is matched with the longest end of the path that is eaten. -/
theorem glob_items (after : Bytes) (slash : Bool) (i : Item) (l : List Item) (hs : Good (i :: l)) (hl : (text (i :: l)).length < 2 ^ 32) :
    ∀ (path : Bytes) (f : Nat), path ≠ [] → 0 ∉ path → (slash = true ∨ 47 ∉ path) → path.length + l.length + 6 ≤ f →
      (∃ rest, Longest (i :: l) path rest ∧ mainLoop f (.glob slash) (text (i :: l) ++ 0 :: after) path = verdict after rest) ∨
      ((∀ q, q ≠ [] → q <:+ path → run (i :: l) q = none) ∧
        mainLoop f (.glob slash) (text (i :: l) ++ 0 :: after) path = .ok false) := by
  intro path
  induction path with
  | nil => intro f h; exact absurd rfl h
  | cons y p ih =>
    intro f _ h0 h47 hf
    obtain ⟨f, rfl⟩ : ∃ g, f = g + 2 := ⟨f - 2, by simp at hf; omega⟩
    have hm : mainLoop (f + 2) (.glob slash) (text (i :: l) ++ 0 :: after) (y :: p) =
        if (run (i :: l) (y :: p)).isSome then mainLoop (f + 1) (patOf (text l ++ 0 :: after) i) (text l ++ 0 :: after) (y :: p)
        else if p = [] then .ok false else mainLoop (f + 1) (.glob slash) (text (i :: l) ++ 0 :: after) p := by
      rw [mainLoop, patMatch, parse_item i l after hs]
      simp only [Res.ok_bind]
      rw [look_items after l i (y :: p) f hs (by simp) h0 hl (by simp at hf; omega)]
      simp only [Res.ok_bind]
      cases h : (run (i :: l) (y :: p)).isSome with
      | true => simp
      | false =>
        have hy : (decide ((y :: p).headD 0 = 47) && !slash) = false := by
          show (decide (y = 47) && !slash) = false
          rcases h47 with e | e
          · simp [e]
          · simp at e; simp [Ne.symm e.1]
        simp only [Bool.false_eq_true, if_false, reduceCtorEq, hy, step, Res.ok_bind]
        by_cases hp : p = []
        · rw [if_pos hp, if_pos hp, text_ne i l after hs]
        · rw [if_neg hp, if_neg hp]
    rw [hm]
    cases h : run (i :: l) (y :: p) with
    | some rest =>
      refine .inl ⟨rest, ⟨y :: p, by simp, List.suffix_refl _, h, fun r _ hr _ => hr.length_le⟩, ?_⟩
      simp only [Option.isSome_some, if_true]
      exact main_items after l i (y :: p) (f + 1) rest hs (by simp) h0 hl (by simp at hf; omega) h
    | none =>
      simp only [Option.isSome_none, Bool.false_eq_true, if_false]
      by_cases hp : p = []
      · rw [if_pos hp]
        refine .inr ⟨?_, rfl⟩
        intro q hq hqs
        subst hp
        rcases List.suffix_cons_iff.1 hqs with e | e
        · rw [e]; exact h
        · exact absurd (List.suffix_nil.1 e) hq
      · rw [if_neg hp]
        rcases ih (f + 1) hp (fun e => h0 (by simp [e])) (h47.imp id (fun e e' => e (by simp [e']))) (by simp at hf ⊢; omega) with
          ⟨rest, ⟨q, q1, q2, q3, q4⟩, hv⟩ | ⟨a, b⟩
        · refine .inl ⟨rest, ⟨q, q1, q2.trans (List.suffix_cons y p), q3, ?_⟩, hv⟩
          intro r hr hrs hrr
          rcases List.suffix_cons_iff.1 hrs with e | e
          · rw [e, h] at hrr; cases hrr
          · exact q4 r hr e hrr
        · refine .inr ⟨?_, b⟩
          intro q hq hqs
          rcases List.suffix_cons_iff.1 hqs with e | e
          · rw [e]; exact h
          · exact a q hq e

theorem parse_star (l : List Item) (after : Bytes) (h : Good l) : parsePat (42 :: (text l ++ 0 :: after)) = .ok (.glob false, text l ++ 0 :: after) := by
  simp only [parsePat]
  rw [if_neg (by decide), if_pos trivial]
  split
  · rename_i r e
    exfalso
    cases l with
    | nil => simp [text] at e
    | cons i l =>
      cases i with
      | lit c =>
        have := h.1
        simp [text_cons, Item.text] at e this
        exact this.2.2.1 e.1
      | esc c => simp [text_cons, Item.text] at e
      | any => simp [text_cons, Item.text] at e
      | alt ps => simp [text_cons, Item.text] at e
  · rfl

theorem eat_noslash (i : Item) (l : List Item) (q r : Bytes) (h : NoSlash (i :: l)) (he : eat i q = some r) (hr : 47 ∉ r) : 47 ∉ q := by
  have h := h i (by simp)
  cases i with
  | lit c =>
    cases q with
    | nil => simp
    | cons y p =>
      simp only [eat, List.head?_cons, Option.some.injEq, List.tail_cons] at he
      split at he
      · rename_i e
        simp at he
        subst he e
        simp [hr, Ne.symm h]
      · cases he
  | esc c =>
    cases q with
    | nil => simp
    | cons y p =>
      simp only [eat, List.head?_cons, Option.some.injEq, List.tail_cons] at he
      split at he
      · rename_i e
        simp at he
        subst he e
        simp [hr, Ne.symm h]
      · cases he
  | any => exact h.elim
  | alt ps =>
    simp only [eat, Option.map_eq_some_iff] at he
    obtain ⟨p, hp, rfl⟩ := he
    have h1 := List.mem_of_find?_eq_some hp
    have h2 := List.find?_some hp
    obtain ⟨t, rfl⟩ := List.isPrefixOf_iff_prefix.1 h2
    rw [List.drop_left] at hr
    simp [hr, h p h1]

theorem run_noslash : ∀ (l : List Item) (q : Bytes) (rest : List Item), NoSlash l → run l q = some rest → 47 ∉ q
  | [], q, rest, _, h => by simp [run] at h
  | i :: l, q, rest, hn, h => by
    rw [run] at h
    cases he : eat i q with
    | none => rw [he] at h; cases h
    | some r =>
      rw [he] at h
      cases r with
      | nil => exact eat_noslash i l q [] hn he (by simp)
      | cons y r => exact eat_noslash i l q _ hn he (run_noslash l _ rest (fun j hj => hn j (by simp [hj])) h)

theorem slash_head (y : UInt8) (p : Bytes) : (decide ((y :: p).headD 0 = 47) && !false) = decide (y = 47) := by simp

/-- Looking for `*` and parts without `/`: they are found if there is no `/` in the path. -/
theorem look_star (after : Bytes) (l : List Item) (hg : Good l) (hn : NoSlash l) (hl : (text l).length < 2 ^ 32) :
    ∀ (q : Bytes) (f : Nat), q ≠ [] → 0 ∉ q → q.length + l.length + 6 ≤ f →
      look f (.glob false) q (text l ++ 0 :: after) = .ok (if 47 ∈ q then none else some []) := by
  intro q
  induction q with
  | nil => intro f h; exact absurd rfl h
  | cons y p ih =>
    intro f _ h0 hf
    obtain ⟨f, rfl⟩ : ∃ g, f = g + 4 := ⟨f - 4, by simp at hf; omega⟩
    have hrec : p ≠ [] → look (f + 3) (.glob false) p (text l ++ 0 :: after) = .ok (if 47 ∈ p then none else some []) :=
      fun hp => ih (f + 3) hp (fun e => h0 (by simp [e])) (by simp at hf; omega)
    have hstep : ∀ (X : Bytes → Bool → Res (Option Bytes)), (∀ c, X [] c = .ok (some [])) → (p ≠ [] → X p false = .ok (if 47 ∈ p then none else some [])) →
        ((if (decide ((y :: p).headD 0 = 47) && !false) = true then .ok none else step (y :: p) false) >>= fun r => match r with
          | none => .ok none
          | some (np, consume) => X np consume) = .ok (if 47 ∈ y :: p then none else some []) := by
      intro X hX hX'
      rw [slash_head]
      by_cases hy : y = 47
      · rw [if_pos (by simp [hy])]; simp [hy]
      · rw [if_neg (by simp [hy])]
        simp only [step, Res.ok_bind]
        by_cases hp : p = []
        · subst hp
          rw [hX]
          simp [Ne.symm hy]
        · rw [hX' hp]
          simp [Ne.symm hy]
    rw [look, patMatch]
    cases l with
    | nil =>
      rw [parse_end]
      simp only [Res.ok_bind]
      rw [look_nul (f) after (y :: p) (by simp) h0]
      simp only [Res.ok_bind, reduceCtorEq, if_false]
      exact hstep (fun np consume => if np = [] then .ok (some []) else if consume then .ok (Pat.lit 0, after) >>= fun n => look (f + 3) n.1 np n.2
        else look (f + 3) (.glob false) np (text [] ++ 0 :: after)) (by simp) (fun hp => by rw [if_neg hp]; exact hrec hp)
    | cons i l =>
      rw [parse_item i l after hg]
      simp only [Res.ok_bind]
      rw [look_items after l i (y :: p) (f + 2) hg (by simp) h0 hl (by simp at hf; omega)]
      simp only [Res.ok_bind]
      cases h : run (i :: l) (y :: p) with
      | some rest =>
        have := run_noslash _ _ _ hn h
        simp only [Option.isSome_some, if_true, Res.ok_bind, reduceCtorEq, if_false]
        rw [look_items after l i (y :: p) (f + 3) hg (by simp) h0 hl (by simp at hf; omega), h]
        rw [if_neg this]
        rfl
      | none =>
        simp only [Option.isSome_none, Bool.false_eq_true, reduceCtorEq, if_false]
        exact hstep (fun np consume => if np = [] then .ok (some []) else if consume then .ok (patOf (text l ++ 0 :: after) i, text l ++ 0 :: after) >>= fun n => look (f + 3) n.1 np n.2
          else look (f + 3) (.glob false) np (text (i :: l) ++ 0 :: after)) (by simp) (fun hp => by rw [if_neg hp]; exact hrec hp)

/-- Nothing after the stars: everything matches. -/
theorem glob_nil (after : Bytes) (slash : Bool) : ∀ (path : Bytes) (f : Nat), path ≠ [] → 0 ∉ path → (slash = true ∨ 47 ∉ path) →
    path.length + 6 ≤ f → mainLoop f (.glob slash) (0 :: after) path = .ok true := by
  intro path
  induction path with
  | nil => intro f h; exact absurd rfl h
  | cons y p ih =>
    intro f _ h0 h47 hf
    obtain ⟨f, rfl⟩ : ∃ g, f = g + 4 := ⟨f - 4, by simp at hf; omega⟩
    rw [mainLoop, patMatch, show parsePat (0 :: after) = .ok (.lit 0, after) from parse_end after]
    simp only [Res.ok_bind]
    rw [look_nul f after (y :: p) (by simp) h0]
    have hy : (decide ((y :: p).headD 0 = 47) && !slash) = false := by
      show (decide (y = 47) && !slash) = false
      rcases h47 with e | e
      · simp [e]
      · simp at e; simp [Ne.symm e.1]
    simp only [Bool.false_eq_true, if_false, reduceCtorEq, hy, step, Res.ok_bind]
    by_cases hp : p = []
    · rw [if_pos hp]; simp [fin]
    · rw [if_neg hp]
      exact ih (f + 3) hp (fun e => h0 (by simp [e])) (h47.imp id (fun e e' => e (by simp [e']))) (by simp at hf; omega)

/-- A section of `*` and parts without `/` is matched with the last component of the path. -/
theorem star_items (after : Bytes) (l : List Item) (hg : Good l) (hn : NoSlash l) (hl : (text l).length < 2 ^ 32) (b : Bytes) (hb : b ≠ [])
    (hb47 : 47 ∉ b) : ∀ (d : Bytes) (f : Nat), 0 ∉ d ++ b → (d = [] ∨ d.getLast? = some 47) → d.length + b.length + l.length + 8 ≤ f →
      ∃ g, b.length + l.length + 6 ≤ g ∧ mainLoop f (.glob true) (42 :: (text l ++ 0 :: after)) (d ++ b) = mainLoop g (.glob false) (text l ++ 0 :: after) b := by
  intro d
  induction d with
  | nil =>
    intro f h0 _ hf
    obtain ⟨f, rfl⟩ : ∃ g, f = g + 2 := ⟨f - 2, by simp at hf; omega⟩
    refine ⟨f + 1, by simp at hf; omega, ?_⟩
    rw [List.nil_append] at h0 ⊢
    rw [mainLoop, patMatch, parse_star l after hg]
    simp only [Res.ok_bind]
    rw [look_star after l hg hn hl b f hb h0 (by simp at hf; omega), if_neg hb47]
    simp [hb]
  | cons y d ih =>
    intro f h0 hd hf
    obtain ⟨f, rfl⟩ : ∃ g, f = g + 2 := ⟨f - 2, by simp at hf; omega⟩
    have h47 : 47 ∈ y :: (d ++ b) := by
      have hd := hd.resolve_left (by simp)
      have := List.mem_of_getLast? hd
      simp at this ⊢
      rcases this with e | e
      · exact .inl e
      · exact .inr (.inl e)
    obtain ⟨g, hg1, hg2⟩ := ih (f + 1) (fun e => h0 (by simp at e ⊢; exact .inr e)) (by
      rcases hd with e | e
      · cases e
      · cases d with
        | nil => exact .inl rfl
        | cons z d => right; simpa using e) (by simp at hf; omega)
    refine ⟨g, hg1, ?_⟩
    rw [← hg2, List.cons_append, mainLoop, patMatch, parse_star l after hg]
    simp only [Res.ok_bind]
    rw [look_star after l hg hn hl (y :: (d ++ b)) f (by simp) (by simpa using h0) (by simp at hf ⊢; omega), if_pos h47]
    simp only [step, Res.ok_bind, reduceCtorEq, if_false]
    rw [if_neg (by simp)]
    simp only [Res.ok_bind, Bool.false_eq_true, if_false]
    rw [if_neg (by simp [hb])]

end Muon.Edcfg
