import Verif.Deps.Merge
/-
The language with whose compiler a target is linked.
-/
namespace Muon.Deps
open Muon Spec

/-- The languages that `coalesce` computes. -/
def Plain (l : Lang) : Prop := l = .null ∨ l = .c ∨ l = .cpp ∨ l = .assembly

theorem coalesce_plain {cur new : Lang} (h : Plain cur) : Plain (coalesce cur new) := by
  unfold Plain at *
  rcases h with rfl | rfl | rfl | rfl <;> cases new <;> decide

theorem coalesce_cpp {cur new : Lang} (h : Plain cur) : coalesce cur new = .cpp ↔ cur = .cpp ∨ new = .cpp := by
  rcases h with rfl | rfl | rfl | rfl <;> cases new <;> decide

/-- The language of an object. -/
def olang : Obj → Lang
  | .target _ _ _ ext => ext.lang
  | .dep _ d => d.lang
  | _ => .null

/-- Linking with the object brings C++. -/
inductive LinkCpp (st : Store) : Nat → Prop
  | target {j k p int ext} : st[j]? = some (.target k p int ext) → ext.lang = .cpp → LinkCpp st j
  | both {j s t k p int ext} : st[j]? = some (.both s t) → st[t]? = some (.target k p int ext) → ext.lang = .cpp → LinkCpp st j

theorem push_lang (d : BDep) (f : Field) (v : Item) : (d.push f v).lang = d.lang := rfl
theorem set_lang (d : BDep) (f : Field) (l : List Item) : (d.set f l).lang = d.lang := rfl

theorem linkTarget_lang {root : Bytes} {whole : Bool} {k : Kind} {p : Bytes} {ext d d' : BDep}
    (h : linkTarget root whole k p ext d = .ok d') : d'.lang = coalesce ext.lang d.lang := by
  unfold linkTarget at h
  split at h
  · cases h
  · injection h with h
    subst h
    simp only [merge]
    congr 1
    by_cases hx : k = .exe
    · rw [if_pos hx]; split
      · rfl
      · split <;> rfl
    · rw [if_neg hx]; split
      · rfl
      · split <;> rfl

theorem linkOuts_lang {st : Store} {whole : Bool} : ∀ (outs : List Nat) (s s' : List Nat × BDep), linkOuts st whole outs s = .ok s' →
    s'.2.lang = s.2.lang ∧ ∀ j ∈ s'.1, j ∈ s.1 ∨ ∃ p, st[j]? = some (.file p) := by
  intro outs
  induction outs with
  | nil => intro s s' h; unfold linkOuts at h; cases h; exact ⟨rfl, fun j hj => .inl hj⟩
  | cons j outs ih =>
    rintro ⟨seen, d⟩ s' h
    unfold linkOuts at h
    split at h
    · exact ih _ _ h
    · split at h
      · rename_i p hp
        obtain ⟨a, b⟩ := ih _ _ h
        refine ⟨a, fun i hi => ?_⟩
        rcases b i hi with hi | hi
        · rcases List.mem_cons.1 hi with rfl | hi
          · exact .inr ⟨p, hp⟩
          · exact .inl hi
        · exact .inr hi
      · cases h

structure LangInv (Q : Nat → Prop) (l0 : Lang) (js : List Nat) (s : List Nat × BDep) : Prop where
  plain : Plain s.2.lang
  cpp : s.2.lang = .cpp ↔ l0 = .cpp ∨ ∃ j ∈ js, Q j
  seen : ∀ j ∈ s.1, Q j → s.2.lang = .cpp

theorem langInv_step {Q : Nat → Prop} {l0 : Lang} {js : List Nat} {s s' : List Nat × BDep} {i : Nat} (hi : LangInv Q l0 js s)
    (hp : Plain s'.2.lang) (hm : s'.2.lang = .cpp ↔ s.2.lang = .cpp ∨ Q i) (hs : ∀ j ∈ s'.1, j ∈ s.1 ∨ j = i ∨ ¬ Q j) :
    LangInv Q l0 (js ++ [i]) s' := by
  refine ⟨hp, ?_, ?_⟩
  · rw [hm, hi.cpp]
    constructor
    · rintro ((h | ⟨j, hj, h⟩) | h)
      · exact .inl h
      · exact .inr ⟨j, List.mem_append.2 (.inl hj), h⟩
      · exact .inr ⟨i, by simp, h⟩
    · rintro (h | ⟨j, hj, h⟩)
      · exact .inl (.inl h)
      · rcases List.mem_append.1 hj with hj | hj
        · exact .inl (.inr ⟨j, hj, h⟩)
        · rw [List.mem_singleton] at hj; subst hj; exact .inr h
  · intro j hj hq
    rcases hs j hj with h | rfl | h
    · exact hm.2 (.inl (hi.seen j h hq))
    · exact hm.2 (.inr hq)
    · exact absurd hq h

theorem linkOne_lang {root : Bytes} {st : Store} {whole : Bool} {l0 : Lang} {js : List Nat} {s s' : List Nat × BDep} {i : Nat}
    (hpl : ∀ (j : Nat) o, st[j]? = some o → Plain (olang o))
    (hi : LangInv (LinkCpp st) l0 js s) (h : linkOne root st whole s i = .ok s') : LangInv (LinkCpp st) l0 (js ++ [i]) s' := by
  have hcons : ∀ j, j ∈ i :: s.1 → j ∈ s.1 ∨ j = i ∨ ¬ LinkCpp st j := by
    intro j hj
    rcases List.mem_cons.1 hj with rfl | hj
    · exact .inr (.inl rfl)
    · exact .inl hj
  unfold linkOne at h
  split at h
  · rename_i hin
    cases h
    exact langInv_step hi hi.plain ⟨.inl, fun h => h.elim id (hi.seen i hin)⟩ (fun j hj => .inl hj)
  · split at h
    · rename_i k p int ext hk
      obtain ⟨d, hd, h⟩ := (Res.bind_eq_ok (x := linkTarget root whole k p ext s.2)).1 h
      cases h
      have hl := linkTarget_lang hd
      have hx : Plain ext.lang := hpl _ _ hk
      refine langInv_step hi (by simp only [hl]; exact coalesce_plain hx) ?_ hcons
      simp only [hl]
      rw [coalesce_cpp hx, or_comm]
      refine or_congr Iff.rfl ⟨.target hk, fun hq => ?_⟩
      cases hq with
      | target h' hc => rw [hk] at h'; cases h'; exact hc
      | both h' _ _ => rw [hk] at h'; cases h'
    · rename_i s0 dyn hk
      split at h
      · rename_i k p int ext ht
        obtain ⟨d, hd, h⟩ := (Res.bind_eq_ok (x := linkTarget root whole k p ext s.2)).1 h
        cases h
        have hl := linkTarget_lang hd
        have hx : Plain ext.lang := hpl _ _ ht
        refine langInv_step hi (by simp only [hl]; exact coalesce_plain hx) ?_ hcons
        simp only [hl]
        rw [coalesce_cpp hx, or_comm]
        refine or_congr Iff.rfl ⟨.both hk ht, fun hq => ?_⟩
        cases hq with
        | target h' hc => rw [hk] at h'; cases h'
        | both h' h2 hc => rw [hk] at h'; cases h'; rw [ht] at h2; cases h2; exact hc
      · cases h
    · rename_i outs hk
      obtain ⟨a, b⟩ := linkOuts_lang outs _ _ h
      have hno : ¬ LinkCpp st i := by
        intro hq
        cases hq with
        | target h' hc => rw [hk] at h'; cases h'
        | both h' _ _ => rw [hk] at h'; cases h'
      refine langInv_step hi (by rw [a]; exact hi.plain) (by rw [a]; exact ⟨.inl, fun h => h.elim id (fun h => absurd h hno)⟩) ?_
      intro j hj
      rcases b j hj with hj | ⟨p, hp⟩
      · exact hcons j hj
      · refine .inr (.inr fun hq => ?_)
        cases hq with
        | target h' hc => rw [hp] at h'; cases h'
        | both h' _ _ => rw [hp] at h'; cases h'
    · rename_i p hk
      cases h
      have hno : ¬ LinkCpp st i := by
        intro hq
        cases hq with
        | target h' hc => rw [hk] at h'; cases h'
        | both h' _ _ => rw [hk] at h'; cases h'
      exact langInv_step hi hi.plain ⟨.inl, fun h => h.elim id (fun h => absurd h hno)⟩ hcons
    · cases h

/-- The dependency is found and brings C++. -/
def DepCpp (st : Store) (j : Nat) : Prop := ∃ d, st[j]? = some (.dep true d) ∧ d.lang = .cpp

theorem depOne_lang {st : Store} {l0 : Lang} {js : List Nat} {s s' : List Nat × BDep} {i : Nat}
    (hpl : ∀ (j : Nat) o, st[j]? = some o → Plain (olang o))
    (hi : LangInv (DepCpp st) l0 js s) (h : depOne st s i = .ok s') : LangInv (DepCpp st) l0 (js ++ [i]) s' := by
  unfold depOne at h
  split at h
  · rename_i hin
    cases h
    exact langInv_step hi hi.plain ⟨.inl, fun h => h.elim id (hi.seen i hin)⟩ (fun j hj => .inl hj)
  · split at h
    · rename_i found src hk
      cases h
      have hx : Plain src.lang := hpl _ _ hk
      have hs : ∀ j, j ∈ i :: s.1 → j ∈ s.1 ∨ j = i ∨ ¬ DepCpp st j := by
        intro j hj
        rcases List.mem_cons.1 hj with rfl | hj
        · exact .inr (.inl rfl)
        · exact .inl hj
      unfold DepCpp at *
      cases found with
      | true =>
        refine langInv_step hi (coalesce_plain hx) ?_ hs
        simp only [if_true, merge]
        rw [coalesce_cpp hx, or_comm, hk]
        simp
      | false =>
        refine langInv_step hi hi.plain ?_ hs
        simp [hk]
    · cases h

theorem each_lang {Q : Nat → Prop} {f : List Nat × BDep → Nat → Res (List Nat × BDep)} {l0 : Lang}
    (hf : ∀ js s s' i, LangInv Q l0 js s → f s i = .ok s' → LangInv Q l0 (js ++ [i]) s') :
    ∀ (l js : List Nat) (s s' : List Nat × BDep), LangInv Q l0 js s → each f l s = .ok s' → LangInv Q l0 (js ++ l) s' := by
  intro l
  induction l with
  | nil => intro js s s' hi h; unfold each at h; cases h; simpa using hi
  | cons i l ih =>
    intro js s s' hi h
    unfold each at h
    obtain ⟨s1, h1, h⟩ := (Res.bind_eq_ok (x := f s i)).1 h
    have := ih _ _ _ (hf _ _ _ _ hi h1) h
    simpa using this

theorem processLink_lang {root : Bytes} {st : Store} {whole : Bool} {l : Option (List Nat)} {d d' : BDep}
    (hpl : ∀ (j : Nat) o, st[j]? = some o → Plain (olang o)) (hd : Plain d.lang) (h : processLink root st whole l d = .ok d') :
    Plain d'.lang ∧ (d'.lang = .cpp ↔ d.lang = .cpp ∨ ∃ j, (∃ l', l = some l' ∧ j ∈ l') ∧ LinkCpp st j) := by
  unfold processLink at h
  split at h
  · cases h; exact ⟨hd, by simp⟩
  · rename_i l
    obtain ⟨s, hs, h⟩ := (Res.bind_eq_ok (x := each (linkOne root st whole) l ([], d))).1 h
    cases h
    have hi := each_lang (Q := LinkCpp st) (l0 := d.lang) (fun js s s' i hi h => linkOne_lang hpl hi h) l [] _ _ ⟨hd, by simp, by simp⟩ hs
    exact ⟨hi.plain, by show s.2.lang = _ ↔ _; rw [hi.cpp]; simp⟩

theorem processDeps_lang {st : Store} {l : Option (List Nat)} {d d' : BDep}
    (hpl : ∀ (j : Nat) o, st[j]? = some o → Plain (olang o)) (hd : Plain d.lang) (h : processDeps st l d = .ok d') :
    Plain d'.lang ∧ (d'.lang = .cpp ↔ d.lang = .cpp ∨ ∃ j, (∃ l', l = some l' ∧ j ∈ l') ∧ DepCpp st j) := by
  unfold processDeps at h
  split at h
  · cases h; exact ⟨hd, by simp⟩
  · rename_i l
    obtain ⟨s, hs, h⟩ := (Res.bind_eq_ok (x := each (depOne st) l ([], d))).1 h
    cases h
    have hi := each_lang (Q := DepCpp st) (l0 := d.lang) (fun js s s' i hi h => depOne_lang hpl hi h) l [] _ _ ⟨hd, by simp, by simp⟩ hs
    exact ⟨hi.plain, by show s.2.lang = _ ↔ _; rw [hi.cpp]; simp⟩

/-! ### names of objects -/

theorem last_dot_unique {a b x y : Bytes} (h : a ++ 46 :: x = b ++ 46 :: y) (hx : 46 ∉ x) (hy : 46 ∉ y) : a = b ∧ x = y := by
  rcases List.append_eq_append_iff.1 h with ⟨c, h1, h2⟩ | ⟨c, h1, h2⟩
  · cases c with
    | nil => simp at h1 h2; exact ⟨h1.symm, h2⟩
    | cons z c =>
      rw [List.cons_append] at h2
      injection h2 with _ h2
      exact absurd (h2 ▸ by simp) hx
  · cases c with
    | nil => simp at h1 h2; exact ⟨h1, h2.symm⟩
    | cons z c =>
      rw [List.cons_append] at h2
      injection h2 with _ h2
      exact absurd (h2 ▸ by simp) hy

theorem stripExt_spec {p b : Bytes} (h : stripExt p = .ok b) : ∃ x, Path.basename p = b ++ 46 :: x ∧ 46 ∉ x := by
  unfold stripExt at h
  simp only at h
  split at h
  · rename_i hm
    injection h with h
    have key : ∀ l : Bytes, 46 ∈ l → ∃ t, l = t ++ 46 :: (l.dropWhile (· != 46)).drop 1 ∧ 46 ∉ t := by
      intro l
      induction l with
      | nil => intro h; cases h
      | cons c l ih =>
        intro h
        by_cases hc : c = 46
        · subst hc; exact ⟨[], by simp, by simp⟩
        · obtain ⟨t, h1, h2⟩ := ih (by rcases List.mem_cons.1 h with h | h; exact absurd h.symm hc; exact h)
          refine ⟨c :: t, ?_, ?_⟩
          · rw [List.dropWhile_cons, if_pos (by simpa using hc), List.cons_append, ← h1]
          · intro hm
            rcases List.mem_cons.1 hm with h | h
            · exact hc h.symm
            · exact h2 h
    obtain ⟨t, h1, h2⟩ := key (Path.basename p).reverse (by simpa using hm)
    refine ⟨t.reverse, ?_, by simpa using h2⟩
    have := congrArg List.reverse h1
    rw [List.reverse_reverse, List.reverse_append, List.reverse_cons, h] at this
    simpa using this
  · cases h

theorem cppObject_iff {e : Env} {p b : Bytes} (h : stripExt p = .ok b) : CppObject e p ↔ 46 ∈ b ∧ e.langOf b = some .cpp := by
  obtain ⟨x, h1, h2⟩ := stripExt_spec h
  constructor
  · rintro ⟨a, y, h3, h4, h5, h6⟩
    rw [h1] at h3
    obtain ⟨rfl, rfl⟩ := last_dot_unique h3 h2 h4
    exact ⟨h5, h6⟩
  · rintro ⟨h5, h6⟩; exact ⟨b, x, h1, h2, h5, h6⟩

theorem objLangs_spec {e : Env} : ∀ (ps : List Bytes) (l l' : Lang), objLangs e ps l = .ok l' → Plain l →
    Plain l' ∧ (l' = .cpp ↔ l = .cpp ∨ ∃ p ∈ ps, CppObject e p) := by
  intro ps
  induction ps with
  | nil => intro l l' h hl; unfold objLangs at h; cases h; exact ⟨hl, by simp⟩
  | cons p ps ih =>
    intro l l' h hl
    unfold objLangs at h
    obtain ⟨b, hb, h⟩ := (Res.bind_eq_ok (x := stripExt p)).1 h
    have hc := cppObject_iff (e := e) hb
    split at h
    · rename_i hd
      split at h
      · rename_i n hn
        obtain ⟨a, c⟩ := ih _ _ h (coalesce_plain hl)
        refine ⟨a, ?_⟩
        rw [c, coalesce_cpp hl]
        simp only [List.mem_cons, exists_eq_or_imp, hc, hd, true_and, hn, Option.some.injEq, or_assoc]
      · rename_i hn
        obtain ⟨a, c⟩ := ih _ _ h hl
        refine ⟨a, ?_⟩
        rw [c]
        simp [hc, hn]
    · rename_i hd
      obtain ⟨a, c⟩ := ih _ _ h hl
      refine ⟨a, ?_⟩
      rw [c]
      simp [hc, hd]

theorem foldl_coalesce : ∀ (ls : List Lang) (l : Lang), Plain l →
    Plain (ls.foldl coalesce l) ∧ (ls.foldl coalesce l = .cpp ↔ l = .cpp ∨ .cpp ∈ ls) := by
  intro ls
  induction ls with
  | nil => intro l hl; exact ⟨hl, by simp⟩
  | cons n ls ih =>
    intro l hl
    rw [List.foldl_cons]
    obtain ⟨a, b⟩ := ih (coalesce l n) (coalesce_plain hl)
    refine ⟨a, ?_⟩
    rw [b, coalesce_cpp hl, List.mem_cons, or_assoc, @eq_comm _ n]

theorem determineLinker_spec {e : Env} {ls : List Lang} {os : List Bytes} {l l' : Lang} (hf : Plain e.fallback)
    (h : determineLinker e ls os l = .ok l') (hl : Plain l) :
    Plain l' ∧ l' ≠ .null ∧ ((l = .cpp ∨ .cpp ∈ ls ∨ ∃ p ∈ os, CppObject e p) → l' = .cpp) ∧
      (l' = .cpp → (l = .cpp ∨ .cpp ∈ ls ∨ ∃ p ∈ os, CppObject e p) ∨ e.fallback = .cpp) := by
  unfold determineLinker at h
  obtain ⟨l1, h1, h⟩ := Res.bind_eq_ok.1 h
  obtain ⟨a, b⟩ := foldl_coalesce ls l hl
  obtain ⟨c, d⟩ := objLangs_spec _ _ _ h1 a
  rw [b, or_assoc] at d
  by_cases hn : l1 = .null
  · simp only [hn, if_true] at h
    by_cases hn' : e.fallback = .null
    · rw [if_pos hn'] at h; cases h
    · rw [if_neg hn'] at h
      injection h with h
      subst h
      exact ⟨hf, hn', fun hh => absurd (d.2 hh) (by rw [hn]; decide), .inr⟩
  · simp only [hn, if_false] at h
    injection h with h
    subst h
    exact ⟨c, hn, d.2, fun hh => .inl (d.1 hh)⟩

/-- The language of the object that the call `i` made. -/
def LFits (e : Env) (P : List Cmd) (i : Nat) (o : Obj) : Prop :=
  Plain (olang o) ∧ (olang o = .cpp → Cpp e P i ∨ e.fallback = .cpp) ∧
  (match o with
    | .target _ _ int ext => int.lang = ext.lang ∧ ext.lang ≠ .null ∧ (Cpp e P i → ext.lang = .cpp)
    | .dep _ d => Cpp e P i → d.lang = .cpp
    | _ => True)

theorem keywords_lang {e : Env} {P : List Cmd} {st : Store} {lw lh ds : Option (List Nat)} {d0 d1 d2 d3 d2' : BDep}
    (hfit : ∀ (j : Nat) o, st[j]? = some o → Fits e.root P j o) (hlf : ∀ (j : Nat) o, st[j]? = some o → LFits e P j o) (hc : Outs st)
    (h1 : processLink e.root st false lw d0 = .ok d1) (h2 : processLink e.root st true lh d1 = .ok d2) (h2' : d2'.lang = d2.lang)
    (h3 : processDeps st ds d2' = .ok d3) (h0 : d0.lang = .null) :
    Plain d3.lang ∧
    ((∃ j t k p, ((∃ l, lw = some l ∧ j ∈ l) ∨ (∃ l, lh = some l ∧ j ∈ l)) ∧ Makes P j t k p ∧ Cpp e P t) ∨
      (∃ j, (∃ l, ds = some l ∧ j ∈ l) ∧ Found P j ∧ Cpp e P j) → d3.lang = .cpp) ∧
    (d3.lang = .cpp →
      (∃ j t k p, ((∃ l, lw = some l ∧ j ∈ l) ∨ (∃ l, lh = some l ∧ j ∈ l)) ∧ Makes P j t k p ∧ Cpp e P t) ∨
      (∃ j, (∃ l, ds = some l ∧ j ∈ l) ∧ Found P j ∧ Cpp e P j) ∨ e.fallback = .cpp) := by
  have hpl : ∀ (j : Nat) o, st[j]? = some o → Plain (olang o) := fun j o h => (hlf j o h).1
  obtain ⟨p1, c1⟩ := processLink_lang hpl (by rw [h0]; exact .inl rfl) h1
  obtain ⟨p2, c2⟩ := processLink_lang hpl p1 h2
  obtain ⟨p3, c3⟩ := processDeps_lang hpl (by rw [h2']; exact p2) h3
  obtain ⟨-, l1⟩ := processLink_spec hc h1
  obtain ⟨-, l2⟩ := processLink_spec hc h2
  obtain ⟨-, l3⟩ := processDeps_spec h3
  rw [h2', c2, c1, h0] at c3
  -- a linkable object that brings C++
  have lk : ∀ j, Linkable st j → ∀ t k p, Makes P j t k p → Cpp e P t → LinkCpp st j := by
    intro j hl t k p hm hcpp
    cases hl with
    | @target k' p' int ext h =>
      obtain ⟨_, _, _, _, _, _, _, _, _, hP, -⟩ := hfit _ _ h
      cases hm with
      | target h' => exact .target h ((hlf _ _ h).2.2.2.2 hcpp)
      | both h' _ => rw [hP] at h'; cases h'
    | @both s t' k' p' int ext h ht =>
      have hP : P[j]? = some (.both s t') := hfit _ _ h
      cases hm with
      | target h' => rw [hP] at h'; cases h'
      | both h' _ => rw [hP] at h'; cases h'; exact .both h ht ((hlf _ _ ht).2.2.2.2 hcpp)
    | @file p' h =>
      have hP : P[j]? = some (.file p') := hfit _ _ h
      cases hm with
      | target h' => rw [hP] at h'; cases h'
      | both h' _ => rw [hP] at h'; cases h'
    | @custom outs h ho =>
      have hP : P[j]? = some (.custom outs) := hfit _ _ h
      cases hm with
      | target h' => rw [hP] at h'; cases h'
      | both h' _ => rw [hP] at h'; cases h'
  have kl : ∀ j, LinkCpp st j → (∃ t k p, Makes P j t k p ∧ Cpp e P t) ∨ e.fallback = .cpp := by
    intro j hl
    cases hl with
    | @target k p int ext h hx =>
      obtain ⟨_, _, _, _, _, _, _, _, _, hP, -⟩ := hfit _ _ h
      rcases (hlf _ _ h).2.1 hx with h | h
      · exact .inl ⟨_, _, _, .target hP, h⟩
      · exact .inr h
    | @both s t k p int ext h ht hx =>
      have hPj : P[j]? = some (.both s t) := hfit _ _ h
      obtain ⟨_, _, _, _, _, _, _, _, _, hP, -⟩ := hfit _ _ ht
      rcases (hlf _ _ ht).2.1 hx with h | h
      · exact .inl ⟨_, _, _, .both hPj hP, h⟩
      · exact .inr h
  refine ⟨p3, ?_, ?_⟩
  · intro h
    rw [c3]
    rcases h with ⟨j, t, k, p, ⟨l, hl, hj⟩ | ⟨l, hl, hj⟩, hm, hcpp⟩ | ⟨j, ⟨l, hl, hj⟩, hf, hcpp⟩
    · exact .inl (.inl (.inr ⟨j, ⟨l, hl, hj⟩, lk j (l1 l hl j hj) t k p hm hcpp⟩))
    · exact .inl (.inr ⟨j, ⟨l, hl, hj⟩, lk j (l2 l hl j hj) t k p hm hcpp⟩)
    · obtain ⟨b, d, hd⟩ := l3 l hl j hj
      have := (hfit _ _ hd).1.2 hf
      subst this
      exact .inr ⟨j, ⟨l, hl, hj⟩, d, hd, (hlf _ _ hd).2.2 hcpp⟩
  · intro h
    rw [c3] at h
    rcases h with ((h | ⟨j, hj, h⟩) | ⟨j, hj, h⟩) | ⟨j, hj, d, hd, h⟩
    · cases h
    · rcases kl j h with ⟨t, k, p, hm, hcpp⟩ | h
      · exact .inl ⟨j, t, k, p, .inl hj, hm, hcpp⟩
      · exact .inr (.inr h)
    · rcases kl j h with ⟨t, k, p, hm, hcpp⟩ | h
      · exact .inl ⟨j, t, k, p, .inr hj, hm, hcpp⟩
      · exact .inr (.inr h)
    · rcases (hlf _ _ hd).2.1 h with hcpp | h
      · exact .inr (.inl ⟨j, hj, (hfit _ _ hd).1.1 rfl, hcpp⟩)
      · exact .inr (.inr h)

theorem cpp_not_other {e : Env} {P : List Cmd} {i : Nat} (h : Cpp e P i) :
    (∃ k p lw lh ds la inc od rp ss os, P[i]? = some (.target k p lw lh ds la inc od rp ss os)) ∨
    (∃ lw lh ds la ca inc src os, P[i]? = some (.declare lw lh ds la ca inc src os)) ∨
    (∃ b d, P[i]? = some (.external b d)) ∨ (∃ j t, P[i]? = some (.asSystem j t)) := by
  cases h with
  | source h => exact .inl ⟨_, _, _, _, _, _, _, _, _, _, _, h⟩
  | object h => exact .inl ⟨_, _, _, _, _, _, _, _, _, _, _, h⟩
  | depSource h => exact .inl ⟨_, _, _, _, _, _, _, _, _, _, _, h⟩
  | depObject h => exact .inl ⟨_, _, _, _, _, _, _, _, _, _, _, h⟩
  | external h => exact .inr (.inr (.inl ⟨_, _, h⟩))
  | @links _ c _ _ _ _ _ h hl =>
    cases c with
    | target => exact .inl ⟨_, _, _, _, _, _, _, _, _, _, _, h⟩
    | declare => exact .inr (.inl ⟨_, _, _, _, _, _, _, _, h⟩)
    | _ => cases hl
  | @uses _ c _ h hl =>
    cases c with
    | target => exact .inl ⟨_, _, _, _, _, _, _, _, _, _, _, h⟩
    | declare => exact .inr (.inl ⟨_, _, _, _, _, _, _, _, h⟩)
    | _ => cases hl
  | asSystem h => exact .inr (.inr (.inr ⟨_, _, h⟩))

theorem step_lang {e : Env} {P : List Cmd} {st : Store} {i : Nat} {c : Cmd} {o : Obj} (hP : P[i]? = some c) (hf : Plain e.fallback)
    (hx : ∀ (b : Bool) (d : BDep), c = .external b d → Plain d.lang)
    (hfit : ∀ (j : Nat) o, st[j]? = some o → Fits e.root P j o) (hlf : ∀ (j : Nat) o, st[j]? = some o → LFits e P j o)
    (hc : Outs st) (h : step e st c = .ok o) : LFits e P i o := by
  have hff := step_fits hP hfit hc h
  cases c with
  | target k p lw lh ds la inc od rp ss os =>
    obtain ⟨d1, d2, d3, l, h1, h2, h3, h4, d4, h5, h6, rfl⟩ := createTarget_ok h
    obtain ⟨p3, a, b⟩ := keywords_lang hfit hlf hc h1 h2 rfl h3 rfl
    obtain ⟨pl, hn, c1, c2⟩ := determineLinker_spec hf h4 p3
    obtain ⟨_, _, _, _, _, _, _, _, _, -, hm⟩ := hff
    have hsrc : ∀ v, v ∈ d3.lists .sources ↔ Brings e.root P i .sources v := by
      intro v
      have := (hm .sources v).1
      rw [mem_set, if_neg (by decide), h5] at this
      simpa using this
    have hobj : ∀ v, v ∈ d3.lists .objects ↔ Brings e.root P i .objects v := by
      intro v
      have := (hm .objects v).1
      rw [mem_set, if_neg (by decide), h5] at this
      simpa using this
    have hl4 : (external k d4).lang = l := h6
    have mem1 : Lang.cpp ∈ (ss ++ (d3.lists .sources).map Item.text).filterMap e.langOf ↔
        (∃ s ∈ ss, e.langOf s = some .cpp) ∨ ∃ v, Brings e.root P i .sources v ∧ e.langOf v.text = some .cpp := by
      rw [List.mem_filterMap]
      constructor
      · rintro ⟨s, hs, hl⟩
        rcases List.mem_append.1 hs with hs | hs
        · exact .inl ⟨s, hs, hl⟩
        · obtain ⟨v, hv, rfl⟩ := List.mem_map.1 hs
          exact .inr ⟨v, (hsrc v).1 hv, hl⟩
      · rintro (⟨s, hs, hl⟩ | ⟨v, hv, hl⟩)
        · exact ⟨s, List.mem_append.2 (.inl hs), hl⟩
        · exact ⟨v.text, List.mem_append.2 (.inr (List.mem_map.2 ⟨v, (hsrc v).2 hv, rfl⟩)), hl⟩
    have mem2 : (∃ q ∈ os ++ (d3.lists .objects).map Item.text, CppObject e q) ↔
        (∃ s ∈ os, CppObject e s) ∨ ∃ v, Brings e.root P i .objects v ∧ CppObject e v.text := by
      constructor
      · rintro ⟨s, hs, hl⟩
        rcases List.mem_append.1 hs with hs | hs
        · exact .inl ⟨s, hs, hl⟩
        · obtain ⟨v, hv, rfl⟩ := List.mem_map.1 hs
          exact .inr ⟨v, (hobj v).1 hv, hl⟩
      · rintro (⟨s, hs, hl⟩ | ⟨v, hv, hl⟩)
        · exact ⟨s, List.mem_append.2 (.inl hs), hl⟩
        · exact ⟨v.text, List.mem_append.2 (.inr (List.mem_map.2 ⟨v, (hobj v).2 hv, rfl⟩)), hl⟩
    refine ⟨by show Plain (external k d4).lang; rw [hl4]; exact pl, ?_, ?_, by rw [hl4]; exact hn, ?_⟩
    · intro hh
      have hh : l = .cpp := hl4 ▸ hh
      rcases c2 hh with (h | h | h) | h
      · rcases b h with ⟨j, t, k', p', ⟨l', e1, hj⟩ | ⟨l', e1, hj⟩, hmk, hcpp⟩ | ⟨j, ⟨l', e1, hj⟩, hfo, hcpp⟩ | h
        · exact .inl (.links (whole := false) hP ⟨l', e1, hj⟩ hmk hcpp)
        · exact .inl (.links (whole := true) hP ⟨l', e1, hj⟩ hmk hcpp)
        · exact .inl (.uses hP ⟨l', e1, hj⟩ hfo hcpp)
        · exact .inr h
      · rcases mem1.1 h with ⟨s, hs, hl⟩ | ⟨v, hv, hl⟩
        · exact .inl (.source hP hs hl)
        · exact .inl (.depSource hP hv hl)
      · rcases mem2.1 h with ⟨s, hs, hl⟩ | ⟨v, hv, hl⟩
        · exact .inl (.object hP hs hl)
        · exact .inl (.depObject hP hv hl)
      · exact .inr h
    · rfl
    · intro hcpp
      rw [hl4]
      apply c1
      cases hcpp with
      | source h' hs hl => rw [hP] at h'; cases h'; exact .inr (.inl (mem1.2 (.inl ⟨_, hs, hl⟩)))
      | object h' hs hl => rw [hP] at h'; cases h'; exact .inr (.inr (mem2.2 (.inl ⟨_, hs, hl⟩)))
      | depSource h' hs hl => exact .inr (.inl (mem1.2 (.inr ⟨_, hs, hl⟩)))
      | depObject h' hs hl => exact .inr (.inr (mem2.2 (.inr ⟨_, hs, hl⟩)))
      | external h' _ => rw [hP] at h'; cases h'
      | @links _ c whole j t k' p' h' hl hmk hcpp =>
        rw [hP] at h'; cases h'
        refine .inl (a (.inl ⟨j, t, k', p', ?_, hmk, hcpp⟩))
        cases whole with
        | false => exact .inl hl
        | true => exact .inr hl
      | uses h' hl hfo hcpp => rw [hP] at h'; cases h'; exact .inl (a (.inr ⟨_, hl, hfo, hcpp⟩))
      | asSystem h' _ => rw [hP] at h'; cases h'
  | both s d =>
    simp only [step] at h
    split at h
    · injection h with h; subst h; exact ⟨.inl rfl, (fun h => by cases h), trivial⟩
    · cases h
  | custom outs =>
    simp only [step] at h
    split at h
    · injection h with h; subst h; exact ⟨.inl rfl, (fun h => by cases h), trivial⟩
    · cases h
  | file p => simp only [step] at h; injection h with h; subst h; exact ⟨.inl rfl, (fun h => by cases h), trivial⟩
  | declare lw lh ds la ca inc src os =>
    obtain ⟨d0, d1, d2, d3, h1, h2, h3, rfl, h0, -⟩ := declare_ok h
    obtain ⟨p3, a, b⟩ := keywords_lang hfit hlf hc h1 h2 (set_lang _ _ _) h3 h0
    refine ⟨p3, ?_, ?_⟩
    · intro h
      rcases b h with ⟨j, t, k', p', ⟨l', e1, hj⟩ | ⟨l', e1, hj⟩, hmk, hcpp⟩ | ⟨j, ⟨l', e1, hj⟩, hfo, hcpp⟩ | h
      · exact .inl (.links (whole := false) hP ⟨l', e1, hj⟩ hmk hcpp)
      · exact .inl (.links (whole := true) hP ⟨l', e1, hj⟩ hmk hcpp)
      · exact .inl (.uses hP ⟨l', e1, hj⟩ hfo hcpp)
      · exact .inr h
    · intro hcpp
      apply a
      cases hcpp with
      | source h' hs hl => rw [hP] at h'; cases h'
      | object h' hs hl => rw [hP] at h'; cases h'
      | depSource h' hs hl => rw [hP] at h'; cases h'
      | depObject h' hs hl => rw [hP] at h'; cases h'
      | external h' _ => rw [hP] at h'; cases h'
      | @links _ c whole j t k' p' h' hl hmk hcpp =>
        rw [hP] at h'; cases h'
        refine .inl ⟨j, t, k', p', ?_, hmk, hcpp⟩
        cases whole with
        | false => exact .inl hl
        | true => exact .inr hl
      | uses h' hl hfo hcpp => rw [hP] at h'; cases h'; exact .inr ⟨_, hl, hfo, hcpp⟩
      | asSystem h' _ => rw [hP] at h'; cases h'
  | external found d =>
    simp only [step] at h
    injection h with h; subst h
    refine ⟨hx _ _ rfl, fun h => .inl (.external hP h), ?_⟩
    intro hcpp
    cases hcpp with
    | source h' hs hl => rw [hP] at h'; cases h'
    | object h' hs hl => rw [hP] at h'; cases h'
    | depSource h' hs hl => rw [hP] at h'; cases h'
    | depObject h' hs hl => rw [hP] at h'; cases h'
    | external h' h => rw [hP] at h'; cases h'; exact h
    | links h' hl => rw [hP] at h'; cases h'; cases hl
    | uses h' hl => rw [hP] at h'; cases h'; cases hl
    | asSystem h' _ => rw [hP] at h'; cases h'
  | partialDep j ca inc la links src =>
    simp only [step, partialDep] at h
    split at h
    · injection h with h; subst h
      refine ⟨.inl rfl, (fun h => by cases h), ?_⟩
      intro hcpp
      rcases cpp_not_other hcpp with ⟨_, _, _, _, _, _, _, _, _, _, _, h⟩ | ⟨_, _, _, _, _, _, _, _, h⟩ | ⟨_, _, h⟩ | ⟨_, _, h⟩ <;>
        (rw [hP] at h; cases h)
    · cases h
  | asSystem j t =>
    simp only [step, asSystem] at h
    split at h
    · rename_i found d hj
      split at h
      · injection h with h; subst h
        obtain ⟨a, b, c⟩ := hlf _ _ hj
        refine ⟨a, fun h => ?_, ?_⟩
        · rcases b h with h | h
          · exact .inl (.asSystem hP h)
          · exact .inr h
        · intro hcpp
          cases hcpp with
          | source h' hs hl => rw [hP] at h'; cases h'
          | object h' hs hl => rw [hP] at h'; cases h'
          | depSource h' hs hl => rw [hP] at h'; cases h'
          | depObject h' hs hl => rw [hP] at h'; cases h'
          | external h' h => rw [hP] at h'; cases h'
          | links h' hl => rw [hP] at h'; cases h'; cases hl
          | uses h' hl => rw [hP] at h'; cases h'; cases hl
          | asSystem h' h => rw [hP] at h'; cases h'; exact c h
      · cases h
    · cases h

theorem run_lang {e : Env} {P : List Cmd} {st : Store} (hf : Plain e.fallback)
    (hx : ∀ (i : Nat) (b : Bool) (d : BDep), P[i]? = some (.external b d) → Plain d.lang) (h : run e P [] = .ok st) :
    ∀ (i : Nat) (o : Obj), st[i]? = some o → LFits e P i o := by
  intro i
  induction i using Nat.strongRecOn with
  | ind i ih =>
    intro o ho
    obtain ⟨c, hP, hs⟩ := run_at h ho
    refine step_lang hP hf (fun b d hc => hx i b d (hc ▸ hP)) (fun j o hj => run_fits h j o (take_get hj).2) (fun j o hj => ?_) (run_outs h i) hs
    obtain ⟨h1, h2⟩ := take_get hj
    exact ih j h1 o h2

end Muon.Deps
