import Verif.Ninja.Lemmas
/-
Names of rules.
-/
namespace Muon.Ninja
open Muon Esc Spec

theorem filter_lt {α : Type} (p q : α → Bool) (l : List α) (a : α) (ha : a ∈ l) (h1 : ∀ x ∈ l, p x = true → q x = true) (hp : p a = false) (hq : q a = true) :
    (l.filter p).length < (l.filter q).length := by
  induction l with
  | nil => cases ha
  | cons x l ih =>
    have hle : ∀ l : List α, (∀ x ∈ l, p x = true → q x = true) → (l.filter p).length ≤ (l.filter q).length := by
      intro l
      induction l with
      | nil => intro _; simp
      | cons y l ih =>
        intro h
        have := ih (fun z hz => h z (by simp [hz]))
        have hy := h y (by simp)
        cases hpy : p y with
        | true => simp only [List.filter_cons, hpy, hy hpy, if_true, List.length_cons]; omega
        | false =>
          cases hqy : q y <;> simp only [List.filter_cons, hpy, hqy, if_true, Bool.false_eq_true, if_false, List.length_cons] <;> omega
    rcases List.mem_cons.1 ha with rfl | ha
    · have := hle l (fun z hz => h1 z (by simp [hz]))
      simp only [List.filter_cons, hp, hq, if_true, Bool.false_eq_true, if_false, List.length_cons]; omega
    · have := ih ha (fun z hz => h1 z (by simp [hz]))
      have hx := h1 x (by simp)
      cases hpx : p x with
      | true => simp only [List.filter_cons, hpx, hx hpx, if_true, List.length_cons]; omega
      | false => cases hqx : q x <;> simp only [List.filter_cons, hpx, hqx, if_true, Bool.false_eq_true, if_false, List.length_cons] <;> omega

/-- What `%d` writes: at least one digit. -/
def Digits (digits : Nat → Bytes) : Prop := ∀ n, digits n ≠ [] ∧ ∀ c ∈ digits n, 48 ≤ c ∧ c ≤ 57

theorem uniqify_loop {digits : Nat → Bytes} (hd : Digits digits) (arr : List Bytes) : ∀ (f : Nat) (name : Bytes) (x : Nat),
    (arr.filter (fun a => decide (name.length ≤ a.length))).length < f →
    ∃ ds, uniqify digits f arr name x = .ok (name ++ ds) ∧ name ++ ds ∉ arr ∧ (∀ c ∈ ds, 48 ≤ c ∧ c ≤ 57) ∧ (name ∉ arr → ds = [])
  | 0, _, _, h => by omega
  | f + 1, name, x, h => by
    rw [uniqify]
    by_cases hm : name ∈ arr
    · rw [if_pos hm]
      have hlt : 0 < (digits x).length := List.length_pos_iff.2 (hd x).1
      have := filter_lt (fun a => decide ((name ++ digits x).length ≤ a.length)) (fun a => decide (name.length ≤ a.length)) arr name hm
        (fun y _ hy => by simp only [decide_eq_true_eq, List.length_append] at hy ⊢; omega) (by simp only [List.length_append, decide_eq_false_iff_not]; omega) (by simp)
      obtain ⟨ds, h1, h2, h3, -⟩ := uniqify_loop hd arr f (name ++ digits x) (x + 1) (by omega)
      refine ⟨digits x ++ ds, by rw [h1]; simp, by simpa using h2, ?_, fun h => absurd hm h⟩
      intro c hc
      rcases List.mem_append.1 hc with hc | hc
      · exact (hd x).2 c hc
      · exact h3 c hc
    · rw [if_neg hm]
      exact ⟨[], by simp, by simpa using hm, by simp, fun _ => rfl⟩

theorem uniqify_ok {digits : Nat → Bytes} (hd : Digits digits) (arr : List Bytes) (name : Bytes) (x : Nat) :
    ∃ ds, uniqify digits (arr.length + 1) arr name x = .ok (name ++ ds) ∧ name ++ ds ∉ arr ∧ (∀ c ∈ ds, 48 ≤ c ∧ c ≤ 57) ∧ (name ∉ arr → ds = []) :=
  uniqify_loop hd arr (arr.length + 1) name x (by have := List.length_filter_le (fun a => decide (name.length ≤ a.length)) arr; omega)

theorem nameAll_ok {digits : Nat → Bytes} (hd : Digits digits) : ∀ (ns arr : List Bytes), arr.Nodup →
    ∃ ms, nameAll digits arr ns = .ok (arr ++ ms) ∧ (arr ++ ms).Nodup ∧ ms.length = ns.length ∧
      ∀ (i : Nat) (n m : Bytes), ns[i]? = some n → ms[i]? = some m → ∃ ds, m = escapeRule n ++ ds ∧ ∀ c ∈ ds, 48 ≤ c ∧ c ≤ 57
  | [], arr, h => ⟨[], by simp [nameAll], by simpa using h, rfl, by simp⟩
  | n :: ns, arr, h => by
    obtain ⟨ds, h1, h2, h3, -⟩ := uniqify_ok hd arr (escapeRule n) 1
    obtain ⟨ms, h4, h5, h6, h7⟩ := nameAll_ok hd ns (arr ++ [escapeRule n ++ ds]) (by
      rw [List.nodup_append]
      refine ⟨h, by simp, ?_⟩
      intro a ha b hb he
      rw [List.mem_singleton.1 hb] at he
      exact h2 (he ▸ ha))
    refine ⟨(escapeRule n ++ ds) :: ms, by rw [nameAll, h1, Res.ok_bind, h4]; simp, by simpa using h5, by simp [h6], ?_⟩
    intro i a b ha hb
    cases i with
    | zero =>
      simp only [List.getElem?_cons_zero, Option.some.injEq] at ha hb
      subst ha; subst hb
      exact ⟨ds, rfl, h3⟩
    | succ i =>
      simp only [List.getElem?_cons_succ] at ha hb
      exact h7 i a b ha hb

/-- What the languages of linkers are called, and `static`. -/
def linkLangs : List Bytes := [ascii "c", ascii "cpp", ascii "objc", ascii "assembly", ascii "llvm_ir", ascii "nasm", ascii "static"]

theorem linker_inj {p q l m : Bytes} (hl : l ∈ linkLangs) (hm : m ∈ linkLangs) (h : linkerRule p l = linkerRule q m) : p = q ∧ l = m := by
  have h1 : p ++ 95 :: l = q ++ 95 :: m := by
    have : (p ++ 95 :: l) ++ ascii "_linker" = (q ++ 95 :: m) ++ ascii "_linker" := by
      have e : ascii "_" = [95] := by decide
      simpa [linkerRule, e] using h
    exact List.append_cancel_right this
  have s1 : (95 :: l) <:+ (p ++ 95 :: l) := List.suffix_append _ _
  have s2 : (95 :: m) <:+ (p ++ 95 :: l) := by rw [h1]; exact List.suffix_append _ _
  have key : ∀ l ∈ linkLangs, ∀ m ∈ linkLangs, (95 :: l) <:+ (95 :: m) → l = m := by decide
  have hlm : l = m := by
    rcases Nat.le_total (95 :: l).length (95 :: m).length with hle | hle
    · exact key l hl m hm (List.suffix_of_suffix_length_le s1 s2 hle)
    · exact (key m hm l hl (List.suffix_of_suffix_length_le s2 s1 hle)).symm
  subst hlm
  exact ⟨List.append_cancel_right h1, rfl⟩

theorem escape_append (a b : Bytes) : escapeRule (a ++ b) = escapeRule a ++ escapeRule b := by simp [escapeRule]

theorem ends_not_digit {x ds y : Bytes} (hds : ∀ c ∈ ds, 48 ≤ c ∧ c ≤ 57) (h : x ++ ds = y ++ ascii "_linker") : ds = [] := by
  cases hr : ds.reverse with
  | nil => simpa using hr
  | cons c r =>
    exfalso
    have hc : c ∈ ds := by
      have : c ∈ ds.reverse := by rw [hr]; simp
      simpa using this
    have h2 := congrArg List.reverse h
    rw [List.reverse_append, List.reverse_append, hr, show (ascii "_linker").reverse = 114 :: [101, 107, 110, 105, 108, 95] from by decide] at h2
    simp only [List.cons_append, List.cons.injEq] at h2
    have := hds c hc
    rw [h2.1] at this
    exact absurd this.2 (by decide)

/-- Which names of compiler rules are not names of linker rules. -/
theorem compiler_not_linker {pre lang : Bytes} {tgt : Option Bytes} {ds p l : Bytes} (hds : ∀ c ∈ ds, 48 ≤ c ∧ c ≤ 57) (hl : l ∈ linkLangs)
    (ht : ∀ t, tgt = some t → ¬ (95 :: l ++ ascii "_linker") <:+ (95 :: escapeRule t)) : compilerRule pre lang tgt ++ ds ≠ linkerRule p l := by
  intro h
  have h' : compilerRule pre lang tgt ++ ds = (p ++ ascii "_" ++ l) ++ ascii "_linker" := by rw [h]; simp [linkerRule]
  have hd := ends_not_digit hds h'
  subst hd
  rw [List.append_nil] at h
  have sl : (95 :: l ++ ascii "_linker") <:+ compilerRule pre lang tgt := by
    rw [h, linkerRule]
    have e : ascii "_" = [95] := by decide
    exact ⟨p, by simp [e]⟩
  cases tgt with
  | none =>
    have sr : ascii "_compiler" <:+ compilerRule pre lang none := by
      simp only [compilerRule]
      rw [escape_append, show escapeRule (ascii "_compiler") = ascii "_compiler" from by decide]
      exact List.suffix_append _ _
    have key : ∀ l ∈ linkLangs, ¬ (95 :: l ++ ascii "_linker") <:+ ascii "_compiler" ∧ ¬ ascii "_compiler" <:+ (95 :: l ++ ascii "_linker") := by decide
    rcases Nat.le_total (95 :: l ++ ascii "_linker").length (ascii "_compiler").length with hle | hle
    · exact (key l hl).1 (List.suffix_of_suffix_length_le sl sr hle)
    · exact (key l hl).2 (List.suffix_of_suffix_length_le sr sl hle)
  | some t =>
    have ht := ht t rfl
    have sr : (102 :: 111 :: 114 :: 95 :: escapeRule t) <:+ compilerRule pre lang (some t) := by
      simp only [compilerRule]
      rw [escape_append, show ascii "_compiler_for_" = ascii "_compiler_" ++ [102, 111, 114, 95] from by decide, ← List.append_assoc (pre ++ ascii "_" ++ lang), escape_append,
        show escapeRule [102, 111, 114, 95] = [102, 111, 114, 95] from by decide]
      rw [List.append_assoc]
      exact List.suffix_append _ _
    rcases Nat.lt_or_ge (95 :: l ++ ascii "_linker").length (102 :: 111 :: 114 :: 95 :: escapeRule t).length with hlt | hge
    · have hs := List.suffix_of_suffix_length_le sl sr (by omega)
      rw [List.suffix_cons_iff] at hs
      rcases hs with hs | hs
      · simp at hs
      rw [List.suffix_cons_iff] at hs
      rcases hs with hs | hs
      · simp at hs
      rw [List.suffix_cons_iff] at hs
      rcases hs with hs | hs
      · simp at hs
      exact ht hs
    · have hs := List.suffix_of_suffix_length_le sr sl hge
      have key : ∀ l ∈ linkLangs, (95 :: l ++ ascii "_linker").length < 20 ∧ ∀ i ∈ List.range 20, ¬ [102, 111, 114, 95] <+: (95 :: l ++ ascii "_linker").drop i := by decide
      obtain ⟨z, hz⟩ := hs
      obtain ⟨k1, k2⟩ := key l hl
      refine k2 z.length (List.mem_range.2 ?_) ?_
      · have := congrArg List.length hz
        rw [List.length_append] at this
        omega
      · rw [← hz, List.drop_left]
        exact ⟨escapeRule t, rfl⟩

/-- The linker rules of projects: the prefix and the languages. -/
def linkers (ps : List (Bytes × List Bytes)) : List Bytes := ps.flatMap (fun p => p.2.map (linkerRule p.1))

theorem linkers_nodup : ∀ (ps : List (Bytes × List Bytes)), (ps.map (·.1)).Nodup → (∀ p ∈ ps, p.2.Nodup ∧ ∀ l ∈ p.2, l ∈ linkLangs) → (linkers ps).Nodup
  | [], _, _ => by simp [linkers]
  | p :: ps, h1, h2 => by
    rw [List.map_cons, List.nodup_cons] at h1
    have ih := linkers_nodup ps h1.2 (fun q hq => h2 q (by simp [hq]))
    rw [linkers, List.flatMap_cons, List.nodup_append]
    obtain ⟨a1, a2⟩ := h2 p (by simp)
    refine ⟨?_, ih, ?_⟩
    · clear ih h1 h2
      generalize p.2 = ls at a1 a2
      induction ls with
      | nil => simp
      | cons l ls ih =>
        rw [List.nodup_cons] at a1
        rw [List.map_cons, List.nodup_cons]
        refine ⟨?_, ih a1.2 (fun m hm => a2 m (by simp [hm]))⟩
        intro hm
        obtain ⟨m, hm, he⟩ := List.mem_map.1 hm
        have := (linker_inj (a2 m (by simp [hm])) (a2 l (by simp)) he).2
        exact a1.1 (this ▸ hm)
    · intro x hx y hy he
      obtain ⟨l, hl, rfl⟩ := List.mem_map.1 hx
      obtain ⟨q, hq, hy⟩ := List.mem_flatMap.1 hy
      obtain ⟨m, hm, rfl⟩ := List.mem_map.1 hy
      have := (linker_inj (a2 l hl) ((h2 q (by simp [hq])).2 m hm) he).1
      exact h1.1 (List.mem_map.2 ⟨q, hq, this.symm⟩)

theorem escape_twice (s : Bytes) : escapeRule (escapeRule s) = escapeRule s := by
  have key : ∀ c : UInt8, (fun c : UInt8 => if c = 95 ∨ (97 ≤ c ∧ c ≤ 122) ∨ (65 ≤ c ∧ c ≤ 90) ∨ (48 ≤ c ∧ c ≤ 57) then c else 95)
      ((fun c : UInt8 => if c = 95 ∨ (97 ≤ c ∧ c ≤ 122) ∨ (65 ≤ c ∧ c ≤ 90) ∨ (48 ≤ c ∧ c ≤ 57) then c else 95) c) =
      (if c = 95 ∨ (97 ≤ c ∧ c ≤ 122) ∨ (65 ≤ c ∧ c ≤ 90) ∨ (48 ≤ c ∧ c ≤ 57) then c else 95) := forall_byte (by decide +kernel)
  simp only [escapeRule, List.map_map]
  exact List.map_congr_left (fun c _ => key c)

/-- Escaped names are names of ninja. -/
theorem escape_name (s : Bytes) : ∀ c ∈ escapeRule s, Manifest.Spec.nameChar c := by
  have key : ∀ c : UInt8, Manifest.Spec.nameChar (if c = 95 ∨ (97 ≤ c ∧ c ≤ 122) ∨ (65 ≤ c ∧ c ≤ 90) ∨ (48 ≤ c ∧ c ≤ 57) then c else 95) := by
    unfold Manifest.Spec.nameChar
    exact forall_byte (by decide +kernel)
  intro c hc
  obtain ⟨d, -, rfl⟩ := List.mem_map.1 hc
  exact key d

theorem digit_name : ∀ c : UInt8, 48 ≤ c ∧ c ≤ 57 → Manifest.Spec.nameChar c := by
  unfold Manifest.Spec.nameChar
  exact forall_byte (by decide +kernel)

end Muon.Ninja
