import Verif.Opt.Lemmas
import Verif.Str.Props
/-
C37 and C38: options and their values.
-/
namespace Muon.Opt
open Muon Muon.Opt.Spec

/-! ### C38 -/

/-- Every assignment written as `subproject:key=value` or `key=value` is read as it was meant. -/
theorem config_roundtrip (sub : Option Bytes) (key val : Bytes) (hk : Name key) (hs : ∀ p, sub = some p → Name p) (h0 : 0 ∉ written sub key val) :
    parseConfig (written sub key val) = some (sub, key, val) := by
  have hloop : parseLoop (written sub key val) ⟨none, [], [], true⟩ = some ⟨sub, key, val, false⟩ := by
    unfold written
    cases sub with
    | none =>
      rw [List.nil_append, parseLoop_key key _ _ rfl hk.2.1 hk.2.2, parseLoop_eq _ _ rfl]
      rfl
    | some p =>
      have hp := hs p rfl
      dsimp only
      rw [List.append_assoc, parseLoop_key p _ _ rfl hp.2.1 hp.2.2, List.singleton_append, parseLoop_colon _ _ rfl, if_neg (by simp),
        parseLoop_key key _ _ rfl hk.2.1 hk.2.2, parseLoop_eq _ _ rfl]
      rfl
  unfold parseConfig
  rw [if_neg (by simpa using h0), hloop]
  dsimp only
  rw [if_neg hk.1, if_neg]
  intro h
  exact (hs [] h).1 rfl

/-- Nothing else is accepted. -/
theorem config_only (s : Bytes) (sub : Option Bytes) (key val : Bytes) (h : parseConfig s = some (sub, key, val)) :
    s = written sub key val ∧ Name key ∧ (∀ p, sub = some p → Name p) ∧ 0 ∉ s := by
  unfold parseConfig at h
  split at h
  · cases h
  · next h0 =>
    have h0' : 0 ∉ s := by simpa using h0
    rcases split_sep s with ⟨a, b⟩ | ⟨k, c, r, rfl, a, b, rfl | rfl⟩
    · have := parseLoop_key s [] ⟨none, [], [], true⟩ rfl a b
      rw [List.append_nil] at this
      rw [this, parseLoop] at h
      simp at h
    · rw [parseLoop_key k _ _ rfl a b, parseLoop_colon _ _ rfl, if_neg (by simp)] at h
      dsimp only at h
      rcases parseLoop_rest r ⟨some ([] ++ k), [], [], true⟩ rfl rfl rfl rfl with ⟨k', v, rfl, a', b', e⟩ | ⟨_, e | ⟨st', e, hk⟩⟩
      · rw [e] at h
        dsimp only at h
        split at h
        · cases h
        · next hk' =>
          split at h
          · cases h
          · next hs' =>
            cases h
            refine ⟨by simp [written], ⟨hk', a', b'⟩, ?_, h0'⟩
            rintro p ⟨rfl⟩
            exact ⟨fun he => hs' (by rw [he]), a, b⟩
      · rw [e] at h; cases h
      · rw [e] at h
        dsimp only at h
        rw [if_pos hk] at h
        cases h
    · rw [parseLoop_key k _ _ rfl a b, parseLoop_eq _ _ rfl] at h
      dsimp only at h
      split at h
      · cases h
      · next hk' =>
        rw [if_neg (by simp)] at h
        cases h
        exact ⟨by simp [written], ⟨hk', a, b⟩, (fun p hp => by cases hp), h0'⟩

/-- A string can be read in only one way. -/
theorem config_unique (sub sub' : Option Bytes) (key key' val val' : Bytes) (hk : Name key) (hk' : Name key') (hs : ∀ p, sub = some p → Name p)
    (hs' : ∀ p, sub' = some p → Name p) (h0 : 0 ∉ written sub key val) (h : written sub key val = written sub' key' val') : sub = sub' ∧ key = key' ∧ val = val' := by
  have h1 := config_roundtrip sub key val hk hs h0
  rw [h, config_roundtrip sub' key' val' hk' hs' (h ▸ h0)] at h1
  simp only [Option.some.injEq, Prod.mk.injEq] at h1
  exact ⟨h1.1.symm, h1.2.1.symm, h1.2.2.symm⟩

example : parseConfig (ascii "sub:c_args=-Da=b:c") = some (some (ascii "sub"), ascii "c_args", ascii "-Da=b:c") := by decide +kernel
example : parseConfig (ascii "=x") = none ∧ parseConfig (ascii ":k=x") = none ∧ parseConfig (ascii "a:b:k=x") = none ∧ parseConfig (ascii "key") = none := by decide +kernel

/-! ### C37: values -/

/-- Text in front of the first part. -/
def addPre (p : Bytes) : List Bytes → List Bytes
  | q :: qs => (p ++ q) :: qs
  | [] => [p]

theorem splitComma_ne (s : Bytes) : splitComma s ≠ [] := by
  induction s with
  | nil => simp [splitComma]
  | cons c s ih =>
    unfold splitComma
    split
    · simp
    · split <;> simp

theorem addPre_nil (l : List Bytes) (h : l ≠ []) : addPre [] l = l := by
  cases l with
  | nil => exact absurd rfl h
  | cons a l => rfl

theorem split_go (s : Bytes) (n : Nat) : ∀ (i start : Nat) (res : List Bytes), s.length - i = n → start ≤ i → i ≤ s.length →
    Loop (Str.splitStep s [44]) ⟨i, start, res⟩ (res ++ addPre (Str.slice s start (i - start)) (splitComma (s.drop i))) := by
  induction n with
  | zero =>
    intro i start res hn hs hi
    refine .done ?_
    have hlen : i = s.length := by omega
    unfold Str.splitStep
    rw [if_neg (by dsimp only; omega)]
    subst hlen
    rw [List.drop_length]
    simp [splitComma, addPre]
  | succ n ih =>
    intro i start res hn hs hi
    have hlt : i < s.length := by omega
    have hd : s.drop i = s[i] :: s.drop (i + 1) := List.drop_eq_getElem_cons hlt
    by_cases hc : s[i] = 44
    · have hsw : Str.startswith (s.drop i) [44] = true := by
        rw [hd, hc]; simp [Str.startswith]
      refine .next (s' := ⟨i + 1, i + 1, res ++ [Str.slice s start (i - start)]⟩) ?_ ?_
      · unfold Str.splitStep
        rw [if_pos hlt, if_pos hsw]
        rfl
      · have := ih (i + 1) (i + 1) (res ++ [Str.slice s start (i - start)]) (by omega) (Nat.le_refl _) (by omega)
        rw [show Str.slice s (i + 1) (i + 1 - (i + 1)) = [] from by simp [Str.slice], addPre_nil _ (splitComma_ne _)] at this
        rw [hd, splitComma, if_pos hc]
        simpa [addPre] using this
    · have hsw : Str.startswith (s.drop i) [44] = false := by
        have ht : (s.drop i).take 1 = [s[i]] := by rw [hd]; rfl
        simp [Str.startswith, ht, hc]
      refine .next (s' := ⟨i + 1, start, res⟩) ?_ ?_
      · unfold Str.splitStep
        rw [if_pos hlt, if_neg (by dsimp only; rw [hsw]; simp)]
      · have := ih (i + 1) start res (by omega) (by omega) (by omega)
        rw [hd, splitComma, if_neg hc]
        have hsl : Str.slice s start (i + 1 - start) = Str.slice s start (i - start) ++ [s[i]] := by
          unfold Str.slice
          rw [show i + 1 - start = (i - start) + 1 from by omega, List.take_add_one]
          congr 1
          rw [List.getElem?_drop, show start + (i - start) = i from by omega, List.getElem?_eq_getElem hlt]
          rfl
        rw [hsl] at this
        cases hq : splitComma (s.drop (i + 1)) with
        | nil => exact absurd hq (splitComma_ne _)
        | cons q qs =>
          rw [hq] at this
          simpa [addPre] using this

/-- An array given as text without brackets is split at the commas, as by `str_split`. -/
theorem splitComma_splits (s : Bytes) : Str.SplitsInto s [44] (splitComma s) := by
  have h := split_go s s.length 0 0 [] (by omega) (by omega) (by omega)
  rw [show Str.slice s 0 (0 - 0) = [] from by simp [Str.slice], List.drop_zero, addPre_nil _ (splitComma_ne s), List.nil_append] at h
  exact h

theorem typecheck_validate {o : Opt} {v v' : OV} (h1 : typecheckOpt o.ty v = some v') (h2 : validate o v' = .ok true) :
    Valid o v' ∨ (v' = .disabler ∧ v = .disabler) := by
  have ht : hasType o.ty v' = true ∧ (v' = .disabler → v = .disabler) := by
    unfold typecheckOpt at h1
    dsimp only at h1
    split at h1
    · next x hx =>
      split at h1
      · next hh =>
        cases h1
        refine ⟨hh, fun hd => ?_⟩
        split at hx
        · next s =>
          unfold coerceFeature at hx
          subst hd
          split at hx
          · cases hx
          · split at hx
            · cases hx
            · split at hx <;> cases hx
        · cases hx; exact hd
      · cases h1
    · cases h1
  by_cases hd : v' = .disabler
  · exact .inr ⟨hd, ht.2 hd⟩
  · left
    have ht := ht.1
    unfold validate at h2
    unfold Valid
    cases hty : o.ty <;> rw [hty] at ht h2 <;> cases v' <;> try first | trivial | (exact absurd rfl hd) | (simp [hasType] at ht)
    · next s =>
      dsimp only at h2
      cases hc : o.choices with
      | none => rw [hc] at h2; cases h2
      | some cs =>
        rw [hc] at h2
        simp only [Res.ok.injEq] at h2
        exact ⟨cs, rfl, by simpa using h2⟩
    · next n =>
      simp only [Res.ok.injEq, Bool.not_eq_true', Bool.or_eq_false_iff] at h2
      refine ⟨fun m hm => ?_, fun m hm => ?_⟩
      · have := h2.1; rw [hm] at this; simp at this; omega
      · have := h2.2; rw [hm] at this; simp at this; omega
    · next l =>
      intro cs hcs e he
      rw [hcs] at h2
      simp only [Res.ok.injEq, List.all_eq_true] at h2
      simpa using h2 e he

/-! ### C37: precedence -/

/-- An assignment: the option, the value, where it comes from, and whether it is text to be converted. -/
structure Asg where
  opt : Nat
  val : OV
  source : Nat
  text : Bool
deriving DecidableEq, Repr

/-- Assignments one after another; the flag tells whether all succeeded. -/
def setAll (ev : Bytes → Option OV) (proj : Option Bytes) (f : Nat) : List Asg → Bool × W → Res (Bool × W)
  | [], r => .ok r
  | a :: l, (ok, w) => setOption ev proj f w a.opt a.val a.source a.text >>= fun r => setAll ev proj f l (ok && r.1, r.2)

/-- No option is deprecated to another name. -/
def NoRename (w : W) : Prop := ∀ o ∈ w.opts, ∀ n, o.dep ≠ some (.rename n)

theorem Step.noRename {ev : Bytes → Option OV} {w w' : W} {i : Nat} {v : OV} {src : Nat} {c b : Bool} {o o' : Opt} (st : Step ev w i v src c b w' o o')
    (h : NoRename w) : NoRename w' := by
  intro x hx n
  obtain ⟨j, hj⟩ := List.mem_iff_getElem?.1 hx
  by_cases hji : j = i
  · rw [hji, st.new] at hj
    cases hj
    rw [st.same.2.2.2.2.2]
    exact h o (List.mem_iff_getElem?.2 ⟨i, st.old⟩) n
  · rw [st.frame j hji] at hj
    exact h x (List.mem_iff_getElem?.2 ⟨j, hj⟩) n

theorem noRename_at {w : W} (h : NoRename w) {i : Nat} : ∀ o, w.opts[i]? = some o → ∀ n, o.dep ≠ some (.rename n) :=
  fun o ho => h o (List.mem_iff_getElem?.2 ⟨i, ho⟩)

section
variable (ev : Bytes → Option OV) (proj : Option Bytes) (f : Nat)

theorem setAll_append (l1 l2 : List Asg) : ∀ r, setAll ev proj f (l1 ++ l2) r = setAll ev proj f l1 r >>= fun r => setAll ev proj f l2 r := by
  induction l1 with
  | nil => intro r; rfl
  | cons a l1 ih =>
    intro r
    obtain ⟨ok, w⟩ := r
    rw [List.cons_append, setAll, setAll]
    cases setOption ev proj f w a.opt a.val a.source a.text with
    | ok r => rw [Res.ok_bind, Res.ok_bind]; exact ih _
    | error => rfl
    | bad => rfl

/-- Assignments of at most some precedence. -/
theorem setAll_le (j s : Nat) (l : List Asg) : ∀ (ok : Bool) (w : W) (b : Bool) (w' : W) (o : Opt), NoRename w → w.opts[j]? = some o → o.source ≤ s →
    (∀ a ∈ l, a.opt = j → a.source ≤ s) → setAll ev proj (f + 1) l (ok, w) = .ok (b, w') →
    NoRename w' ∧ ∃ o', w'.opts[j]? = some o' ∧ Same o o' ∧ o'.source ≤ s := by
  induction l with
  | nil =>
    intro ok w b w' o hn ho hs _ h
    cases h
    exact ⟨hn, o, ho, ⟨rfl, rfl, rfl, rfl, rfl, rfl⟩, hs⟩
  | cons a l ih =>
    intro ok w b w' o hn ho hs hl h
    unfold setAll at h
    cases hset : setOption ev proj (f + 1) w a.opt a.val a.source a.text with
    | ok r =>
      rw [hset, Res.ok_bind] at h
      obtain ⟨o1, o1', st⟩ := setOption_step (noRename_at hn) hset
      have hn' := st.noRename hn
      by_cases hj : j = a.opt
      · subst hj
        have hold := st.old
        rw [ho] at hold
        cases hold
        have hle : o1'.source ≤ s := by
          by_cases hlow : o.source > a.source
          · rw [(st.low hlow).1]; exact hs
          · rw [(st.high (by omega)).1]; exact hl a (by simp) rfl
        obtain ⟨g1, o2, g2, g3, g4⟩ := ih _ _ _ _ _ hn' st.new hle (fun x hx => hl x (by simp [hx])) h
        obtain ⟨a1, a2, a3, a4, a5, a6⟩ := st.same
        obtain ⟨b1, b2, b3, b4, b5, b6⟩ := g3
        exact ⟨g1, o2, g2, ⟨b1.trans a1, b2.trans a2, b3.trans a3, b4.trans a4, b5.trans a5, b6.trans a6⟩, g4⟩
      · exact ih _ _ _ _ o hn' (by rw [st.frame j hj]; exact ho) hs (fun x hx => hl x (by simp [hx])) h
    | error => rw [hset] at h; cases h
    | bad => rw [hset] at h; cases h

/-- Assignments of lower precedence change nothing. -/
theorem opt_lower (j : Nat) (l : List Asg) : ∀ (ok : Bool) (w : W) (b : Bool) (w' : W) (o : Opt), NoRename w → w.opts[j]? = some o →
    (∀ a ∈ l, a.opt = j → a.source < o.source) → setAll ev proj (f + 1) l (ok, w) = .ok (b, w') → w'.opts[j]? = some o := by
  induction l with
  | nil => intro ok w b w' o _ ho _ h; cases h; exact ho
  | cons a l ih =>
    intro ok w b w' o hn ho hl h
    unfold setAll at h
    cases hset : setOption ev proj (f + 1) w a.opt a.val a.source a.text with
    | ok r =>
      rw [hset, Res.ok_bind] at h
      obtain ⟨o1, o1', st⟩ := setOption_step (noRename_at hn) hset
      refine ih _ _ _ _ o (st.noRename hn) ?_ (fun x hx => hl x (by simp [hx])) h
      by_cases hj : j = a.opt
      · subst hj
        have hold := st.old
        rw [ho] at hold
        cases hold
        rw [st.new, (st.low (hl a (by simp) rfl)).1]
      · rw [st.frame j hj]; exact ho
    | error => rw [hset] at h; cases h
    | bad => rw [hset] at h; cases h

/-- The value of an option is that of the assignment of the highest precedence, the last one of those: after any sequence of
assignments it is what this assignment alone would have made it. -/
theorem opt_precedence (w w1 w' : W) (ok b : Bool) (pre post : List Asg) (a : Asg) (o : Opt) (hn : NoRename w) (ho : w.opts[a.opt]? = some o)
    (h0 : o.source ≤ a.source) (hpre : ∀ x ∈ pre, x.opt = a.opt → x.source ≤ a.source) (hpost : ∀ x ∈ post, x.opt = a.opt → x.source < a.source)
    (halone : setOption ev proj (f + 1) w a.opt a.val a.source a.text = .ok (true, w1))
    (hrun : setAll ev proj (f + 1) (pre ++ a :: post) (ok, w) = .ok (b, w')) :
    ∃ o1 o', w1.opts[a.opt]? = some o1 ∧ w'.opts[a.opt]? = some o' ∧ o'.val = o1.val ∧ o'.source = a.source := by
  obtain ⟨o0, o1, st⟩ := setOption_step (noRename_at hn) halone
  have hold := st.old
  rw [ho] at hold
  cases hold
  rw [setAll_append] at hrun
  cases hp : setAll ev proj (f + 1) pre (ok, w) with
  | ok r =>
    rw [hp, Res.ok_bind] at hrun
    obtain ⟨ok2, w2⟩ := r
    obtain ⟨hn2, o2, g2, g3, g4⟩ := setAll_le ev proj f a.opt a.source pre ok w ok2 w2 o hn ho h0 hpre hp
    unfold setAll at hrun
    cases hset : setOption ev proj (f + 1) w2 a.opt a.val a.source a.text with
    | ok r =>
      rw [hset, Res.ok_bind] at hrun
      obtain ⟨ok3, w3⟩ := r
      obtain ⟨o2', o3, st3⟩ := setOption_step (noRename_at hn2) hset
      have hold := st3.old
      rw [g2] at hold
      cases hold
      have hsame := acceptV_same (ev := ev) g3 a.val a.text
      have hacc := (st.high h0).2.1 rfl
      have hhigh := st3.high g4
      have h3 : o3.val = o1.val := by
        cases ok3 with
        | true =>
          have := hhigh.2.1 rfl
          rw [hsame, hacc] at this
          exact (Option.some.inj (Res.ok.inj this)).symm
        | false =>
          have := (hhigh.2.2 rfl).2
          rw [hsame, hacc] at this
          cases this
      have hfin := opt_lower ev proj f a.opt post _ w3 b w' o3 (st3.noRename hn2) st3.new (fun x hx he => by rw [hhigh.1]; exact hpost x hx he) hrun
      exact ⟨o1, o3, st.new, hfin, h3, hhigh.1⟩
    | error => rw [hset] at hrun; cases hrun
    | bad => rw [hset] at hrun; cases hrun
  | error => rw [hp] at hrun; cases hrun
  | bad => rw [hp] at hrun; cases hrun

theorem last_split {α : Type} [DecidableEq α] (a : α) : ∀ (l : List α), a ∈ l → ∃ p q, l = p ++ a :: q ∧ a ∉ q := by
  intro l
  induction l with
  | nil => intro h; cases h
  | cons b l ih =>
    intro h
    by_cases hl : a ∈ l
    · obtain ⟨p, q, rfl, hq⟩ := ih hl
      exact ⟨b :: p, q, rfl, hq⟩
    · rcases List.mem_cons.1 h with rfl | h
      · exact ⟨[], l, rfl, hl⟩
      · exact absurd h hl

/-- The order of the assignments does not matter, if one of them has a higher precedence than all others. -/
theorem opt_order (w w1 w' w'' : W) (b b' : Bool) (l l' : List Asg) (a : Asg) (o : Opt) (hn : NoRename w) (ho : w.opts[a.opt]? = some o)
    (h0 : o.source ≤ a.source) (hmem : a ∈ l) (hmax : ∀ x ∈ l, x.opt = a.opt → x = a ∨ x.source < a.source) (hperm : l.Perm l')
    (halone : setOption ev proj (f + 1) w a.opt a.val a.source a.text = .ok (true, w1))
    (hrun : setAll ev proj (f + 1) l (true, w) = .ok (b, w')) (hrun' : setAll ev proj (f + 1) l' (true, w) = .ok (b', w'')) :
    ∃ o' o'', w'.opts[a.opt]? = some o' ∧ w''.opts[a.opt]? = some o'' ∧ o'.val = o''.val ∧ o'.source = o''.source := by
  have go : ∀ (l : List Asg) (b : Bool) (w' : W), a ∈ l → (∀ x ∈ l, x.opt = a.opt → x = a ∨ x.source < a.source) →
      setAll ev proj (f + 1) l (true, w) = .ok (b, w') →
      ∃ o1 o', w1.opts[a.opt]? = some o1 ∧ w'.opts[a.opt]? = some o' ∧ o'.val = o1.val ∧ o'.source = a.source := by
    intro l b w' hm hx hr
    obtain ⟨p, q, rfl, hq⟩ := last_split a l hm
    refine opt_precedence ev proj f w w1 w' true b p q a o hn ho h0 (fun x hxm he => ?_) (fun x hxm he => ?_) halone hr
    · rcases hx x (by simp [hxm]) he with rfl | h
      · exact Nat.le_refl _
      · omega
    · rcases hx x (by simp [hxm]) he with rfl | h
      · exact absurd hxm hq
      · exact h
  obtain ⟨o1, o', e1, e2, e3, e4⟩ := go l b w' hmem hmax hrun
  obtain ⟨o2, o'', g1, g2, g3, g4⟩ := go l' b' w'' (hperm.mem_iff.1 hmem) (fun x hx => hmax x (hperm.mem_iff.2 hx)) hrun'
  rw [e1] at g1
  cases g1
  exact ⟨o', o'', e2, g2, e3.trans g3.symm, e4.trans g4.symm⟩

/-! ### The assignments of a project -/

/-- The assignments for this project to options that exist. -/
def relevant (lookup : Bytes → Option Nat) (oos : List Override) : List Asg :=
  oos.filterMap fun oo => if oo.proj = proj then (lookup oo.name).map fun i => ⟨i, .str oo.val, oo.source, true⟩ else none

/-- A project is set up by these assignments, in order; it fails if one of them fails or names no option. -/
theorem project_options (lookup : Bytes → Option Nat) (oos : List Override) : ∀ (ok : Bool) (w : W),
    applyOverrides ev proj f lookup oos (ok, w) =
      setAll ev proj f (relevant proj lookup oos) (ok, w) >>= fun r => .ok (r.1 && oos.all fun oo => decide (oo.proj ≠ proj) || (lookup oo.name).isSome, r.2) := by
  have hflag : ∀ (l : List Asg) (ok c : Bool) (w : W), setAll ev proj f l (ok && c, w) = setAll ev proj f l (ok, w) >>= fun r => .ok (r.1 && c, r.2) := by
    intro l
    induction l with
    | nil => intro ok c w; rfl
    | cons a l ih =>
      intro ok c w
      unfold setAll
      cases setOption ev proj f w a.opt a.val a.source a.text with
      | ok r =>
        rw [Res.ok_bind, Res.ok_bind, ← ih (ok && r.1) c r.2]
        cases ok <;> cases c <;> cases r.1 <;> rfl
      | error => rfl
      | bad => rfl
  induction oos with
  | nil => intro ok w; unfold applyOverrides relevant; simp [setAll]
  | cons oo oos ih =>
    intro ok w
    unfold applyOverrides
    by_cases hp : oo.proj = proj
    · rw [if_pos hp]
      cases hl : lookup oo.name with
      | some i =>
        have hrel : relevant proj lookup (oo :: oos) = ⟨i, .str oo.val, oo.source, true⟩ :: relevant proj lookup oos := by
          unfold relevant; rw [List.filterMap_cons, if_pos hp, hl]; rfl
        dsimp only
        rw [hrel]
        rw [setAll]
        cases setOption ev proj f w i (.str oo.val) oo.source true with
        | ok r =>
          rw [Res.ok_bind, Res.ok_bind, ih]
          simp [hl]
        | error => rfl
        | bad => rfl
      | none =>
        have hrel : relevant proj lookup (oo :: oos) = relevant proj lookup oos := by
          unfold relevant; rw [List.filterMap_cons, if_pos hp, hl]; rfl
        dsimp only
        rw [hrel, ih]
        have := hflag (relevant proj lookup oos) ok false w
        rw [Bool.and_false] at this
        rw [this]
        cases setAll ev proj f (relevant proj lookup oos) (ok, w) with
        | ok r => simp [Res.ok_bind, hp, hl]
        | error => rfl
        | bad => rfl
    · rw [if_neg hp, ih]
      have hrel : relevant proj lookup (oo :: oos) = relevant proj lookup oos := by
        unfold relevant; rw [List.filterMap_cons, if_neg hp]
      rw [hrel]
      simp [hp]

end

/-! ### C37: the value of an option is valid -/

/-- Every option has a value allowed for it. -/
def AllValid (w : W) : Prop := ∀ o ∈ w.opts, Valid o o.val

/-- Only values and sources differ. -/
def SameAll (w w' : W) : Prop := w'.opts.length = w.opts.length ∧ ∀ (i : Nat) (o o' : Opt), w.opts[i]? = some o → w'.opts[i]? = some o' → Same o o'

theorem Same.refl (o : Opt) : Same o o := ⟨rfl, rfl, rfl, rfl, rfl, rfl⟩

theorem Same.trans {a b c : Opt} (h : Same a b) (h' : Same b c) : Same a c := by
  obtain ⟨a1, a2, a3, a4, a5, a6⟩ := h
  obtain ⟨b1, b2, b3, b4, b5, b6⟩ := h'
  exact ⟨b1.trans a1, b2.trans a2, b3.trans a3, b4.trans a4, b5.trans a5, b6.trans a6⟩

theorem SameAll.refl (w : W) : SameAll w w := ⟨rfl, fun i o o' h h' => by rw [h] at h'; cases h'; exact Same.refl o⟩

theorem SameAll.trans {a b c : W} (h : SameAll a b) (h' : SameAll b c) : SameAll a c := by
  refine ⟨h'.1.trans h.1, fun i o o' ho ho' => ?_⟩
  have hlt : i < b.opts.length := by rw [h.1]; exact (List.getElem?_eq_some_iff.1 ho).1
  exact (h.2 i o _ ho (List.getElem?_eq_getElem hlt)).trans (h'.2 i _ o' (List.getElem?_eq_getElem hlt) ho')

theorem Valid.same {o o' : Opt} (h : Same o o') {v : OV} (hv : Valid o v) : Valid o' v := by
  obtain ⟨n, t, v1, ch, mi, ma, s, d⟩ := o
  obtain ⟨n', t', v1', ch', mi', ma', s', d'⟩ := o'
  obtain ⟨h1, h2, h3, h4, h5, h6⟩ := h
  simp only at h1 h2 h3 h4 h5 h6
  subst h1 h2 h3 h4 h5 h6
  exact hv

/-- Changing the value or the source of one option. -/
theorem sameAll_upd (w : W) (i : Nat) (g : Opt → Opt) (hg : ∀ o, Same o (g o)) : SameAll w (w.upd i g) := by
  refine ⟨by simp [W.upd], fun j o o' ho ho' => ?_⟩
  rw [upd_get, ho] at ho'
  by_cases h : i = j
  · rw [if_pos h] at ho'; cases ho'; exact hg o
  · rw [if_neg h] at ho'; cases ho'; exact Same.refl o

theorem allValid_upd (w : W) (i : Nat) (g : Opt → Opt) (h : AllValid w) (hg : ∀ o, w.opts[i]? = some o → Valid (g o) (g o).val) : AllValid (w.upd i g) := by
  intro o ho
  obtain ⟨j, hj⟩ := List.mem_iff_getElem?.1 ho
  rw [upd_get] at hj
  by_cases hij : i = j
  · rw [if_pos hij] at hj
    subst hij
    cases hw : w.opts[i]? with
    | none => rw [hw] at hj; cases hj
    | some o0 => rw [hw] at hj; cases hj; exact hg o0 hw
  · rw [if_neg hij] at hj
    exact h o (List.mem_iff_getElem?.2 ⟨j, hj⟩)

theorem store_valid {w : W} {i : Nat} {o : Opt} {v : OV} {b : Bool} {w' : W} (hw : AllValid w) (ho : ∀ o1, w.opts[i]? = some o1 → Same o o1)
    (hv : v ≠ .disabler) (h : store w i o v = .ok (b, w')) : AllValid w' ∧ SameAll w w' := by
  unfold store at h
  cases ht : typecheckOpt o.ty v with
  | none => rw [ht] at h; cases h; exact ⟨hw, SameAll.refl w⟩
  | some v' =>
    rw [ht] at h
    dsimp only at h
    cases hval : validate o v' with
    | ok x =>
      rw [hval, Res.ok_bind] at h
      cases x with
      | false => cases h; exact ⟨hw, SameAll.refl w⟩
      | true =>
        cases h
        refine ⟨allValid_upd w i _ hw fun o1 ho1 => ?_, sameAll_upd w i _ fun o => ⟨rfl, rfl, rfl, rfl, rfl, rfl⟩⟩
        rcases typecheck_validate ht hval with h | ⟨_, h⟩
        · exact Valid.same (o := o1) ⟨rfl, rfl, rfl, rfl, rfl, rfl⟩ (Valid.same (ho o1 ho1) h)
        · exact absurd h hv
    | error => rw [hval] at h; cases h
    | bad => rw [hval] at h; cases h

theorem coerceTy_disabler (ty : Ty) (early : Option OV) (s : Bytes) (h : early ≠ some .disabler) : coerceTy ty early s ≠ some .disabler := by
  unfold coerceTy
  cases ty <;> dsimp only
  · simp
  · split
    · simp
    · split <;> simp
  · simp
  · unfold coerceInt
    split <;> simp
  · exact h
  · unfold coerceFeature
    split
    · simp
    · split
      · simp
      · split <;> simp

theorem coerceWith_disabler {o : Opt} {early : Option OV} {s : Bytes} {r : Option OV} (h : early ≠ some .disabler) (hc : coerceWith o early s = .ok r) :
    r ≠ some .disabler := by
  unfold coerceWith at hc
  split at hc
  · split at hc
    · split at hc
      · cases hc; simp
      · split at hc
        · cases hc; exact h
        · cases hc
    · split at hc <;> (cases hc; exact coerceTy_disabler _ _ _ (by simp))
  · cases hc; exact coerceTy_disabler _ _ _ h

theorem setOption_valid (ev : Bytes → Option OV) (proj : Option Bytes) (hev : ∀ s, ev s ≠ some .disabler) (f : Nat) :
    ∀ (w : W) (i : Nat) (v : OV) (src : Nat) (c b : Bool) (w' : W), AllValid w → v ≠ .disabler → setOption ev proj f w i v src c = .ok (b, w') →
    AllValid w' ∧ SameAll w w' := by
  induction f with
  | zero => intro w i v src c b w' _ _ h; cases h
  | succ f ih =>
    intro w i v src c b w' hw hv h
    unfold setOption at h
    cases ho : w.opts[i]? with
    | none => rw [ho] at h; cases h
    | some o =>
      rw [ho] at h
      dsimp only at h
      split at h
      · cases h; exact ⟨hw, SameAll.refl w⟩
      · have hw1 : AllValid (w.upd i fun o => { o with source := src }) := by
          refine allValid_upd w i _ hw fun o1 ho1 => ?_
          exact Valid.same (o := o1) ⟨rfl, rfl, rfl, rfl, rfl, rfl⟩ (hw o1 (List.mem_iff_getElem?.2 ⟨i, ho1⟩))
        have hs1 : SameAll w (w.upd i fun o => { o with source := src }) := sameAll_upd w i _ fun o => ⟨rfl, rfl, rfl, rfl, rfl, rfl⟩
        by_cases hc : c = true
        · rw [if_pos hc] at h
          cases v with
          | str s =>
            dsimp only at h
            have hearly : (if o.ty = .array then coerceArray ev s else none) ≠ some .disabler := by
              split
              · unfold coerceArray
                split
                · simp
                · split
                  · exact hev s
                  · simp
              · simp
            generalize (if o.ty = .array then coerceArray ev s else none) = early at h hearly
            split at h
            · cases h; exact ⟨hw1, hs1⟩
            · have hr : ∀ w2, renameTo (fun w j => setOption ev proj f w j (.str s) srcDeprecatedRename true) proj (w.upd i fun o => { o with source := src }) s o.dep
                  = .ok w2 → AllValid w2 ∧ SameAll w w2 := by
                intro w2 h2
                unfold renameTo at h2
                split at h2
                · split at h2
                  · next j hj =>
                    rw [Res.bind_eq_ok] at h2
                    obtain ⟨⟨b2, w3⟩, h3, h4⟩ := h2
                    cases h4
                    obtain ⟨g1, g2⟩ := ih _ _ _ _ _ _ _ hw1 (by simp) h3
                    exact ⟨g1, hs1.trans g2⟩
                  · cases h2; exact ⟨hw1, hs1⟩
                · cases h2; exact ⟨hw1, hs1⟩
              rw [Res.bind_eq_ok] at h
              obtain ⟨w2, h2, h⟩ := h
              obtain ⟨g1, g2⟩ := hr w2 h2
              rw [Res.bind_eq_ok] at h
              obtain ⟨r, hr, h⟩ := h
              have hrd := coerceWith_disabler hearly hr
              cases r with
              | none => cases h; exact ⟨g1, g2⟩
              | some v' =>
                obtain ⟨e1, e2⟩ := store_valid g1 (fun o1 ho1 => g2.2 i o o1 ho ho1) (fun e => hrd (by rw [e])) h
                exact ⟨e1, g2.trans e2⟩
          | _ => cases h
        · rw [if_neg hc] at h
          obtain ⟨e1, e2⟩ := store_valid hw1 (fun o1 ho1 => hs1.2 i o o1 ho ho1) hv h
          exact ⟨e1, hs1.trans e2⟩

/-- An operation of a build description, or of the command line. -/
inductive Act
  /-- `option()` -/
  | create (o : Opt) (default : OV)
  /-- an assignment -/
  | set (a : Asg)

/-- Any sequence of operations; whether they succeed does not matter. -/
def acts (ev : Bytes → Option OV) (proj : Option Bytes) (f : Nat) : List Act → W → Res W
  | [], w => .ok w
  | .create o v :: l, w => createOption ev proj f w o v >>= fun r => acts ev proj f l r.2
  | .set a :: l, w => setOption ev proj f w a.opt a.val a.source a.text >>= fun r => acts ev proj f l r.2

/-- The operations which set a value that is not text. -/
def Act.proper : Act → Prop
  | .create o v => o.source = srcUnset ∧ v ≠ .disabler
  | .set a => a.val ≠ .disabler

/-- The names of the options are different, and can be told from the names of subprojects. -/
def Names (w : W) : Prop := (w.opts.map (·.name)).Nodup ∧ ∀ o ∈ w.opts, 0 ∉ o.name ∧ 58 ∉ o.name

theorem SameAll.names {w w' : W} (h : SameAll w w') : w'.opts.map (·.name) = w.opts.map (·.name) := by
  apply List.ext_getElem?
  intro i
  rw [List.getElem?_map, List.getElem?_map]
  cases h1 : w.opts[i]? with
  | none =>
    rw [List.getElem?_eq_none (by rw [h.1]; exact List.getElem?_eq_none_iff.1 h1)]
  | some o =>
    have hlt : i < w'.opts.length := by rw [h.1]; exact (List.getElem?_eq_some_iff.1 h1).1
    rw [List.getElem?_eq_getElem hlt]
    simp only [Option.map_some, Option.some.injEq]
    exact (h.2 i o _ h1 (List.getElem?_eq_getElem hlt)).1

theorem Names.same {w w' : W} (h : SameAll w w') (hn : Names w) : Names w' := by
  refine ⟨by rw [h.names]; exact hn.1, fun o ho => ?_⟩
  have : o.name ∈ w'.opts.map (·.name) := List.mem_map.2 ⟨o, ho, rfl⟩
  rw [h.names] at this
  obtain ⟨o', ho', e⟩ := List.mem_map.1 this
  rw [← e]
  exact hn.2 o' ho'

theorem modify_last (l : List Opt) (o : Opt) (g : Opt → Opt) : (l ++ [o]).modify l.length g = l ++ [g o] := by
  induction l with
  | nil => rfl
  | cons a l ih => rw [List.cons_append, List.length_cons, List.modify_succ_cons, ih, List.cons_append]

theorem createOption_valid (ev : Bytes → Option OV) (proj : Option Bytes) (f : Nat) (w : W) (o : Opt) (v : OV) (b : Bool) (w' : W)
    (hw : AllValid w) (hn : Names w) (hs : o.source = srcUnset) (hv : v ≠ .disabler) (h : createOption ev proj f w o v = .ok (b, w')) :
    AllValid w' ∧ Names w' ∧ (b = false → w' = w) ∧ (b = true → ∃ o', w'.opts = w.opts ++ [o'] ∧ Same o o' ∧ o'.source = srcDefault) := by
  unfold createOption at h
  rw [Res.bind_eq_ok] at h
  obtain ⟨⟨b2, w2⟩, h1, h⟩ := h
  dsimp only at h
  split at h
  · cases h; exact ⟨hw, hn, fun _ => rfl, fun h => by cases h⟩
  next hb2 =>
  split at h
  · cases h; exact ⟨hw, hn, fun _ => rfl, fun h => by cases h⟩
  next hname =>
  split at h
  · cases h; exact ⟨hw, hn, fun _ => rfl, fun h => by cases h⟩
  next hfind =>
  cases h
  have hb2 : b2 = true := by simpa using hb2
  subst hb2
  -- the assignment of the default
  cases f with
  | zero => cases h1
  | succ f =>
    unfold setOption at h1
    have hget : ({ w with opts := w.opts ++ [o] } : W).opts[w.opts.length]? = some o := by simp
    rw [hget] at h1
    dsimp only at h1
    rw [if_neg (by rw [hs]; decide), if_neg (by simp)] at h1
    unfold store at h1
    cases ht : typecheckOpt o.ty v with
    | none => rw [ht] at h1; cases h1
    | some v' =>
      rw [ht] at h1
      dsimp only at h1
      cases hval : validate o v' with
      | ok x =>
        rw [hval, Res.ok_bind] at h1
        cases x with
        | false => cases h1
        | true =>
          have hw2 : w' = { w with opts := w.opts ++ [{ o with source := srcDefault, val := v' }] } := by
            cases h1
            unfold W.upd
            rw [W.mk.injEq]
            exact ⟨by rw [modify_last, modify_last], rfl⟩
          subst hw2
          have hvalid : Valid o v' := by
            rcases typecheck_validate ht hval with h | ⟨_, h⟩
            · exact h
            · exact absurd h hv
          refine ⟨?_, ⟨?_, ?_⟩, (fun h => by cases h), fun _ => ⟨_, rfl, ⟨rfl, rfl, rfl, rfl, rfl, rfl⟩, rfl⟩⟩
          · intro x hx
            rcases List.mem_append.1 hx with hx | hx
            · exact hw x hx
            · rw [List.mem_singleton] at hx
              subst hx
              exact Valid.same (o := o) ⟨rfl, rfl, rfl, rfl, rfl, rfl⟩ hvalid
          · rw [List.map_append, List.nodup_append]
            refine ⟨hn.1, by simp, ?_⟩
            intro a ha c hc hac
            simp only [List.map_cons, List.map_nil, List.mem_singleton] at hc
            subst hac hc
            obtain ⟨x, hx, hxn⟩ := List.mem_map.1 ha
            apply hfind
            unfold find
            rw [List.findIdx?_isSome, List.any_eq_true]
            exact ⟨x, hx, by simpa using hxn⟩
          · intro x hx
            rcases List.mem_append.1 hx with hx | hx
            · exact hn.2 x hx
            · rw [List.mem_singleton] at hx
              subst hx
              simpa using hname
      | error => rw [hval] at h1; cases h1
      | bad => rw [hval] at h1; cases h1

/-- After any sequence of operations, failed or not, every option has a value of its type, among its choices and in its range,
and names are not ambiguous. Missing from the full property: the values computed from text in brackets are not the disabler. -/
theorem opt_valid_partial (ev : Bytes → Option OV) (proj : Option Bytes) (hev : ∀ s, ev s ≠ some .disabler) (f : Nat) (l : List Act) :
    ∀ (w w' : W), AllValid w → Names w → (∀ a ∈ l, a.proper) → acts ev proj f l w = .ok w' → AllValid w' ∧ Names w' := by
  induction l with
  | nil => intro w w' hw hn _ h; cases h; exact ⟨hw, hn⟩
  | cons a l ih =>
    intro w w' hw hn hl h
    have hp := hl a (by simp)
    cases a with
    | create o v =>
      unfold acts at h
      rw [Res.bind_eq_ok] at h
      obtain ⟨⟨b, w1⟩, h1, h⟩ := h
      obtain ⟨g1, g2, _⟩ := createOption_valid ev proj f w o v b w1 hw hn hp.1 hp.2 h1
      exact ih w1 w' g1 g2 (fun x hx => hl x (by simp [hx])) h
    | set a =>
      unfold acts at h
      rw [Res.bind_eq_ok] at h
      obtain ⟨⟨b, w1⟩, h1, h⟩ := h
      obtain ⟨g1, g2⟩ := setOption_valid ev proj hev f w a.opt a.val a.source a.text b w1 hw hp h1
      exact ih w1 w' g1 (hn.same g2) (fun x hx => hl x (by simp [hx])) h

/-- Adding to an array keeps it valid, if the option has no choices. -/
theorem extend_valid (w w' : W) (i : Nat) (l : List Bytes) (src : Nat) (hw : AllValid w) (hc : ∀ o, w.opts[i]? = some o → o.choices = none)
    (h : extendArray w i l src = .ok w') : AllValid w' := by
  unfold extendArray at h
  cases ho : w.opts[i]? with
  | none => rw [ho] at h; cases h
  | some o =>
    rw [ho] at h
    dsimp only at h
    split at h
    · cases h; exact hw
    · split at h
      · next a ha =>
        cases h
        refine allValid_upd w i _ hw fun o1 ho1 => ?_
        rw [ho] at ho1
        cases ho1
        have := hw o (List.mem_iff_getElem?.2 ⟨i, ho⟩)
        rw [ha] at this
        unfold Valid at this ⊢
        cases hty : o.ty <;> rw [hty] at this <;> dsimp only at this ⊢ <;> try exact this
        intro cs hcs
        rw [hc o ho] at hcs
        cases hcs
      · cases h

/-! ### C37: what does not hold -/

/-- An array option can be set to the disabler, by text in brackets. -/
theorem opt_disabler_counterexample : ∃ (ev : Bytes → Option OV) (w w' : W) (s : Bytes), AllValid w ∧ Names w ∧
    setOption ev none 1 w 0 (.str s) srcCommandline true = .ok (true, w') ∧ ¬ AllValid w' := by
  refine ⟨fun _ => some .disabler, ⟨[⟨ascii "a", .array, .arr [], none, none, none, srcDefault, none⟩], []⟩,
    ⟨[⟨ascii "a", .array, .disabler, none, none, none, srcCommandline, none⟩], []⟩, ascii "[disabler()][0]", ?_, ?_, ?_, ?_⟩
  · intro o ho; rw [List.mem_singleton] at ho; subst ho; intro cs h; cases h
  · exact ⟨by decide, by intro o ho; rw [List.mem_singleton] at ho; subst ho; decide⟩
  · decide
  · intro h; exact h _ (List.mem_singleton.2 rfl)

/-- With choices, the value of an option set to what evaluates to the disabler is used as an array. -/
theorem opt_disabler_choices_counterexample : ∃ (ev : Bytes → Option OV) (w : W) (s : Bytes), AllValid w ∧ Names w ∧
    ∀ f, setOption ev none f w 0 (.str s) srcCommandline true = .bad := by
  refine ⟨fun _ => some .disabler, ⟨[⟨ascii "a", .array, .arr [], some [.s (ascii "x")], none, none, srcDefault, none⟩], []⟩, ascii "[disabler()][0]", ?_, ?_, ?_⟩
  · intro o ho; rw [List.mem_singleton] at ho; subst ho; intro cs h e he; cases he
  · exact ⟨by decide, by intro o ho; rw [List.mem_singleton] at ho; subst ho; decide⟩
  · intro f
    cases f with
    | zero => rfl
    | succ f => rfl

/-- Setting an option which is deprecated to itself does not end. -/
theorem opt_rename_cycle_counterexample : ∃ (w : W) (s : Bytes), AllValid w ∧ Names w ∧ ∀ ev proj f,
    setOption ev proj f w 0 (.str s) srcDefaultOptions true = .bad := by
  have key : ∀ ev proj f src, src ≤ srcDeprecatedRename →
      setOption ev proj f ⟨[⟨ascii "a", .string, .str [], none, none, none, src, some (.rename (ascii "a"))⟩], []⟩ 0 (.str []) srcDeprecatedRename true = .bad := by
    intro ev proj f
    induction f with
    | zero => intros; rfl
    | succ f ih =>
      intro src hs
      have := ih srcDeprecatedRename (Nat.le_refl _)
      unfold setOption
      dsimp only [List.getElem?_cons_zero]
      rw [if_neg (by omega), if_pos rfl, if_neg (by simp)]
      rw [show renameTo (fun w j => setOption ev proj f w j (.str []) srcDeprecatedRename true) proj
        (W.upd ⟨[⟨ascii "a", .string, .str [], none, none, none, src, some (.rename (ascii "a"))⟩], []⟩ 0 fun o => { o with source := srcDeprecatedRename }) []
          (some (.rename (ascii "a"))) = .bad from by
        show (setOption ev proj f ⟨[⟨ascii "a", .string, .str [], none, none, none, srcDeprecatedRename, some (.rename (ascii "a"))⟩], []⟩ 0 (.str []) srcDeprecatedRename true >>= fun r => Res.ok r.2) = .bad
        rw [this]; rfl]
      rfl
  refine ⟨⟨[⟨ascii "a", .string, .str [], none, none, none, srcDefault, some (.rename (ascii "a"))⟩], []⟩, [], ?_, ?_, ?_⟩
  · intro o ho; rw [List.mem_singleton] at ho; subst ho; trivial
  · exact ⟨by decide, by intro o ho; rw [List.mem_singleton] at ho; subst ho; decide⟩
  · intro ev proj f
    cases f with
    | zero => rfl
    | succ f =>
      have := key ev proj f srcDefaultOptions (by decide)
      unfold setOption
      dsimp only [List.getElem?_cons_zero]
      rw [if_neg (by decide), if_pos rfl, if_neg (by simp)]
      rw [show renameTo (fun w j => setOption ev proj f w j (.str []) srcDeprecatedRename true) proj
        (W.upd ⟨[⟨ascii "a", .string, .str [], none, none, none, srcDefault, some (.rename (ascii "a"))⟩], []⟩ 0 fun o => { o with source := srcDefaultOptions }) []
          (some (.rename (ascii "a"))) = .bad from by
        show (setOption ev proj f ⟨[⟨ascii "a", .string, .str [], none, none, none, srcDefaultOptions, some (.rename (ascii "a"))⟩], []⟩ 0 (.str []) srcDeprecatedRename true >>= fun r => Res.ok r.2) = .bad
        rw [this]; rfl]
      rfl

/-- Whether the set-up of a project fails can depend on the order of the assignments. -/
theorem opt_error_order_counterexample : ∃ (w w1 w2 : W) (a b : Asg), AllValid w ∧ Names w ∧ NoRename w ∧ a.source ≠ b.source ∧
    setAll (fun _ => none) none 1 [a, b] (true, w) = .ok (false, w1) ∧ setAll (fun _ => none) none 1 [b, a] (true, w) = .ok (true, w2) := by
  refine ⟨⟨[⟨ascii "a", .boolean, .bool false, none, none, none, srcDefault, none⟩], []⟩,
    ⟨[⟨ascii "a", .boolean, .bool true, none, none, none, srcCommandline, none⟩], []⟩,
    ⟨[⟨ascii "a", .boolean, .bool true, none, none, none, srcCommandline, none⟩], []⟩,
    ⟨0, .str (ascii "yes"), srcDefaultOptions, true⟩, ⟨0, .str (ascii "true"), srcCommandline, true⟩, ?_, ?_, ?_, ?_, ?_, ?_⟩
  · intro o ho; rw [List.mem_singleton] at ho; subst ho; trivial
  · exact ⟨by decide, by intro o ho; rw [List.mem_singleton] at ho; subst ho; decide⟩
  · intro o ho; rw [List.mem_singleton] at ho; subst ho; intro n h; cases h
  · decide
  · decide
  · decide

/-- An invalid assignment hides the valid ones of lower precedence that follow: the option keeps its old value. -/
theorem opt_invalid_hides_counterexample : ∃ (w w1 w2 : W) (a b : Asg), AllValid w ∧ Names w ∧ NoRename w ∧
    setAll (fun _ => none) none 1 [a, b] (true, w) = .ok (false, w1) ∧ setAll (fun _ => none) none 1 [b, a] (true, w) = .ok (false, w2) ∧
    w1.opts.map (·.val) ≠ w2.opts.map (·.val) := by
  refine ⟨⟨[⟨ascii "a", .boolean, .bool false, none, none, none, srcDefault, none⟩], []⟩,
    ⟨[⟨ascii "a", .boolean, .bool false, none, none, none, srcCommandline, none⟩], []⟩,
    ⟨[⟨ascii "a", .boolean, .bool true, none, none, none, srcCommandline, none⟩], []⟩,
    ⟨0, .str (ascii "yes"), srcCommandline, true⟩, ⟨0, .str (ascii "true"), srcDefaultOptions, true⟩, ?_, ?_, ?_, ?_, ?_, ?_⟩
  · intro o ho; rw [List.mem_singleton] at ho; subst ho; trivial
  · exact ⟨by decide, by intro o ho; rw [List.mem_singleton] at ho; subst ho; decide⟩
  · intro o ho; rw [List.mem_singleton] at ho; subst ho; intro n h; cases h
  · decide
  · decide
  · decide

/-! ### Examples -/

/-- An integer option with a range, and a feature. -/
def exW : W := ⟨[⟨ascii "jobs", .integer, .int 2, none, some 1, some 8, srcDefault, none⟩,
  ⟨ascii "docs", .feature, .feature 0, none, none, none, srcDefault, none⟩], []⟩

example : NoRename exW := by
  intro o ho n h
  simp only [exW, List.mem_cons, List.not_mem_nil, or_false] at ho
  rcases ho with rfl | rfl <;> cases h

example : AllValid exW ∧ Names exW := by
  refine ⟨?_, by decide, ?_⟩
  · intro o ho
    simp only [exW, List.mem_cons, List.not_mem_nil, or_false] at ho
    rcases ho with rfl | rfl
    · exact ⟨(fun m h => by cases h; decide), (fun m h => by cases h; decide)⟩
    · trivial
  · intro o ho
    simp only [exW, List.mem_cons, List.not_mem_nil, or_false] at ho
    rcases ho with rfl | rfl <;> decide

example : setAll (fun _ => none) none 1 [⟨0, .str (ascii "7"), srcCommandline, true⟩, ⟨0, .str (ascii "3"), srcDefaultOptions, true⟩] (true, exW) =
    .ok (true, ⟨[⟨ascii "jobs", .integer, .int 7, none, some 1, some 8, srcCommandline, none⟩,
      ⟨ascii "docs", .feature, .feature 0, none, none, none, srcDefault, none⟩], []⟩) := by decide
example : setAll (fun _ => none) none 1 [⟨0, .str (ascii "3"), srcDefaultOptions, true⟩, ⟨0, .str (ascii "7"), srcCommandline, true⟩] (true, exW) =
    setAll (fun _ => none) none 1 [⟨0, .str (ascii "7"), srcCommandline, true⟩, ⟨0, .str (ascii "3"), srcDefaultOptions, true⟩] (true, exW) := by decide
example : (setAll (fun _ => none) none 1 [⟨0, .str (ascii "9"), srcCommandline, true⟩] (true, exW) >>= fun r => .ok r.1) = .ok false := by decide
example : (acts (fun _ => none) none 1 [.create ⟨ascii "x", .combo, .other, some [.s (ascii "a"), .s (ascii "b")], none, none, srcUnset, none⟩ (.str (ascii "a")),
    .set ⟨2, .str (ascii "b"), srcCommandline, true⟩] exW >>= fun w => .ok (w.opts.map (·.val))) = .ok [.int 2, .feature 0, .str (ascii "b")] := by decide

end Muon.Opt
