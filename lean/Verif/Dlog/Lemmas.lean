import Verif.Dlog.Spec
namespace Muon.Dlog
open Muon Muon.Dlog.Spec

/-! ### Integers -/

theorem le32_length (n : Nat) : (le32 n).length = 4 := rfl

theorem get32_le32 (n : Nat) (h : n < 2 ^ 32) (r : Bytes) : get32 (le32 n ++ r) = n := by
  unfold le32 get32
  simp only [List.cons_append, UInt8.toNat_ofNat']
  omega

theorem word_zero (n : Nat) (h : n < 2 ^ 32) (r : Bytes) : word (le32 n ++ r) 0 = n := by
  unfold word; exact get32_le32 n h r

theorem word_succ (n : Nat) (r : Bytes) (i : Nat) : word (le32 n ++ r) (i + 1) = word r i := by
  unfold word
  rw [show 4 * (i + 1) = 4 + 4 * i by omega, ← List.drop_drop, List.drop_left' (le32_length n)]

theorem words_flat (ns : List Nat) (h : ∀ n ∈ ns, n < 2 ^ 32) (r : Bytes) :
    (List.range ns.length).map (fun i => word (ns.flatMap le32 ++ r) i) = ns := by
  induction ns with
  | nil => rfl
  | cons n ns ih =>
    rw [List.length_cons, List.range_succ_eq_map, List.map_cons, List.map_map]
    rw [List.flatMap_cons, List.append_assoc, word_zero n (h n (by simp))]
    congr 1
    have : ((fun i => word (le32 n ++ (ns.flatMap le32 ++ r)) i) ∘ Nat.succ) = fun i => word (ns.flatMap le32 ++ r) i := by
      funext i; exact word_succ n _ i
    rw [this]
    exact ih (fun n hn => h n (by simp [hn]))

theorem flat_length (ns : List Nat) : (ns.flatMap le32).length = 4 * ns.length := by
  induction ns with
  | nil => rfl
  | cons n ns ih => rw [List.flatMap_cons, List.length_append, ih, le32_length, List.length_cons]; omega

theorem join64_split (v : Int) (h1 : -2 ^ 63 ≤ v) (h2 : v < 2 ^ 63) : join64 (lo32 v) (hi32 v) = v ∧ lo32 v < 2 ^ 32 ∧ hi32 v < 2 ^ 32 := by
  unfold join64 lo32 hi32
  refine ⟨?_, by omega, by omega⟩
  have e : ((((v / 2 ^ 32 % 2 ^ 32).toNat * 2 ^ 32 + (v % 2 ^ 32).toNat : Nat)) : Int) = v / 2 ^ 32 % 2 ^ 32 * 2 ^ 32 + v % 2 ^ 32 := by
    omega
  simp only [e]
  split <;> omega

/-! ### Records -/

/-- A record cut off is not read. -/
theorem readRecord_torn (hd : Bytes → Bool) (E : List Entry) (h : Nat) (hh : h < 2 ^ 32) (pay t : Bytes)
    (hsz : h % 2 ^ 31 = pay.length) (ht : t <+: le32 h ++ pay) (hne : t ≠ le32 h ++ pay) :
    readRecord hd E t = .ok none := by
  unfold readRecord
  obtain ⟨u, hu⟩ := ht
  have hl : t.length < (le32 h ++ pay).length := by
    rw [← hu, List.length_append]
    have : u ≠ [] := by rintro rfl; rw [List.append_nil] at hu; exact hne hu
    have := List.length_pos_iff.2 this
    omega
  rw [List.length_append, le32_length] at hl
  by_cases h4 : t.length < 4
  · rw [if_pos h4]
  · rw [if_neg h4]
    have hg : get32 t = h := by
      have : t = le32 h ++ t.drop 4 := by
        have e1 : t.take 4 = le32 h := by
          have := congrArg (List.take 4) hu
          rw [List.take_append_of_le_length (by omega), List.take_left' (le32_length h)] at this
          exact this
        rw [← e1, List.take_append_drop]
      rw [this]; exact get32_le32 h hh _
    rw [hg]
    dsimp only
    rw [hsz]
    split
    · rfl
    · rw [if_pos (Or.inr (by rw [List.length_drop]; omega))]

/-- A complete record. -/
theorem readRecord_full (hd : Bytes → Bool) (E : List Entry) (h : Nat) (hh : h < 2 ^ 32) (pay rest : Bytes)
    (hsz : h % 2 ^ 31 = pay.length) (hm : pay.length ≤ maxRecord) (h0 : pay.length ≠ 0) (h4 : pay.length % 4 = 0) :
    readRecord hd E (le32 h ++ pay ++ rest) =
      (if 2 ^ 31 ≤ h then depRecord hd E pay else idRecord E pay) >>= fun r => .ok (r.map fun E => (E, rest)) := by
  unfold readRecord
  rw [List.append_assoc, get32_le32 h hh, List.drop_left' (le32_length h)]
  have hl : (le32 h ++ (pay ++ rest)).length = 4 + (pay.length + rest.length) := by rw [List.length_append, le32_length, List.length_append]
  rw [hl, if_neg (by omega)]
  dsimp only
  rw [hsz, if_neg (by omega), if_neg (by rw [List.length_append]; omega), if_neg (by omega),
    List.take_left' rfl, List.drop_left' rfl]
  by_cases hb : 2 ^ 31 ≤ h
  · simp only [hb, decide_true, if_true]
  · simp only [hb, decide_false, Bool.false_eq_true, if_false]

theorem strip0_pad (p : Bytes) (hp : p ≠ []) (h0 : 0 ∉ p) (n : Nat) : strip0 (p ++ List.replicate n 0) = p := by
  unfold strip0
  rw [List.reverse_append, List.reverse_replicate]
  have h1 : (List.replicate n (0 : UInt8) ++ p.reverse).dropWhile (· = 0) = p.reverse.dropWhile (· = 0) := by
    induction n with
    | zero => rfl
    | succ n ih => rw [List.replicate_succ, List.cons_append, List.dropWhile_cons_of_pos (by simp), ih]
  rw [h1]
  cases hr : p.reverse with
  | nil => exact absurd (List.reverse_eq_nil_iff.1 hr) hp
  | cons c r =>
    have : c ≠ 0 := fun e => h0 (by rw [← List.mem_reverse, hr, e]; simp)
    rw [List.dropWhile_cons_of_neg (by simpa using this), ← hr, List.reverse_reverse]

theorem word_last (a : Bytes) (n : Nat) (hn : n < 2 ^ 32) (h : a.length % 4 = 0) : word (a ++ le32 n) ((a ++ le32 n).length / 4 - 1) = n := by
  unfold word
  have : 4 * ((a ++ le32 n).length / 4 - 1) = a.length := by rw [List.length_append, le32_length]; omega
  rw [this, List.drop_left' rfl]
  have := get32_le32 n hn []
  rwa [List.append_nil] at this

/-- The payload of a node record. -/
def idPay (p : Bytes) (n : Nat) : Bytes := p ++ (List.replicate ((p.length + 7) / 4 * 4 - p.length - 4) 0 ++ le32 (2 ^ 32 - 1 - n))

theorem idPay_length (p : Bytes) (n : Nat) : (idPay p n).length = (p.length + 7) / 4 * 4 := by
  unfold idPay; rw [List.length_append, List.length_append, List.length_replicate, le32_length]; omega

theorem idRecord_ok (E : List Entry) (p : Bytes) (hp : GoodPath p) (hn : E.length < 2 ^ 31 - 1) :
    idRecord E (idPay p E.length) = .ok (some (E ++ [⟨p, [], 0⟩])) := by
  have hpos := List.length_pos_iff.2 hp.1
  have hl := idPay_length p E.length
  have hw : word (idPay p E.length) ((idPay p E.length).length / 4 - 1) = 2 ^ 32 - 1 - E.length := by
    unfold idPay
    rw [← List.append_assoc]
    apply word_last _ _ (by omega)
    rw [List.length_append, List.length_replicate]; omega
  have ht : (idPay p E.length).take ((idPay p E.length).length - 4) = p ++ List.replicate ((p.length + 7) / 4 * 4 - p.length - 4) 0 := by
    rw [hl]
    unfold idPay
    rw [← List.append_assoc]
    apply List.take_left'
    rw [List.length_append, List.length_replicate]; omega
  unfold idRecord
  rw [hw, ht, strip0_pad p hp.1 hp.2, if_neg (by omega), if_neg (by omega), if_neg (by omega)]
  dsimp only
  rw [if_neg hp.1]

/-- The payload of a dependency record. -/
def depPay (i lo hi : Nat) (is : List Nat) : Bytes := le32 i ++ (le32 lo ++ (le32 hi ++ is.flatMap le32))

theorem depPay_length (i lo hi : Nat) (is : List Nat) : (depPay i lo hi is).length = 12 + is.length * 4 := by
  unfold depPay; rw [List.length_append, List.length_append, List.length_append, le32_length, le32_length, le32_length, flat_length]; omega

theorem depRecord_ok (hd : Bytes → Bool) (E : List Entry) (i lo hi : Nat) (is : List Nat) (e : Entry) (ds : List Bytes)
    (h1 : i < 2 ^ 32) (h2 : lo < 2 ^ 32) (h3 : hi < 2 ^ 32) (h4 : ∀ j ∈ is, j < 2 ^ 32) (he : E[i]? = some e) (hds : depNodes E is = some ds) :
    depRecord hd E (depPay i lo hi is) =
      .ok (some (E.set i (if hd e.node then ⟨e.node, ds, join64 lo hi⟩ else ⟨e.node, e.deps, join64 lo hi⟩))) := by
  have hl := depPay_length i lo hi is
  have w0 : word (depPay i lo hi is) 0 = i := word_zero i h1 _
  have w1 : word (depPay i lo hi is) 1 = lo := by unfold depPay; rw [word_succ, word_zero lo h2]
  have w2 : word (depPay i lo hi is) 2 = hi := by unfold depPay; rw [word_succ, word_succ, word_zero hi h3]
  have w3 : ∀ j, word (depPay i lo hi is) (3 + j) = word (is.flatMap le32) j := by
    intro j
    unfold depPay
    rw [show 3 + j = j + 1 + 1 + 1 by omega, word_succ, word_succ, word_succ]
  have hws : (List.range ((depPay i lo hi is).length - 12) |>.length) = (depPay i lo hi is).length - 12 := List.length_range
  have hn : ((depPay i lo hi is).length - 12) / 4 = is.length := by omega
  unfold depRecord
  rw [if_neg (by omega), w0, he]
  dsimp only
  rw [w1, w2, hn]
  have hmap : (List.range is.length).map (fun j => word (depPay i lo hi is) (3 + j)) = is := by
    have := words_flat is h4 []
    simp only [List.append_nil] at this
    simp only [w3]
    exact this
  rw [hmap, hds]
  by_cases hb : hd e.node = true
  · rw [if_pos hb, if_pos hb]
  · rw [if_neg hb, if_neg hb]

/-! ### The loop -/

/-- Reading complete records `cs` from entries `E` gives `E'`; before each of them the entries satisfy `P`, and a torn
one is not read. -/
inductive Reads (hd : Bytes → Bool) (P : List Entry → Prop) : List Entry → List Bytes → List Entry → Prop
  | nil (E) : Reads hd P E [] E
  | cons {E E1 E' c cs} : P E → c ≠ [] → (∀ t, t <+: c → t ≠ c → readRecord hd E t = .ok none) →
      (∀ rest, readRecord hd E (c ++ rest) = .ok (some (E1, rest))) → Reads hd P E1 cs E' → Reads hd P E (c :: cs) E'

theorem Reads.append {hd P} {E E1 E' : List Entry} {cs ds : List Bytes} (h : Reads hd P E cs E1) (h' : Reads hd P E1 ds E') :
    Reads hd P E (cs ++ ds) E' := by
  induction h with
  | nil => exact h'
  | cons a b c d _ ih => exact .cons a b c d (ih h')

theorem Reads.all {hd P} {E E' : List Entry} {cs : List Bytes} (h : Reads hd P E cs E') (rest : Bytes) :
    ∀ f, (cs.flatten ++ rest).length < f → ∃ f', rest.length < f' ∧ readLoop hd f E (cs.flatten ++ rest) = readLoop hd f' E' rest := by
  induction h with
  | nil => intro f hf; exact ⟨f, by simpa using hf, by simp⟩
  | @cons E E1 E' c cs a b d e _ ih =>
    intro f hf
    cases f with
    | zero => omega
    | succ f =>
      have hc := List.length_pos_iff.2 b
      rw [List.flatten_cons, List.append_assoc] at hf ⊢
      rw [List.length_append] at hf
      obtain ⟨f', h1, h2⟩ := ih f (by omega)
      refine ⟨f', h1, ?_⟩
      rw [show readLoop hd (f + 1) E (c ++ (cs.flatten ++ rest)) = readLoop hd f E1 (cs.flatten ++ rest) by
        show readRecord hd E _ >>= _ = _
        rw [e]; rfl]
      exact h2

theorem Reads.cut {hd P} {E E' : List Entry} {cs : List Bytes} (h : Reads hd P E cs E') :
    ∀ k f, k < cs.flatten.length → k < f → ∃ E'', P E'' ∧ readLoop hd f E (cs.flatten.take k) = .ok E'' := by
  induction h with
  | nil => intro k f hk; simp at hk
  | @cons E E1 E' c cs a b d e _ ih =>
    intro k f hk hf
    cases f with
    | zero => omega
    | succ f =>
      rw [List.flatten_cons] at hk ⊢
      rw [List.length_append] at hk
      have hc := List.length_pos_iff.2 b
      unfold readLoop
      by_cases hkc : k < c.length
      · rw [List.take_append_of_le_length (by omega), d (c.take k) (List.take_prefix _ _)
          (fun e => by have := congrArg List.length e; rw [List.length_take] at this; omega)]
        exact ⟨E, a, rfl⟩
      · rw [List.take_append, List.take_of_length_le (by omega), e]
        exact ih (k - c.length) f (by omega) (by omega)

/-! ### The writer -/

/-- The nodes are distinct, the dependencies are among them, and all of it can be written. -/
structure GoodE (E : List Entry) : Prop where
  nodup : (E.map (·.node)).Nodup
  ok : ∀ e ∈ E, Good ⟨e.node, e.deps, e.mtime⟩
  closed : ∀ e ∈ E, ∀ d ∈ e.deps, d ∈ E.map (·.node)
  node : ∀ e ∈ E, (e.node.length + 7) / 4 * 4 + 4 < maxRecord
  deps : ∀ e ∈ E, 12 + e.deps.length * 4 + 4 < maxRecord
  count : E.length ≤ 2 ^ 31 - 1

/-- The entries say the same, and are good. -/
def Same (E F : List Entry) : Prop := (∀ q, Spec.recovered F q = Spec.recovered E q) ∧ GoodE F

theorem Same.trans {A B : List Entry} (h : ∀ q, Spec.recovered B q = Spec.recovered A q) : Same B = Same A := by
  funext F; unfold Same; simp only [h]

/-- The entries read so far belong to the numbers given out so far. -/
structure Inv (w : W) (E : List Entry) : Prop where
  good : GoodE E
  len : E.length = w.next
  le : w.next ≤ 2 ^ 31 - 1
  ids : ∀ p i, w.ids p = some i ↔ ∃ e, E[i]? = some e ∧ e.node = p

theorem Inv.lt {w E} (h : Inv w E) {p i} (hi : w.ids p = some i) : i < E.length := by
  obtain ⟨e, he, _⟩ := (h.ids p i).1 hi
  exact (List.getElem?_eq_some_iff.1 he).1

/-- What the entries say, by number. -/
theorem Inv.recovered {w E} (h : Inv w E) (p : Bytes) :
    recovered E p = match w.ids p with
      | some i => (match E[i]? with | some e => (e.deps, e.mtime) | none => ([], 0))
      | none => ([], 0) := by
  unfold Spec.recovered
  cases hf : E.find? (fun e => e.node == p) with
  | none =>
    cases hi : w.ids p with
    | none => rfl
    | some i =>
      obtain ⟨e, he, hp⟩ := (h.ids p i).1 hi
      rw [List.find?_eq_none] at hf
      exact absurd (hf e (List.mem_of_getElem? he)) (by simp [hp])
  | some e =>
    have hp : e.node = p := by simpa using List.find?_some hf
    obtain ⟨i, he⟩ := List.getElem?_of_mem (List.mem_of_find?_eq_some hf)
    rw [(h.ids p i).2 ⟨e, he, hp⟩]
    simp only [he]

theorem depNodes_ok {w E} (h : Inv w E) (ds : List Bytes) (hds : ∀ d ∈ ds, (w.ids d).isSome) : depNodes E (ds.map (idOf w)) = some ds := by
  induction ds with
  | nil => rfl
  | cons d ds ih =>
    obtain ⟨i, hi⟩ := Option.isSome_iff_exists.1 (hds d (by simp))
    obtain ⟨e, he, hp⟩ := (h.ids d i).1 hi
    have : idOf w d = i := by unfold idOf; rw [hi]; rfl
    rw [List.map_cons, this]
    unfold depNodes
    rw [he]
    simp only [ih (fun d hd => hds d (by simp [hd])), hp]

theorem recordid_inv (hd : Bytes → Bool) {w w' : W} {E : List Entry} (h : Inv w E) {p : Bytes} (hp : GoodPath p) {b : Bool}
    (hr : recordid w p = .ok (w', b)) :
    ∃ cs E', Inv w' E' ∧ w'.file = w.file ++ cs.flatten ∧ (∀ q, Spec.recovered E' q = Spec.recovered E q) ∧
      Reads hd (Same E) E cs E' ∧ (w'.ids p).isSome ∧
      (∀ q i, w.ids q = some i → w'.ids q = some i) := by
  unfold recordid at hr
  cases hi : w.ids p with
  | some i =>
    rw [hi] at hr
    cases hr
    exact ⟨[], E, h, by simp, fun _ => rfl, .nil E, by rw [hi]; rfl, fun _ _ h => h⟩
  | none =>
    rw [hi] at hr
    dsimp only at hr
    split at hr
    · cases hr
    · next hlim =>
      split at hr
      · cases hr
      · next hsz =>
        cases hr
        have hle := h.le
        have hlen := h.len
        have hpay := idPay_length p w.next
        let E' : List Entry := E ++ [⟨p, [], 0⟩]
        have hinv : Inv ⟨fun q => if q = p then some w.next else w.ids q, w.next + 1,
            w.file ++ (le32 ((p.length + 7) / 4 * 4) ++ idPay p w.next)⟩ E' := by
          refine ⟨⟨?_, ?_, ?_, ?_, ?_, by simp [E']; omega⟩, by simp [E', hlen], by simp; omega, fun q i => ?_⟩
          · rw [show E' = E ++ [⟨p, [], 0⟩] from rfl, List.map_append, List.nodup_append]
            refine ⟨h.good.nodup, by simp, ?_⟩
            intro a ha b hb
            simp only [List.map_cons, List.map_nil, List.mem_singleton] at hb
            subst hb
            rintro rfl
            obtain ⟨e, he, hn⟩ := List.mem_map.1 ha
            obtain ⟨i, hei⟩ := List.getElem?_of_mem he
            rw [(h.ids a i).2 ⟨e, hei, hn⟩] at hi
            cases hi
          · intro e he
            rcases List.mem_append.1 he with he | he
            · exact h.good.ok e he
            · simp only [List.mem_singleton] at he
              subst he
              exact ⟨hp, by simp, by show -2 ^ 63 ≤ (0 : Int); decide, by show (0 : Int) < 2 ^ 63; decide⟩
          · intro e he d hd
            rw [show E' = E ++ [⟨p, [], 0⟩] from rfl, List.map_append]
            rcases List.mem_append.1 he with he | he
            · exact List.mem_append_left _ (h.good.closed e he d hd)
            · simp only [List.mem_singleton] at he
              subst he
              simp at hd
          · intro e he
            rcases List.mem_append.1 he with he | he
            · exact h.good.node e he
            · simp only [List.mem_singleton] at he
              subst he
              show (p.length + 7) / 4 * 4 + 4 < maxRecord; omega
          · intro e he
            rcases List.mem_append.1 he with he | he
            · exact h.good.deps e he
            · simp only [List.mem_singleton] at he
              subst he
              show 12 + 0 * 4 + 4 < maxRecord; decide
          dsimp only
          by_cases hq : q = p
          · subst hq
            rw [if_pos rfl]
            constructor
            · rintro ⟨⟩
              exact ⟨⟨q, [], 0⟩, by simp [E', ← hlen], rfl⟩
            · rintro ⟨e, he, hn⟩
              by_cases hiE : i < E.length
              · rw [List.getElem?_append_left hiE] at he
                rw [(h.ids q i).2 ⟨e, he, hn⟩] at hi
                cases hi
              · have := (List.getElem?_eq_some_iff.1 he).1
                simp only [E', List.length_append, List.length_singleton] at this
                congr 1; omega
          · rw [if_neg hq, h.ids q i]
            constructor
            · rintro ⟨e, he, hn⟩
              exact ⟨e, by rw [List.getElem?_append_left (List.getElem?_eq_some_iff.1 he).1]; exact he, hn⟩
            · rintro ⟨e, he, hn⟩
              by_cases hiE : i < E.length
              · rw [List.getElem?_append_left hiE] at he
                exact ⟨e, he, hn⟩
              · rw [List.getElem?_append_right (by omega)] at he
                have := List.getElem?_singleton .. ▸ he
                split at this
                · cases this; exact absurd hn.symm hq
                · cases this
        refine ⟨[le32 ((p.length + 7) / 4 * 4) ++ idPay p w.next], E', hinv, by simp [idPay], ?_, ?_, by simp, ?_⟩
        · intro q
          rw [hinv.recovered, h.recovered]
          dsimp only
          by_cases hq : q = p
          · subst hq
            rw [if_pos rfl, hi]
            simp [E', ← hlen]
          · rw [if_neg hq]
            cases hqi : w.ids q with
            | none => rfl
            | some i =>
              have := h.lt hqi
              simp only [E', List.getElem?_append_left this]
        · have hmx : maxRecord = 2 ^ 19 := rfl
          have hb : ¬ 2 ^ 31 ≤ (p.length + 7) / 4 * 4 := by omega
          refine .cons ⟨fun _ => rfl, h.good⟩ (by intro e; have := congrArg List.length e; rw [List.length_append, le32_length] at this; simp at this) ?_ ?_ (.nil _)
          · intro t ht hne
            exact readRecord_torn hd E _ (by omega) _ t (by rw [hpay, Nat.mod_eq_of_lt (by omega)]) ht hne
          · intro rest
            rw [readRecord_full hd E _ (by omega) _ rest (by rw [hpay, Nat.mod_eq_of_lt (by omega)]) (by omega) (by omega) (by omega), if_neg hb,
              ← hlen, idRecord_ok E p hp (by omega)]
            rfl
        · intro q i hq
          dsimp only
          rw [if_neg]
          · exact hq
          · rintro rfl; rw [hi] at hq; cases hq

theorem recordids_inv (hd : Bytes → Bool) (ps : List Bytes) : ∀ {w w' : W} {E : List Entry} (_ : Inv w E) (_ : ∀ p ∈ ps, GoodPath p) {b : Bool}
    (_ : recordids w ps = .ok (w', b)),
    ∃ cs E', Inv w' E' ∧ w'.file = w.file ++ cs.flatten ∧ (∀ q, Spec.recovered E' q = Spec.recovered E q) ∧
      Reads hd (Same E) E cs E' ∧ (∀ p ∈ ps, (w'.ids p).isSome) ∧
      (∀ q i, w.ids q = some i → w'.ids q = some i) := by
  induction ps with
  | nil => intro w w' E h _ b hr; cases hr; exact ⟨[], E, h, by simp, fun _ => rfl, .nil E, by simp, fun _ _ h => h⟩
  | cons p ps ih =>
    intro w w' E h hp b hr
    unfold recordids at hr
    rw [Res.bind_eq_ok] at hr
    obtain ⟨⟨w1, b1⟩, hr1, hr⟩ := hr
    rw [Res.bind_eq_ok] at hr
    obtain ⟨⟨w2, b2⟩, hr2, hr⟩ := hr
    cases hr
    obtain ⟨cs1, E1, i1, f1, q1, r1, s1, m1⟩ := recordid_inv hd h (hp p (by simp)) hr1
    obtain ⟨cs2, E2, i2, f2, q2, r2, s2, m2⟩ := ih i1 (fun p h => hp p (by simp [h])) hr2
    refine ⟨cs1 ++ cs2, E2, i2, ?_, fun q => (q2 q).trans (q1 q), ?_, ?_, fun q i h => m2 q i (m1 q i h)⟩
    · rw [f2, f1]; simp
    · rw [Same.trans q1] at r2
      exact r1.append r2
    · intro q hq
      rcases List.mem_cons.1 hq with rfl | hq
      · obtain ⟨i, hi⟩ := Option.isSome_iff_exists.1 s1
        rw [m2 _ _ hi]; rfl
      · exact s2 q hq

/-- Recording a build. -/
theorem record_inv (hd : Bytes → Bool) {w w' : W} {E : List Entry} (h : Inv w E) {o : Op} (ho : Good o)
    (hr : record w o.out o.deps o.mtime = .ok w') :
    ∃ cs E', Inv w' E' ∧ w'.file = w.file ++ cs.flatten ∧ cs ≠ [] ∧
      (∀ q, hd q = true → Spec.recovered E' q = if q = o.out then (o.deps, o.mtime) else Spec.recovered E q) ∧
      Reads hd (Same E) E cs E' := by
  obtain ⟨g1, g2, g3, g4⟩ := ho
  unfold record at hr
  rw [Res.bind_eq_ok] at hr
  obtain ⟨⟨w1, b1⟩, hr1, hr⟩ := hr
  rw [Res.bind_eq_ok] at hr
  obtain ⟨⟨w2, b2⟩, hr2, hr⟩ := hr
  dsimp only at hr hr2
  obtain ⟨cs1, E1, i1, f1, q1, r1, s1, m1⟩ := recordid_inv hd h g1 hr1
  obtain ⟨cs2, E2, i2, f2, q2, r2, s2, m2⟩ := recordids_inv hd o.deps i1 g2 hr2
  rw [Same.trans q1] at r2
  unfold recorddeps at hr
  dsimp only at hr
  split at hr
  · cases hr
  · next hsz =>
    obtain ⟨i, hi1⟩ := Option.isSome_iff_exists.1 s1
    have hi := m2 _ _ hi1
    obtain ⟨e0, he0, hn0⟩ := (i2.ids o.out i).1 hi
    have hil := i2.lt hi
    have hidof : idOf w2 o.out = i := by unfold idOf; rw [hi]; rfl
    rw [hidof] at hr
    obtain ⟨j1, j2, j3⟩ := join64_split o.mtime g3 g4
    have hle := i2.le
    have hlen := i2.len
    let is := o.deps.map (idOf w2)
    have his : ∀ j ∈ is, j < 2 ^ 32 := by
      intro j hj
      obtain ⟨d, hdm, rfl⟩ := List.mem_map.1 hj
      obtain ⟨k, hk⟩ := Option.isSome_iff_exists.1 (s2 d hdm)
      have := i2.lt hk
      unfold idOf; rw [hk]; simp only [Option.getD_some]; omega
    have hdn := depNodes_ok i2 o.deps s2
    have hpl := depPay_length i (lo32 o.mtime) (hi32 o.mtime) is
    have hisl : is.length = o.deps.length := by simp [is]
    rw [hisl] at hpl
    have hmx : maxRecord = 2 ^ 19 := rfl
    let x : Entry := if hd e0.node then ⟨e0.node, o.deps, join64 (lo32 o.mtime) (hi32 o.mtime)⟩ else ⟨e0.node, e0.deps, join64 (lo32 o.mtime) (hi32 o.mtime)⟩
    have hxn : x.node = o.out := by simp only [x]; split <;> exact hn0
    have hinv : Inv { w2 with file := w2.file ++ (le32 (2 ^ 31 + (12 + o.deps.length * 4)) ++ depPay i (lo32 o.mtime) (hi32 o.mtime) is) } (E2.set i x) := by
      have hmap : (E2.set i x).map (·.node) = E2.map (·.node) := by
        rw [List.map_set, hxn, ← hn0]
        apply List.ext_getElem?
        intro k
        by_cases hk : i = k
        · subst hk
          rw [List.getElem?_set_self (by simpa using hil), List.getElem?_map, he0]; rfl
        · rw [List.getElem?_set_ne hk]
      have hxd : x.deps = o.deps ∨ x.deps = e0.deps := by simp only [x]; split <;> simp
      have hxm : x.mtime = o.mtime := by simp only [x]; split <;> exact j1
      have hm0 := List.mem_of_getElem? he0
      refine ⟨⟨by rw [hmap]; exact i2.good.nodup, ?_, ?_, ?_, ?_, by rw [List.length_set]; exact i2.good.count⟩, by rw [List.length_set]; exact hlen, hle, fun q k => ?_⟩
      · intro e he
        rcases List.mem_or_eq_of_mem_set he with he | rfl
        · exact i2.good.ok e he
        · refine ⟨by show GoodPath x.node; rw [hxn]; exact g1, ?_, by show -2 ^ 63 ≤ x.mtime; rw [hxm]; exact g3, by show x.mtime < 2 ^ 63; rw [hxm]; exact g4⟩
          intro d hdd
          change d ∈ x.deps at hdd
          rcases hxd with hx | hx
          · rw [hx] at hdd; exact g2 d hdd
          · rw [hx] at hdd; exact (i2.good.ok e0 hm0).2.1 d hdd
      · intro e he d hdd
        rw [hmap]
        rcases List.mem_or_eq_of_mem_set he with he | rfl
        · exact i2.good.closed e he d hdd
        · rcases hxd with hx | hx
          · rw [hx] at hdd
            obtain ⟨k, hk⟩ := Option.isSome_iff_exists.1 (s2 d hdd)
            obtain ⟨e', he', hn'⟩ := (i2.ids d k).1 hk
            exact List.mem_map.2 ⟨e', List.mem_of_getElem? he', hn'⟩
          · rw [hx] at hdd; exact i2.good.closed e0 hm0 d hdd
      · intro e he
        rcases List.mem_or_eq_of_mem_set he with he | rfl
        · exact i2.good.node e he
        · rw [hxn, ← hn0]; exact i2.good.node e0 hm0
      · intro e he
        rcases List.mem_or_eq_of_mem_set he with he | rfl
        · exact i2.good.deps e he
        · rcases hxd with hx | hx
          · rw [hx]; omega
          · rw [hx]; exact i2.good.deps e0 hm0
      dsimp only
      rw [i2.ids q k]
      by_cases hk : i = k
      · subst hk
        rw [List.getElem?_set_self hil, he0]
        constructor
        · rintro ⟨e', he', hn'⟩
          cases he'
          exact ⟨x, rfl, by rw [hxn, ← hn', hn0]⟩
        · rintro ⟨e', he', hn'⟩
          cases he'
          exact ⟨e0, rfl, by rw [hn0, ← hxn, hn']⟩
      · rw [List.getElem?_set_ne hk]
    have hflat : (o.deps.flatMap fun d => le32 (idOf w2 d)) = is.flatMap le32 := by simp only [is, List.flatMap_map]
    rw [hflat] at hr
    cases hr
    refine ⟨(cs1 ++ cs2) ++ [le32 (2 ^ 31 + (12 + o.deps.length * 4)) ++ depPay i (lo32 o.mtime) (hi32 o.mtime) is], E2.set i x, hinv, ?_, by simp, ?_, ?_⟩
    · show w2.file ++ _ = _
      rw [f2, f1]; simp [depPay]
    · intro q hq
      rw [hinv.recovered]
      dsimp only
      by_cases hqo : q = o.out
      · subst hqo
        rw [if_pos rfl, hi]
        simp only [List.getElem?_set_self hil, x]
        rw [hn0, hq]
        simp [j1]
      · rw [if_neg hqo, ← q1 q, ← q2 q, i2.recovered q]
        cases hqi : w2.ids q with
        | none => rfl
        | some k =>
          have hk : i ≠ k := by
            rintro rfl
            obtain ⟨e', he', hn'⟩ := (i2.ids q i).1 hqi
            rw [he0] at he'; cases he'
            exact hqo (by rw [← hn', hn0])
          simp only [List.getElem?_set_ne hk]
    · refine (r1.append r2).append (.cons ⟨fun q => (q2 q).trans (q1 q), i2.good⟩ ?_ ?_ ?_ (.nil _))
      · intro e; have := congrArg List.length e; rw [List.length_append, le32_length] at this; simp at this
      · intro t ht hne
        exact readRecord_torn hd E2 _ (by omega) _ t (by rw [hpl]; omega) ht hne
      · intro rest
        rw [readRecord_full hd E2 _ (by omega) _ rest (by rw [hpl]; omega) (by omega) (by omega) (by omega), if_pos (by omega),
          depRecord_ok hd E2 i _ _ is e0 o.deps (by omega) j2 j3 his he0 hdn]
        rfl

theorem latest_snoc (rs : List Op) (o : Op) (q : Bytes) : latest (rs ++ [o]) q = if q = o.out then (o.deps, o.mtime) else latest rs q := by
  unfold latest
  rw [List.reverse_append, List.reverse_singleton, List.singleton_append, List.find?_cons]
  by_cases h : q = o.out
  · subst h; simp
  · have hb : (o.out == q) = false := by simpa using fun e => h e.symm
    rw [hb, if_neg h]

/-- Recording builds, and reading a prefix of what was written. -/
theorem writeAll_read (hd : Bytes → Bool) (rs : List Op) : ∀ (rs0 : List Op) {w w' : W} {E : List Entry} (_ : Inv w E) (_ : ∀ o ∈ rs, Good o)
    (_ : ∀ q, hd q = true → Spec.recovered E q = latest rs0 q) (_ : writeAll w rs = .ok w'),
    ∃ body, w'.file = w.file ++ body ∧ ∀ k f, (body.take k).length < f →
      ∃ n, n ≤ rs.length ∧ ∃ wn, writeAll w (rs.take n) = .ok wn ∧ wn.file.length ≤ w.file.length + k ∧
        (n < rs.length → ∃ w1, writeAll w (rs.take (n + 1)) = .ok w1 ∧ w.file.length + k < w1.file.length) ∧
        ∃ E', readLoop hd f E (body.take k) = .ok E' ∧ GoodE E' ∧ ∀ q, hd q = true → Spec.recovered E' q = latest (rs0 ++ rs.take n) q := by
  induction rs with
  | nil =>
    intro rs0 w w' E h _ hE hw
    cases hw
    refine ⟨[], by simp, fun k f hf => ⟨0, Nat.le_refl _, w, rfl, by omega, by simp, E, ?_, h.good, by simpa using hE⟩⟩
    cases f with
    | zero => omega
    | succ f => unfold readLoop readRecord; simp
  | cons o rs ih =>
    intro rs0 w w' E h hg hE hw
    unfold writeAll at hw
    rw [Res.bind_eq_ok] at hw
    obtain ⟨w1, hr, hw⟩ := hw
    obtain ⟨cs, E1, i1, f1, hne, q1, r1⟩ := record_inv hd h (hg o (by simp)) hr
    have hE1 : ∀ q, hd q = true → Spec.recovered E1 q = latest (rs0 ++ [o]) q := by
      intro q hq; rw [q1 q hq, latest_snoc, hE q hq]
    obtain ⟨body, hb, hread⟩ := ih (rs0 ++ [o]) i1 (fun o h => hg o (by simp [h])) hE1 hw
    refine ⟨cs.flatten ++ body, by rw [hb, f1, List.append_assoc], fun k f hf => ?_⟩
    have hlen1 : w1.file.length = w.file.length + cs.flatten.length := by rw [f1, List.length_append]
    by_cases hk : k < cs.flatten.length
    · obtain ⟨E'', hP, hl⟩ := r1.cut k f hk (by rw [List.length_take, List.length_append] at hf; omega)
      refine ⟨0, Nat.zero_le _, w, rfl, by omega, fun _ => ⟨w1, ?_, by omega⟩, E'', ?_, hP.2, ?_⟩
      · show record w o.out o.deps o.mtime >>= _ = _
        rw [hr]; rfl
      · rw [List.take_append_of_le_length (by omega)]; exact hl
      · intro q hq
        rw [hP.1 q, hE q hq]; simp
    · obtain ⟨f', hf', hl⟩ := r1.all (body.take (k - cs.flatten.length)) f (by
        rw [List.length_append, List.length_take]
        rw [List.length_take, List.length_append] at hf; omega)
      obtain ⟨n, hn, wn, a1, a2, a3, E', a4, ag, a5⟩ := hread (k - cs.flatten.length) f' hf'
      have step : ∀ l, writeAll w (o :: l) = writeAll w1 l := by
        intro l
        show record w o.out o.deps o.mtime >>= _ = _
        rw [hr]; rfl
      refine ⟨n + 1, by simpa using hn, wn, ?_, by omega, ?_, E', ?_, ag, ?_⟩
      · rw [List.take_succ_cons, step]; exact a1
      · intro h
        obtain ⟨w2, b1, b2⟩ := a3 (by simpa using h)
        exact ⟨w2, by rw [List.take_succ_cons, step]; exact b1, by omega⟩
      · rw [List.take_append, List.take_of_length_le (by omega), hl]; exact a4
      · intro q hq
        rw [a5 q hq, List.append_assoc, List.take_succ_cons, List.singleton_append]

end Muon.Dlog
