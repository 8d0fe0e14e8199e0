import Verif.Tree.Spec
namespace Muon.Tree
open Muon
variable {V : Type}

theorem height_nil : height (.nil : Tree V) = 0 := rfl
theorem height_node (k : Bytes) (v : V) (l r : Tree V) (h : Nat) : height (.node k v l r h) = h := rfl

theorem byte_lt (c d : UInt8) : c < d ↔ c.toNat < d.toNat := UInt8.lt_iff_toNat_lt
theorem byte_ext {c d : UInt8} (h : c.toNat = d.toNat) : c = d := UInt8.toNat_inj.1 h

theorem strcmp_eq : ∀ a b : Bytes, strcmp a b = .eq ↔ a = b := by
  intro a
  induction a with
  | nil => intro b; cases b <;> simp [strcmp]
  | cons c a ih =>
    intro b
    cases b with
    | nil => simp [strcmp]
    | cons d b =>
      simp only [strcmp, byte_lt]
      by_cases h1 : c.toNat < d.toNat
      · simp [h1]; intro e; subst e; omega
      · by_cases h2 : d.toNat < c.toNat
        · simp [h1, h2]; intro e; subst e; omega
        · have : c = d := byte_ext (by omega)
          subst this
          simp [ih]

theorem strcmp_swap : ∀ a b : Bytes, strcmp a b = (strcmp b a).swap := by
  intro a
  induction a with
  | nil => intro b; cases b <;> simp [strcmp, Ordering.swap]
  | cons c a ih =>
    intro b
    cases b with
    | nil => simp [strcmp, Ordering.swap]
    | cons d b =>
      simp only [strcmp, byte_lt]
      by_cases h1 : c.toNat < d.toNat
      · have : ¬ d.toNat < c.toNat := by omega
        simp [h1, this, Ordering.swap]
      · by_cases h2 : d.toNat < c.toNat
        · simp [h1, h2, Ordering.swap]
        · simp [h1, h2, ih b]

/-- Strictly before. -/
def Lt (a b : Bytes) : Prop := strcmp a b = .lt

theorem Lt.trans : ∀ {a b c : Bytes}, Lt a b → Lt b c → Lt a c := by
  intro a
  induction a with
  | nil =>
    intro b c h1 h2
    cases b with
    | nil => simp [Lt, strcmp] at h1
    | cons y b => cases c <;> simp [Lt, strcmp] at *
  | cons x a ih =>
    intro b c h1 h2
    cases b with
    | nil => simp [Lt, strcmp] at h1
    | cons y b =>
      cases c with
      | nil => simp [Lt, strcmp] at h2
      | cons z c =>
        simp only [Lt, strcmp, byte_lt] at *
        by_cases p : x.toNat < y.toNat
        · by_cases q : y.toNat < z.toNat
          · rw [if_pos (by omega)]
          · rw [if_neg q] at h2
            by_cases r : z.toNat < y.toNat
            · rw [if_pos r] at h2; cases h2
            · rw [if_pos (by omega)]
        · rw [if_neg p] at h1
          by_cases p' : y.toNat < x.toNat
          · rw [if_pos p'] at h1; cases h1
          · rw [if_neg p'] at h1
            by_cases q : y.toNat < z.toNat
            · rw [if_pos (by omega)]
            · rw [if_neg q] at h2
              by_cases r : z.toNat < y.toNat
              · rw [if_pos r] at h2; cases h2
              · rw [if_neg r] at h2
                rw [if_neg (by omega), if_neg (by omega)]
                exact ih h1 h2

theorem lt_of_gt {a b : Bytes} (h : strcmp a b = .gt) : Lt b a := by
  unfold Lt; rw [strcmp_swap, h]; rfl
theorem gt_of_lt {a b : Bytes} (h : Lt b a) : strcmp a b = .gt := by
  rw [strcmp_swap, h]; rfl

/-- The entries in order. -/
def entries : Tree V → List (Bytes × V)
  | .nil => []
  | .node k v l r _ => entries l ++ (k, v) :: entries r

/-- Keys increase strictly. -/
def Sorted (l : List (Bytes × V)) : Prop := l.Pairwise (fun a b => Lt a.1 b.1)

/-- Heights are as recorded and differ by at most 1. -/
def Bal : Tree V → Prop
  | .nil => True
  | .node _ _ l r h => Bal l ∧ Bal r ∧ h = max (height l) (height r) + 1 ∧ height l ≤ height r + 1 ∧ height r ≤ height l + 1

/-- Insertion as a recursive function. -/
def ins (k : Bytes) (v : V) : Tree V → Option (Tree V × Bool)
  | .nil => some (.node k v .nil .nil 1, true)
  | .node k' w l r h =>
    match strcmp k k' with
    | .eq => some (.node k' v l r h, false)
    | .lt => do
      let (t, go) ← ins k v l
      if go then balance k' w t r h else some (.node k' w t r h, false)
    | .gt => do
      let (t, go) ← ins k v r
      if go then balance k' w l t h else some (.node k' w l t h, false)

theorem Bal.depth : ∀ {t : Tree V}, Bal t → depth t = height t
  | .nil, _ => rfl
  | .node _ _ l r h, hb => by
    obtain ⟨h1, h2, h3, _⟩ := hb
    simp only [Tree.depth, height, h1.depth, h2.depth, h3]

theorem climb_ins (k : Bytes) (v : V) : ∀ (t : Tree V) (fs : List (Frame V)), fs.length + depth t < maxH →
    (∃ fs' s, descend k t fs = .ok (fs' ++ fs, s) ∧
      (match s with
       | .nil => find k t = none ∧ ∀ {rest}, climb (.node k v .nil .nil 1) true (fs' ++ rest) = (ins k v t).bind (fun p => climb p.1 p.2 rest)
       | .node k' old l r h => find k t = some old ∧ ∀ {rest}, climb (.node k' v l r h) false (fs' ++ rest) = (ins k v t).bind (fun p => climb p.1 p.2 rest))) := by
  intro t
  induction t with
  | nil => intro fs _; exact ⟨[], .nil, rfl, rfl, rfl⟩
  | node k' w l r h ihl ihr =>
    intro fs hf
    simp only [depth] at hf
    unfold descend find ins
    cases hc : strcmp k k' with
    | eq => exact ⟨[], _, rfl, rfl, rfl⟩
    | lt =>
      obtain ⟨fs', s, hd, hs⟩ := ihl (⟨k', w, false, l, r, h⟩ :: fs) (by simp only [List.length_cons]; omega)
      simp only [if_pos (show fs.length + 1 < maxH by omega)]
      refine ⟨fs' ++ [⟨k', w, false, l, r, h⟩], s, by rw [hd]; simp, ?_⟩
      cases s with
      | nil =>
        obtain ⟨h1, h2⟩ := hs
        refine ⟨h1, ?_⟩
        intro rest
        rw [List.append_assoc, List.singleton_append, h2]
        cases ins k v l with
        | none => rfl
        | some p =>
          obtain ⟨t, go⟩ := p
          cases go <;> rfl
      | node k2 old l2 r2 hh =>
        obtain ⟨h1, h2⟩ := hs
        refine ⟨h1, ?_⟩
        intro rest
        rw [List.append_assoc, List.singleton_append, h2]
        cases ins k v l with
        | none => rfl
        | some p =>
          obtain ⟨t, go⟩ := p
          cases go <;> rfl
    | gt =>
      obtain ⟨fs', s, hd, hs⟩ := ihr (⟨k', w, true, l, r, h⟩ :: fs) (by simp only [List.length_cons]; omega)
      simp only [if_pos (show fs.length + 1 < maxH by omega)]
      refine ⟨fs' ++ [⟨k', w, true, l, r, h⟩], s, by rw [hd]; simp, ?_⟩
      cases s with
      | nil =>
        obtain ⟨h1, h2⟩ := hs
        refine ⟨h1, ?_⟩
        intro rest
        rw [List.append_assoc, List.singleton_append, h2]
        cases ins k v r with
        | none => rfl
        | some p =>
          obtain ⟨t, go⟩ := p
          cases go <;> rfl
      | node k2 old l2 r2 hh =>
        obtain ⟨h1, h2⟩ := hs
        refine ⟨h1, ?_⟩
        intro rest
        rw [List.append_assoc, List.singleton_append, h2]
        cases ins k v r with
        | none => rfl
        | some p =>
          obtain ⟨t, go⟩ := p
          cases go <;> rfl

theorem insert_eq (k : Bytes) (v : V) (t : Tree V) (hd : depth t < maxH) :
    insert t k v = match ins k v t with | some p => .ok (p.1, find k t) | none => .bad := by
  obtain ⟨fs', s, h1, h2⟩ := climb_ins k v t [] (by simpa using hd)
  unfold insert
  rw [h1]
  simp only [List.append_nil]
  cases s with
  | nil =>
    obtain ⟨h2, h3⟩ := h2
    have := @h3 []
    rw [List.append_nil] at this
    simp only [this, h2]
    cases ins k v t with
    | none => rfl
    | some p => obtain ⟨t, go⟩ := p; cases go <;> rfl
  | node k2 old l2 r2 hh =>
    obtain ⟨h2, h3⟩ := h2
    have := @h3 []
    rw [List.append_nil] at this
    simp only [this, h2]
    cases ins k v t with
    | none => rfl
    | some p => obtain ⟨t, go⟩ := p; cases go <;> rfl

/-- Balancing keeps the entries. -/
theorem balance_entries {k : Bytes} {v : V} {l r t : Tree V} {old : Nat} {go : Bool} (h : balance k v l r old = some (t, go)) :
    entries t = entries l ++ (k, v) :: entries r := by
  unfold balance at h
  dsimp only at h
  split at h
  · cases h; rfl
  · unfold rot at h
    dsimp only at h
    generalize decide (height l < height r) = dir at h
    cases dir
    · simp only [child, Bool.not_false, if_true, Bool.false_eq_true, if_false] at h
      cases l with
      | nil => cases h
      | node ky vy yl yr _ =>
        dsimp only at h
        split at h
        · cases yr with
          | nil => cases h
          | node kz vz zl zr _ => cases h; simp [join, entries]
        · cases h; simp [join, entries]
    · simp only [child, Bool.not_true, if_true, Bool.false_eq_true, if_false] at h
      cases r with
      | nil => cases h
      | node ky vy yl yr _ =>
        dsimp only at h
        split at h
        · cases yl with
          | nil => cases h
          | node kz vz zl zr _ => cases h; simp [join, entries]
        · cases h; simp [join, entries]

/-- Balancing after one child has grown by one. -/
theorem balance_bal {k : Bytes} {v : V} {l r : Tree V} {old : Nat} (hl : Bal l) (hr : Bal r)
    (h : (height l ≤ height r + 2 ∧ height r ≤ height l ∧ old + 1 = height l + 1 ∨
      height r ≤ height l + 2 ∧ height l ≤ height r ∧ old + 1 = height r + 1) ∨
      (height l ≤ height r + 1 ∧ height r ≤ height l + 1 ∧ (old = max (height l) (height r) + 1 ∨ old + 1 = max (height l) (height r) + 1))) :
    ∃ t go, balance k v l r old = some (t, go) ∧ Bal t ∧ height t = (if go then old + 1 else old) := by
  unfold balance
  dsimp only
  split
  · rename_i hb
    refine ⟨_, _, rfl, ⟨hl, hr, by split <;> omega, hb⟩, ?_⟩
    simp only [height_node]
    by_cases hlt : height l < height r
    · simp only [hlt, if_true]
      by_cases he : height r + 1 = old
      · simp [he]
      · simp only [bne_iff_ne, ne_eq, he, not_false_eq_true, if_true]; omega
    · simp only [hlt, if_false]
      by_cases he : height l + 1 = old
      · simp [he]
      · simp only [bne_iff_ne, ne_eq, he, not_false_eq_true, if_true]; omega
  · rename_i hb
    unfold rot
    dsimp only
    by_cases hlt : height l < height r
    · simp only [hlt, decide_true, child, Bool.not_true, if_true, Bool.false_eq_true, if_false]
      cases r with
      | nil => simp [height_nil] at hlt
      | node ky vy yl yr hy =>
        obtain ⟨b1, b2, b3, b4, b5⟩ := hr
        simp only [height_node] at h hb hlt
        dsimp only
        split
        · rename_i hgt
          cases yl with
          | nil => simp [height_nil] at hgt
          | node kz vz zl zr hz =>
            obtain ⟨c1, c2, c3, c4, c5⟩ := b1
            simp only [height_node] at *
            refine ⟨_, _, rfl, ?_, ?_⟩
            · simp only [join, if_true, Bal, height_node]
              refine ⟨⟨hl, c1, ?_, ?_, ?_⟩, ⟨c2, b2, ?_, ?_, ?_⟩, ?_, ?_, ?_⟩ <;> omega
            · simp only [join, if_true, height_node]
              have : hz + 1 = old := by omega
              simp [this]
        · rename_i hgt
          refine ⟨_, _, rfl, ?_, ?_⟩
          · simp only [join, if_true, Bal, height_node]
            refine ⟨⟨hl, b1, ?_, ?_, ?_⟩, b2, ?_, ?_, ?_⟩ <;> omega
          · simp only [join, if_true, height_node]
            by_cases he : height yl + 2 = old
            · simp [he]
            · simp only [bne_iff_ne, ne_eq, he, not_false_eq_true, if_true]; omega
    · simp only [hlt, decide_false, child, Bool.not_false, if_true, Bool.false_eq_true, if_false]
      cases l with
      | nil => simp [height_nil] at hb hlt; omega
      | node ky vy yl yr hy =>
        obtain ⟨b1, b2, b3, b4, b5⟩ := hl
        simp only [height_node] at h hb hlt
        dsimp only
        split
        · rename_i hgt
          cases yr with
          | nil => simp [height_nil] at hgt
          | node kz vz zl zr hz =>
            obtain ⟨c1, c2, c3, c4, c5⟩ := b2
            simp only [height_node] at *
            refine ⟨_, _, rfl, ?_, ?_⟩
            · simp only [join, Bool.false_eq_true, if_false, Bal, height_node]
              refine ⟨⟨b1, c1, ?_, ?_, ?_⟩, ⟨c2, hr, ?_, ?_, ?_⟩, ?_, ?_, ?_⟩ <;> omega
            · simp only [join, Bool.false_eq_true, if_false, height_node]
              have : hz + 1 = old := by omega
              simp [this]
        · rename_i hgt
          refine ⟨_, _, rfl, ?_, ?_⟩
          · simp only [join, Bool.false_eq_true, if_false, Bal, height_node]
            refine ⟨b1, ⟨b2, hr, ?_, ?_, ?_⟩, ?_, ?_, ?_⟩ <;> omega
          · simp only [join, Bool.false_eq_true, if_false, height_node]
            by_cases he : height yr + 2 = old
            · simp [he]
            · simp only [bne_iff_ne, ne_eq, he, not_false_eq_true, if_true]; omega

theorem ins_bal (k : Bytes) (v : V) : ∀ t : Tree V, Bal t →
    ∃ t' go, ins k v t = some (t', go) ∧ Bal t' ∧ height t' = (if go then height t + 1 else height t) := by
  intro t
  induction t with
  | nil => intro _; exact ⟨_, _, rfl, by simp [Bal, height], rfl⟩
  | node k' w l r h ihl ihr =>
    intro hb
    have hb0 := hb
    obtain ⟨b1, b2, b3, b4, b5⟩ := hb
    unfold ins
    cases hc : strcmp k k' with
    | eq => exact ⟨_, _, rfl, ⟨b1, b2, b3, b4, b5⟩, rfl⟩
    | lt =>
      obtain ⟨t', go, e, hb', hh⟩ := ihl b1
      simp only [e, Option.bind_eq_bind, Option.bind_some]
      cases go with
      | false =>
        simp only [Bool.false_eq_true, if_false] at hh ⊢
        exact ⟨_, _, rfl, ⟨hb', b2, by rw [hh]; exact b3, by omega, by omega⟩, rfl⟩
      | true =>
        simp only [if_true] at hh ⊢
        exact balance_bal hb' b2 (by omega)
    | gt =>
      obtain ⟨t', go, e, hb', hh⟩ := ihr b2
      simp only [e, Option.bind_eq_bind, Option.bind_some]
      cases go with
      | false =>
        simp only [Bool.false_eq_true, if_false] at hh ⊢
        exact ⟨_, _, rfl, ⟨b1, hb', by rw [hh]; exact b3, by omega, by omega⟩, rfl⟩
      | true =>
        simp only [if_true] at hh ⊢
        exact balance_bal b1 hb' (by omega)

/-- What insertion does to the entries. -/
theorem ins_entries (k : Bytes) (v : V) : ∀ (t t' : Tree V) (go : Bool), Sorted (entries t) → ins k v t = some (t', go) →
    ∃ a b, (∀ p ∈ a, Lt p.1 k) ∧ (∀ p ∈ b, Lt k p.1) ∧ entries t' = a ++ (k, v) :: b ∧
      (entries t = a ++ b ∨ ∃ old, entries t = a ++ (k, old) :: b) := by
  intro t
  induction t with
  | nil => intro t' go _ h; cases h; exact ⟨[], [], by simp, by simp, rfl, .inl rfl⟩
  | node k' w l r h ihl ihr =>
    intro t' go hs he
    simp only [entries, Sorted] at hs
    rw [List.pairwise_append, List.pairwise_cons] at hs
    obtain ⟨s1, ⟨s2, s3⟩, s4⟩ := hs
    have hlk : ∀ p ∈ entries l, Lt p.1 k' := fun p hp => s4 p hp (k', w) (List.mem_cons_self ..)
    have hlr : ∀ p ∈ entries l, ∀ q ∈ entries r, Lt p.1 q.1 := fun p hp q hq => s4 p hp q (List.mem_cons_of_mem _ hq)
    unfold ins at he
    cases hc : strcmp k k' with
    | eq =>
      rw [hc] at he
      cases he
      have := (strcmp_eq k k').1 hc
      subst this
      exact ⟨entries l, entries r, hlk, s2, rfl, .inr ⟨w, rfl⟩⟩
    | lt =>
      rw [hc] at he
      simp only [Option.bind_eq_bind] at he
      cases hi : ins k v l with
      | none => rw [hi] at he; cases he
      | some p =>
        obtain ⟨t, g⟩ := p
        rw [hi] at he
        simp only [Option.bind_some] at he
        obtain ⟨a, b, ha, hb, e1, e2⟩ := ihl t g s1 hi
        have e : entries t' = entries t ++ (k', w) :: entries r := by
          cases g with
          | true => exact balance_entries he
          | false => cases he; rfl
        refine ⟨a, b ++ (k', w) :: entries r, ha, ?_, by rw [e, e1]; simp, ?_⟩
        · intro p hp
          rcases List.mem_append.1 hp with hp | hp
          · exact hb p hp
          · rcases List.mem_cons.1 hp with rfl | hp
            · exact hc
            · exact Lt.trans hc (s2 p hp)
        · rcases e2 with e2 | ⟨old, e2⟩
          · left; simp [entries, e2]
          · right; exact ⟨old, by simp [entries, e2]⟩
    | gt =>
      rw [hc] at he
      simp only [Option.bind_eq_bind] at he
      cases hi : ins k v r with
      | none => rw [hi] at he; cases he
      | some p =>
        obtain ⟨t, g⟩ := p
        rw [hi] at he
        simp only [Option.bind_some] at he
        obtain ⟨a, b, ha, hb, e1, e2⟩ := ihr t g s3 hi
        have e : entries t' = entries l ++ (k', w) :: entries t := by
          cases g with
          | true => exact balance_entries he
          | false => cases he; rfl
        refine ⟨entries l ++ (k', w) :: a, b, ?_, hb, by rw [e, e1]; simp, ?_⟩
        · intro p hp
          rcases List.mem_append.1 hp with hp | hp
          · exact Lt.trans (hlk p hp) (lt_of_gt hc)
          · rcases List.mem_cons.1 hp with rfl | hp
            · exact lt_of_gt hc
            · exact ha p hp
        · rcases e2 with e2 | ⟨old, e2⟩
          · left; simp [entries, e2]
          · right; exact ⟨old, by simp [entries, e2]⟩

theorem Lt.ne {a b : Bytes} (h : Lt a b) : a ≠ b := by
  rintro rfl
  have := (strcmp_eq a a).2 rfl
  rw [Lt, this] at h; cases h

theorem lookup_append_of_notMem {k : Bytes} : ∀ {a b : List (Bytes × V)}, (∀ p ∈ a, p.1 ≠ k) → (a ++ b).lookup k = b.lookup k
  | [], _, _ => rfl
  | (x, v) :: a, b, h => by
    have hx : x ≠ k := h (x, v) (List.mem_cons_self ..)
    simp only [List.cons_append, List.lookup_cons]
    rw [show (k == x) = false by simpa using fun e => hx e.symm]
    exact lookup_append_of_notMem (fun p hp => h p (List.mem_cons_of_mem _ hp))

theorem lookup_none {k : Bytes} : ∀ {a : List (Bytes × V)}, (∀ p ∈ a, p.1 ≠ k) → a.lookup k = none
  | [], _ => rfl
  | (x, v) :: a, h => by
    have hx : x ≠ k := h (x, v) (List.mem_cons_self ..)
    simp only [List.lookup_cons]
    rw [show (k == x) = false by simpa using fun e => hx e.symm]
    exact lookup_none (fun p hp => h p (List.mem_cons_of_mem _ hp))

theorem find_entries (k : Bytes) : ∀ t : Tree V, Sorted (entries t) → find k t = (entries t).lookup k := by
  intro t
  induction t with
  | nil => intro _; rfl
  | node k' w l r h ihl ihr =>
    intro hs
    simp only [entries, Sorted] at hs
    rw [List.pairwise_append, List.pairwise_cons] at hs
    obtain ⟨s1, ⟨s2, s3⟩, s4⟩ := hs
    have hlk : ∀ p ∈ entries l, Lt p.1 k' := fun p hp => s4 p hp (k', w) (List.mem_cons_self ..)
    unfold find entries
    cases hc : strcmp k k' with
    | eq =>
      have := (strcmp_eq k k').1 hc
      subst this
      rw [lookup_append_of_notMem (fun p hp => (hlk p hp).ne)]
      simp
    | lt =>
      dsimp only
      rw [ihl s1]
      have hr : ∀ p ∈ (k', w) :: entries r, p.1 ≠ k := by
        intro p hp
        rcases List.mem_cons.1 hp with rfl | hp
        · exact (Lt.ne hc).symm
        · exact (Lt.ne (Lt.trans hc (s2 p hp))).symm
      rw [List.lookup_append, lookup_none hr]
      simp
    | gt =>
      dsimp only
      have hl : ∀ p ∈ entries l, p.1 ≠ k := fun p hp => (Lt.trans (hlk p hp) (lt_of_gt hc)).ne
      rw [lookup_append_of_notMem hl, ihr s3, List.lookup_cons]
      rw [show (k == k') = false by simpa using fun e => (Lt.ne (lt_of_gt hc)) e.symm]

theorem sorted_split {k : Bytes} {v : V} {a b : List (Bytes × V)} (ha : ∀ p ∈ a, Lt p.1 k) (hb : ∀ p ∈ b, Lt k p.1) (sa : Sorted a)
    (sb : Sorted b) : Sorted (a ++ (k, v) :: b) := by
  unfold Sorted
  rw [List.pairwise_append, List.pairwise_cons]
  refine ⟨sa, ⟨hb, sb⟩, ?_⟩
  intro p hp q hq
  rcases List.mem_cons.1 hq with rfl | hq
  · exact ha p hp
  · exact Lt.trans (ha p hp) (hb q hq)

theorem ins_spec {k : Bytes} {v : V} {t t' : Tree V} {go : Bool} (hs : Sorted (entries t)) (h : ins k v t = some (t', go)) :
    Sorted (entries t') ∧ (∀ k', find k' t' = if k' = k then some v else find k' t) ∧
      (entries t').length = (entries t).length + (if (find k t).isSome then 0 else 1) := by
  obtain ⟨a, b, ha, hb, e1, e2⟩ := ins_entries k v t t' go hs h
  have hsab : Sorted a ∧ Sorted b := by
    rcases e2 with e2 | ⟨old, e2⟩
    · rw [e2, Sorted, List.pairwise_append] at hs; exact ⟨hs.1, hs.2.1⟩
    · rw [e2, Sorted, List.pairwise_append, List.pairwise_cons] at hs; exact ⟨hs.1, hs.2.1.2⟩
  have hs' : Sorted (entries t') := by rw [e1]; exact sorted_split ha hb hsab.1 hsab.2
  have hk : find k t = (entries t).lookup k := find_entries k t hs
  refine ⟨hs', ?_, ?_⟩
  · intro k'
    rw [find_entries k' t' hs', find_entries k' t hs, e1]
    by_cases hkk : k' = k
    · subst hkk
      rw [if_pos rfl, lookup_append_of_notMem (fun p hp => (ha p hp).ne)]
      simp
    · rw [if_neg hkk]
      rcases e2 with e2 | ⟨old, e2⟩
      · rw [e2, List.lookup_append, List.lookup_append, List.lookup_cons, show (k' == k) = false by simpa using hkk]
      · rw [e2, List.lookup_append, List.lookup_append, List.lookup_cons, List.lookup_cons, show (k' == k) = false by simpa using hkk]
  · rw [hk, e1]
    rcases e2 with e2 | ⟨old, e2⟩
    · rw [e2, List.lookup_append, lookup_none (fun p hp => (ha p hp).ne), lookup_none (fun p hp => (hb p hp).ne.symm)]
      simp
      omega
    · rw [e2, lookup_append_of_notMem (fun p hp => (ha p hp).ne)]
      simp

/-- Least number of entries of a balanced tree of a height. -/
def least : Nat → Nat
  | 0 => 0
  | 1 => 1
  | n + 2 => least (n + 1) + least n + 1

theorem least_mono (n : Nat) : least n ≤ least (n + 1) := by
  cases n with
  | zero => simp [least]
  | succ n => simp only [least]; omega

theorem Bal.least : ∀ {t : Tree V}, Bal t → least (height t) ≤ (entries t).length
  | .nil, _ => by simp [height, Tree.least]
  | .node k v l r h, hb => by
    obtain ⟨b1, b2, b3, b4, b5⟩ := hb
    have i1 := b1.least
    have i2 := b2.least
    simp only [height, entries, List.length_append, List.length_cons]
    have hm : ∀ n m : Nat, n + 1 = m → Tree.least n ≤ Tree.least m := fun n m e => by subst e; exact least_mono n
    have h1 : h = height l + 1 ∨ h = height r + 1 := by omega
    by_cases hlr : height l = height r
    · rw [b3, hlr, Nat.max_self]
      cases hr : height r with
      | zero => simp only [Tree.least]; omega
      | succ n =>
        rw [hr] at i2
        rw [hlr, hr] at i1
        simp only [Tree.least]
        have := least_mono n
        omega
    · by_cases hlt : height l < height r
      · have : height r = height l + 1 := by omega
        rw [b3, this, Nat.max_eq_right (by omega)]
        rw [this] at i2
        simp only [Tree.least]; omega
      · have : height l = height r + 1 := by omega
        rw [b3, this, Nat.max_eq_left (by omega)]
        rw [this] at i1
        simp only [Tree.least]; omega

/-- `least` by iteration. -/
def leastPair : Nat → Nat × Nat
  | 0 => (0, 1)
  | n + 1 => let (a, b) := leastPair n; (b, a + b + 1)

theorem leastPair_eq (n : Nat) : leastPair n = (least n, least (n + 1)) := by
  induction n with
  | zero => rfl
  | succ n ih =>
    simp only [leastPair, ih, least]
    rw [Nat.add_comm (least n)]

theorem least_96 : 2 ^ 64 ≤ least 96 := by
  have : least 96 = (leastPair 96).1 := by rw [leastPair_eq]
  rw [this]
  decide +kernel

theorem least_le {m n : Nat} (h : m ≤ n) : least m ≤ least n := by
  induction h with
  | refl => exact Nat.le_refl _
  | step _ ih => exact Nat.le_trans ih (least_mono _)

theorem bal_maxH {t : Tree V} (h : Bal t) (hn : (entries t).length < 2 ^ 64) : depth t < maxH := by
  rw [h.depth]
  show height t < 96
  rcases Nat.lt_or_ge (height t) 96 with h1 | h1
  · exact h1
  · have := h.least
    have := least_le h1
    have := least_96
    omega

theorem least_exp (n : Nat) : 2 ^ (n / 2) ≤ least n + 1 := by
  have key : ∀ n, 2 ^ (n / 2) ≤ least n + 1 ∧ 2 ^ ((n + 1) / 2) ≤ least (n + 1) + 1 := by
    intro n
    induction n with
    | zero => simp [least]
    | succ n ih =>
      refine ⟨ih.2, ?_⟩
      rw [show (n + 1 + 1) / 2 = n / 2 + 1 by omega, Nat.pow_succ]
      have := least_mono n
      simp only [least]
      omega
  exact (key n).1

end Muon.Tree
