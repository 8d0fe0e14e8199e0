import Verif.Serial.Model
import Verif.Dlog.Lemmas
namespace Muon.Serial
open Muon
open _root_.Muon.Dlog (le32 get32 le32_length get32_le32)

/-- An object that can be dumped: fields fit their sizes, a small string is in `chrs`, and flags say what is a big string. -/
def CellOk (sz : Sizes) (chrs : List Bytes) : Cell → Prop
  | .simple t v => t < aosStart ∧ v < 2 ^ 32
  | .aos t b => aosStart ≤ t ∧ t < tagCount ∧ t ≠ tagString ∧ b.length = sz t
  | .small f p l => f < 2 ^ 32 ∧ f % 2 = 0 ∧ p < 2 ^ 32 ∧ l < 2 ^ 32 ∧ ∃ b, chrs[p / 4096]? = some b ∧ p % 4096 < b.length
  | .big f _ => f < 2 ^ 32 ∧ f % 2 = 1

/-- A workspace that can be dumped. -/
structure WF (sz : Sizes) (root : Nat) (m : Img) : Prop where
  root : root < 2 ^ 32
  nchrs : m.chrs.length < 2 ^ 32
  chrs : ∀ b ∈ m.chrs, b.length ≤ 4096
  nobjs : m.objs.length < 2 ^ 32
  objs : ∀ c ∈ m.objs, CellOk sz m.chrs c
  nbig : (bigData m.objs).length < 2 ^ 32
  nelems : m.elems.length < 2 ^ 32
  elems : ∀ b ∈ m.elems, 12 * (b.length / 12) = b.length ∧ b.length / 12 ≤ 1024

/-- A reader takes exactly `out` from the file, gives `x`, and fails if some of it is missing. -/
structure Exact {α : Type} (r : Bytes → Res (α × Bytes)) (out : Bytes) (x : α) : Prop where
  full : ∀ rest, r (out ++ rest) = .ok (x, rest)
  cut : ∀ k, k < out.length → r (out.take k) = .error

theorem Exact.pure {α : Type} (x : α) : Exact (fun s => .ok (x, s)) [] x := ⟨fun _ => rfl, fun k h => by simp at h⟩

theorem Exact.bind {α β : Type} {r : Bytes → Res (α × Bytes)} {o1 o2 : Bytes} {x : α} {y : β} {f : α → Bytes → Res (β × Bytes)}
    (h1 : Exact r o1 x) (h2 : Exact (f x) o2 y) : Exact (fun s => r s >>= fun a => f a.1 a.2) (o1 ++ o2) y := by
  refine ⟨fun rest => ?_, fun k hk => ?_⟩
  · rw [List.append_assoc, h1.full]
    exact h2.full rest
  · by_cases hlt : k < o1.length
    · rw [List.take_append_of_le_length (by omega), h1.cut k hlt]; rfl
    · rw [List.take_append, List.take_of_length_le (by omega), h1.full]
      exact h2.cut _ (by rw [List.length_append] at hk; omega)

theorem Exact.bind' {α β : Type} {r : Bytes → Res (α × Bytes)} {o1 o2 o : Bytes} {x : α} {y : β} {g : Bytes → Res (β × Bytes)} {f : α → Bytes → Res (β × Bytes)}
    (h1 : Exact r o1 x) (h2 : Exact (f x) o2 y) (ho : o = o1 ++ o2) (hg : ∀ s, g s = r s >>= fun a => f a.1 a.2) : Exact g o y := by
  subst ho
  have : g = fun s => r s >>= fun a => f a.1 a.2 := funext hg
  rw [this]; exact h1.bind h2

theorem exact_take (b : Bytes) : Exact (take b.length) b b := by
  refine ⟨fun rest => ?_, fun k hk => ?_⟩
  · unfold take
    rw [if_neg (by simp), List.take_left' rfl, List.drop_left' rfl]
  · unfold take
    rw [if_pos (by rw [List.length_take]; omega)]

theorem exact_take' (n : Nat) (b : Bytes) (h : b.length = n) : Exact (take n) b b := h ▸ exact_take b

theorem exact32 (n : Nat) (h : n < 2 ^ 32) : Exact load32 (le32 n) n := by
  refine (exact_take' 4 (le32 n) rfl).bind' (o2 := []) (f := fun a s => .ok (get32 a, s)) ?_ (by simp) (fun s => rfl)
  have := get32_le32 n h []
  rw [List.append_nil] at this
  rw [this]; exact .pure n

theorem exact64 (n : Nat) (h : n < 2 ^ 64) : Exact load64 (le64 n) n := by
  refine (exact_take' 8 (le64 n) rfl).bind' (o2 := []) (f := fun a s => .ok (get32 a + 2 ^ 32 * get32 (a.drop 4), s)) ?_ (by simp) (fun s => rfl)
  have h1 : get32 (le64 n) = n % 2 ^ 32 := get32_le32 _ (by omega) _
  have h2 : get32 ((le64 n).drop 4) = n / 2 ^ 32 := by
    unfold le64
    rw [List.drop_left' (le32_length _)]
    have := get32_le32 (n / 2 ^ 32) (by omega) []
    rwa [List.append_nil] at this
  rw [h1, h2, show n % 2 ^ 32 + 2 ^ 32 * (n / 2 ^ 32) = n by omega]
  exact .pure n

theorem exact_bucketsN (isz bsz : Nat) (bs : List Bytes) (hb : ∀ b ∈ bs, isz * (b.length / isz) = b.length ∧ b.length / isz ≤ bsz) (hs : bsz < 2 ^ 32) :
    Exact (loadBucketsN isz bsz bs.length) (bs.flatMap fun b => le32 (b.length / isz) ++ b) bs := by
  induction bs with
  | nil => exact .pure []
  | cons b bs ih =>
    obtain ⟨h1, h2⟩ := hb b (by simp)
    have ih := ih (fun b h => hb b (by simp [h]))
    refine (exact32 (b.length / isz) (by omega)).bind' (o2 := b ++ bs.flatMap fun b => le32 (b.length / isz) ++ b)
      (f := fun l s => if l > bsz then .error else take (isz * l) s >>= fun b => loadBucketsN isz bsz bs.length b.2 >>= fun r => .ok (b.1 :: r.1, r.2))
      ?_ (by rw [List.flatMap_cons, List.append_assoc]) (fun s => rfl)
    have : (fun s => if b.length / isz > bsz then Res.error else take (isz * (b.length / isz)) s >>= fun b => loadBucketsN isz bsz bs.length b.2 >>= fun r => Res.ok (b.1 :: r.1, r.2)) =
        fun s => take b.length s >>= fun b => loadBucketsN isz bsz bs.length b.2 >>= fun r => Res.ok (b.1 :: r.1, r.2) := by
      funext s; rw [if_neg (by omega), h1]
    rw [this]
    refine (exact_take b).bind' (f := fun b s => loadBucketsN isz bsz bs.length s >>= fun r => .ok (b :: r.1, r.2)) ?_ rfl (fun s => rfl)
    exact ih.bind' (o2 := []) (f := fun r s => .ok (b :: r, s)) (.pure _) (by simp) (fun s => rfl)

theorem exact_buckets (isz bsz : Nat) (bs : List Bytes) (hn : bs.length < 2 ^ 32) (hb : ∀ b ∈ bs, isz * (b.length / isz) = b.length ∧ b.length / isz ≤ bsz) (hs : bsz < 2 ^ 32) :
    Exact (loadBuckets isz bsz) (dumpBuckets isz bs) bs :=
  (exact32 bs.length hn).bind' (f := fun n s => loadBucketsN isz bsz n s) (exact_bucketsN isz bsz bs hb hs) rfl (fun s => rfl)

theorem exact_header : Exact loadHeader header () := by
  refine (exact_take' 8 (ascii "muondump") (by decide +kernel)).bind' (o2 := le32 7)
    (f := fun m s => if m ≠ ascii "muondump" then .error else load32 s >>= fun v => if v.1 ≠ 7 then .error else .ok ((), v.2)) ?_ rfl (fun s => rfl)
  have : (fun s => if ascii "muondump" ≠ ascii "muondump" then Res.error else load32 s >>= fun v => if v.1 ≠ 7 then Res.error else Res.ok ((), v.2)) =
      fun s => load32 s >>= fun v => if v.1 ≠ 7 then Res.error else Res.ok ((), v.2) := by
    funext s; rw [if_neg (by simp)]
  rw [this]
  exact (exact32 7 (by decide)).bind' (o2 := []) (f := fun v s => if v ≠ 7 then .error else .ok ((), s)) (.pure ()) rfl (fun s => rfl)

theorem exact_big (b : Bytes) (h : b.length < 2 ^ 32) : Exact loadBig (le64 b.length ++ b) b := by
  refine (exact64 b.length (by omega)).bind' (o2 := b) (f := fun n s => if n > 2 ^ 32 - 1 then .error else take n s) ?_ rfl (fun s => rfl)
  have : (fun s => if b.length > 2 ^ 32 - 1 then Res.error else take b.length s) = take b.length := by
    funext s; rw [if_neg (by omega)]
  rw [this]; exact exact_take b

theorem exact_byte (t : Nat) (h : t < 256) (out : Bytes) {β : Type} (y : β) (f : Nat → Bytes → Res (β × Bytes)) (hf : Exact (f t) out y) :
    Exact (fun s => take 1 s >>= fun t => f (t.1.headD 0).toNat t.2) (UInt8.ofNat t :: out) y := by
  refine (exact_take' 1 [UInt8.ofNat t] rfl).bind' (o2 := out) (f := fun t s => f (t.headD 0).toNat s) ?_ rfl (fun s => rfl)
  have : (([UInt8.ofNat t] : Bytes).headD 0).toNat = t := by
    simp only [List.headD_cons, UInt8.toNat_ofNat']; omega
  rw [this]; exact hf

theorem exact_str {β : Type} (p l f pad : Nat) (hp : p < 2 ^ 64) (hl : l < 2 ^ 64) (hf : f < 2 ^ 32) (hpad : pad < 2 ^ 32) (g : Nat → Nat → Nat → Res β) (x : β) (hg : g p l f = .ok x) :
    Exact (fun s => load64 s >>= fun p => load64 p.2 >>= fun l => load32 l.2 >>= fun f => load32 f.2 >>= fun e => g p.1 l.1 f.1 >>= fun c => .ok (c, e.2))
      (le64 p ++ (le64 l ++ (le32 f ++ le32 pad))) x := by
  refine (exact64 p hp).bind' (f := fun p s => load64 s >>= fun l => load32 l.2 >>= fun f => load32 f.2 >>= fun e => g p l.1 f.1 >>= fun c => .ok (c, e.2)) ?_ rfl (fun s => rfl)
  refine (exact64 l hl).bind' (f := fun l s => load32 s >>= fun f => load32 f.2 >>= fun e => g p l f.1 >>= fun c => .ok (c, e.2)) ?_ rfl (fun s => rfl)
  refine (exact32 f hf).bind' (f := fun f s => load32 s >>= fun e => g p l f >>= fun c => .ok (c, e.2)) ?_ rfl (fun s => rfl)
  refine (exact32 pad hpad).bind' (o2 := []) (f := fun e s => g p l f >>= fun c => .ok (c, s)) ?_ (by simp) (fun s => rfl)
  rw [hg]; exact .pure x

/-- What the tag decides. -/
def loadTagged (sz : Sizes) (chrs : List Bytes) (bst : Bytes) (tag : Nat) (s : Bytes) : Res (Cell × Bytes) :=
  if tag < aosStart then load32 s >>= fun v => .ok (.simple tag v.1, v.2)
  else if tag ≥ tagCount then .error
  else if tag = tagString then
    load64 s >>= fun p => load64 p.2 >>= fun l => load32 l.2 >>= fun f => load32 f.2 >>= fun e =>
    (if f.1 % 2 = 1 then bigString bst p.1 l.1 >>= fun b => .ok (.big f.1 b) else smallString chrs f.1 p.1 l.1) >>= fun c => .ok (c, e.2)
  else take (sz tag) s >>= fun b => .ok (.aos tag b.1, b.2)

theorem loadCell_eq (sz : Sizes) (chrs : List Bytes) (bst s : Bytes) :
    loadCell sz chrs bst s = take 1 s >>= fun t => loadTagged sz chrs bst (t.1.headD 0).toNat t.2 := by
  unfold loadCell loadTagged
  congr 1
  funext t
  dsimp only
  split
  · rfl
  split
  · rfl
  split
  · congr 1; funext p; congr 1; funext l; congr 1; funext f; congr 1; funext e
    split
    · cases bigString bst p.1 l.1 <;> rfl
    · rfl
  · rfl

theorem exact_cell (sz : Sizes) (pad : Nat) (hpad : pad < 2 ^ 32) (chrs : List Bytes) (pre post : Bytes) (c : Cell)
    (hb : (pre ++ (c.bigText ++ post)).length < 2 ^ 32)
    (hc : CellOk sz chrs c) :
    Exact (loadCell sz chrs (pre ++ (c.bigText ++ post))) (dumpCell pad pre.length c) c := by
  rw [show loadCell sz chrs (pre ++ (c.bigText ++ post)) = fun s => take 1 s >>= fun t => loadTagged sz chrs (pre ++ (c.bigText ++ post)) (t.1.headD 0).toNat t.2 from
    funext (loadCell_eq sz chrs _)]
  have ha : aosStart = 7 := rfl
  have hs : tagString = 8 := rfl
  have ht : tagCount = 34 := rfl
  cases c with
  | simple t v =>
    obtain ⟨h1, h2⟩ := hc
    refine exact_byte t (by omega) (le32 v) _ (loadTagged sz chrs _) ?_
    refine (exact32 v h2).bind' (o2 := []) (f := fun v s => .ok (.simple t v, s)) (.pure _) (by simp) (fun s => ?_)
    unfold loadTagged; rw [if_pos h1]
  | aos t b =>
    obtain ⟨h1, h2, h3, h4⟩ := hc
    refine exact_byte t (by omega) b _ (loadTagged sz chrs _) ?_
    refine (exact_take' (sz t) b h4).bind' (o2 := []) (f := fun v s => .ok (.aos t v, s)) (.pure _) (by simp) (fun s => ?_)
    unfold loadTagged; rw [if_neg (by omega), if_neg (by omega), if_neg h3]
  | small f p l =>
    obtain ⟨h1, h2, h3, h4, b, h5, h6⟩ := hc
    refine exact_byte tagString (by omega) _ _ (loadTagged sz chrs _) ?_
    have := exact_str p l f pad (by omega) (by omega) h1 hpad
      (fun p l f => if f % 2 = 1 then bigString (pre ++ ((Cell.small f p l).bigText ++ post)) p l >>= fun b => .ok (.big f b) else smallString chrs f p l) (.small f p l) (by
        rw [if_neg (by omega)]
        unfold smallString
        have hi := (List.getElem?_eq_some_iff.1 h5).1
        rw [show p / 4096 % 2 ^ 32 = p / 4096 by omega, if_neg (by omega), h5]
        dsimp only
        rw [if_neg (by omega), show p % 2 ^ 32 = p by omega, h5]
        dsimp only
        rw [if_pos h6, show l % 2 ^ 32 = l by omega])
    refine ⟨fun rest => ?_, fun k hk => ?_⟩
    · have h := this.full rest
      unfold loadTagged
      rw [if_neg (by decide), if_neg (by decide), if_pos rfl]
      exact h
    · have h := this.cut k hk
      unfold loadTagged
      rw [if_neg (by decide), if_neg (by decide), if_pos rfl]
      exact h
  | big f s =>
    obtain ⟨h1, h2⟩ := hc
    refine exact_byte tagString (by omega) _ _ (loadTagged sz chrs _) ?_
    have hlen : pre.length + (s.length + 1) + post.length < 2 ^ 32 := by
      simp only [Cell.bigText, List.length_append, List.length_singleton] at hb; omega
    have := exact_str pre.length s.length f pad (by omega) (by omega) h1 hpad
      (fun p l f => if f % 2 = 1 then bigString (pre ++ ((Cell.big f s).bigText ++ post)) p l >>= fun b => .ok (.big f b) else smallString chrs f p l) (.big f s) (by
        rw [if_pos h2]
        have hbs : bigString (pre ++ ((Cell.big f s).bigText ++ post)) pre.length s.length = .ok s := by
          show bigString (pre ++ ((s ++ [0]) ++ post)) pre.length s.length = .ok s
          unfold bigString
          rw [if_neg (by simp; omega), if_neg (by simp), List.drop_left' rfl, List.append_assoc, List.take_left' rfl]
        rw [hbs]; rfl)
    refine ⟨fun rest => ?_, fun k hk => ?_⟩
    · have h := this.full rest
      unfold loadTagged
      rw [if_neg (by decide), if_neg (by decide), if_pos rfl]
      exact h
    · have h := this.cut k hk
      unfold loadTagged
      rw [if_neg (by decide), if_neg (by decide), if_pos rfl]
      exact h

theorem exact_cells (sz : Sizes) (pad : Nat) (hpad : pad < 2 ^ 32) (chrs : List Bytes) (cs : List Cell) : ∀ (pre : Bytes)
    (_ : (pre ++ bigData cs).length < 2 ^ 32)
    (_ : ∀ c ∈ cs, CellOk sz chrs c),
    Exact (loadCells sz chrs (pre ++ bigData cs) cs.length) (dumpCells pad pre.length cs) cs := by
  induction cs with
  | nil => intro pre _ _; exact .pure []
  | cons c cs ih =>
    intro pre hb hc
    have hcat : bigData (c :: cs) = c.bigText ++ bigData cs := by unfold bigData; rw [List.flatMap_cons]
    rw [hcat] at hb ⊢
    have h1 := exact_cell sz pad hpad chrs pre (bigData cs) c hb (hc c (by simp))
    have h2 := ih (pre ++ c.bigText) (by rw [List.append_assoc]; exact hb) (fun c h => hc c (by simp [h]))
    rw [List.append_assoc, List.length_append] at h2
    refine h1.bind' (f := fun c s => loadCells sz chrs (pre ++ (Cell.bigText _ ++ bigData cs)) cs.length s >>= fun r => .ok (c :: r.1, r.2)) ?_ rfl (fun s => rfl)
    exact h2.bind' (o2 := []) (f := fun r s => .ok (c :: r, s)) (.pure _) (by simp) (fun s => rfl)

theorem exact_objs (sz : Sizes) (pad : Nat) (hpad : pad < 2 ^ 32) {root : Nat} {m : Img} (h : WF sz root m) :
    Exact (loadObjs sz m.chrs (bigData m.objs)) (dumpObjs pad m.objs) m.objs :=
  (exact32 m.objs.length h.nobjs).bind' (f := fun n s => loadCells sz m.chrs (bigData m.objs) n s)
    (exact_cells sz pad hpad m.chrs m.objs [] (by simpa using h.nbig) h.objs) rfl (fun s => rfl)

/-- Reading with the rest of the file. -/
def loadAll (sz : Sizes) (s : Bytes) : Res ((Nat × Img) × Bytes) :=
  loadHeader s >>= fun h => load32 h.2 >>= fun root => loadBuckets 1 4096 root.2 >>= fun chrs => loadBig chrs.2 >>= fun bst =>
  loadObjs sz chrs.1 bst.1 bst.2 >>= fun objs => loadBuckets 12 1024 objs.2 >>= fun elems =>
  .ok ((root.1, ⟨chrs.1, objs.1, elems.1⟩), elems.2)

theorem load_eq (sz : Sizes) (s : Bytes) : load sz s = loadAll sz s >>= fun r => .ok r.1 := by
  unfold load loadAll
  cases loadHeader s with
  | error => rfl
  | bad => rfl
  | ok h =>
    simp only [Res.ok_bind]
    cases load32 h.2 with
    | error => rfl
    | bad => rfl
    | ok root =>
      simp only [Res.ok_bind]
      cases loadBuckets 1 4096 root.2 with
      | error => rfl
      | bad => rfl
      | ok chrs =>
        simp only [Res.ok_bind]
        cases loadBig chrs.2 with
        | error => rfl
        | bad => rfl
        | ok bst =>
          simp only [Res.ok_bind]
          cases loadObjs sz chrs.1 bst.1 bst.2 with
          | error => rfl
          | bad => rfl
          | ok objs =>
            simp only [Res.ok_bind]
            cases loadBuckets 12 1024 objs.2 <;> rfl

theorem exact_load (sz : Sizes) (pad : Nat) (hpad : pad < 2 ^ 32) {root : Nat} {m : Img} (h : WF sz root m) :
    Exact (loadAll sz) (dump pad root m) (root, m) := by
  unfold dump dumpStart
  rw [show header ++ (le32 root ++ dumpBuckets 1 m.chrs) ++ (le64 (bigData m.objs).length ++ (bigData m.objs ++ (dumpObjs pad m.objs ++ dumpBuckets 12 m.elems))) =
    header ++ (le32 root ++ (dumpBuckets 1 m.chrs ++ ((le64 (bigData m.objs).length ++ bigData m.objs) ++ (dumpObjs pad m.objs ++ dumpBuckets 12 m.elems)))) by
      simp [List.append_assoc]]
  refine exact_header.bind' (f := fun _ s => load32 s >>= fun root => loadBuckets 1 4096 root.2 >>= fun chrs => loadBig chrs.2 >>= fun bst =>
    loadObjs sz chrs.1 bst.1 bst.2 >>= fun objs => loadBuckets 12 1024 objs.2 >>= fun elems => .ok ((root.1, ⟨chrs.1, objs.1, elems.1⟩), elems.2)) ?_ rfl (fun s => rfl)
  refine (exact32 root h.root).bind' (f := fun root s => loadBuckets 1 4096 s >>= fun chrs => loadBig chrs.2 >>= fun bst =>
    loadObjs sz chrs.1 bst.1 bst.2 >>= fun objs => loadBuckets 12 1024 objs.2 >>= fun elems => .ok ((root, ⟨chrs.1, objs.1, elems.1⟩), elems.2)) ?_ rfl (fun s => rfl)
  refine (exact_buckets 1 4096 m.chrs h.nchrs (fun b hb => ⟨by omega, by have := h.chrs b hb; omega⟩) (by decide)).bind' (f := fun chrs s => loadBig s >>= fun bst =>
    loadObjs sz chrs bst.1 bst.2 >>= fun objs => loadBuckets 12 1024 objs.2 >>= fun elems => .ok ((root, ⟨chrs, objs.1, elems.1⟩), elems.2)) ?_ rfl (fun s => rfl)
  refine (exact_big _ h.nbig).bind' (f := fun bst s => loadObjs sz m.chrs bst s >>= fun objs => loadBuckets 12 1024 objs.2 >>= fun elems => .ok ((root, ⟨m.chrs, objs.1, elems.1⟩), elems.2)) ?_ rfl (fun s => rfl)
  refine (exact_objs sz pad hpad h).bind' (f := fun objs s => loadBuckets 12 1024 s >>= fun elems => .ok ((root, ⟨m.chrs, objs, elems.1⟩), elems.2)) ?_ rfl (fun s => rfl)
  exact (exact_buckets 12 1024 m.elems h.nelems h.elems (by decide)).bind' (o2 := []) (f := fun elems s => .ok ((root, ⟨m.chrs, m.objs, elems⟩), s)) (.pure _) (by simp) (fun s => rfl)

end Muon.Serial
