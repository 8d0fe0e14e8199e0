import Verif.Rpath.Lemmas
/-
Lemmas about reading ELF files.
-/
namespace Muon.Rpath
open Muon Spec

theorem num_length (k n : Nat) : (num k n).length = k := by
  induction k generalizing n with
  | zero => rfl
  | succ k ih => simp [num, ih]

theorem le_num (k n : Nat) (h : n < 256 ^ k) : le (num k n) = n := by
  induction k generalizing n with
  | zero => simp only [Nat.pow_zero, Nat.lt_one_iff] at h; subst h; rfl
  | succ k ih =>
    rw [num, le, ih _ (by rw [Nat.pow_succ] at h; omega)]
    have : (UInt8.ofNat (n % 256)).toNat = n % 256 := by simp
    rw [this]
    omega

theorem Spec.At.split {f : Bytes} {off : Nat} {b : Bytes} (h : At f off b) (hb : b ≠ []) :
    ∃ p q, f = p ++ b ++ q ∧ p.length = off := by
  have hl := List.length_pos_iff.2 hb
  have h1 := congrArg List.length h
  simp only [List.length_take, List.length_drop] at h1
  refine ⟨f.take off, f.drop (off + b.length), ?_, by simp; omega⟩
  rw [← List.drop_drop]
  have h2 : f.drop off = b ++ (f.drop off).drop b.length := by
    have := List.take_append_drop b.length (f.drop off)
    rw [h] at this
    exact this.symm
  rw [List.append_assoc, ← h2, List.take_append_drop]

theorem Spec.At.of_split (p b q : Bytes) : At (p ++ b ++ q) p.length b := by
  unfold At
  simp

theorem Spec.At.sub {f : Bytes} {off : Nat} {a b c : Bytes} (h : At f off (a ++ b ++ c)) : At f (off + a.length) b := by
  by_cases hn : a ++ b ++ c = []
  · simp at hn
    rw [hn.2.1]
    simp [At]
  · obtain ⟨p, q, rfl, rfl⟩ := h.split hn
    rw [← List.length_append, show p ++ (a ++ b ++ c) ++ q = (p ++ a) ++ b ++ (c ++ q) by simp]
    exact At.of_split _ _ _

theorem Spec.At.read {f : Bytes} {off : Nat} {b : Bytes} (h : At f off b) (hb : b ≠ []) {n : Nat} (hn : b.length = n) : readAt f off n = some b := by
  obtain ⟨p, q, rfl, rfl⟩ := h.split hb
  have hl := List.length_pos_iff.2 hb
  unfold readAt
  rw [if_neg (by omega), if_pos (by simp; omega), ← hn]
  simp

/-- A field of a structure. -/
theorem le_field (a c : Bytes) (k n off : Nat) (ha : a.length = off) (h : n < 256 ^ k) : le (((a ++ num k n ++ c).drop off).take k) = n := by
  subst ha
  rw [List.append_assoc, List.drop_left, List.take_left' (num_length k n), le_num k n h]

theorem parseElf_at {is64 : Bool} {f x : Bytes} {type machine version entry phoff shoff flags ehsize phentsize phnum shentsize shnum shstrndx : Nat}
    (h : At f 0 (ehdr is64 x type machine version entry phoff shoff flags ehsize phentsize phnum shentsize shnum shstrndx)) (hx : x.length = 10)
    (h1 : shoff < 256 ^ word is64) (h2 : shentsize < 256 ^ 2) (h3 : shnum < 256 ^ 2) :
    parseElf f = some ⟨is64, shoff, shentsize, shnum⟩ := by
  have hl : (ehdr is64 x type machine version entry phoff shoff flags ehsize phentsize phnum shentsize shnum shstrndx).length = if is64 then 64 else 52 := by
    cases is64 <;> simp [ehdr, num_length, hx, word]
  have hr1 := h.read (by intro h0; rw [h0] at hl; cases is64 <;> simp at hl) hl
  have hp : readAt f 0 16 = some ([127, 69, 76, 70, if is64 then 2 else 1, 1] ++ x) := by
    have h' := At.sub (f := f) (off := 0) (a := []) (b := [127, 69, 76, 70, if is64 then 2 else 1, 1] ++ x)
      (c := num 2 type ++ num 2 machine ++ num 4 version ++ num (word is64) entry ++ num (word is64) phoff ++
        num (word is64) shoff ++ num 4 flags ++ num 2 ehsize ++ num 2 phentsize ++ num 2 phnum ++ num 2 shentsize ++ num 2 shnum ++ num 2 shstrndx)
      (by unfold ehdr at h; simpa only [List.nil_append, List.append_assoc] using h)
    exact h'.read (by simp) (by simp [hx])
  unfold parseElf
  rw [hp]
  dsimp only
  have e1 : ([127, 69, 76, 70, if is64 then 2 else 1, 1] ++ x).take 4 = [127, 69, 76, 70] := by simp
  have e2 : ([127, 69, 76, 70, if is64 then 2 else 1, 1] ++ x)[4]? = some (if is64 then 2 else 1) := by simp
  have e3 : ([127, 69, 76, 70, if is64 then 2 else 1, 1] ++ x)[5]? = some 1 := by simp
  rw [e1, e2, e3]
  have e4 : decide ((some (if is64 then 2 else 1) : Option UInt8) = some 2) = is64 := by cases is64 <;> decide
  rw [if_neg (by simp), if_neg (by cases is64 <;> decide), if_neg (by decide), e4]
  have e5 : (if (some (if is64 then 2 else 1) : Option UInt8) = some 2 then 64 else 52) = if is64 then 64 else 52 := by cases is64 <;> rfl
  rw [e5, hr1]
  dsimp only
  congr 1
  rw [Elf.mk.injEq]
  refine ⟨rfl, ?_, ?_, ?_⟩ <;> cases is64 <;> simp only [field, word, Bool.false_eq_true, if_true, if_false] at h1 ⊢ <;> unfold ehdr
  · have := le_field ([127, 69, 76, 70, if false then 2 else 1, 1] ++ x ++ num 2 type ++ num 2 machine ++ num 4 version ++ num 4 entry ++ num 4 phoff)
      (num 4 flags ++ num 2 ehsize ++ num 2 phentsize ++ num 2 phnum ++ num 2 shentsize ++ num 2 shnum ++ num 2 shstrndx) 4 shoff 32 (by simp [num_length, hx]) h1
    simpa [word] using this
  · have := le_field ([127, 69, 76, 70, if true then 2 else 1, 1] ++ x ++ num 2 type ++ num 2 machine ++ num 4 version ++ num 8 entry ++ num 8 phoff)
      (num 4 flags ++ num 2 ehsize ++ num 2 phentsize ++ num 2 phnum ++ num 2 shentsize ++ num 2 shnum ++ num 2 shstrndx) 8 shoff 40 (by simp [num_length, hx]) h1
    simpa [word] using this
  · have := le_field ([127, 69, 76, 70, if false then 2 else 1, 1] ++ x ++ num 2 type ++ num 2 machine ++ num 4 version ++ num 4 entry ++ num 4 phoff ++
      num 4 shoff ++ num 4 flags ++ num 2 ehsize ++ num 2 phentsize ++ num 2 phnum) (num 2 shnum ++ num 2 shstrndx) 2 shentsize 46 (by simp [num_length, hx]) h2
    simpa [word] using this
  · have := le_field ([127, 69, 76, 70, if true then 2 else 1, 1] ++ x ++ num 2 type ++ num 2 machine ++ num 4 version ++ num 8 entry ++ num 8 phoff ++
      num 8 shoff ++ num 4 flags ++ num 2 ehsize ++ num 2 phentsize ++ num 2 phnum) (num 2 shnum ++ num 2 shstrndx) 2 shentsize 58 (by simp [num_length, hx]) h2
    simpa [word] using this
  · have := le_field ([127, 69, 76, 70, if false then 2 else 1, 1] ++ x ++ num 2 type ++ num 2 machine ++ num 4 version ++ num 4 entry ++ num 4 phoff ++
      num 4 shoff ++ num 4 flags ++ num 2 ehsize ++ num 2 phentsize ++ num 2 phnum ++ num 2 shentsize) (num 2 shstrndx) 2 shnum 48 (by simp [num_length, hx]) h3
    simpa [word] using this
  · have := le_field ([127, 69, 76, 70, if true then 2 else 1, 1] ++ x ++ num 2 type ++ num 2 machine ++ num 4 version ++ num 8 entry ++ num 8 phoff ++
      num 8 shoff ++ num 4 flags ++ num 2 ehsize ++ num 2 phentsize ++ num 2 phnum ++ num 2 shentsize) (num 2 shstrndx) 2 shnum 60 (by simp [num_length, hx]) h3
    simpa [word] using this

/-- The section that is read from a header. -/
def sect (h : Shdr) : Sect := ⟨h.offset, h.size, h.entsize % 2 ^ 32, h.size / (h.entsize % 2 ^ 32) % 2 ^ 32⟩

theorem shdr_length (is64 : Bool) (h : Shdr) : (h.bytes is64).length = shsize is64 := by
  cases is64 <;> simp [Shdr.bytes, num_length, word, shsize]

theorem flatMap_len {α : Type} (g : α → Bytes) (k : Nat) (hg : ∀ a, (g a).length = k) (l : List α) : (l.flatMap g).length = k * l.length := by
  induction l with
  | nil => simp
  | cons a l ih => simp only [List.flatMap_cons, List.length_append, hg, ih, List.length_cons, Nat.mul_add]; omega

theorem header_at {is64 : Bool} {f : Bytes} {shoff n : Nat} {A C : List Shdr} {h : Shdr} (ha : At f shoff ((A ++ h :: C).flatMap (Shdr.bytes is64)))
    (hf : h.Fits is64) : header ⟨is64, shoff, shsize is64, n⟩ f A.length = .ok (h.type, sect h) := by
  have h1 : At f (shoff + shsize is64 * A.length) (h.bytes is64) := by
    rw [← flatMap_len (Shdr.bytes is64) (shsize is64) (shdr_length is64)]
    refine At.sub (c := C.flatMap (Shdr.bytes is64)) ?_
    simpa using ha
  have h2 := h1.read (fun h0 => by have := shdr_length is64 h; rw [h0] at this; cases is64 <;> simp [shsize] at this) (shdr_length is64 h)
  unfold header
  dsimp only
  rw [h2]
  dsimp only
  have hlt : ¬ (h.bytes is64).length < (if is64 then 64 else 40) := by rw [shdr_length]; unfold shsize; omega
  rw [if_neg hlt]
  obtain ⟨f1, f2, f3, f4⟩ := hf
  have g1 : field is64 (h.bytes is64) 4 4 4 4 = h.type := by
    have := le_field (num 4 h.name) (num (word is64) h.flags ++ num (word is64) h.addr ++ num (word is64) h.offset ++ num (word is64) h.size ++
      num 4 h.link ++ num 4 h.info ++ num (word is64) h.align ++ num (word is64) h.entsize) 4 h.type 4 (num_length _ _) f1
    unfold field Shdr.bytes
    rw [ite_self]
    simpa using this
  have g2 : field is64 (h.bytes is64) 24 8 16 4 = h.offset := by
    cases is64
    · have := le_field (num 4 h.name ++ num 4 h.type ++ num 4 h.flags ++ num 4 h.addr) (num 4 h.size ++
        num 4 h.link ++ num 4 h.info ++ num 4 h.align ++ num 4 h.entsize) 4 h.offset 16 (by simp [num_length]) f2
      simpa [field, Shdr.bytes, word] using this
    · have := le_field (num 4 h.name ++ num 4 h.type ++ num 8 h.flags ++ num 8 h.addr) (num 8 h.size ++
        num 4 h.link ++ num 4 h.info ++ num 8 h.align ++ num 8 h.entsize) 8 h.offset 24 (by simp [num_length]) f2
      simpa [field, Shdr.bytes, word] using this
  have g3 : field is64 (h.bytes is64) 32 8 20 4 = h.size := by
    cases is64
    · have := le_field (num 4 h.name ++ num 4 h.type ++ num 4 h.flags ++ num 4 h.addr ++ num 4 h.offset) (num 4 h.link ++ num 4 h.info ++ num 4 h.align ++
        num 4 h.entsize) 4 h.size 20 (by simp [num_length]) f3
      simpa [field, Shdr.bytes, word] using this
    · have := le_field (num 4 h.name ++ num 4 h.type ++ num 8 h.flags ++ num 8 h.addr ++ num 8 h.offset) (num 4 h.link ++ num 4 h.info ++ num 8 h.align ++
        num 8 h.entsize) 8 h.size 32 (by simp [num_length]) f3
      simpa [field, Shdr.bytes, word] using this
  have g4 : field is64 (h.bytes is64) 56 8 36 4 = h.entsize := by
    cases is64
    · have := le_field (num 4 h.name ++ num 4 h.type ++ num 4 h.flags ++ num 4 h.addr ++ num 4 h.offset ++ num 4 h.size ++ num 4 h.link ++ num 4 h.info ++
        num 4 h.align) [] 4 h.entsize 36 (by simp [num_length]) f4
      simpa [field, Shdr.bytes, word] using this
    · have := le_field (num 4 h.name ++ num 4 h.type ++ num 8 h.flags ++ num 8 h.addr ++ num 8 h.offset ++ num 8 h.size ++ num 4 h.link ++ num 4 h.info ++
        num 8 h.align) [] 8 h.entsize 56 (by simp [num_length]) f4
      simpa [field, Shdr.bytes, word] using this
  rw [g1, g2, g3, g4]
  rfl

theorem sectLoop_skip {is64 : Bool} {f : Bytes} {shoff n : Nat} {hs : List Shdr} (ha : At f shoff (hs.flatMap (Shdr.bytes is64))) (hf : ∀ h ∈ hs, h.Fits is64)
    (m : Nat) (d s : Option Sect) (hds : d = none ∨ s = none) : ∀ (b A C : List Shdr), hs = A ++ b ++ C → (∀ h ∈ b, h.type ≠ 6 ∧ h.type ≠ 3) →
    sectLoop ⟨is64, shoff, shsize is64, n⟩ f (m + b.length) A.length d s = sectLoop ⟨is64, shoff, shsize is64, n⟩ f m (A.length + b.length) d s := by
  intro b
  induction b with
  | nil => intros; rfl
  | cons h b ih =>
    intro A C e hb
    obtain ⟨t1, t2⟩ := hb h (by simp)
    rw [List.length_cons, ← Nat.add_assoc, sectLoop, header_at (A := A) (C := b ++ C) (h := h) (by rw [e] at ha; simpa using ha) (hf h (by rw [e]; simp))]
    simp only [Res.bind]
    rw [if_neg t1, if_neg t2]
    have := ih (A ++ [h]) C (by rw [e]; simp) (fun x hx => hb x (by simp [hx]))
    rw [List.length_append, List.length_singleton] at this
    rw [show A.length + (b.length + 1) = A.length + 1 + b.length by omega, ← this]
    rcases hds with rfl | rfl
    · rfl
    · cases d <;> rfl

theorem sections_at {is64 : Bool} {f : Bytes} {shoff : Nat} {a b c : List Shdr} {str dyn : Shdr}
    (ha : At f shoff ((a ++ str :: b ++ dyn :: c).flatMap (Shdr.bytes is64))) (hf : ∀ h ∈ a ++ str :: b ++ dyn :: c, h.Fits is64)
    (hab : ∀ h ∈ a ++ b, h.type ≠ 6 ∧ h.type ≠ 3) (h1 : str.type = 3) (h2 : dyn.type = 6) :
    sections ⟨is64, shoff, shsize is64, (a ++ str :: b ++ dyn :: c).length⟩ f = .ok (sect dyn, sect str) := by
  unfold sections
  rw [if_neg (by cases is64 <;> simp [shsize])]
  dsimp only
  have e1 : (a ++ str :: b ++ dyn :: c).length = (c.length + 1 + b.length) + 1 + a.length := by simp; omega
  have k1 := sectLoop_skip (n := (a ++ str :: b ++ dyn :: c).length) ha hf ((c.length + 1 + b.length) + 1) none none (.inl rfl) a [] (str :: b ++ dyn :: c)
    (by simp) (fun h hh => hab h (by simp [hh]))
  rw [← e1] at k1
  rw [List.length_nil, Nat.zero_add] at k1
  rw [k1, sectLoop, header_at (A := a) (C := b ++ dyn :: c) (h := str) (by simpa using ha) (hf str (by simp))]
  simp only [Res.bind]
  rw [h1, if_neg (by decide), if_pos rfl]
  have k2 := sectLoop_skip (n := (a ++ str :: b ++ dyn :: c).length) ha hf (c.length + 1) none (some (sect str)) (.inl rfl) b (a ++ [str]) (dyn :: c)
    (by simp) (fun h hh => hab h (by simp [hh]))
  rw [show (a ++ [str]).length = a.length + 1 by simp] at k2
  dsimp only
  rw [k2, sectLoop]
  have k3 := header_at (n := (a ++ str :: b ++ dyn :: c).length) (A := a ++ str :: b) (C := c) (h := dyn) ha (hf dyn (by simp))
  rw [show a.length + 1 + b.length = (a ++ str :: b).length by simp; omega, k3]
  simp only [Res.bind]
  rw [h2, if_pos rfl, if_neg (by decide)]

/-! ### The dynamic table -/

theorem dyn_length (is64 : Bool) (x : Nat × Nat) : (dynBytes is64 x).length = 2 * word is64 := by
  simp [dynBytes, num_length]
  omega

theorem word_pos (is64 : Bool) : 0 < word is64 := by cases is64 <;> decide

theorem dyn_at {is64 : Bool} {f : Bytes} {e : Elf} {d : Sect} (he : e.is64 = is64) (hd : d.entsize = 2 * word is64) {A C : List (Nat × Nat)} {x : Nat × Nat}
    (ha : At f d.off ((A ++ x :: C).flatMap (dynBytes is64))) (h1 : x.1 < 2 ^ 32) (h2 : x.2 < 256 ^ word is64) : dyn e d f A.length = .ok x := by
  have k1 : At f (d.off + d.entsize * A.length) (dynBytes is64 x) := by
    rw [hd, ← flatMap_len (dynBytes is64) _ (dyn_length is64)]
    refine At.sub (c := C.flatMap (dynBytes is64)) ?_
    simpa using ha
  have k2 := k1.read (fun h0 => by have := dyn_length is64 x; have := word_pos is64; simp_all; omega) (hd ▸ dyn_length is64 x)
  unfold dyn
  rw [k2]
  dsimp only
  rw [he, if_neg (by rw [dyn_length]; cases is64 <;> simp [word])]
  cases is64
  · have g1 : field false (dynBytes false x) 0 8 0 4 = x.1 := by
      have := le_field [] (num 4 x.2) 4 x.1 0 rfl (by omega)
      simpa [field, dynBytes, word] using this
    have g2 : field false (dynBytes false x) 8 8 4 4 = x.2 := by
      have := le_field (num 4 x.1) [] 4 x.2 4 (num_length _ _) h2
      simpa [field, dynBytes, word] using this
    rw [g1, g2, Nat.mod_eq_of_lt h1]
  · have g1 : field true (dynBytes true x) 0 8 0 4 = x.1 := by
      have := le_field [] (num 8 x.2) 8 x.1 0 rfl (by omega)
      simpa [field, dynBytes, word] using this
    have g2 : field true (dynBytes true x) 8 8 4 4 = x.2 := by
      have := le_field (num 8 x.1) [] 8 x.2 8 (num_length _ _) h2
      simpa [field, dynBytes, word] using this
    rw [g1, g2, Nat.mod_eq_of_lt h1]

theorem dynFrom_at {is64 : Bool} {f : Bytes} {e : Elf} {d : Sect} (he : e.is64 = is64) (hd : d.entsize = 2 * word is64) :
    ∀ (l A : List (Nat × Nat)), At f d.off ((A ++ l).flatMap (dynBytes is64)) → (∀ x ∈ l, x.1 < 2 ^ 32 ∧ x.2 < 256 ^ word is64) →
    dynFrom e d f l.length A.length = .ok l := by
  intro l
  induction l with
  | nil => intros; rfl
  | cons x l ih =>
    intro A ha hv
    rw [List.length_cons, dynFrom, dyn_at he hd ha (hv x (by simp)).1 (hv x (by simp)).2]
    simp only [Res.bind]
    have := ih (A ++ [x]) (by simpa using ha) (fun y hy => hv y (by simp [hy]))
    rw [List.length_append, List.length_singleton] at this
    rw [this]

theorem dynTable_at {is64 : Bool} {f : Bytes} {e : Elf} {d : Sect} {l : List (Nat × Nat)} (he : e.is64 = is64) (hd : d.entsize = 2 * word is64)
    (hl : d.len = l.length) (ha : At f d.off (l.flatMap (dynBytes is64))) (hv : ∀ x ∈ l, x.1 < 2 ^ 32 ∧ x.2 < 256 ^ word is64) :
    dynTable e d f = .ok l := by
  unfold dynTable
  rw [if_neg (by rw [hd]; cases is64 <;> simp [word]), hl]
  exact dynFrom_at he hd l [] (by simpa using ha) hv

theorem find_none (t : Nat) : ∀ (l : List (Nat × Nat)) (i : Nat), (∀ x ∈ l, x.1 ≠ t) → find t l i = none := by
  intro l
  induction l with
  | nil => intros; rfl
  | cons x l ih =>
    intro i h
    rw [find, ih _ fun y hy => h y (by simp [hy])]
    simp [h x (by simp)]

theorem find_one (t v : Nat) (l2 : List (Nat × Nat)) (h2 : ∀ x ∈ l2, x.1 ≠ t) : ∀ (l1 : List (Nat × Nat)) (i : Nat),
    find t (l1 ++ (t, v) :: l2) i = some (v, i + l1.length) := by
  intro l1
  induction l1 with
  | nil => intro i; simp [find, find_none t l2 _ h2]
  | cons x l ih => intro i; rw [List.cons_append, find, ih]; simp; omega

theorem shift_at {is64 : Bool} {d : Sect} (hd : d.entsize = 2 * word is64) (P Q : Bytes) (hP : P.length = d.off) : ∀ (Y X : List (Nat × Nat)) (a : Nat × Nat),
    shift d Y.length (X.length + 1) (P ++ (X ++ a :: Y).flatMap (dynBytes is64) ++ Q) =
      .ok (P ++ (X ++ Y ++ [(a :: Y).getLast (by simp)]).flatMap (dynBytes is64) ++ Q) := by
  intro Y
  induction Y with
  | nil => intro X a; simp [shift]
  | cons b Y ih =>
    intro X a
    have hat : At (P ++ (X ++ a :: b :: Y).flatMap (dynBytes is64) ++ Q) (d.off + d.entsize * (X.length + 1)) (dynBytes is64 b) := by
      have h1 : d.entsize * (X.length + 1) = ((X ++ [a]).flatMap (dynBytes is64)).length := by
        rw [flatMap_len (dynBytes is64) _ (dyn_length is64), hd]; simp
      rw [h1]
      refine At.sub (c := Y.flatMap (dynBytes is64)) ?_
      rw [← hP]
      have := At.of_split P ((X ++ a :: b :: Y).flatMap (dynBytes is64)) Q
      simpa using this
    have hr := hat.read (fun h0 => by have := dyn_length is64 b; have := word_pos is64; simp_all; omega) (hd ▸ dyn_length is64 b)
    rw [List.length_cons, shift, hr]
    dsimp only
    have hw : writeAt (P ++ (X ++ a :: b :: Y).flatMap (dynBytes is64) ++ Q) (d.off + d.entsize * (X.length + 1 - 1)) (dynBytes is64 b) =
        P ++ ((X ++ [b]) ++ b :: Y).flatMap (dynBytes is64) ++ Q := by
      have := writeAt_mid (P ++ X.flatMap (dynBytes is64)) (dynBytes is64 a) ((b :: Y).flatMap (dynBytes is64) ++ Q) (dynBytes is64 b) 0
        (by rw [dyn_length, dyn_length]; omega)
      rw [Nat.add_sub_cancel, hd, ← flatMap_len (dynBytes is64) _ (dyn_length is64), ← hP, ← List.length_append]
      have e2 : (dynBytes is64 a).drop (0 + (dynBytes is64 b).length) = [] := by
        rw [Nat.zero_add, dyn_length, ← dyn_length is64 a, List.drop_length]
      rw [e2] at this
      simpa using this
    rw [hw]
    have := ih (X ++ [b]) b
    rw [List.length_append, List.length_singleton] at this
    rw [this]
    simp

end Muon.Rpath
