import Verif.Mopts.Model
import Verif.Mopts.Spec
import Verif.Exec.Props
/-
Lemmas on the translation of command lines.
-/
namespace Muon.Mopts
open Muon
open Muon.Exec (Item getopt optH optMain argstr argstrToArgv)

theorem split_operand {a : Bytes} (h : a.head? ≠ some 45 ∨ a = ascii "-") : split a = none := by
  unfold split
  rw [if_neg]
  rintro ⟨h1, h2⟩
  rcases h with h | h
  · exact h h2
  · rw [h] at h1; revert h1; decide

theorem takeWhile_eq (n r : Bytes) (h : 61 ∉ n) : (n ++ 61 :: r).takeWhile (fun c => decide (c ≠ 61)) = n ∧ (n ++ 61 :: r).dropWhile (fun c => decide (c ≠ 61)) = 61 :: r := by
  induction n with
  | nil => simp
  | cons c n ih =>
    have hc : c ≠ 61 := fun e => h (by simp [e])
    have := ih (fun m => h (by simp [m]))
    constructor
    · rw [List.cons_append, List.takeWhile_cons_of_pos (by simpa using hc), this.1]
    · rw [List.cons_append, List.dropWhile_cons_of_pos (by simpa using hc), this.2]

theorem takeWhile_all (n : Bytes) (h : 61 ∉ n) : n.takeWhile (fun c => decide (c ≠ 61)) = n := by
  induction n with
  | nil => rfl
  | cons c n ih =>
    have hc : c ≠ 61 := fun e => h (by simp [e])
    rw [List.takeWhile_cons_of_pos (by simpa using hc), ih (fun m => h (by simp [m]))]

theorem dd : ascii "--" = [45, 45] := by decide
theorem d1 : ascii "-" = [45] := by decide
theorem eq1 : ascii "=" = [61] := by decide

theorem split_longJoined (n v : Bytes) (h : n ≠ [] ∧ 61 ∉ n) : split (ascii "--" ++ n ++ ascii "=" ++ v) = some (n, some v) := by
  obtain ⟨t1, t2⟩ := takeWhile_eq n v h.2
  have e : ascii "--" ++ n ++ ascii "=" ++ v = 45 :: 45 :: (n ++ 61 :: v) := by rw [dd, eq1]; simp
  rw [e]
  unfold split
  rw [if_pos (by simp), if_pos (by simp; omega)]
  simp only [List.drop_succ_cons, List.drop_zero]
  rw [t1, if_pos (by simp), t2]
  rfl

theorem split_long (n : Bytes) (h : n ≠ [] ∧ 61 ∉ n) : split (ascii "--" ++ n) = some (n, none) := by
  have e : ascii "--" ++ n = 45 :: 45 :: n := by rw [dd]; rfl
  rw [e]
  unfold split
  have := List.length_pos_iff.2 h.1
  rw [if_pos (by simp), if_pos (by simp; omega)]
  simp only [List.drop_succ_cons, List.drop_zero]
  rw [takeWhile_all n h.2, if_neg h.2]

theorem split_shortJoined (c : UInt8) (v : Bytes) (h : c ≠ 45) (hv : v ≠ []) : split (ascii "-" ++ [c] ++ v) = some ([c], some v) := by
  have e : ascii "-" ++ [c] ++ v = 45 :: c :: v := by rw [d1]; rfl
  rw [e]
  unfold split
  have := List.length_pos_iff.2 hv
  rw [if_pos (by simp), if_neg (by simp [h])]
  simp only [List.tail_cons, List.take_succ_cons, List.take_zero, List.drop_succ_cons, List.drop_zero, List.length_cons]
  rw [if_pos (by omega)]

theorem split_short (c : UInt8) : split (ascii "-" ++ [c]) = some ([c], none) := by
  have e : ascii "-" ++ [c] = [45, c] := by rw [d1]; rfl
  rw [e]
  unfold split
  rw [if_pos (by simp), if_neg (by simp)]
  simp

/-- The option of a name. -/
def entry (tbl : List Spec) (n : Bytes) : Option Spec := tbl.find? (·.name == n)

/-- A wish that the table has. -/
def Fits (tbl : List Spec) : Wish → Prop
  | .operand _ => True
  | .value n _ => ∃ s, entry tbl n = some s ∧ s.hasValue = true
  | .flag n => ∃ s, entry tbl n = some s ∧ s.hasValue = false

/-- What a wish does. -/
def one (tbl : List Spec) (c : Ctx) : Wish → Res Ctx
  | .operand a => .ok { c with stray := c.stray ++ [a] }
  | .value n v => match entry tbl n with
    | some s => apply s (some v) c
    | none => .error
  | .flag n => match entry tbl n with
    | some s => apply s none c
    | none => .error

def all (tbl : List Spec) : List Wish → Ctx → Res Ctx
  | [], c => .ok c
  | w :: ws, c => one tbl c w >>= fun c => all tbl ws c

theorem parse_spelled (tbl : List Spec) {ws : List Wish} {as : List Bytes} (h : Spelled ws as) : (∀ w ∈ ws, Fits tbl w) → ∀ c, parse tbl as c = all tbl ws c := by
  induction h with
  | nil => intro _ c; rfl
  | operand a ha r ih =>
    intro hf c
    rw [parse.eq_def]
    dsimp only
    rw [split_operand ha]
    exact ih (fun w hw => hf w (by simp [hw])) _
  | longJoined n v hn r ih =>
    intro hf c
    obtain ⟨s, hs, hv⟩ := hf _ (List.mem_cons_self ..)
    rw [parse.eq_def]
    dsimp only
    rw [split_longJoined n v hn]
    dsimp only
    rw [show tbl.find? (·.name == n) = some s from hs]
    dsimp only
    rw [if_neg (by simp), all, one, hs]
    exact congrArg _ (funext fun c => ih (fun w hw => hf w (by simp [hw])) c)
  | longApart n v hn r ih =>
    intro hf c
    obtain ⟨s, hs, hv⟩ := hf _ (List.mem_cons_self ..)
    rw [parse.eq_def]
    dsimp only
    rw [split_long n hn]
    dsimp only
    rw [show tbl.find? (·.name == n) = some s from hs]
    dsimp only
    rw [if_pos ⟨hv, rfl⟩, all, one, hs]
    exact congrArg _ (funext fun c => ih (fun w hw => hf w (by simp [hw])) c)
  | shortJoined x v hx hne r ih =>
    intro hf c
    obtain ⟨s, hs, hv⟩ := hf _ (List.mem_cons_self ..)
    rw [parse.eq_def]
    dsimp only
    rw [split_shortJoined x v hx hne]
    dsimp only
    rw [show tbl.find? (·.name == [x]) = some s from hs]
    dsimp only
    rw [if_neg (by simp), all, one, hs]
    exact congrArg _ (funext fun c => ih (fun w hw => hf w (by simp [hw])) c)
  | shortApart x v hx r ih =>
    intro hf c
    obtain ⟨s, hs, hv⟩ := hf _ (List.mem_cons_self ..)
    rw [parse.eq_def]
    dsimp only
    rw [split_short x]
    dsimp only
    rw [show tbl.find? (·.name == [x]) = some s from hs]
    dsimp only
    rw [if_pos ⟨hv, rfl⟩, all, one, hs]
    exact congrArg _ (funext fun c => ih (fun w hw => hf w (by simp [hw])) c)
  | long n hn r ih =>
    intro hf c
    obtain ⟨s, hs, hv⟩ := hf _ (List.mem_cons_self ..)
    rw [parse.eq_def]
    dsimp only
    rw [split_long n hn]
    dsimp only
    rw [show tbl.find? (·.name == n) = some s from hs]
    dsimp only
    rw [if_neg (by simp [hv]), all, one, hs]
    exact congrArg _ (funext fun c => ih (fun w hw => hf w (by simp [hw])) c)
  | short x hx r ih =>
    intro hf c
    obtain ⟨s, hs, hv⟩ := hf _ (List.mem_cons_self ..)
    rw [parse.eq_def]
    dsimp only
    rw [split_short x]
    dsimp only
    rw [show tbl.find? (·.name == [x]) = some s from hs]
    dsimp only
    rw [if_neg (by simp [hv]), all, one, hs]
    exact congrArg _ (funext fun c => ih (fun w hw => hf w (by simp [hw])) c)

/-- A short option of muon with what is attached to it. -/
def arg (p : UInt8 × Bytes) : Bytes := 45 :: p.1 :: p.2
def item (p : UInt8 × Bytes) : Item := .opt p.1 p.2

/-- The operand of a wish. -/
def opnd : Wish → List Bytes
  | .operand a => [a]
  | _ => []

theorem operands_eq (ws : List Wish) : operands ws = ws.flatMap opnd := by
  induction ws with
  | nil => rfl
  | cons w ws ih => cases w <;> simp [operands, opnd, ih]

/-- Adding directories, operands and options; `b` says that it is the benchmark. -/
def Ctx.add (c : Ctx) (d st : List Bytes) (e : List (UInt8 × Bytes)) (b : Bool) : Ctx :=
  { pre := c.pre ++ d.map (ascii "-C" ++ ·), stray := c.stray ++ st, argv := (if b then c.argv.set 0 (ascii "benchmark") else c.argv) ++ e.map arg, help := c.help }

/-- Wishes `w` that add options: `d w` are directories, `e w` the options. -/
theorem all_adds (tbl : List Spec) (d : Wish → List Bytes) (e : Wish → List (UInt8 × Bytes)) (b : Wish → Bool) : ∀ (ws : List Wish) (c : Ctx), c.argv ≠ [] →
    (∀ w ∈ ws, ∀ c : Ctx, one tbl c w = .ok (c.add (d w) (opnd w) (e w) (b w))) →
    all tbl ws c = .ok (c.add (ws.flatMap d) (operands ws) (ws.flatMap e) (ws.any b))
  | [], c, _, _ => by simp [all, operands, Ctx.add]
  | w :: ws, c, hc, h => by
    rw [all, h w (by simp) c]
    show all tbl ws _ = _
    rw [all_adds tbl d e b ws _ ?_ (fun w hw => h w (by simp [hw]))]
    · rw [operands_eq, operands_eq]
      obtain ⟨x, l, hl⟩ := List.exists_cons_of_ne_nil hc
      cases hb : b w <;> cases ha : ws.any b <;> simp [hb, ha, Ctx.add, hl]
    · cases hb : b w
      · simp [hc, Ctx.add]
      · obtain ⟨x, l, hl⟩ := List.exists_cons_of_ne_nil hc
        simp [hl, Ctx.add]

theorem getopt_pairs (spec : UInt8 → Option Bool) (ops : List Bytes) (h : ∀ a, ops.head? = some a → a.head? ≠ some 45 ∨ a = [45]) : ∀ (ps : List (UInt8 × Bytes)),
    (∀ p ∈ ps, (spec p.1 = some true ∧ p.2 ≠ []) ∨ (spec p.1 = some false ∧ p.2 = [] ∧ p.1 ≠ 45)) →
    Exec.Spec.Says spec (ps.map item) ops (ps.map arg ++ ops)
  | [], _ => .operands ops h
  | p :: ps, hp => by
    have ih := getopt_pairs spec ops h ps (fun q hq => hp q (by simp [hq]))
    rcases hp p (by simp) with ⟨h1, h2⟩ | ⟨h1, h2, h3⟩
    · exact .attached [] (by simp) p.1 h1 p.2 h2 ih
    · have := Exec.Spec.Says.flags [p.1] (by simp) (by simpa using h1) (by simpa using h3) ih
      simpa [arg, item, h2] using this

theorem optLoop_fold {α : Type} (f : α → UInt8 → Bytes → α) : ∀ (ps : List (UInt8 × Bytes)) (a : α), (∀ p ∈ ps, p.1 ≠ 104) →
    optLoop (fun a c x => .ok (f a c x)) a (ps.map item) = .ok (some (ps.foldl (fun a p => f a p.1 p.2) a))
  | [], a, _ => rfl
  | p :: ps, a, h => by
    rw [List.map_cons, item, optLoop, if_neg (h p (by simp))]
    exact optLoop_fold f ps _ (fun q hq => h q (by simp [hq]))

theorem fold_defs (k : UInt8) (xs : List Bytes) (d : List Bytes) :
    (xs.map fun x => (k, x)).foldl (fun (d : List Bytes) p => if p.1 = k then d ++ [p.2] else d) d = d ++ xs := by
  induction xs generalizing d with
  | nil => simp
  | cons x xs ih => simp [ih]

/-- `-C` options and a command. -/
theorem cmdMain_chdirs (ds : List Bytes) (c : Bytes) (as : List Bytes) (hd : ∀ d ∈ ds, d ≠ []) (hc : c.head? ≠ some 45) :
    cmdMain (ds.map (ascii "-C" ++ ·) ++ c :: as) = command (c :: as) >>= fun r => .ok (ds, r) := by
  have e : ds.map (ascii "-C" ++ ·) = (ds.map fun x => ((67 : UInt8), x)).map arg := by
    rw [List.map_map]; rfl
  obtain ⟨g, _⟩ := Exec.says_getopt optMain (getopt_pairs optMain (c :: as) (by intro a ha; cases ha; exact .inl hc) (ds.map fun x => ((67 : UInt8), x)) (by
    intro p hp
    obtain ⟨x, hx, rfl⟩ := List.mem_map.1 hp
    exact .inl ⟨(by decide : optMain 67 = some true), hd x hx⟩))
  unfold cmdMain
  rw [e, g]
  dsimp only
  rw [optLoop_fold (fun d c x => if c = 67 then d ++ [x] else d) _ _ (by
    intro p hp
    obtain ⟨x, _, rfl⟩ := List.mem_map.1 hp
    exact (by decide : (67 : UInt8) ≠ 104)), fold_defs]
  rfl

theorem spelled_operands {ws : List Wish} {as : List Bytes} (h : Spelled ws as) : ∀ a ∈ operands ws, a.head? ≠ some 45 ∨ a = ascii "-" := by
  induction h with
  | nil => simp [operands]
  | operand a ha r ih =>
    intro x hx
    rcases List.mem_cons.1 hx with rfl | hx
    · exact ha
    · exact ih x hx
  | _ => simpa [operands]

/-- NUL bytes. -/
def clean : Wish → Prop
  | .operand a => 0 ∉ a
  | .value n v => 0 ∉ n ∧ 0 ∉ v
  | .flag n => 0 ∉ n

theorem spelled_clean {ws : List Wish} {as : List Bytes} (h : Spelled ws as) : (∀ a ∈ as, 0 ∉ a) → ∀ w ∈ ws, clean w := by
  induction h with
  | nil => intro _ w hw; cases hw
  | operand a ha r ih =>
    intro h w hw
    rcases List.mem_cons.1 hw with rfl | hw
    · exact h a (by simp)
    · exact ih (fun a ha => h a (by simp [ha])) w hw
  | longJoined n v hn r ih =>
    intro h w hw
    rcases List.mem_cons.1 hw with rfl | hw
    · have := h _ (List.mem_cons_self ..)
      simp only [List.mem_append, not_or] at this
      exact ⟨this.1.1.2, this.2⟩
    · exact ih (fun a ha => h a (by simp [ha])) w hw
  | longApart n v hn r ih =>
    intro h w hw
    rcases List.mem_cons.1 hw with rfl | hw
    · have := h _ (List.mem_cons_self ..)
      simp only [List.mem_append, not_or] at this
      exact ⟨this.2, h v (by simp)⟩
    · exact ih (fun a ha => h a (by simp [ha])) w hw
  | shortJoined x v hx hne r ih =>
    intro h w hw
    rcases List.mem_cons.1 hw with rfl | hw
    · have := h _ (List.mem_cons_self ..)
      simp only [List.mem_append, not_or] at this
      exact ⟨this.1.2, this.2⟩
    · exact ih (fun a ha => h a (by simp [ha])) w hw
  | shortApart x v hx r ih =>
    intro h w hw
    rcases List.mem_cons.1 hw with rfl | hw
    · have := h _ (List.mem_cons_self ..)
      simp only [List.mem_append, not_or] at this
      exact ⟨this.2, h v (by simp)⟩
    · exact ih (fun a ha => h a (by simp [ha])) w hw
  | long n hn r ih =>
    intro h w hw
    rcases List.mem_cons.1 hw with rfl | hw
    · have := h _ (List.mem_cons_self ..)
      simp only [List.mem_append, not_or] at this
      exact this.2
    · exact ih (fun a ha => h a (by simp [ha])) w hw
  | short x hx r ih =>
    intro h w hw
    rcases List.mem_cons.1 hw with rfl | hw
    · have := h _ (List.mem_cons_self ..)
      simp only [List.mem_append, not_or] at this
      exact this.2
    · exact ih (fun a ha => h a (by simp [ha])) w hw

end Muon.Mopts
