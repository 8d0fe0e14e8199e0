import Verif.Fmt.Stmt
import Verif.Parse.Props
/-
What is printed for a program: a text that the lexer and the parser read as the same program.
-/
namespace Muon.Fmt
open Muon Lex Parse Parse.Spec Fmt.Spec

variable {o : Opts} {f : Fst} {n i : Nat} {strict : Bool} {sort : List Elem → List Elem}

/-! ### `files()` -/

theorem source_block {d : Nat} {loop : Bool} {s r : S} {ts : List Tok} (h : Source strict d .stmt loop s ts) :
    eraseS (.block s r) = .block (eraseS s) (eraseS r) := by
  cases h <;> rfl

theorem source_arranged {d : Nat} {loop : Bool} {s r : S} {ts : List Tok} (h : Source strict d .stmt loop s ts) :
    eraseS (.block (arrangeS sort s) r) = .block (eraseS (arrangeS sort s)) (eraseS r) := by
  cases h <;> rfl

theorem source_same (hs : ∀ l, (sort l).Perm l) {d : Nat} {p : At} {loop : Bool} {s : S} {ts : List Tok} (h : Source strict d p loop s ts) :
    Same (eraseS s) (eraseS (arrangeS sort s)) := by
  induction h with
  | nothing => exact .refl _
  | last h ih => rw [arrangeS, source_block h, source_arranged h]; exact .block ih (.refl _)
  | cons h _ i1 i2 => rw [arrangeS, source_block h, source_arranged h]; exact .block i1 i2
  | blank _ ih => exact ih
  | expr h _ => exact h.same hs
  | assign h => exact .assign (h.same hs)
  | plusAssign h => exact .plusAssign (h.same hs)
  | «continue» => exact .refl _
  | «break» => exact .refl _
  | «if» _ _ ih => exact ih
  | «foreach» h _ _ ih => exact .foreach (h.same hs) ih
  | branch h _ _ i1 i2 => exact .ifElse (h.same hs) i1 i2
  | noElse => exact .refl _
  | elif _ ih => exact ih
  | «else» _ ih => exact ih

theorem source_arrange (hs : ∀ l, (sort l).Perm l) {d : Nat} {p : At} {loop : Bool} {s : S} {ts : List Tok} (h : Source strict d p loop s ts) :
    ∃ us, Source strict d p loop (arrangeS sort s) us := by
  induction h with
  | nothing => exact ⟨_, .nothing⟩
  | last _ ih => obtain ⟨us, hu⟩ := ih; exact ⟨_, .last hu⟩
  | cons _ _ i1 i2 => obtain ⟨us, hu⟩ := i1; obtain ⟨vs, hv⟩ := i2; exact ⟨_, .cons hu hv⟩
  | blank _ ih => obtain ⟨us, hu⟩ := ih; exact ⟨_, .blank hu⟩
  | expr h he => obtain ⟨us, hu⟩ := h.arrange hs; exact ⟨_, .expr hu fun hst => (h.same hs).effective (he hst)⟩
  | assign h => obtain ⟨us, hu⟩ := h.arrange hs; exact ⟨_, .assign hu⟩
  | plusAssign h => obtain ⟨us, hu⟩ := h.arrange hs; exact ⟨_, .plusAssign hu⟩
  | «continue» => exact ⟨_, .continue⟩
  | «break» => exact ⟨_, .break⟩
  | «if» h he ih => obtain ⟨us, hu⟩ := ih; exact ⟨_, .if hu fun hst => (source_same hs h).effective (he hst)⟩
  | «foreach» h hb he ih =>
    obtain ⟨us, hu⟩ := h.arrange hs
    obtain ⟨vs, hv⟩ := ih
    exact ⟨_, .foreach hu hv fun hst => (Same.foreach (h.same hs) (source_same hs hb)).effective (he hst)⟩
  | branch h _ _ i1 i2 =>
    obtain ⟨us, hu⟩ := h.arrange hs
    obtain ⟨vs, hv⟩ := i1
    obtain ⟨ws, hw⟩ := i2
    exact ⟨_, .branch hu hv hw⟩
  | noElse => exact ⟨_, .noElse⟩
  | elif _ ih => obtain ⟨us, hu⟩ := ih; exact ⟨_, .elif hu⟩
  | «else» _ ih => obtain ⟨us, hu⟩ := ih; exact ⟨_, .else hu⟩

theorem wordsS_arrange (hs : ∀ l, (sort l).Perm l) (s : S) (h : WordsS s) : WordsS (arrangeS sort s) := by
  induction s with
  | block s r i1 i2 => exact ⟨i1 h.1, i2 h.2⟩
  | blank c => cases c <;> exact h
  | expr e => exact words_arrange hs e h
  | assign s e => exact ⟨h.1, words_arrange hs e h.2⟩
  | plusAssign s e => exact ⟨h.1, words_arrange hs e h.2⟩
  | ifs s ih => exact ih h
  | els s ih => exact ih h
  | branch c b e i1 i2 => exact ⟨words_arrange hs c h.1, i1 h.2.1, i2 h.2.2⟩
  | «foreach» v w e b ih => exact ⟨h.1, h.2.1, words_arrange hs e h.2.2.1, ih h.2.2.2⟩
  | _ => trivial

theorem plain_arrange (s : S) (h : Plain s) : Plain (arrangeS sort s) := by
  induction s with
  | block s r i1 i2 => exact ⟨i1 h.1, i2 h.2⟩
  | expr e => exact noArith_arrange e h
  | ifs s ih => exact ih h
  | els s ih => exact ih h
  | branch c b e i1 i2 => exact ⟨i1 h.1, i2 h.2⟩
  | «foreach» v w e b ih => exact ih h
  | _ => trivial

/-- An end of line before a block. -/
theorem eol_block {loop : Bool} {m : Parse.Node} {us : List Tok} (h : Program muonLevel True strict .block loop m us) :
    Program muonLevel True strict .block loop m (.eol :: us) := by
  cases h with
  | nothing k => exact Program.nothing (k + 1)
  | last k h => exact Program.last (k + 1) h
  | cons k h1 h2 => exact Program.cons (k + 1) h1 h2

/-- The source itself is a program. -/
theorem source_program {d : Nat} (hd : d ≤ 4096) {p : At} {loop : Bool} {s : S} {ts : List Tok} (h : Source strict d p loop s ts) :
    match p with
    | .block => Program muonLevel True strict .block loop (eraseS s) ts
    | .stmt => Program muonLevel True strict .stmt loop (eraseS s) ts
    | .ifs => Program muonLevel True strict .ifs loop (eraseS s) ts
    | .els => Program muonLevel True strict .els loop (eraseS s) ts := by
  have atom : ∀ s : Bytes, Derives muonLevel True .expr 4096 (.id s) [.identifier s] := fun s =>
    (Tree.derives (e := .id s) (.orExpr (.andOr (.compAnd (.arithComp (.arithLift (by omega) (.arithLift (by omega) (.arithLift (by omega)
      (.arithLift (by omega) (.arithLift (by omega) (.postUnary (.atomPost .id))))))))))) _ .id)
  induction h with
  | nothing => exact Program.nothing 0
  | last h ih => rw [source_block h]; exact Program.last 0 ih
  | cons h _ i1 i2 => rw [source_block h]; exact Program.cons 0 i1 i2
  | @blank loop c b us h ih =>
    show Program muonLevel True strict .block loop (eraseS b) (.eol :: us)
    exact eol_block ih
  | expr h he => exact .expr (h.mono _ hd).source he
  | assign h => exact .assign (atom _) (h.mono _ hd).source
  | plusAssign h => exact .plusAssign (atom _) (h.mono _ hd).source
  | «continue» => exact .continue
  | «break» => exact .break
  | «if» _ he ih => exact .if ih he
  | «foreach» h _ he ih => exact .foreach (h.mono _ hd).source ih he
  | branch h _ _ i1 i2 => exact .branch (h.mono _ hd).source i1 i2
  | noElse => exact .noElse
  | elif _ ih => exact .elif ih
  | «else» _ ih => exact .else ih

/-! ### Texts of programs -/

/-- The end of a line follows. -/
def Nl (x : Bytes) : Prop := ∃ y, x = 10 :: y
theorem Nl.sep {x : Bytes} (h : Nl x) : Sep x := by obtain ⟨y, rfl⟩ := h; exact .cons (by simp)

theorem Lexes.line {u : Bytes} (h : Blanks u) : Lexes .outside Any (10 :: u) [.eol] := by
  have := Lexes.eol.append (Lexes.gap (w := .outside) (gap_blanks u h)) (fun _ _ => trivial)
  simpa using this

theorem kwIf : Lexes .outside Any (ascii "if ") [.kIf] :=
  ((Lexes.kw 105 [102] .kIf (by decide +kernel)).weaken.then (Lexes.sp (w := .outside)) (fun x => .cons (by simp)) :)
theorem kwElif : Lexes .outside Any (ascii "elif ") [.kElif] :=
  ((Lexes.kw 101 [108, 105, 102] .kElif (by decide +kernel)).weaken.then (Lexes.sp (w := .outside)) (fun x => .cons (by simp)) :)
theorem kwForeach : Lexes .outside Any (ascii "foreach ") [.kForeach] :=
  ((Lexes.kw 102 [111, 114, 101, 97, 99, 104] .kForeach (by decide +kernel)).weaken.then (Lexes.sp (w := .outside)) (fun x => .cons (by simp)) :)
theorem kwElse : Lexes .outside Sep (ascii "else") [.kElse] := (Lexes.kw 101 [108, 115, 101] .kElse (by decide +kernel)).weaken
theorem kwEndif : Lexes .outside Sep (ascii "endif") [.kEndif] := (Lexes.kw 101 [110, 100, 105, 102] .kEndif (by decide +kernel)).weaken
theorem kwEndforeach : Lexes .outside Sep (ascii "endforeach") [.kEndforeach] :=
  (Lexes.kw 101 [110, 100, 102, 111, 114, 101, 97, 99, 104] .kEndforeach (by decide +kernel)).weaken
theorem kwContinue : Lexes .outside Sep (ascii "continue") [.kContinue] :=
  (Lexes.kw 99 [111, 110, 116, 105, 110, 117, 101] .kContinue (by decide +kernel)).weaken
theorem kwBreak : Lexes .outside Sep (ascii "break") [.kBreak] := (Lexes.kw 98 [114, 101, 97, 107] .kBreak (by decide +kernel)).weaken

theorem opAssign : Lexes .outside Any (ascii "= ") [.assign] :=
  ((Lexes.weaken (Lexes.op1 61 .assign (by decide +kernel) (forall_byte (by decide +kernel)))).then (Lexes.sp (w := .outside)) (fun x => ⟨by simp, by simp⟩) :)
theorem opPlusAssign : Lexes .outside Any (ascii "+= ") [.plusAssign] :=
  ((Lexes.weaken (Lexes.op2 43 61 .plusAssign (by decide +kernel) (by decide +kernel))).then (Lexes.sp (w := .outside)) (fun x => ⟨by simp, by simp⟩) :)

theorem Val.lexes {e : E} {t : Bytes} {ts : List Tok} (h : Val e t) (ht : Tree .expr 4095 e ts) :
    ∃ us, Lexes .outside Sep t us ∧ Derives muonLevel True .expr 4096 (erase e) us := by
  rcases h with ⟨us, h1, h2, _⟩ | ⟨us, h1, h2, _⟩
  · exact ⟨us, h2.weaken, (ht.mono 4096 (by omega)).derives us h1⟩
  · have := (Tree.orExpr (.andOr (.compAnd (.arithComp (.arithLift (by omega) (.arithLift (by omega) (.arithLift (by omega)
      (.arithLift (by omega) (.arithLift (by omega) (.postUnary (.atomPost (.paren ht)))))))))))).derives us h1
    exact ⟨us, h2.weaken, this⟩

def Stmt (strict loop : Bool) (s : S) (t : Bytes) : Prop := ∃ ts, Lexes .outside Nl t ts ∧ Program muonLevel True strict .stmt loop (eraseS s) ts
def Block (strict loop : Bool) (s : S) (t : Bytes) : Prop :=
  ∃ ts, Lexes .outside Nl t ts ∧ Program muonLevel True strict .block loop (eraseS s) (ts ++ [.eol])
def Branch (strict loop first : Bool) (s : S) (t : Bytes) : Prop :=
  ∃ ts, Lexes .outside Any t ((if first then .kIf else .kElif) :: ts) ∧ Program muonLevel True strict .ifs loop (eraseS s) ts
def Else (strict loop : Bool) (s : S) (t : Bytes) : Prop := ∃ ts, Lexes .outside Any t ts ∧ Program muonLevel True strict .els loop (eraseS s) ts

/-- An indented block, with the end of the line before. -/
def Body (strict loop : Bool) (s : S) (t : Bytes) : Prop :=
  ∃ ts, Lexes .outside Any t (.eol :: ts) ∧ Nl t ∧ Program muonLevel True strict .block loop (eraseS s) ts

theorem Em.line (h : f.write = true) (ho : Blanks o.indentBy) (b : Bool) :
    Em (Fmt.newlineForce o f b) n i n i (fun t => ∃ u, Blanks u ∧ t = 10 :: u) := .newlineForce h ho b

theorem Em.inner {b : S} {p : Pr} {loop : Bool} (h : f.write = true) (ho : Blanks o.indentBy) (hp : ∀ i, Em p 0 i 0 i (Block strict loop b)) :
    Em (inner o f b p) 0 i 0 i (Body strict loop b) := by
  unfold Fmt.inner
  split
  · next hb =>
    have : b = .nothing := by cases b <;> first | rfl | cases hb
    subst this
    refine (Em.line h ho false).mono ?_
    rintro _ ⟨u, hu, rfl⟩
    exact ⟨[], .line hu, ⟨_, rfl⟩, Program.nothing 0⟩
  · refine (Em.begin.seq ((Em.line h ho (startsBare b)).seq ((hp (i + 1)).seq (Em.end.seq (Em.line h ho false))))).mono ?_
    rintro _ ⟨_, _, rfl, ⟨_, _, ⟨u, hu, rfl⟩, ⟨t, _, ⟨ts, h1, h2⟩, ⟨_, _, rfl, ⟨v, hv, rfl⟩, rfl⟩, rfl⟩, rfl⟩, rfl⟩
    refine ⟨ts ++ [.eol], ?_, ⟨u ++ (t ++ (10 :: v)), by simp⟩, h2⟩
    have := (Lexes.line hu).then (h1.then (Lexes.line hv) (fun x => ⟨v ++ x, rfl⟩)) (fun _ => trivial)
    simpa using this

/-- What is to be shown for each piece of a program. -/
def Prints (o : Opts) (strict : Bool) (p : At) (loop : Bool) (s : S) : Prop :=
  ∀ (f : Fst) (i : Nat), f.write = true → f.andOr = false → f.sep = none →
    match p with
    | .block => Em (prS o s true f) 0 i 0 i (Block strict loop s)
    | .stmt => Em (check o f (prS o s true)) 0 i 0 i (Stmt strict loop s)
    | .ifs => ∀ first, Em (prS o s first f) 0 i 0 i (Branch strict loop first s)
    | .els => Em (if isNothing s then nop else prS o s false f) 0 i 0 i (Else strict loop s)

theorem tail_none (h : f.sep = none) : tail f = nop := by unfold tail; rw [h]
theorem Em.tailNone (h : f.sep = none) : Em (Fmt.tail f) n i n i (· = []) := by rw [tail_none h]; exact .nop

theorem isNothing_eq {s : S} (h : isNothing s = true) : s = .nothing := by cases s <;> first | rfl | cases h

theorem prints (o : Opts) (ho : Blanks o.indentBy) (hs : o.spaceArray = false) {p : At} {loop : Bool} {s : S} {ts : List Tok}
    (h : Source strict 4095 p loop s ts) (hw : WordsS s) (hp : Plain s) : Prints o strict p loop s := by
  induction h with
  | nothing =>
    intro f i h ha hsep
    dsimp only
    rw [prS]
    refine (Em.tailNone hsep).mono ?_
    rintro _ rfl
    exact ⟨[], .nil _ _, Program.nothing 1⟩
  | @last loop s ts h0 ih =>
    intro f i h ha hsep
    dsimp only
    rw [prS, if_pos (show isNothing .nothing = true from rfl)]
    refine ((ih hw.1 hp.1 (setup f) i h ha rfl).seq (Em.nop.seq (.tailNone hsep))).mono ?_
    rintro _ ⟨t, _, ⟨us, h1, h2⟩, ⟨_, _, rfl, rfl, rfl⟩, rfl⟩
    refine ⟨us, by simpa using h1, ?_⟩
    rw [source_block h0]
    exact Program.cons 0 h2 (.nothing 0)
  | @cons loop s ts b us h0 h1 i1 i2 =>
    intro f i h ha hsep
    dsimp only
    rw [prS]
    cases hb : isNothing b with
    | true =>
      have := isNothing_eq hb
      subst this
      rw [if_pos rfl]
      refine ((i1 hw.1 hp.1 (setup f) i h ha rfl).seq (Em.nop.seq (.tailNone hsep))).mono ?_
      rintro _ ⟨t, _, ⟨us, h1, h2⟩, ⟨_, _, rfl, rfl, rfl⟩, rfl⟩
      refine ⟨us, by simpa using h1, ?_⟩
      rw [source_block h0]
      exact Program.cons 0 h2 (.nothing 0)
    | false =>
      rw [if_neg (by simp)]
      refine ((i1 hw.1 hp.1 (setup f) i h ha rfl).seq (((Em.line h ho (startsBare b)).mute.seq (i2 hw.2 hp.2 (setup f) i h ha rfl).mute).seq (.tailNone hsep))).mono ?_
      rintro _ ⟨t, _, ⟨us, h1, h2⟩, ⟨_, _, ⟨_, v, ⟨u, hu, rfl⟩, ⟨vs, h3, h4⟩, rfl⟩, rfl, rfl⟩, rfl⟩
      refine ⟨us ++ ([.eol] ++ vs), ?_, ?_⟩
      · have := h1.then ((Lexes.line hu).then h3 (fun _ => trivial)) (fun x => ⟨u ++ v ++ x, by simp⟩)
        simpa using this
      · rw [source_block h0]
        have := Program.cons 0 h2 h4
        simpa using this
  | @blank loop c b us h0 ih =>
    intro f i h ha hsep
    dsimp only
    rw [prS]
    have key : Em (check o (setup f) (prS o (.blank c) true)) 0 i 0 i (fun t => Lexes .outside Nl t []) := by
      refine Em.check h (keep_prS o _ _ _ rfl) fun ml => ?_
      cases c with
      | none =>
        rw [prS]
        refine Em.mono (Em.tailNone (f := { setup f with ml }) rfl) ?_
        rintro _ rfl
        exact .nil _ _
      | some c =>
        rw [prS, if_pos (show (setup f).write = true from h)]
        refine ((Em.tailNone (f := { setup f with ml }) rfl).seq ((Em.writes (f := { setup f with ml }) h _).seq (Em.force _))).mono ?_
        rintro _ ⟨_, _, rfl, ⟨_, _, rfl, rfl, rfl⟩, rfl⟩
        have hc : ∀ x ∈ c, x ≠ 0 ∧ x ≠ 10 := hw.1
        have : Lexes .outside Nl (35 :: c.take 4094) [] := Lexes.remark (c := c.take 4094) (fun x hx => hc x (List.mem_of_mem_take hx))
        simpa using this
    cases hb : isNothing b with
    | true =>
      have := isNothing_eq hb
      subst this
      rw [if_pos rfl]
      refine (key.seq (Em.nop.seq (.tailNone hsep))).mono ?_
      rintro _ ⟨t, _, h1, ⟨_, _, rfl, rfl, rfl⟩, rfl⟩
      exact ⟨[], by simpa using h1, Program.nothing 1⟩
    | false =>
      rw [if_neg (by simp)]
      refine (key.seq (((Em.line h ho (startsBare b)).mute.seq (ih hw.2 hp.2 (setup f) i h ha rfl).mute).seq (.tailNone hsep))).mono ?_
      rintro _ ⟨t, _, h1, ⟨_, _, ⟨_, v, ⟨u, hu, rfl⟩, ⟨vs, h3, h4⟩, rfl⟩, rfl, rfl⟩, rfl⟩
      refine ⟨[.eol] ++ vs, ?_, ?_⟩
      · have := h1.then ((Lexes.line hu).then h3 (fun _ => trivial)) (fun x => ⟨u ++ v ++ x, by simp⟩)
        simpa using this
      · exact eol_block h4
  | @expr loop e ts h0 he =>
    intro f i h ha hsep
    dsimp only
    refine Em.check h (keep_prS o _ _ _ rfl) fun ml => ?_
    rw [prS]
    refine ((print_expr o ho e hw).1 (h0.proper.1 (by simp)) { f with ml } 0 i .any h (by simp [ha]) (Or.inr ⟨rfl, hp, rfl⟩)).mono ?_
    intro t ht
    obtain ⟨us, h1, h2⟩ := Val.lexes (Or.inl (ht.plain hsep)) h0
    exact ⟨us, h1.mono fun _ h => h.sep, .expr h2 he⟩
  | @assign loop s v us h0 =>
    intro f i h ha hsep
    dsimp only
    have e0 : prS o (.assign s v) true = fun f => writes f s ⊹ write f 32 ⊹ writes f (ascii "= ") ⊹ wrapped o v f ⊹ tail f := by
      funext f; rw [prS]
    rw [e0]
    refine (Em.assign h ha hsep ho hs hw.2 (h0.proper.1 (by simp)) h0.noArith.1).mono ?_
    rintro _ ⟨a, ha, rfl⟩
    obtain ⟨us, h1, h2⟩ := ha.lexes h0
    obtain ⟨ts, k1, k2⟩ := Val.lexes (e := .id s) (Or.inl (Txt.id hw.1)) (.orExpr (.andOr (.compAnd (.arithComp (.arithLift (by omega) (.arithLift (by omega) (.arithLift (by omega)
      (.arithLift (by omega) (.arithLift (by omega) (.postUnary (.atomPost .id)))))))))))
    refine ⟨ts ++ .assign :: us, ?_, .assign k2 h2⟩
    have := k1.then (Lexes.sp.then (opAssign.then h1 (fun _ => trivial)) (fun _ => trivial)) (fun x => .cons (by simp))
    exact (by simpa using this : Lexes .outside Sep _ _).mono fun _ h => h.sep
  | @plusAssign loop s v us h0 =>
    intro f i h ha hsep
    dsimp only
    have e0 : prS o (.plusAssign s v) true = fun f => writes f s ⊹ write f 32 ⊹ writes f (ascii "+= ") ⊹ wrapped o v f ⊹ tail f := by
      funext f; rw [prS]
    rw [e0]
    refine (Em.assign h ha hsep ho hs hw.2 (h0.proper.1 (by simp)) h0.noArith.1).mono ?_
    rintro _ ⟨a, ha, rfl⟩
    obtain ⟨us, h1, h2⟩ := ha.lexes h0
    obtain ⟨ts, k1, k2⟩ := Val.lexes (e := .id s) (Or.inl (Txt.id hw.1)) (.orExpr (.andOr (.compAnd (.arithComp (.arithLift (by omega) (.arithLift (by omega) (.arithLift (by omega)
      (.arithLift (by omega) (.arithLift (by omega) (.postUnary (.atomPost .id)))))))))))
    refine ⟨ts ++ .plusAssign :: us, ?_, .plusAssign k2 h2⟩
    have := k1.then (Lexes.sp.then (opPlusAssign.then h1 (fun _ => trivial)) (fun _ => trivial)) (fun x => .cons (by simp))
    exact (by simpa using this : Lexes .outside Sep _ _).mono fun _ h => h.sep
  | «continue» =>
    intro f i h ha hsep
    dsimp only
    refine Em.check h (keep_prS o _ _ _ rfl) fun ml => ?_
    rw [prS]
    refine ((Em.writes (f := { f with ml }) h _).seq (Em.tailNone (f := { f with ml }) hsep)).mono ?_
    rintro _ ⟨_, _, rfl, rfl, rfl⟩
    exact ⟨[.kContinue], by simpa using kwContinue.mono fun _ h => h.sep, .continue⟩
  | «break» =>
    intro f i h ha hsep
    dsimp only
    refine Em.check h (keep_prS o _ _ _ rfl) fun ml => ?_
    rw [prS]
    refine ((Em.writes (f := { f with ml }) h _).seq (Em.tailNone (f := { f with ml }) hsep)).mono ?_
    rintro _ ⟨_, _, rfl, rfl, rfl⟩
    exact ⟨[.kBreak], by simpa using kwBreak.mono fun _ h => h.sep, .break⟩
  | @«if» loop s ts h0 he ih =>
    intro f i h ha hsep
    dsimp only
    refine Em.check h (keep_prS o _ _ _ rfl) fun ml => ?_
    rw [prS]
    refine ((ih hw hp (setup { f with ml }) i h ha rfl true).mute.seq ((Em.writes (f := { f with ml }) h _).mute.seq (Em.tailNone (f := { f with ml }) hsep))).mono ?_
    rintro _ ⟨t, _, ⟨us, h1, h2⟩, ⟨_, _, rfl, rfl, rfl⟩, rfl⟩
    refine ⟨Tok.kIf :: us ++ [Tok.kEndif], ?_, Program.if h2 he⟩
    have := h1.then (kwEndif.mono fun _ (h : Nl _) => h.sep) (fun _ => trivial)
    simpa using this
  | @«foreach» loop v w e b ts us h0 hb he ih =>
    intro f i h ha hsep
    dsimp only
    refine Em.check h (keep_prS o _ _ _ rfl) fun ml => ?_
    rw [prS.eq_def]
    dsimp only
    refine ((Em.writes (f := { f with ml }) h _).mute.seq ((Em.mute (Q := fun t => Lexes .outside Sep t (loopVars v w)) ?_).seq ((Em.writes (f := { f with ml }) h _).mute.seq
      ((Em.value (f := setup { f with ml }) h ha ho hs hw.2.2.1 (h0.proper.1 (by simp)) h0.noArith.1).mute.seq
      ((Em.inner (f := setup { f with ml }) h ho (fun i => ih hw.2.2.2 hp (setup { f with ml }) i h ha rfl)).mute.seq
      ((Em.writes (f := { f with ml }) h _).mute.seq (Em.tailNone (f := { f with ml }) hsep))))))).mono ?_
    · cases w with
      | none =>
        refine ((Em.writes (f := { f with ml }) h v).seq Em.nop).mono ?_
        rintro _ ⟨_, _, rfl, rfl, rfl⟩
        simpa [loopVars] using (Lexes.name hw.1).weaken
      | some w =>
        refine ((Em.writes (f := { f with ml }) h v).seq ((Em.writes (f := { f with ml }) h _).seq (Em.writes (f := { f with ml }) h w))).mono ?_
        rintro _ ⟨_, _, rfl, ⟨_, _, rfl, rfl, rfl⟩, rfl⟩
        have e0 : ascii ", " = [44] ++ [32] := by decide +kernel
        rw [e0]
        have := (Lexes.name hw.1).weaken.then ((Lexes.comma.weaken.then (Lexes.sp (w := .outside)) (fun _ => trivial)).then
          (Lexes.weaken (Lexes.name (hw.2.1 _ rfl))) (fun _ => trivial)) (fun x => .cons (by simp))
        exact this
    rintro _ ⟨_, _, rfl, ⟨tv, _, hv, ⟨_, _, rfl, ⟨a, _, ha, ⟨t, _, ⟨vs, h1, h2, h3⟩, ⟨_, _, rfl, rfl, rfl⟩, rfl⟩, rfl⟩, rfl⟩, rfl⟩, rfl⟩
    obtain ⟨us, k1, k2⟩ := ha.lexes h0
    refine ⟨.kForeach :: loopVars v w ++ .colon :: us ++ .eol :: vs ++ [.kEndforeach], ?_, .foreach k2 h3 he⟩
    have e0 : ascii " : " = [32] ++ ([58] ++ [32]) := by decide +kernel
    rw [e0]
    have := kwForeach.then (hv.then ((Lexes.sp.then (Lexes.colon.weaken.then (Lexes.sp (w := .outside)) (fun _ => trivial)) (fun _ => trivial)).then
      (k1.then (h1.then (kwEndforeach.mono fun _ (h : Nl _) => h.sep) (fun _ => trivial))
      (fun x => by obtain ⟨y, rfl⟩ := h2; exact .cons (by simp))) (fun _ => trivial)) (fun x => .cons (by simp))) (fun _ => trivial)
    simpa using this
  | @branch loop c b e ts us vs h0 hb he i1 i2 =>
    intro f i h ha hsep
    dsimp only
    intro first
    rw [prS]
    have i2' := i2 hw.2.2 hp.2 (setup f) i h ha rfl
    dsimp only at i2'
    refine ((Em.writes h _).seq ((Em.value (f := setup f) h ha ho hs hw.1 (h0.proper.1 (by simp)) h0.noArith.1).seq
      ((Em.inner (f := setup f) h ho (fun i => i1 hw.2.1 hp.1 (setup f) i h ha rfl)).seq i2'))).mono ?_
    rintro _ ⟨_, _, rfl, ⟨a, _, ha, ⟨t, t', ⟨ts, h1, h2, h3⟩, ⟨ws, h4, h5⟩, rfl⟩, rfl⟩, rfl⟩
    obtain ⟨us, k1, k2⟩ := ha.lexes h0
    refine ⟨us ++ .eol :: ts ++ ws, ?_, .branch k2 h3 h5⟩
    have k0 : Lexes .outside Any (if first = true then ascii "if " else ascii "elif ") [if first then .kIf else .kElif] := by
      cases first
      · exact kwElif
      · exact kwIf
    have := k0.then (k1.then (h1.then h4 (fun _ => trivial)) (fun x => by obtain ⟨y, rfl⟩ := h2; exact .cons (by simp))) (fun _ => trivial)
    simpa using this
  | noElse =>
    intro f i h ha hsep
    dsimp only
    rw [if_pos (show isNothing .nothing = true from rfl)]
    refine Em.nop.mono ?_
    rintro _ rfl
    exact ⟨[], .nil _ _, .noElse⟩
  | @elif loop s ts h0 ih =>
    intro f i h ha hsep
    dsimp only
    have : isNothing s = false := by cases h0; rfl
    rw [this, if_neg (by simp)]
    refine (ih hw hp f i h ha hsep false).mono ?_
    rintro t ⟨us, h1, h2⟩
    exact ⟨_, h1, .elif h2⟩
  | @«else» loop b ts h0 ih =>
    intro f i h ha hsep
    dsimp only
    rw [if_neg (by simp [isNothing]), prS]
    refine ((Em.writes h _).seq (Em.inner (f := setup f) h ho (fun i => ih hw hp (setup f) i h ha rfl))).mono ?_
    rintro _ ⟨_, t, rfl, ⟨ts, h1, h2, h3⟩, rfl⟩
    refine ⟨.kElse :: .eol :: ts, ?_, .else h3⟩
    have := kwElse.then h1 (fun x => by obtain ⟨y, rfl⟩ := h2; exact .cons (by simp))
    simpa using this

end Muon.Fmt
