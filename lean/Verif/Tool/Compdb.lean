import Verif.Tool.Props
/-
The tool `compdb` writes JSON that says what it should.
-/
namespace Muon.Tool
open Muon
open Spec

theorem body_append {t s t' s' : Bytes} (h : Body t s) (h' : Body t' s') : Body (t ++ t') (s ++ s') := by
  induction h with
  | nil => exact h'
  | plain c h1 h2 h3 _ ih => exact .plain c h1 h2 h3 ih
  | quote _ ih => exact .quote ih
  | back _ ih => exact .back ih
  | slash _ ih => exact .slash ih
  | bs _ ih => exact .bs ih
  | ff _ ih => exact .ff ih
  | nl _ ih => exact .nl ih
  | cr _ ih => exact .cr ih
  | tab _ ih => exact .tab ih

/-- A string without control characters is written as JSON that stands for it. -/
theorem printJson_body {s : Bytes} (h : Printable s) : Body (printJson false s) s := by
  induction s with
  | nil => exact .nil
  | cons c s ih =>
    have hc := h c (by simp)
    have ih := ih (fun d hd => h d (by simp [hd]))
    unfold printJson
    by_cases h1 : c = 34
    · subst h1; exact .quote ih
    · by_cases h2 : c = 92
      · subst h2; exact .back ih
      · rw [if_neg (by simp [h1, h2])]
        by_cases h3 : c = 10
        · subst h3; exact absurd hc (by decide)
        · rw [if_neg h3]
          by_cases h4 : c = 0
          · subst h4; exact absurd hc (by decide)
          · rw [if_neg h4]; exact .plain c hc h1 h2 ih

/-- Removing the backslash of every escaped byte. -/
def unescaped : Bytes → Bytes
  | 92 :: c :: s => c :: unescaped s
  | c :: s => c :: unescaped s
  | [] => []

/-- Whatever a string contains (but NUL), nothing of it is lost or changed: without the escapes it is the string. -/
theorem printJson_raw {s : Bytes} (h : 0 ∉ s) : unescaped (printJson false s) = s := by
  induction s with
  | nil => rfl
  | cons c s ih =>
    have ih := ih (fun hc => h (by simp [hc]))
    have h0 : c ≠ 0 := fun hc => h (by simp [hc])
    unfold printJson
    by_cases h1 : c = 34 ∨ c = 92
    · rw [if_pos h1, unescaped, ih]
    · rw [if_neg h1]
      have h2 : c ≠ 92 := fun hc => h1 (.inr hc)
      have e : (if c = 10 then (if false = true then 32 else c) :: printJson false s else if c = 0 then [] else c :: printJson false s) =
          c :: printJson false s := by
        by_cases h3 : c = 10 <;> simp [h3, h0]
      rw [e, unescaped, ih]
      intro _ _ he
      exact absurd he h2

/-- In the contents of a response file a newline is written as a space. -/
theorem printJson_join {s : Bytes} (h : ∀ c ∈ s, 32 ≤ c.toNat ∨ c = 10) :
    Body (printJson true s) (s.map (fun c => if c = 10 then 32 else c)) := by
  induction s with
  | nil => exact .nil
  | cons c s ih =>
    have hc := h c (by simp)
    have ih := ih (fun d hd => h d (by simp [hd]))
    unfold printJson
    rw [List.map_cons]
    by_cases h1 : c = 34
    · subst h1; exact .quote ih
    · by_cases h2 : c = 92
      · subst h2; exact .back ih
      · rw [if_neg (by simp [h1, h2])]
        by_cases h3 : c = 10
        · subst h3; exact .plain 32 (by decide) (by decide) (by decide) ih
        · rw [if_neg h3, if_neg h3]
          rcases hc with hc | hc
          · by_cases h4 : c = 0
            · subst h4; exact absurd hc (by decide)
            · rw [if_neg h4]; exact .plain c hc h1 h2 ih
          · exact absurd hc h3

/-- The command of a step, as the database is to give it: with `-x`, if the name of the response file stands in the
command with `@` before it, the first of these is replaced by the contents, newlines as spaces. -/
inductive Cmd (e : Edge) : Bool → Bytes → Prop
  | plain {cmd : Bytes} : e.command = some cmd → Cmd e false cmd
  | none {cmd : Bytes} : e.command = some cmd → e.rspEsc = none → Cmd e true cmd
  | absent {cmd r : Bytes} : e.command = some cmd → e.rspEsc = some r → (∀ a b, cmd ≠ a ++ 64 :: r ++ b) → Cmd e true cmd
  | expand {cmd r c a b : Bytes} : e.command = some cmd → e.rspEsc = some r → e.content = some c →
      cmd = a ++ 64 :: r ++ b → (∀ a' b', cmd = a' ++ r ++ b' → a.length < a'.length) →
      Cmd e true (a ++ c.map (fun c => if c = 10 then 32 else c) ++ b)

theorem find_some {p s : Bytes} {n : Nat} (h : find p s = some n) :
    (∃ b, s = s.take n ++ p ++ b) ∧ n ≤ s.length ∧ ∀ a b, s = a ++ p ++ b → n ≤ a.length := by
  induction s generalizing n with
  | nil =>
    unfold find at h
    split at h
    · cases h; rename_i hp; subst hp; exact ⟨⟨[], rfl⟩, Nat.le_refl _, fun _ _ _ => Nat.zero_le _⟩
    · cases h
  | cons c s ih =>
    unfold find at h
    split at h
    · rename_i hp
      cases h
      obtain ⟨b, hb⟩ := List.isPrefixOf_iff_prefix.1 hp
      exact ⟨⟨b, by simp [hb]⟩, Nat.zero_le _, fun _ _ _ => Nat.zero_le _⟩
    · rename_i hp
      rw [Option.map_eq_some_iff] at h
      obtain ⟨m, hm, rfl⟩ := h
      obtain ⟨⟨b, hb⟩, hl, hmin⟩ := ih hm
      refine ⟨⟨b, ?_⟩, by simpa using hl, fun a b h => ?_⟩
      · rw [List.take_succ_cons, List.cons_append, List.cons_append, ← hb]
      · cases a with
        | nil => exact absurd (List.isPrefixOf_iff_prefix.2 ⟨b, by simpa using h.symm⟩) hp
        | cons x a =>
          simp only [List.cons_append, List.cons.injEq] at h
          have := hmin a b h.2
          simp; omega

theorem find_none {p s : Bytes} (h : find p s = none) : ∀ a b, s ≠ a ++ p ++ b := by
  induction s with
  | nil =>
    unfold find at h
    split at h
    · cases h
    · rename_i hp
      intro a b hab
      simp at hab
      exact hp hab.2.1
  | cons c s ih =>
    unfold find at h
    split at h
    · cases h
    · rename_i hp
      rw [Option.map_eq_none_iff] at h
      intro a b hab
      cases a with
      | nil => exact absurd (List.isPrefixOf_iff_prefix.2 ⟨b, by simpa using hab.symm⟩) hp
      | cons x a =>
        simp only [List.cons_append, List.cons.injEq] at hab
        exact ih h a b hab.2

theorem ws_of {t : Bytes} (h : (t.all fun c => c == 32 || c == 9 || c == 10 || c == 13) = true) : Ws t := by
  intro c hc
  have := List.all_eq_true.1 h c hc
  simpa [or_assoc] using this

/-- The command that an entry gives: what the code writes stands for it. -/
theorem entryCommand_body {x : Bool} {e : Edge} {t : Bytes} (h : entryCommand x e = .ok t)
    (hc : ∀ c, e.command = some c → Printable c) (hr : ∀ c, e.content = some c → ∀ b ∈ c, 32 ≤ b.toNat ∨ b = 10)
    (hfirst : ∀ cmd r a b, e.command = some cmd → e.rspEsc = some r → cmd = a ++ 64 :: r ++ b →
      ∃ p b', cmd = p ++ 64 :: r ++ b' ∧ ∀ a' b', cmd = a' ++ r ++ b' → p.length < a'.length) :
    ∃ v, Cmd e x v ∧ Body t v := by
  unfold entryCommand at h
  cases hcmd : e.command with
  | none => rw [hcmd] at h; cases h
  | some cmd =>
    rw [hcmd] at h
    have hp := hc cmd hcmd
    cases x with
    | false => cases h; exact ⟨cmd, .plain hcmd, printJson_body hp⟩
    | true =>
      dsimp only [if_true] at h
      cases hre : e.rspEsc with
      | none => simp only [hre, if_true] at h; cases h; exact ⟨cmd, .none hcmd hre, printJson_body hp⟩
      | some r =>
        simp only [hre, if_true] at h
        cases hf : find r cmd with
        | none =>
          simp only [hf] at h
          cases h
          refine ⟨cmd, .absent hcmd hre (fun a b hab => ?_), printJson_body hp⟩
          exact find_none hf (a ++ [64]) b (by rw [hab]; simp)
        | some n =>
          simp only [hf] at h
          obtain ⟨⟨b, hb⟩, hl, hmin⟩ := find_some hf
          by_cases h1 : n = 0 ∨ cmd[n - 1]? ≠ some 64
          · rw [if_pos h1] at h
            cases h
            refine ⟨cmd, .absent hcmd hre (fun a b' hab => ?_), printJson_body hp⟩
            obtain ⟨p, b'', h2, h3⟩ := hfirst cmd r a b' hcmd hre hab
            have h4 := hmin (p ++ [64]) b'' (by rw [h2]; simp)
            have h5 := h3 (cmd.take n) b hb
            rw [List.length_take, Nat.min_eq_left hl] at h5
            simp at h4
            have h6 : n = p.length + 1 := by omega
            rcases h1 with h1 | h1
            · omega
            · apply h1
              rw [h6, h2]
              simp
          · rw [if_neg h1] at h
            have h0 : n ≠ 0 := fun h => h1 (Or.inl h)
            have h64 : cmd[n - 1]? = some 64 := Decidable.byContradiction fun h => h1 (Or.inr h)
            cases hco : e.content with
            | none => rw [hco] at h; cases h
            | some c =>
              rw [hco] at h
              cases h
              have htk : cmd.take n = cmd.take (n - 1) ++ [64] := by
                have : n = (n - 1) + 1 := by omega
                conv => lhs; rw [this]
                rw [List.take_add_one, h64]
                rfl
              have hd : cmd.drop (n + r.length) = b := by
                conv => lhs; rw [hb]
                rw [List.append_assoc]
                have hlen : (cmd.take n).length = n := by rw [List.length_take, Nat.min_eq_left hl]
                rw [List.drop_append, List.drop_of_length_le (by omega), hlen]
                simp
              have heq : cmd = cmd.take (n - 1) ++ 64 :: r ++ b := by
                conv => lhs; rw [hb, htk]
                simp
              refine ⟨cmd.take (n - 1) ++ c.map (fun c => if c = 10 then 32 else c) ++ cmd.drop (n + r.length),
                .expand hcmd hre hco (by rw [hd]; exact heq) (fun a' b' hab => ?_), ?_⟩
              · have := hmin a' b' hab
                rw [List.length_take]
                omega
              · exact body_append (body_append (printJson_body fun x hx => hp x (List.mem_of_mem_take hx))
                  (printJson_join (hr c hco))) (printJson_body fun x hx => hp x (List.mem_of_mem_drop hx))

theorem member_of {w k v tv w' t : Bytes} (hw : Ws w) (hw' : Ws w') (hk : Body k k) (hv : Body tv v)
    (ht : t = w ++ ([34] ++ k ++ [34]) ++ [] ++ [58] ++ [32] ++ ([34] ++ tv ++ [34]) ++ w') : Member (k, v) t :=
  ⟨w, [], [32], w', _, _, hw, fun _ h => (nomatch h), ws_of (by decide), hw', ⟨k, hk, rfl⟩, ⟨tv, hv, rfl⟩, ht⟩

theorem plain_body {k : Bytes} (h : (k.all fun c => decide (32 ≤ c.toNat) && c != 34 && c != 92) = true) : Body k k := by
  induction k with
  | nil => exact .nil
  | cons c k ih =>
    simp only [List.all_cons, Bool.and_eq_true, decide_eq_true_eq, bne_iff_ne] at h
    exact .plain c h.1.1.1 h.1.1.2 h.1.2 (ih h.2)

/-- An entry is an object with the four members. -/
theorem entry_obj {g : Graph} {dir : Bytes} {x : Bool} {e : Edge} {t : Bytes} (h : entry g dir x e = .ok t)
    (hd : Printable dir) (hc : ∀ t', entryCommand x e = .ok t' → ∃ v, Cmd e x v ∧ Body t' v)
    (hp : ∀ n, n ∈ e.ins ∨ n ∈ e.outs → Printable (g.path n)) :
    ∃ v i o, Cmd e x v ∧ e.ins.head? = some i ∧ e.outs.head? = some o ∧
      Obj (entryOf dir v (g.path i) (g.path o)) t := by
  unfold entry at h
  obtain ⟨cmd, h1, h2⟩ := (Res.bind_eq_ok (x := entryCommand x e)).1 h
  obtain ⟨v, hv, hb⟩ := hc cmd h1
  cases hi : e.ins with
  | nil => rw [hi] at h2; cases h2
  | cons i is =>
    cases ho : e.outs with
    | nil => rw [hi, ho] at h2; cases h2
    | cons o os =>
      rw [hi, ho] at h2
      cases h2
      refine ⟨v, i, o, hv, rfl, rfl, ascii "\n  ", [], _, ws_of (by decide +kernel), fun _ h => (nomatch h), Or.inr
        (.cons (member_of (w := ascii "\n    ") (w' := []) (tv := printJson false dir) (ws_of (by decide +kernel))
            (fun _ h => nomatch h) (plain_body (by decide +kernel)) (printJson_body hd) rfl)
          (.cons (member_of (w := ascii "\n    ") (w' := []) (tv := cmd) (ws_of (by decide +kernel))
            (fun _ h => nomatch h) (plain_body (by decide +kernel)) hb rfl)
          (.cons (member_of (w := ascii "\n    ") (w' := []) (tv := printJson false (g.path i)) (ws_of (by decide +kernel))
            (fun _ h => nomatch h) (plain_body (by decide +kernel)) (printJson_body (hp i (by simp [hi]))) rfl)
          (.one (member_of (w := ascii "\n    ") (w' := ascii "\n  ") (tv := printJson false (g.path o))
            (ws_of (by decide +kernel)) (ws_of (by decide +kernel)) (plain_body (by decide +kernel))
            (printJson_body (hp o (by simp [ho]))) rfl))))), ?_⟩
      have e1 : ascii "\n  {\n    \"directory\": \"" =
          ascii "\n  " ++ [123] ++ ascii "\n    " ++ [34] ++ ascii "directory" ++ [34, 58, 32, 34] := by decide +kernel
      have e2 : ascii "\",\n    \"command\": \"" =
          [34, 44] ++ ascii "\n    " ++ [34] ++ ascii "command" ++ [34, 58, 32, 34] := by decide +kernel
      have e3 : ascii "\",\n    \"file\": \"" =
          [34, 44] ++ ascii "\n    " ++ [34] ++ ascii "file" ++ [34, 58, 32, 34] := by decide +kernel
      have e4 : ascii "\",\n    \"output\": \"" =
          [34, 44] ++ ascii "\n    " ++ [34] ++ ascii "output" ++ [34, 58, 32, 34] := by decide +kernel
      have e5 : ascii "\"\n  }" = [34] ++ ascii "\n  " ++ [125] := by decide +kernel
      rw [e1, e2, e3, e4, e5]
      simp only [List.append_assoc, List.cons_append, List.nil_append, List.append_nil]

/-- The entry of a step. -/
def EntryOf (g : Graph) (dir : Bytes) (x : Bool) (e : Edge) (o : List (Bytes × Bytes)) : Prop :=
  ∃ cmd i n, Cmd e x cmd ∧ e.ins.head? = some i ∧ e.outs.head? = some n ∧ o = entryOf dir cmd (g.path i) (g.path n)

/-- A relation between the elements of two lists of the same length. -/
inductive Pairs {α β : Type} (R : α → β → Prop) : List α → List β → Prop
  | nil : Pairs R [] []
  | cons {a : α} {b : β} {as : List α} {bs : List β} : R a b → Pairs R as bs → Pairs R (a :: as) (b :: bs)

/-- A text of objects, each after a comma. -/
theorem entries_spec {g : Graph} {dir : Bytes} {x all : Bool} {rules : List Bytes} (hd : Printable dir) (es : List Edge)
    (hc : ∀ e ∈ es, ∀ t', entryCommand x e = .ok t' → ∃ v, Cmd e x v ∧ Body t' v)
    (hp : ∀ n, Printable (g.path n)) (first : Bool) {t : Bytes} (h : entries g dir x all rules first es = .ok t) :
    ∃ os, Pairs (EntryOf g dir x) (es.filter (wanted all rules)) os ∧
      (os = [] ∧ t = [] ∨ ∃ u, SepBy Obj os u ∧ t = (if first then [] else [44]) ++ u) := by
  induction es generalizing first t with
  | nil => cases h; exact ⟨[], .nil, Or.inl ⟨rfl, rfl⟩⟩
  | cons e es ih =>
    have ih := ih (fun e he => hc e (by simp [he]))
    unfold entries at h
    by_cases hw : wanted all rules e = true
    · rw [if_pos hw] at h
      obtain ⟨t1, h1, h2⟩ := (Res.bind_eq_ok (x := entry g dir x e)).1 h
      obtain ⟨t2, h3, h4⟩ := (Res.bind_eq_ok (x := entries g dir x all rules false es)).1 h2
      cases h4
      obtain ⟨v, i, o, hv, hi, ho, hobj⟩ := entry_obj h1 hd (hc e (by simp)) (fun n _ => hp n)
      obtain ⟨os, hos, hor⟩ := ih false h3
      rw [List.filter_cons_of_pos hw]
      refine ⟨_ :: os, .cons ⟨v, i, o, hv, hi, ho, rfl⟩ hos, Or.inr ?_⟩
      rcases hor with ⟨rfl, rfl⟩ | ⟨u, hu, rfl⟩
      · exact ⟨t1, .one hobj, by simp⟩
      · exact ⟨_, .cons hobj hu, by simp⟩
    · rw [if_neg hw] at h
      rw [List.filter_cons_of_neg hw]
      exact ih first h

theorem ws_nl : Ws [10] := ws_of (by decide)

theorem obj_ws {ms : List (Bytes × Bytes)} {t w : Bytes} (h : Obj ms t) (hw : Ws w) : Obj ms (t ++ w) := by
  obtain ⟨w1, w2, u, h1, h2, h3, rfl⟩ := h
  refine ⟨w1, w2 ++ w, u, h1, ?_, h3, by simp⟩
  intro c hc
  rcases List.mem_append.1 hc with hc | hc
  · exact h2 c hc
  · exact hw c hc

theorem sepBy_ws {os : List (List (Bytes × Bytes))} {t w : Bytes} (h : SepBy Obj os t) (hw : Ws w) :
    SepBy Obj os (t ++ w) := by
  induction h with
  | one h => exact .one (obj_ws h hw)
  | cons h _ ih => rw [List.append_assoc]; exact .cons h ih

/-- The steps a compilation database is for: not `phony`, with an input, and of one of the rules asked for (or all). -/
def Listed (all : Bool) (rules : List Bytes) (e : Edge) : Prop :=
  e.ins ≠ [] ∧ e.phony = false ∧ (all = true ∨ e.rule ∈ rules)

theorem wanted_iff {all : Bool} {rules : List Bytes} {e : Edge} : wanted all rules e = true ↔ Listed all rules e := by
  simp [wanted, Listed, and_assoc]

/-- **The compilation database is JSON that says what the steps are.** If no name or command has a control character
(and the contents of response files have none but newlines), and the name of a response file stands in its command
first after `@`, then the output is a JSON array with one object for each step asked for, in the order of the file,
with the directory, the command, the first input and the first output. -/
theorem compdb_json_partial {g : Graph} {dir : Bytes} {x all : Bool} {rules : List Bytes} {t : Bytes}
    (h : compdb g dir x all rules = .ok t) (hd : Printable dir) (hp : ∀ n, Printable (g.path n))
    (hc : ∀ e ∈ g.edges, ∀ c, e.command = some c → Printable c)
    (hr : ∀ e ∈ g.edges, ∀ c, e.content = some c → ∀ b ∈ c, 32 ≤ b.toNat ∨ b = 10)
    (hfirst : ∀ e ∈ g.edges, ∀ cmd r a b, e.command = some cmd → e.rspEsc = some r → cmd = a ++ 64 :: r ++ b →
      ∃ p b', cmd = p ++ 64 :: r ++ b' ∧ ∀ a' b', cmd = a' ++ r ++ b' → p.length < a'.length) :
    ∃ es os, List.Sublist es g.edges ∧ (∀ e, e ∈ es ↔ e ∈ g.edges ∧ Listed all rules e) ∧
      Pairs (EntryOf g dir x) es os ∧ Doc os t := by
  unfold compdb at h
  obtain ⟨u, h1, h2⟩ := (Res.bind_eq_ok (x := entries g dir x all rules true g.edges)).1 h
  cases h2
  obtain ⟨os, hos, hor⟩ := entries_spec hd g.edges
    (fun e he t' ht' => entryCommand_body ht' (hc e he) (hr e he) (hfirst e he)) hp true h1
  refine ⟨_, os, List.filter_sublist, fun e => ?_, hos, ?_⟩
  · rw [List.mem_filter, wanted_iff]
  · have e1 : ascii "\n]\n" = [10] ++ [93] ++ [10] := by decide +kernel
    rw [e1]
    rcases hor with ⟨rfl, rfl⟩ | ⟨v, hv, rfl⟩
    · exact ⟨[], [10], [10], fun _ h => (nomatch h), ws_nl, Or.inl ⟨rfl, ws_nl⟩, by simp⟩
    · exact ⟨[], [10], _, fun _ h => (nomatch h), ws_nl, Or.inr (sepBy_ws hv ws_nl), by simp⟩

/-- **No null pointer** is read without `-x`, on graphs as the parser makes them: steps that are not `phony` have a command,
and all have outputs. -/
theorem compdb_safe_partial {g : Graph} {dir : Bytes} {all : Bool} {rules : List Bytes}
    (hc : ∀ e ∈ g.edges, e.phony = false → e.command ≠ none) (ho : ∀ e ∈ g.edges, e.outs ≠ []) :
    ∃ t, compdb g dir false all rules = .ok t := by
  have key : ∀ (es : List Edge) (first : Bool), (∀ e ∈ es, e ∈ g.edges) →
      ∃ t, entries g dir false all rules first es = .ok t := by
    intro es
    induction es with
    | nil => intro first _; exact ⟨[], rfl⟩
    | cons e es ih =>
      intro first hes
      unfold entries
      by_cases hw : wanted all rules e = true
      · rw [if_pos hw]
        obtain ⟨h1, h2, _⟩ := wanted_iff.1 hw
        have he := hes e (by simp)
        obtain ⟨t2, ht2⟩ := ih false (fun e he => hes e (by simp [he]))
        cases hcm : e.command with
        | none => exact absurd hcm (hc e he h2)
        | some cmd =>
          cases hi : e.ins with
          | nil => exact absurd hi h1
          | cons i is =>
            cases hoo : e.outs with
            | nil => exact absurd hoo (ho e he)
            | cons o os =>
              rw [ht2]
              simp only [entry, entryCommand, hcm, hi, hoo, Bool.false_eq_true, if_false]
              exact ⟨_, rfl⟩
      · rw [if_neg hw]; exact ih first (fun e he => hes e (by simp [he]))
  obtain ⟨t, ht⟩ := key g.edges true (fun _ h => h)
  exact ⟨_, by unfold compdb; rw [ht]; rfl⟩

/-- `cc @o.rsp`, with a response file. -/
def rspEdge (cmd : String) (c : Option Bytes) : Edge :=
  { rule := ascii "cc", ins := [0], outs := [1], rsp := some (ascii "o.rsp"), rspEsc := some (ascii "o.rsp"),
    content := c, command := some (ascii cmd) }

/-- A graph of one step. -/
def one (e : Edge) : Graph where
  edges := [e]
  path n := if n = 0 then ascii "a.c" else ascii "o"
  gen n := if n = 1 then some 0 else none

example : compdb (one (rspEdge "cc @o.rsp -c" (some (ascii "-I x\n-D\"y\"")))) (ascii "/b") true false [ascii "cc"] =
    .ok (ascii "[\n  {\n    \"directory\": \"/b\",\n    \"command\": \"cc -I x -D\\\"y\\\" -c\",\n    \"file\": \"a.c\",\n    \"output\": \"o\"\n  }\n]\n") := by
  decide +kernel

/-- The hypotheses of `compdb_json_partial` hold of it. -/
example : ∃ es os t, List.Sublist es [rspEdge "cc @o.rsp -c" (some (ascii "-I x\n-D\"y\""))] ∧
    Pairs (EntryOf (one (rspEdge "cc @o.rsp -c" (some (ascii "-I x\n-D\"y\"")))) (ascii "/b") true) es os ∧ Doc os t := by
  obtain ⟨es, os, h1, _, h2, h3⟩ := compdb_json_partial (g := one (rspEdge "cc @o.rsp -c" (some (ascii "-I x\n-D\"y\""))))
    (dir := ascii "/b") (x := true) (all := false) (rules := [ascii "cc"])
    (t := ascii "[\n  {\n    \"directory\": \"/b\",\n    \"command\": \"cc -I x -D\\\"y\\\" -c\",\n    \"file\": \"a.c\",\n    \"output\": \"o\"\n  }\n]\n")
    (by decide +kernel) (by unfold Printable; decide +kernel)
    (fun n => by simp only [one, Printable]; split <;> decide +kernel)
    (fun e he c hc => by rw [List.mem_singleton.1 he] at hc; cases hc; unfold Printable; decide +kernel)
    (fun e he c hc => by rw [List.mem_singleton.1 he] at hc; cases hc; decide +kernel)
    (fun e he cmd r a b hc hr _ => by
      rw [List.mem_singleton.1 he] at hc hr
      cases hc; cases hr
      exact ⟨ascii "cc ", ascii " -c", by decide +kernel, fun a' b' h => (find_some (n := 4) (by decide +kernel)).2.2 a' b' h⟩)
  exact ⟨es, os, _, h1, h2, h3⟩

/-- **Counterexample: a control character.** A command with a tab (a generator string, a `-D` with a tab in it) gives text that is not JSON. -/
theorem compdb_control_counterexample :
    entryCommand false { rule := [], ins := [0], outs := [1], command := some [97, 9] } = .ok [97, 9] ∧
    ∀ v, ¬ Body [97, 9] v := by
  refine ⟨by decide +kernel, fun v h => ?_⟩
  cases h with
  | plain c h1 h2 h3 h4 =>
    cases h4 with
    | plain c h1 _ _ _ => exact absurd h1 (by decide)

/-- **Counterexample: the first occurrence.** With `-x`, if the name of the response file stands in the command before
the place where it is used, the contents are not put in: here the output is `o.rsp.o`, which starts with the name. -/
theorem compdb_first_counterexample :
    entryCommand true (rspEdge "cc -o o.rsp.o @o.rsp" (some (ascii "a.o"))) = .ok (ascii "cc -o o.rsp.o @o.rsp") := by
  decide +kernel

/-- **Counterexample: no contents.** A step that binds `rspfile` and not `rspfile_content` makes `compdb -x` read a
null pointer. -/
theorem compdb_null_counterexample (dir : Bytes) :
    compdb (one (rspEdge "cc @o.rsp" none)) dir true false [ascii "cc"] = .bad := by
  have : entryCommand true (rspEdge "cc @o.rsp" none) = .bad := by decide +kernel
  have hw : wanted false [ascii "cc"] (rspEdge "cc @o.rsp" none) = true := by decide +kernel
  unfold compdb one entries entry
  simp only [hw, this, if_true]
  rfl

end Muon.Tool
