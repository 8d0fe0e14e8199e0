import Verif.Cdata.Lemmas
/-
Configuration data keep what they were given.
-/
namespace Muon.Cdata
open Muon Muon.Cdata.Spec
open Muon.Conf (Val)

/-! ### Objects -/

/-- In a program that gives no dictionary to `configuration_data()` twice, `get()`, `has()` and `keys()` of each object
are as the statements before say: a key has the value that was given to it last in this object (with `merge_from`, the
value it had in the other object at that time), the keys are those that were ever given, in the order in which they
were first given, each once. -/
theorem data_partial (cs : List Cmd) (st : St) (hs : run start cs = .ok st) (hg : (given cs.reverse).Nodup) (c : Nat)
    (hc : c < made cs.reverse) :
    ∃ m, entries st c = some m ∧ keys m = order cs.reverse c ∧ (keys m).Nodup ∧
      (∀ k v, value cs.reverse c k = some v → (∀ dflt, get m k dflt = .ok v) ∧ has m k = true ∧ k ∈ keys m) ∧
      (∀ k, value cs.reverse c k = none → (∀ w, get m k (some w) = .ok w) ∧ get m k none = .error ∧ has m k = false ∧ k ∉ keys m) := by
  have I := run_inv start_inv cs hs (by simpa using hg)
  rw [List.append_nil] at I
  have hlt : c < st.data.length := by rw [I.ndata]; exact hc
  have hd : st.data[c]? = some st.data[c] := List.getElem?_eq_getElem hlt
  obtain ⟨h1, h2⟩ := I.vals c _ hd
  refine ⟨at' st st.data[c], by simp only [entries, hd, Option.map_some, at'], h2, I.nd _, ?_, ?_⟩
  · intro k v hv
    have : dget (at' st st.data[c]) k = some v := by rw [h1, hv]
    refine ⟨fun dflt => by simp only [get, this], by simp only [has, this, Option.isSome_some], ?_⟩
    apply Decidable.byContradiction
    intro hk
    rw [dget_none.2 hk] at this; cases this
  · intro k hv
    have : dget (at' st st.data[c]) k = none := by rw [h1, hv]
    exact ⟨fun w => by simp only [get, this], by simp only [get, this], by simp only [has, this, Option.isSome_none], dget_none.1 this⟩

/-- A dictionary that is not given to `configuration_data()` keeps its entries, whatever is done with the objects. -/
theorem dict_kept_partial (cs : List Cmd) (st : St) (hs : run start cs = .ok st) (hg : (given cs.reverse).Nodup) (v : Nat)
    (hv : v < variables cs.reverse) (hn : v ∉ given cs.reverse) :
    ∃ m, varEntries st v = some m ∧ (∀ k, dget m k = last (written cs.reverse v) k) ∧ keys m = add [] ((written cs.reverse v).map (·.1)) := by
  have I := run_inv start_inv cs hs (by simpa using hg)
  rw [List.append_nil] at I
  have hlt : v < st.vars.length := by rw [I.nvars]; exact hv
  have hd : st.vars[v]? = some st.vars[v] := List.getElem?_eq_getElem hlt
  have hk := I.kept v _ hd hn
  refine ⟨at' st st.vars[v], by simp only [varEntries, hd, Option.map_some, at'], ?_, ?_⟩
  · intro k; rw [hk, dget_dmerge]; simp [dget]
  · rw [hk, keys_dmerge]; rfl

/-- What step makes of the numbers of objects and variables. -/
theorem step_ok (st : St) (h : List Cmd) (cmd : Cmd) (h1 : st.data.length = made h) (h2 : st.vars.length = variables h)
    (hv : Valid (cmd :: h)) : ∃ st', step st cmd = .ok st' ∧ st'.data.length = made (cmd :: h) ∧ st'.vars.length = variables (cmd :: h) := by
  have ch : ∀ c f, c < made h → ∃ st', change st c f = .ok st' ∧ st'.data.length = made h ∧ st'.vars.length = variables h := by
    intro c f hc
    have : c < st.data.length := by omega
    refine ⟨{ st with heap := st.heap.set st.data[c] (f (st.heap.getD st.data[c] [])) }, ?_, h1, h2⟩
    simp only [change, List.getElem?_eq_getElem this]
  cases cmd with
  | dict m => exact ⟨_, rfl, h1, by simp [variables, h2]⟩
  | new => exact ⟨_, rfl, by simp [made, h1], h2⟩
  | newFrom v =>
    have : v < st.vars.length := by rw [h2]; exact hv.1
    exact ⟨{ st with data := st.data ++ [st.vars[v]] }, by simp only [step, List.getElem?_eq_getElem this], by simp [made, h1], h2⟩
  | set c k v => exact ch c (fun m => dset m k v) hv.1
  | set10 c k b => exact ch c (fun m => dset m k (.num (if b then 1 else 0))) hv.1
  | setQuoted c k s =>
    obtain ⟨st', e, r⟩ := ch c (fun m => dset m k (.str (quote s))) hv.1
    exact ⟨st', by simp only [step, Conf.cstr, if_neg hv.2.1, Res.ok_bind, e], r⟩
  | mergeFrom c d =>
    have : d < st.data.length := by rw [h1]; exact hv.2.1
    obtain ⟨st', e, r⟩ := ch c (fun m => dmerge m (st.heap.getD st.data[d] [])) hv.1
    exact ⟨st', by simp only [step, List.getElem?_eq_getElem this, e], r⟩

theorem valid_tail {cmd : Cmd} {h : List Cmd} (hv : Valid (cmd :: h)) : Valid h := by
  cases cmd with
  | dict _ => exact hv
  | new => exact hv
  | newFrom _ => exact hv.2
  | set _ _ _ => exact hv.2
  | set10 _ _ _ => exact hv.2
  | setQuoted _ _ _ => exact hv.2.2
  | mergeFrom _ _ => exact hv.2.2

theorem valid_append (a : List Cmd) {b : List Cmd} (hv : Valid (a ++ b)) : Valid b := by
  induction a with
  | nil => exact hv
  | cons c a ih => exact ih (valid_tail hv)

/-- A program whose statements speak of objects that exist runs, whatever it sets. -/
theorem run_ok (cs : List Cmd) (hv : Valid cs.reverse) : ∃ st, run start cs = .ok st := by
  have key : ∀ (cs : List Cmd) (st : St) (h : List Cmd), st.data.length = made h → st.vars.length = variables h → Valid (cs.reverse ++ h) →
      ∃ st', run st cs = .ok st' := by
    intro cs
    induction cs with
    | nil => intro st h _ _ _; exact ⟨st, rfl⟩
    | cons c cs ih =>
      intro st h h1 h2 hv
      rw [List.reverse_cons, List.append_assoc] at hv
      obtain ⟨st', e, r1, r2⟩ := step_ok st h c h1 h2 (valid_append _ hv)
      obtain ⟨st'', e'⟩ := ih st' (c :: h) r1 r2 hv
      exact ⟨st'', by rw [run, e, Res.ok_bind, e']⟩
  exact key cs start [] rfl rfl (by simpa using hv)

def exCmds : List Cmd :=
  [.dict [(ascii "A", .num 1), (ascii "B", .bool true)], .new, .newFrom 0, .set 0 (ascii "B") (.str (ascii "x")), .set10 0 (ascii "C") true,
    .mergeFrom 1 0, .setQuoted 0 (ascii "A") (ascii "q\"r")]

example : Valid exCmds.reverse ∧ (given exCmds.reverse).Nodup ∧ made exCmds.reverse = 2 ∧
    value exCmds.reverse 1 (ascii "B") = some (.str (ascii "x")) ∧ order exCmds.reverse 1 = [ascii "A", ascii "B", ascii "C"] ∧
    order exCmds.reverse 0 = [ascii "B", ascii "C", ascii "A"] ∧
    value exCmds.reverse 0 (ascii "A") = some (.str (ascii "\"q\\\"r\"")) := by
  refine ⟨?_, by decide +kernel, by decide +kernel, by decide +kernel, by decide +kernel, by decide +kernel, by decide +kernel⟩
  show 0 < 2 ∧ 0 ∉ _ ∧ 1 < 2 ∧ 0 < 2 ∧ 0 < 2 ∧ 0 < 2 ∧ 0 < 1 ∧ True
  decide +kernel

/-- An object that is made from a dictionary has this very dictionary: setting a key changes the dictionary in the
variable, although values of variables otherwise only change by assignment. -/
theorem dict_shared_counterexample :
    let p := [Cmd.dict [(ascii "A", .num 1)], .newFrom 0, .set 0 (ascii "A") (.num 2)]
    ∃ st, run start p = .ok st ∧ written p.reverse 0 = [(ascii "A", .num 1)] ∧ varEntries st 0 = some [(ascii "A", .num 2)] :=
  ⟨⟨[[(ascii "A", .num 2)]], [0], [0]⟩, by decide +kernel, by decide +kernel, by decide +kernel⟩

/-- Two objects that are made from one dictionary are not independent. -/
theorem data_shared_counterexample :
    let p := [Cmd.dict [], .newFrom 0, .newFrom 0, .set 0 (ascii "A") (.num 2)]
    ∃ st, run start p = .ok st ∧ value p.reverse 1 (ascii "A") = none ∧ entries st 1 = some [(ascii "A", .num 2)] :=
  ⟨⟨[[(ascii "A", .num 2)]], [0], [0, 0]⟩, by decide +kernel, by decide +kernel, by decide +kernel⟩

/-! ### Quotes -/

/-- The text of `set_quoted` is a literal of C for the text, if this has no backslashes and is one line. -/
theorem quoted_literal_partial (s : Bytes) (h1 : 92 ∉ s) (h2 : 10 ∉ s) : ∃ t, quote s = [34] ++ t ++ [34] ∧ Literal t s := by
  refine ⟨escape s, rfl, ?_⟩
  induction s with
  | nil => exact .nil
  | cons c s ih =>
    have ih := ih (fun h => h1 (List.mem_cons_of_mem _ h)) (fun h => h2 (List.mem_cons_of_mem _ h))
    unfold escape
    by_cases hc : c = 34
    · subst hc
      rw [if_pos rfl]; exact .quote ih
    · rw [if_neg hc]
      exact .char hc (fun e => h1 (by simp [e])) (fun e => h2 (by simp [e])) ih

/-- A literal stands for one text. -/
theorem literal_unique {t s s' : Bytes} (h : Literal t s) (h' : Literal t s') : s = s' := by
  induction h generalizing s' with
  | nil => cases h'; rfl
  | char h1 h2 h3 _ ih =>
    cases h' with
    | char _ _ _ h => rw [ih h]
    | quote h => exact absurd rfl h2
    | backslash h => exact absurd rfl h2
  | quote _ ih =>
    cases h' with
    | char _ h _ _ => exact absurd rfl h
    | quote h => rw [ih h]
  | backslash _ ih =>
    cases h' with
    | char _ h _ _ => exact absurd rfl h
    | backslash h => rw [ih h]

example : quote (ascii "a\"b") = [34] ++ ascii "a\\\"b" ++ [34] := by decide +kernel

/-- Backslashes are not escaped: `\\` is read as one backslash, and after a single one at the end there is no literal. -/
theorem quoted_literal_counterexample : (∃ t, quote (ascii "\\\\") = [34] ++ t ++ [34] ∧ Literal t (ascii "\\")) ∧
    quote (ascii "\\") = [34] ++ ascii "\\" ++ [34] ∧ ∀ s, ¬ Literal (ascii "\\") s := by
  refine ⟨⟨ascii "\\\\", by decide +kernel, .backslash .nil⟩, by decide +kernel, ?_⟩
  intro s h
  have : ascii "\\" = [92] := by decide +kernel
  rw [this] at h
  cases h
  contradiction

/-- `get_unquoted` takes away a quote at the beginning and one at the end, if there are both. -/
theorem get_unquoted_spec (m : Map) (k s : Bytes) (dflt : Option Val) (h0 : 0 ∉ s) (hg : get m k dflt = .ok (.str s)) :
    (∀ t, s = [34] ++ t ++ [34] → getUnquoted m k dflt = .ok (.str t)) ∧
      ((¬ ∃ t, s = [34] ++ t ++ [34]) → getUnquoted m k dflt = .ok (.str s)) := by
  have e : getUnquoted m k dflt = .ok (.str (unquote s)) := by
    simp only [getUnquoted, hg, Res.ok_bind, Conf.cstr, if_neg h0]
  rw [e]
  constructor
  · rintro t rfl
    have hl : ([34] ++ t ++ [34] : Bytes).getLast? = some 34 := by rw [List.getLast?_append]; rfl
    simp only [unquote, hl]
    simp
  · intro hn
    unfold unquote
    split
    · rename_i h
      obtain ⟨h1, h2, h3⟩ := h
      exfalso
      apply hn
      cases s with
      | nil => simp at h1
      | cons a s =>
        simp at h2
        subst h2
        have hne : s ≠ [] := by rintro rfl; simp at h1
        rw [List.getLast?_cons] at h3
        refine ⟨s.dropLast, ?_⟩
        have hl : s.getLast? = some 34 := by
          cases hs : s.getLast? with
          | none => rw [List.getLast?_eq_none_iff] at hs; exact absurd hs hne
          | some x => rw [hs] at h3; simpa using h3
        have hs : s = s.dropLast ++ [34] := by
          have := List.dropLast_concat_getLast hne
          rw [List.getLast?_eq_some_getLast hne, Option.some.injEq] at hl
          rw [hl] at this
          exact this.symm
        rw [List.append_assoc, ← hs]; rfl
    · rfl

/-- After `set_quoted`, `get_unquoted` gives the text back, if there are no quotes in it. -/
theorem get_unquoted_back_partial (m : Map) (k s : Bytes) (dflt : Option Val) (h0 : 0 ∉ s) (h1 : 34 ∉ s) :
    getUnquoted (dset m k (.str (quote s))) k dflt = .ok (.str s) := by
  have he : escape s = s := by
    clear h0
    induction s with
    | nil => rfl
    | cons c s ih =>
      rw [escape, if_neg (fun e => h1 (by simp [e])), ih (fun h => h1 (List.mem_cons_of_mem _ h))]
  have hg : get (dset m k (.str (quote s))) k dflt = .ok (.str (quote s)) := by
    simp only [get, dget_dset, if_true]
  refine (get_unquoted_spec _ k (quote s) dflt ?_ hg).1 s ?_
  · simp [quote, he, h0]
  · rw [quote, he]

/-- The escapes of quotes are not undone. -/
theorem get_unquoted_back_counterexample :
    getUnquoted (dset [] (ascii "A") (.str (quote (ascii "a\"b")))) (ascii "A") none = .ok (.str (ascii "a\\\"b")) := by decide +kernel

/-- What is not a string makes `get_unquoted` abort. -/
theorem get_unquoted_number_counterexample : getUnquoted [(ascii "A", .num 1)] (ascii "A") none = .bad := by decide +kernel

end Muon.Cdata
