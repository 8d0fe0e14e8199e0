import Verif.Python.Spec
/-
C117: installations of Python.
-/
namespace Muon.Python
open Muon
open Muon.Python.Spec

theorem versionLoop_later (r : Bytes) : ∀ (i : Nat) (e : Bytes) (v : Option Bytes), i ≠ 0 → versionLoop i e v r = v := by
  induction r with
  | nil => intro i e v _; rfl
  | cons c r ih =>
    intro i e v h
    unfold versionLoop
    rw [if_neg h]
    split
    · exact ih _ _ _ (by omega)
    · exact ih _ _ _ h

theorem versionLoop_line (l rest : Bytes) (h : 10 ∉ l) : ∀ e, versionLoop 0 e none (l ++ 10 :: rest) = some ((e ++ l).takeWhile (· ≠ 0)) := by
  induction l with
  | nil =>
    intro e
    show versionLoop 0 e none (10 :: rest) = _
    unfold versionLoop
    rw [if_pos rfl, versionLoop_later _ _ _ _ (by omega), if_pos rfl, List.append_nil]
  | cons c l ih =>
    intro e
    simp only [List.mem_cons, not_or] at h
    show versionLoop 0 e none (c :: (l ++ 10 :: rest)) = _
    unfold versionLoop
    rw [if_neg (fun x => h.1 x.symm), ih h.2, List.append_assoc]
    rfl

theorem versionLoop_none (l : Bytes) (h : 10 ∉ l) : ∀ e, versionLoop 0 e none l = none := by
  induction l with
  | nil => intro e; rfl
  | cons c l ih =>
    intro e
    simp only [List.mem_cons, not_or] at h
    unfold versionLoop
    rw [if_neg (fun x => h.1 x.symm), ih h.2]

theorem takeWhile_all (l : Bytes) (h : 0 ∉ l) : l.takeWhile (· ≠ 0) = l := by
  induction l with
  | nil => rfl
  | cons c l ih =>
    simp only [List.mem_cons, not_or] at h
    have hc : decide (c ≠ 0) = true := by simpa using fun x => h.1 x.symm
    rw [List.takeWhile_cons, if_pos hc, ih h.2]

theorem versionLoop_firstLine (o : Bytes) (v : Option Bytes) (h : FirstLine o v) : versionLoop 0 [] none o = v := by
  cases h with
  | line l rest h h0 => rw [versionLoop_line l rest h, List.nil_append, takeWhile_all l h0]
  | none _ h => exact versionLoop_none o h []

theorem query_eq (W : World) (p s o : Bytes) (h : W.run [p, ascii "-c", s] = some (0, o)) : query W p s = some o := by
  unfold query; rw [h]; rfl

theorem introspect_says (W : World) (b : Bool) (p : Bytes) (v : Option Bytes) (ps vs : List (Bytes × Bytes)) (h : Says W p v ps vs) :
    introspect W b p = .ok ⟨b, p, v, ps, vs⟩ := by
  obtain ⟨⟨o1, a1, b1⟩, ⟨o2, a2, b2⟩, ⟨o3, a3, b3⟩⟩ := h
  unfold introspect
  rw [query_eq W p _ _ a1, query_eq W p _ _ a2, query_eq W p _ _ a3]
  simp only [Option.bind_some, b2, b3, versionLoop_firstLine o1 v b1]

theorem all_present (W : World) (p : Bytes) (ms : List Bytes) : ms.all (present W p) = true ↔ ∀ m ∈ ms, ∃ out, W.run [p, ascii "-c", ascii "import " ++ m] = some (0, out) := by
  rw [List.all_eq_true]
  refine forall_congr' fun m => forall_congr' fun _ => ?_
  unfold present
  cases W.run [p, ascii "-c", ascii "import " ++ m] with
  | none => simp
  | some x => obtain ⟨s, o⟩ := x; simp

/-- C117: what `find_installation()` does if the command, when it is there, says what it is. Missing: disabled features (`skip_counterexample`), and commands that are not there, not
required and without `disabler: true` (`absent_counterexample`). -/
theorem find_installation_partial (W : World) (af : Option Feature.State) (name : Option Bytes) (req : Option Feature.ReqVal) (dis : Option Bool) (mods : Option (List Bytes))
    (r : Feature.Req) (cmd : Bytes) (hr : Feature.requirement af req = .ok r) (hc : cmd = name.getD (ascii "python3")) (hne : cmd ≠ []) (hsk : r ≠ .skip)
    (hab : (W.find cmd).1 = false → r = .required ∨ dis = some true)
    (hs : (W.find cmd).1 = true → ∃ v ps vs, Says W (W.find cmd).2 v ps vs) :
    Outcome W cmd (mods.getD []) r (dis.getD false) (findInstallation W af name req dis mods) := by
  unfold findInstallation
  rw [hr, Res.ok_bind, ← hc]
  dsimp only
  rw [if_neg hne]
  cases hf : (W.find cmd).1 with
  | false =>
    have hg : ¬ Good W cmd (mods.getD []) := fun g => by rw [g.1] at hf; cases hf
    by_cases hq : r = .required
    · rw [if_pos (by simp [hq])]
      exact .error hq hg
    · have hd : dis.getD false = true := by
        rcases hab hf with h | h
        · exact absurd h hq
        · rw [h]; rfl
      have ha : r = .auto := by cases r <;> simp_all
      rw [if_neg (by simp [hq]), if_pos (by simp [hd])]
      exact .disabler (.inr ⟨ha, hg⟩) hd
  | true =>
    obtain ⟨v, ps, vs, h⟩ := hs hf
    rw [if_neg (by simp), if_neg (by simp)]
    by_cases hm : (mods.getD []).all (present W (W.find cmd).2) = true
    · rw [if_neg (by simp [hm]), introspect_says W true _ v ps vs h, Res.ok_bind]
      exact .found _ hsk ⟨hf, (all_present W _ _).1 hm⟩ rfl rfl h
    · have hg : ¬ Good W cmd (mods.getD []) := fun g => hm ((all_present W _ _).2 g.2)
      have hm' : (mods.getD []).all (present W (W.find cmd).2) = false := by simpa using hm
      rw [hm', if_pos (by rfl)]
      by_cases hq : r = .required
      · rw [if_pos hq]; exact .error hq hg
      · have ha : r = .auto := by cases r <;> simp_all
        rw [if_neg hq]
        cases hd : dis.getD false with
        | true => exact .disabler (.inr ⟨ha, hg⟩) rfl
        | false =>
          rw [if_neg (by simp), introspect_says W false _ v ps vs h, Res.ok_bind]
          exact .absent _ (.inr ⟨ha, hg⟩) rfl rfl

/-- Without `disabler: true`, a command that is not there is an error even if it is not required: what is not there is asked for its version. -/
theorem absent_counterexample (W : World) (af : Option Feature.State) (cmd p : Bytes) (mods : Option (List Bytes)) (hne : cmd ≠ []) (hf : W.find cmd = (false, p))
    (hx : ∀ a, W.run (p :: a) = none) : findInstallation W af (some cmd) (some (.bool false)) none mods = .error := by
  unfold findInstallation
  rw [show Feature.requirement af (some (.bool false)) = .ok .auto from rfl, Res.ok_bind]
  simp [hne, hf, introspect, query, hx, bind, Res.bind]

/-- A disabled feature does not keep Python from being found. -/
theorem skip_counterexample (W : World) (af : Option Feature.State) (name : Option Bytes) (req : Option Feature.ReqVal) (dis : Option Bool) (cmd : Bytes)
    (hr : Feature.requirement af req = .ok .skip) (hc : cmd = name.getD (ascii "python3")) (hne : cmd ≠ []) (hg : Good W cmd [])
    (v : Option Bytes) (ps vs : List (Bytes × Bytes)) (hs : Says W (W.find cmd).2 v ps vs) :
    findInstallation W af name req dis none = .ok (.inst ⟨true, (W.find cmd).2, v, ps, vs⟩) := by
  unfold findInstallation
  rw [hr, Res.ok_bind, ← hc]
  dsimp only
  rw [if_neg hne, hg.1, if_neg (by simp), if_neg (by simp), if_neg (by simp), introspect_says W true _ v ps vs hs, Res.ok_bind]

/-- C117: `find_python()` finds the command or is an error. -/
theorem find_python (W : World) (name : Option Bytes) (cmd : Bytes) (hc : cmd = name.getD (ascii "python3")) (hne : cmd ≠ []) :
    (∀ p, findPython W name = .ok p ↔ W.find cmd = (true, p)) ∧ (findPython W name = .error ↔ (W.find cmd).1 = false) := by
  unfold findPython
  rw [← hc]
  dsimp only
  rw [if_neg hne]
  obtain ⟨b, q⟩ := W.find cmd
  cases b <;> simp

/-- C117: a path or variable that there is is given whatever the default; otherwise the default; without one it is an error. -/
theorem get_iff (d : List (Bytes × Bytes)) (k : Bytes) (dflt : Option Bytes) (v : Bytes) :
    (getOr d k dflt = .ok v ↔ (∃ a b, d = a ++ (k, v) :: b ∧ ∀ x ∈ a, x.1 ≠ k) ∨ (∀ x ∈ d, x.1 ≠ k) ∧ dflt = some v) ∧
    (has d k = true ↔ ∃ x ∈ d, x.1 = k) := by
  induction d with
  | nil => cases dflt <;> simp [getOr, has]
  | cons x d ih =>
    obtain ⟨a, b⟩ := x
    by_cases h : a = k
    · subst h
      simp only [getOr, has, List.lookup, beq_self_eq_true, Option.isSome_some, true_iff]
      refine ⟨⟨fun e => ?_, ?_⟩, ⟨(a, b), by simp, rfl⟩⟩
      · cases e; exact .inl ⟨[], d, rfl, by simp⟩
      · rintro (⟨l, t, e, hl⟩ | ⟨hn, _⟩)
        · cases l with
          | nil => simp at e; rw [e.1]
          | cons y l =>
            simp only [List.cons_append, List.cons.injEq] at e
            exact absurd rfl (by have := hl y (by simp); rw [← e.1] at this; exact this)
        · exact absurd rfl (hn (a, b) (by simp))
    · have hb : (k == a) = false := by simpa using fun e => h e.symm
      have e1 : getOr ((a, b) :: d) k dflt = getOr d k dflt := by simp only [getOr, List.lookup, hb]
      have e2 : has ((a, b) :: d) k = has d k := by simp only [has, List.lookup, hb]
      rw [e1, e2, ih.1, ih.2]
      refine ⟨⟨?_, ?_⟩, by simp [h]⟩
      · rintro (⟨l, t, e, hl⟩ | ⟨hn, e⟩)
        · refine .inl ⟨(a, b) :: l, t, by rw [e]; rfl, ?_⟩
          intro y hy
          rcases List.mem_cons.1 hy with rfl | hy
          · exact h
          · exact hl y hy
        · refine .inr ⟨?_, e⟩
          intro y hy
          rcases List.mem_cons.1 hy with rfl | hy
          · exact h
          · exact hn y hy
      · rintro (⟨l, t, e, hl⟩ | ⟨hn, e⟩)
        · cases l with
          | nil => simp at e; exact absurd e.1.1 h
          | cons y l =>
            simp only [List.cons_append, List.cons.injEq] at e
            exact .inl ⟨l, t, e.2, fun z hz => hl z (by simp [hz])⟩
        · exact .inr ⟨fun y hy => hn y (by simp [hy]), e⟩

/-- A machine with one Python, that can import `json` only. -/
def oneWorld : World where
  find c := if c = ascii "python3" then (true, ascii "/bin/python3") else (false, ascii "/bin/" ++ c)
  run a := if a = [ascii "/bin/python3", ascii "-c", srcVersion] then some (0, ascii "3.12\n") else
    if a = [ascii "/bin/python3", ascii "-c", srcPaths] then some (0, ascii "{}\n") else
    if a = [ascii "/bin/python3", ascii "-c", srcVars] then some (0, ascii "{}\n") else
    if a = [ascii "/bin/python3", ascii "-c", ascii "import json"] then some (0, []) else
    if a.head? = some (ascii "/bin/python3") then some (1, []) else none
  json _ := some [(ascii "data", ascii "/usr")]

example : Says oneWorld (oneWorld.find (ascii "python3")).2 (some (ascii "3.12")) [(ascii "data", ascii "/usr")] [(ascii "data", ascii "/usr")] :=
  ⟨⟨ascii "3.12\n", by decide +kernel, .line (ascii "3.12") [] (by decide +kernel) (by decide +kernel)⟩, ⟨ascii "{}\n", by decide +kernel, rfl⟩, ⟨ascii "{}\n", by decide +kernel, rfl⟩⟩
example : findInstallation oneWorld none none none none (some [ascii "json"]) =
    .ok (.inst ⟨true, ascii "/bin/python3", some (ascii "3.12"), [(ascii "data", ascii "/usr")], [(ascii "data", ascii "/usr")]⟩) := by decide +kernel
example : findInstallation oneWorld none none none none (some [ascii "json", ascii "numpy"]) = .error := by decide +kernel
example : findInstallation oneWorld none none (some (.bool false)) (some true) (some [ascii "numpy"]) = .ok .disabler := by decide +kernel
example : findInstallation oneWorld none (some (ascii "python2")) (some (.bool false)) none none = .error := by decide +kernel

end Muon.Python
