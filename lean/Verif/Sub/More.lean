import Verif.Sub.Props
/-
When subprojects are found, and what is wrong (C101).
-/
namespace Muon.Sub
open Muon Spec

theorem prepare_iff {σ : Type} (H : Wrap.Host σ) (s s' : σ) (cwd build cwd' build' : Bytes) (required download : Bool) :
    prepare H s cwd build required download = .ok (s', .there cwd' build') ↔ Located H download s cwd build s' cwd' build' := by
  have hnp : ∀ a b, noProject required ≠ .there a b := by intro a b; unfold noProject; split <;> simp
  have hcf : ∀ s a b a' b', checkFile H s a b required = .there a' b' ↔ H.isFile s (Path.join a (ascii "meson.build")) = true ∧ a' = a ∧ b' = b := by
    intro s a b a' b'
    unfold checkFile
    split
    · rename_i h
      constructor
      · intro h'; cases h'; exact ⟨h, rfl, rfl⟩
      · rintro ⟨_, rfl, rfl⟩; rfl
    · rename_i h
      constructor
      · intro h'; exact absurd h' (hnp _ _)
      · intro h'; exact absurd h'.1 h
  unfold prepare
  cases hd : H.isDir s cwd with
  | true =>
    rw [if_pos rfl]
    constructor
    · intro h
      have h' := Res.ok.inj h
      have h1 : s = s' := congrArg Prod.fst h'
      obtain ⟨h2, h3, h4⟩ := (hcf ..).1 (congrArg Prod.snd h')
      subst h1 h3 h4
      exact .dir hd h2
    · intro h
      cases h with
      | dir _ h => rw [(hcf ..).2 ⟨h, rfl, rfl⟩]
      | wrap _ _ h => rw [hd] at h; cases h
      | named _ _ _ h => rw [hd] at h; cases h
  | false =>
    rw [if_neg (by simp)]
    cases hw : H.isFile s (cwd ++ ascii ".wrap") with
    | false =>
      rw [if_pos (by rfl)]
      constructor
      · intro h; exact absurd (congrArg Prod.snd (Res.ok.inj h)) (hnp _ _)
      · intro h
        cases h with
        | dir h => rw [hd] at h; cases h
        | wrap _ _ _ h => rw [hw] at h; cases h
        | named _ _ _ _ h => rw [hw] at h; cases h
    | true =>
      rw [if_neg (by simp), Res.bind_eq_ok]
      constructor
      · rintro ⟨⟨s1, w⟩, h1, h2⟩
        cases w with
        | none => exact absurd (congrArg Prod.snd (Res.ok.inj h2)) (hnp _ _)
        | some w =>
          have h' := Res.ok.inj h2
          have e1 : s1 = s' := congrArg Prod.fst h'
          have h3 := (hcf ..).1 (congrArg Prod.snd h')
          subst e1
          unfold wrapDirs at h3
          cases hf : w.fields .directory with
          | none =>
            rw [hf] at h3
            obtain ⟨h3, rfl, rfl⟩ := h3
            exact .wrap w s1 hd hw h1 hf h3
          | some d =>
            rw [hf] at h3
            obtain ⟨h3, rfl, rfl⟩ := h3
            exact .named w d s1 hd hw h1 hf h3
      · intro h
        cases h with
        | dir h => rw [hd] at h; cases h
        | wrap w _ _ _ h1 hf h3 =>
          refine ⟨(s', some w), h1, ?_⟩
          simp only [wrapDirs, hf]
          rw [(hcf ..).2 ⟨h3, rfl, rfl⟩]
        | named w d _ _ _ h1 hf h3 =>
          refine ⟨(s', some w), h1, ?_⟩
          simp only [wrapDirs, hf]
          rw [(hcf ..).2 ⟨h3, rfl, rfl⟩]

/-- A subproject that is not known yet is found exactly if it was evaluated; it is then the next project. -/
theorem found_iff {σ : Type} (E : Env σ) (n : Nat) (st st' : St σ) (c : Call) (id : Nat) (p : Proj) (ho : Ordered st) (hc : st.cache c.name = none)
    (hs : c.req ≠ .skip) (hp : st.projects[st.cur]? = some p) :
    subproject E (eval E n) st c = .ret st' (some (.found id)) ↔ id = st.projects.length ∧ Evaluated E n st p c st' := by
  have hdir : ∀ a b d, subDir a b d = Path.push (Path.join a b) d := fun _ _ _ => rfl
  have hnf : ∀ (st1 : St σ) id' req, notFound st1 id' req ≠ .ret st' (some (.found id)) := by
    intro st1 id' req h
    unfold notFound at h
    simp only [] at h
    split at h <;> (injection h with _ h; split at h <;> cases h)
  unfold subproject
  rw [hc]
  unfold fresh St.current
  simp only [if_neg hs, hp]
  constructor
  · intro h
    cases hpr : prepare E.host st.files (subDir p.cwd p.subprojects c.name) (subDir p.build p.subprojects c.name) (c.req = .required) E.download with
    | bad => rw [hpr] at h; cases h
    | error => rw [hpr] at h; cases h
    | ok x =>
      obtain ⟨s, x⟩ := x
      rw [hpr] at h
      cases x with
      | fail => cases h
      | missing => cases h
      | there cwd build =>
        have hloc := (prepare_iff ..).1 hpr
        simp only [] at h
        unfold evaluate at h
        split at h
        · cases h
        · rename_i hdef
          cases he : evalProject E (eval E n) { st with files := s } c.name cwd build with
          | deep => rw [he] at h; cases h
          | bad => rw [he] at h; cases h
          | ret st1 o =>
            rw [he] at h
            cases o with
            | none => exact absurd h (hnf _ _ _)
            | some u =>
              simp only [] at h
              split at h
              · exact absurd h (hnf _ _ _)
              · rename_i href
                unfold evalProject at he
                simp only [] at he
                split at he
                · cases he
                · rename_i hopt
                  cases hr : E.host.read s (Path.join cwd (ascii "meson.build")) with
                  | none => rw [hr] at he; cases he
                  | some content =>
                    rw [hr] at he
                    simp only [] at he
                    cases hev : eval E n (E.prog content) ⟨s, st.projects ++ [{ name := c.name, cwd := cwd, build := build }], st.cache, st.projects.length⟩ with
                    | deep => rw [hev] at he; cases he
                    | bad => rw [hev] at he; cases he
                    | ret st2 r2 =>
                      rw [hev] at he
                      cases he
                      simp only [] at h href
                      unfold finish at h
                      simp only [] at h
                      have hver : c.req = .required → ∀ vs, c.version = some vs → ∀ q, st2.projects[st.projects.length]? = some q →
                          vs ≠ [] ∧ ∀ v ∈ vs, Version.versionCompare1 q.version v = true := by
                        intro hreq vs hvs q hq
                        rw [hq] at href
                        unfold refused at href
                        rw [hvs, hreq] at href
                        exact (Version.version_compare_all _ _).1 (by simpa using href)
                      split at h
                      · rename_i hb
                        cases hm : E.host.mkdir st2.files (subDir p.build p.subprojects c.name) with
                        | mk s2 b =>
                          rw [hm] at h
                          cases b with
                          | false => cases h
                          | true =>
                            cases h
                            exact ⟨rfl, ⟨s, cwd, build, content, st2, s2, hloc, by simpa using hdef, by simpa using hopt, hr, hev, hver, .inl ⟨hb, hm⟩, rfl⟩⟩
                      · rename_i hb
                        cases h
                        exact ⟨rfl, ⟨s, cwd, build, content, st2, st2.files, hloc, by simpa using hdef, by simpa using hopt, hr, hev, hver,
                          .inr ⟨by simpa using hb, rfl⟩, rfl⟩⟩
  · rintro ⟨rfl, ⟨s, cwd, build, content, st2, s2, hloc, hdef, hopt, hr, hev, hver, hm, rfl⟩⟩
    have hpr := (prepare_iff (required := decide (c.req = .required)) ..).2 hloc
    rw [← hdir, ← hdir] at hpr
    rw [hpr]
    simp only []
    have ho1 : Ordered (⟨s, st.projects ++ [{ name := c.name, cwd := cwd, build := build }], st.cache, st.projects.length⟩ : St σ) :=
      ⟨by simp, fun n id hc => let ⟨q, hq, h1⟩ := ho.cache n id hc
        ⟨q, (List.getElem?_append_left (List.getElem?_eq_some_iff.1 hq).1).trans hq, h1⟩⟩
    have hx := eval_extends E n _ _ _ _ ho1 hev
    obtain ⟨q, hq, _⟩ := hx.own { name := c.name, cwd := cwd, build := build } (by simp)
    simp only [] at hq
    have he : evalProject E (eval E n) { st with files := s } c.name cwd build = .ret { st2 with cur := st.cur } (some ()) := by
      unfold evalProject
      simp only [hopt, hr, Bool.not_true, Bool.false_eq_true, if_false]
      rw [hev]
    have href : refused c (((st2.projects[st.projects.length]?).map (·.version)).getD []) = false := by
      rw [hq]
      unfold refused
      cases hvs : c.version with
      | none => rfl
      | some vs =>
        simp only [Option.map_some, Option.getD_some]
        by_cases hreq : c.req = .required
        · have := (Version.version_compare_all q.version vs).2 (hver hreq vs hvs q hq)
          simp [this]
        · simp [hreq]
    unfold evaluate
    rw [if_neg (by simp [hdef]), he]
    simp only [href, Bool.false_eq_true, if_false]
    unfold finish
    simp only []
    rcases hm with ⟨h1, h2⟩ | ⟨h1, h2⟩
    · rw [if_pos h1, hdir, h2]
    · rw [if_neg (by simp [h1]), h2]

/-- Evaluating deeper gives the same. -/
theorem eval_mono {σ : Type} (E : Env σ) (n : Nat) : ∀ (p : Prog) (st st' : St σ) (r : Option Unit), eval E n p st = .ret st' r → eval E (n + 1) p st = .ret st' r := by
  have hrun : ∀ (c1 c2 : St σ → Call → Out σ Obj), (∀ st c st' r, c1 st c = .ret st' r → c2 st c = .ret st' r) →
      ∀ p st st' r, run c1 p st = .ret st' r → run c2 p st = .ret st' r := by
    intro c1 c2 hcc p
    induction p with
    | stop ok => intro st st' r h; exact h
    | project v d k ih => intro st st' r h; exact ih _ _ _ h
    | set x v k ih => intro st st' r h; exact ih _ _ _ h
    | get x k ih => intro st st' r h; exact ih _ _ _ _ h
    | target t k ih => intro st st' r h; exact ih _ _ _ h
    | sub c k ih =>
      intro st st' r h
      unfold run at h ⊢
      cases h1 : c1 st c with
      | deep => rw [h1] at h; cases h
      | bad => rw [h1] at h; cases h
      | ret s o =>
        rw [hcc _ _ _ _ h1]
        rw [h1] at h
        cases o with
        | none => exact h
        | some o => exact ih _ _ _ _ h
    | member o x k ih =>
      intro st st' r h
      unfold run at h ⊢
      cases o with
      | missing => exact h
      | found id => exact ih _ _ _ _ h
  have hsub : ∀ (e1 e2 : Prog → St σ → Out σ Unit), (∀ p st st' r, e1 p st = .ret st' r → e2 p st = .ret st' r) →
      ∀ st c st' r, subproject E e1 st c = .ret st' r → subproject E e2 st c = .ret st' r := by
    intro e1 e2 hee st c st' r h
    unfold subproject at h ⊢
    cases hc : st.cache c.name with
    | some id => rw [hc] at h; exact h
    | none =>
      rw [hc] at h
      simp only [] at h ⊢
      unfold fresh at h ⊢
      split
      · rename_i hs; rw [if_pos hs] at h; exact h
      · rename_i hs
        rw [if_neg hs] at h
        cases hp : st.current with
        | none => rw [hp] at h; cases h
        | some p =>
          rw [hp] at h
          simp only [] at h ⊢
          generalize prepare E.host st.files _ _ _ _ = x at h ⊢
          cases x with
          | bad => exact h
          | error => exact h
          | ok x =>
            obtain ⟨s, x⟩ := x
            cases x with
            | fail => exact h
            | missing => exact h
            | there cwd build =>
              simp only [] at h ⊢
              unfold evaluate at h ⊢
              split
              · rename_i hd; rw [if_pos hd] at h; exact h
              · rename_i hd
                rw [if_neg hd] at h
                have : ∀ s1 o, evalProject E e1 { st with files := s } c.name cwd build = .ret s1 o → evalProject E e2 { st with files := s } c.name cwd build = .ret s1 o := by
                  intro s1 o h1
                  unfold evalProject at h1 ⊢
                  simp only [] at h1 ⊢
                  split
                  · rename_i ho; rw [if_pos ho] at h1; exact h1
                  · rename_i ho
                    rw [if_neg ho] at h1
                    generalize E.host.read s (Path.join cwd (ascii "meson.build")) = y at h1 ⊢
                    cases y with
                    | none => exact h1
                    | some content =>
                      simp only [] at h1 ⊢
                      generalize hst : ({ files := s, projects := st.projects ++ [({ name := c.name, cwd := cwd, build := build } : Proj)], cache := st.cache, cur := st.projects.length } : St σ) = z at h1 ⊢
                      cases hz : e1 (E.prog content) z with
                      | deep => rw [hz] at h1; cases h1
                      | bad => rw [hz] at h1; cases h1
                      | ret s2 o2 => rw [hz] at h1; rw [hee _ _ _ _ hz]; exact h1
                cases he : evalProject E e1 { st with files := s } c.name cwd build with
                | deep => rw [he] at h; cases h
                | bad => rw [he] at h; cases h
                | ret s1 o => rw [this s1 o he]; rw [he] at h; exact h
  induction n with
  | zero => intro p; exact hrun _ _ (fun _ _ _ _ h => by cases h) p
  | succ n ih => intro p; exact hrun _ _ (hsub _ _ ih) p

/-- A subproject that is not required and whose default options can be set is no error, whatever it does, unless its build directory cannot be made. -/
theorem auto_no_error {σ : Type} (E : Env σ) (n : Nat) (st st' : St σ) (c : Call) (r : Option Obj) (hs : c.req ≠ .required) (hd : c.defaultsOk = true)
    (hm : ∀ s d, (E.host.mkdir s d).2 = true) (h : subproject E (eval E n) st c = .ret st' r) : r ≠ none := by
  have hnf : ∀ (s : St σ) id st' r, notFound s id c.req = .ret st' r → r ≠ none := by
    intro s id st' r h
    unfold notFound at h
    simp only [if_neg hs] at h
    split at h <;> (cases h; simp)
  unfold subproject at h
  cases hc : st.cache c.name with
  | some id => rw [hc] at h; cases h; simp
  | none =>
    rw [hc] at h
    simp only [] at h
    unfold fresh at h
    split at h
    · cases h; simp
    · cases hp : st.current with
      | none => rw [hp] at h; cases h
      | some p =>
        rw [hp] at h
        simp only [] at h
        have hpf : ∀ s, prepare E.host st.files (subDir p.cwd p.subprojects c.name) (subDir p.build p.subprojects c.name) (c.req = .required) E.download ≠ .ok (s, .fail) := by
          intro s hpr
          have hnp : noProject false ≠ .fail := by decide
          have hcf : ∀ s a b, checkFile E.host s a b false ≠ .fail := by
            intro s a b; unfold checkFile; split
            · simp
            · exact hnp
          rw [show decide (c.req = .required) = false from by simp [hs]] at hpr
          unfold prepare at hpr
          split at hpr
          · exact hcf _ _ _ (congrArg Prod.snd (Res.ok.inj hpr))
          · split at hpr
            · exact hnp (congrArg Prod.snd (Res.ok.inj hpr))
            · obtain ⟨⟨s1, w⟩, _, h2⟩ := Res.bind_eq_ok.1 hpr
              cases w with
              | none => exact hnp (congrArg Prod.snd (Res.ok.inj h2))
              | some w => exact hcf _ _ _ (congrArg Prod.snd (Res.ok.inj h2))
        generalize prepare E.host st.files (subDir p.cwd p.subprojects c.name) (subDir p.build p.subprojects c.name) (c.req = .required) E.download = x at h hpf
        cases x with
        | bad => cases h
        | error => cases h
        | ok x =>
          obtain ⟨s, x⟩ := x
          cases x with
          | fail => exact absurd rfl (hpf s)
          | missing => cases h; simp
          | there cwd build =>
            simp only [] at h
            unfold evaluate at h
            rw [if_neg (by simp [hd])] at h
            cases he : evalProject E (eval E n) { st with files := s } c.name cwd build with
            | deep => rw [he] at h; cases h
            | bad => rw [he] at h; cases h
            | ret s1 o =>
              rw [he] at h
              cases o with
              | none => exact hnf _ _ _ _ h
              | some u =>
                simp only [] at h
                split at h
                · exact hnf _ _ _ _ h
                · unfold finish at h
                  simp only [] at h
                  split at h
                  · have := hm s1.files (subDir p.build p.subprojects c.name)
                    generalize E.host.mkdir s1.files (subDir p.build p.subprojects c.name) = y at h this
                    obtain ⟨s2, b⟩ := y
                    simp only [] at this
                    subst this
                    cases h; simp
                  · cases h; simp

end Muon.Sub
