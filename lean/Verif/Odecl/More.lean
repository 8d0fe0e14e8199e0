import Verif.Odecl.Values
/-
C107: options of targets, of subprojects that do not exist, and directories below the prefix.
-/
namespace Muon.Odecl
open Muon Muon.Opt Muon.Opt.Spec Muon.Odecl.Spec

/-! ### `override_options` -/

theorem upd_last (w : W) (o o' : Opt) : (W.upd { w with opts := w.opts ++ [o] } w.opts.length fun _ => o') = { w with opts := w.opts ++ [o'] } := by
  unfold W.upd
  dsimp only
  rw [modify_last]

/-- `override_options` of a target: it succeeds exactly if no name is given twice or for a subproject, and every name is known and
can be given the value. Then the target has the options of these names with these values, and the options of the project are
what they were. -/
theorem override_options (ev : Bytes → Option OV) (hev : ∀ s, ev s ≠ some .disabler) (proj : Option Bytes) (f : Nat) (w : W) (hw : Sound w) (l : List Entry) :
    (∀ e ∈ l, GoodEntry e) → ∀ (acc : List Opt),
    ∃ r, overrideAll ev proj (f + 1) (l.map text) acc w = .ok r ∧
      (∀ opts w', r = some (opts, w') → w' = w ∧ ∃ new, opts = acc ++ new ∧ Overridden ev w.opts l new) ∧
      (r ≠ none ↔ (∀ e ∈ l, e.1 = none ∧ ∃ o ∈ w.opts, o.name = e.2.1 ∧ Fits ev e.2.2 srcOverrideOptions o) ∧
        (l.map fun e => e.2.1).Nodup ∧ ∀ e ∈ l, ∀ x ∈ acc, x.name ≠ e.2.1) := by
  induction l with
  | nil =>
    intro _ acc
    refine ⟨some (acc, w), rfl, ?_, by simp⟩
    intro opts w' h
    cases h
    exact ⟨rfl, [], by simp, rfl⟩
  | cons e l ih =>
    intro hl acc
    obtain ⟨sub, k, v⟩ := e
    have hg := hl _ (List.mem_cons_self ..)
    have hl' : ∀ e ∈ l, GoodEntry e := fun e he => hl e (by simp [he])
    -- stopping
    have hstop : overrideOne ev proj (f + 1) acc w (text (sub, k, v)) = .ok none →
        ¬ (sub = none ∧ (∃ o ∈ w.opts, o.name = k ∧ Fits ev v srcOverrideOptions o) ∧ ∀ x ∈ acc, x.name ≠ k) →
        ∃ r, overrideAll ev proj (f + 1) (((sub, k, v) :: l).map text) acc w = .ok r ∧
          (∀ opts w', r = some (opts, w') → w' = w ∧ ∃ new, opts = acc ++ new ∧ Overridden ev w.opts ((sub, k, v) :: l) new) ∧
          (r ≠ none ↔ (∀ e ∈ (sub, k, v) :: l, e.1 = none ∧ ∃ o ∈ w.opts, o.name = e.2.1 ∧ Fits ev e.2.2 srcOverrideOptions o) ∧
            (((sub, k, v) :: l).map fun e => e.2.1).Nodup ∧ ∀ e ∈ (sub, k, v) :: l, ∀ x ∈ acc, x.name ≠ e.2.1) := by
      intro h hno
      refine ⟨none, by rw [List.map_cons, overrideAll, h]; rfl, (fun _ _ h => by cases h), ?_⟩
      constructor
      · intro h; exact absurd rfl h
      · rintro ⟨h1, _, h3⟩
        have := h1 (sub, k, v) (by simp)
        exact absurd ⟨this.1, this.2, h3 (sub, k, v) (by simp)⟩ hno
    cases sub with
    | some p =>
      apply hstop
      · rw [overrideOne, parse_text hg]; rfl
      · rintro ⟨h, _⟩; cases h
    | none =>
      have hone : overrideOne ev proj (f + 1) acc w (text (none, k, v)) = match find w.opts k with
          | none => .ok none
          | some i => match w.opts[i]? with
            | none => .bad
            | some o => setCopy ev proj (f + 1) w o v >>= fun r => match r with
              | none => .ok none
              | some (o', w') => if acc.any fun x => x.name == o'.name then .ok none else .ok (some (acc ++ [o'], w')) := by
        rw [overrideOne, parse_text hg]
        rfl
      cases hf : find w.opts k with
      | none =>
        apply hstop
        · rw [hone, hf]
        · rintro ⟨_, ⟨o, ho, hn, _⟩, _⟩
          exact absurd hn ((find_none w.opts k).1 (by rw [hf]; rfl) o ho)
      | some i =>
        obtain ⟨o, ho, hn⟩ := (find_pos w.opts hw.1 k i).1 hf
        have hmem := List.mem_of_getElem? ho
        have hun : ∀ x ∈ w.opts, x.name = k → x = o := by
          intro x hx hxn
          obtain ⟨j, hj⟩ := List.getElem?_of_mem hx
          have := (find_pos w.opts hw.1 k j).2 ⟨x, hj, hxn⟩
          rw [hf] at this
          cases this
          rw [ho] at hj
          cases hj
          rfl
        rw [hf] at hone
        dsimp only at hone
        rw [ho] at hone
        dsimp only at hone
        rcases set_text ev hev proj f { w with opts := w.opts ++ [o] } w.opts.length o v srcOverrideOptions (by simp) (hw.2 o hmem).1 (hw.2 o hmem).2 with
          ⟨o', hfit, hbec, hset⟩ | ⟨hnf, w', hset⟩
        · have hcopy : setCopy ev proj (f + 1) w o v = .ok (some (o', w)) := by
            unfold setCopy
            rw [hset, Res.ok_bind]
            dsimp only
            rw [if_neg (by simp), upd_last]
            simp
          have hname : o'.name = k := by rw [(Becomes.same hbec (hw.2 o hmem).2).1.1, hn]
          rw [hcopy, Res.ok_bind] at hone
          dsimp only at hone
          by_cases hd : (acc.any fun x => x.name == o'.name) = true
          · rw [if_pos hd] at hone
            apply hstop hone
            rintro ⟨_, _, h⟩
            rw [List.any_eq_true] at hd
            obtain ⟨x, hx, hxn⟩ := hd
            rw [hname] at hxn
            exact h x hx (by simpa using hxn)
          · rw [if_neg hd] at hone
            have hnew : ∀ x ∈ acc, x.name ≠ k := by
              intro x hx hxn
              apply hd
              rw [List.any_eq_true]
              exact ⟨x, hx, by simp [hxn, hname]⟩
            obtain ⟨r, h1, h2, h3⟩ := ih hl' (acc ++ [o'])
            refine ⟨r, by rw [List.map_cons, overrideAll, hone, Res.ok_bind]; exact h1, ?_, ?_⟩
            · intro opts w' hr
              obtain ⟨g1, new, g2, g3⟩ := h2 opts w' hr
              exact ⟨g1, o' :: new, by rw [g2]; simp, o, o', new, hmem, hn, hbec, rfl, g3⟩
            · rw [h3]
              constructor
              · rintro ⟨a, b, c⟩
                refine ⟨?_, ?_, ?_⟩
                · intro e he
                  rcases List.mem_cons.1 he with rfl | he
                  · exact ⟨rfl, o, hmem, hn, hfit⟩
                  · exact a e he
                · rw [List.map_cons, List.nodup_cons]
                  refine ⟨?_, b⟩
                  intro hm
                  obtain ⟨e, he, hek⟩ := List.mem_map.1 hm
                  exact c e he o' (by simp) (hname.trans hek.symm)
                · intro e he x hx
                  rcases List.mem_cons.1 he with rfl | he
                  · exact hnew x hx
                  · exact c e he x (by simp [hx])
              · rintro ⟨a, b, c⟩
                rw [List.map_cons, List.nodup_cons] at b
                refine ⟨fun e he => a e (by simp [he]), b.2, ?_⟩
                intro e he x hx
                rcases List.mem_append.1 hx with hx | hx
                · exact c e (by simp [he]) x hx
                · rw [List.mem_singleton] at hx
                  subst hx
                  intro hxe
                  exact b.1 (List.mem_map.2 ⟨e, he, hxe.symm.trans hname⟩)
        · have hcopy : setCopy ev proj (f + 1) w o v = .ok none := by
            unfold setCopy
            rw [hset, Res.ok_bind]
            rfl
          apply hstop
          · rw [hone, hcopy]; rfl
          · rintro ⟨_, ⟨x, hx, hxn, hfit⟩, _⟩
            have := hun x hx hxn
            subst this
            exact hnf hfit

/-- An option given on the command line cannot be changed for a target: the value of the target is ignored without an error. -/
theorem override_commandline_counterexample :
    overrideAll (fun _ => none) none 1 [ascii "werror=false"] [] ⟨[⟨ascii "werror", .boolean, .bool true, none, none, none, srcCommandline, none⟩], []⟩ =
    .ok (some ([⟨ascii "werror", .boolean, .bool true, none, none, none, srcCommandline, none⟩], ⟨[⟨ascii "werror", .boolean, .bool true, none, none, none, srcCommandline, none⟩], []⟩)) := by
  decide +kernel

example : overrideAll (fun _ => none) none 1 [ascii "werror=false"] [] ⟨[⟨ascii "werror", .boolean, .bool true, none, none, none, srcDefault, none⟩], []⟩ =
    .ok (some ([⟨ascii "werror", .boolean, .bool false, none, none, none, srcOverrideOptions, none⟩], ⟨[⟨ascii "werror", .boolean, .bool true, none, none, none, srcDefault, none⟩], []⟩)) := by
  decide +kernel

/-! ### Options for subprojects -/

theorem checkSubs_false (subs : List Proj) (l : List Override) : checkSubs subs l false = false := by
  induction l with
  | nil => rfl
  | cons oo l ih =>
    unfold checkSubs
    cases oo.proj with
    | none => exact ih
    | some p =>
      dsimp only
      split
      · exact ih
      · split <;> exact ih

/-- Options given on the command line for a subproject that was not used, or failed, are an error, and no others are. -/
theorem subprojects_known (subs : List Proj) (l : List Override) :
    checkSubs subs l true = true ↔ ∀ oo ∈ l, ∀ p, oo.proj = some p → oo.source ≥ srcCommandline → ∃ s ∈ subs, s.sub = p ∧ s.notOk = false := by
  induction l with
  | nil => simp [checkSubs]
  | cons oo l ih =>
    have hcons : ∀ {P : Override → Prop}, (∀ x ∈ oo :: l, P x) ↔ P oo ∧ ∀ x ∈ l, P x := by
      intro P
      simp
    rw [hcons, ← ih, checkSubs]
    cases hp : oo.proj with
    | none => simp
    | some p =>
      dsimp only
      by_cases hs : oo.source < srcCommandline
      · rw [if_pos hs]
        constructor
        · exact fun h => ⟨fun _ _ h' => by omega, h⟩
        · exact fun h => h.2
      · rw [if_neg hs]
        by_cases ha : (subs.any fun s => !s.notOk && s.sub == p) = true
        · rw [if_pos ha]
          have hex : ∃ s ∈ subs, s.sub = p ∧ s.notOk = false := by
            rw [List.any_eq_true] at ha
            obtain ⟨s, h1, h2⟩ := ha
            simp only [Bool.and_eq_true, Bool.not_eq_true', beq_iff_eq] at h2
            exact ⟨s, h1, h2.2, h2.1⟩
          constructor
          · exact fun h => ⟨fun q hq _ => by cases hq; exact hex, h⟩
          · exact fun h => h.2
        · rw [if_neg ha, checkSubs_false]
          constructor
          · intro h; cases h
          · rintro ⟨h, _⟩
            exfalso
            obtain ⟨s, h1, h2, h3⟩ := h p rfl (by omega)
            apply ha
            rw [List.any_eq_true]
            exact ⟨s, h1, by simp [h2, h3]⟩

example : checkSubs [⟨ascii "a", false⟩, ⟨ascii "b", true⟩] [⟨some (ascii "a"), ascii "x", [], srcCommandline⟩, ⟨some (ascii "c"), ascii "x", [], srcSubprojectDefaultOptions⟩] true = true ∧
    checkSubs [⟨ascii "a", false⟩, ⟨ascii "b", true⟩] [⟨some (ascii "b"), ascii "x", [], srcCommandline⟩] true = false := by decide +kernel

/-! ### The file with the options -/

/-- `meson.options` is read if it is there, and else `meson_options.txt`. -/
theorem option_file (isFile : Bytes → Bool) (cwd f : Bytes) :
    optionFile isFile cwd = some f ↔
      (isFile (Path.join cwd (ascii "meson.options")) = true ∧ f = Path.join cwd (ascii "meson.options")) ∨
      (isFile (Path.join cwd (ascii "meson.options")) = false ∧ isFile (Path.join cwd (ascii "meson_options.txt")) = true ∧ f = Path.join cwd (ascii "meson_options.txt")) := by
  unfold optionFile
  simp only [List.findSome?_cons, List.findSome?_nil]
  generalize Path.join cwd (ascii "meson.options") = a
  generalize Path.join cwd (ascii "meson_options.txt") = b
  cases isFile a <;> cases isFile b <;> simp [eq_comm]

/-! ### Directories -/

/-- An option that is a directory below the prefix: other options, and relative paths, are left alone; with the prefix it still
stands for the same place. -/
theorem prefix_place (pre : Bytes) (dirs : List Bytes) (o : Opt) (h1 : 0 ∉ pre) (ha : Path.Spec.isAbs pre = true) (hs : o.name ∈ dirs → ∃ p, o.val = .str p ∧ 0 ∉ p) :
    ∃ v, prefixOne pre dirs o = .ok { o with val := v } ∧
      (o.name ∉ dirs → v = o.val) ∧
      ∀ p, o.val = .str p → (Path.Spec.isAbs p = false → v = o.val) ∧
        (o.name ∈ dirs → Path.Spec.isAbs p = true → ∃ q, v = .str q ∧ SamePlace (Path.join pre q) p) := by
  unfold prefixOne
  by_cases hd : o.name ∈ dirs
  · rw [if_neg (by simp [hd])]
    obtain ⟨p, hp, h0⟩ := hs hd
    rw [hp]
    dsimp only
    rw [Path.isAbsolute_eq]
    by_cases hpa : Path.Spec.isAbs p = true
    · rw [if_neg (by simp [hpa])]
      have hpn : p ≠ [] := by rintro rfl; simp [Path.Spec.isAbs] at hpa
      rw [Path.isSubpath_iff_partial pre p h1 h0 hpn (.inl ha), Res.ok_bind]
      have hfin : ∀ q, SamePlace (Path.join pre q) p → (o.name ∉ dirs → OV.str q = .str p) ∧
          ∀ p', OV.str p = .str p' → (Path.Spec.isAbs p' = false → OV.str q = .str p) ∧ (o.name ∈ dirs → Path.Spec.isAbs p' = true → ∃ q', OV.str q = .str q' ∧ SamePlace (Path.join pre q') p') := by
        intro q hq
        refine ⟨fun h => absurd hd h, fun p' h => ?_⟩
        cases h
        exact ⟨(fun h => by rw [hpa] at h; cases h), fun _ _ => ⟨q, rfl, hq⟩⟩
      split
      · obtain ⟨r, hr, hr1, hr2⟩ := Path.relativeTo_walk pre p h1 h0 ha hpa
        rw [hr, Res.ok_bind]
        exact ⟨.str r, rfl, hfin r ⟨hr1, hpa, hr2⟩⟩
      · have hj := Path.join_absolute pre p h1 h0 hpa
        have hn0 : 0 ∉ Path.normalize false p := by rw [Path.normalize_canon _ _ h0]; exact Path.canon_no0 _ _ h0
        have hna : Path.Spec.isAbs (Path.normalize false p) = true := by rw [Path.normalize_isAbs _ _ h0]; exact hpa
        refine ⟨.str (Path.join pre p), rfl, hfin _ ?_⟩
        rw [hj, Path.join_absolute pre _ h1 hn0 hna, Path.normalize_idempotent _ _ h0]
        exact ⟨hna, hpa, by rw [Path.normalize_comps _ h0]⟩
    · rw [if_pos (by simpa using hpa)]
      refine ⟨.str p, by rw [← hp], fun _ => rfl, fun p' h => ?_⟩
      cases h
      exact ⟨fun _ => rfl, fun _ h => absurd h hpa⟩
  · rw [if_pos (by simp [hd])]
    exact ⟨o.val, rfl, fun _ => rfl, fun p _ => ⟨fun _ => rfl, fun h => absurd h hd⟩⟩

/-- A directory below the prefix becomes relative to it. -/
theorem prefix_relative (pre : Bytes) (dirs : List Bytes) (o : Opt) (p : Bytes) (x : List Bytes) (hd : o.name ∈ dirs) (hv : o.val = .str p) (hp : Install.PathOk p) (hpre : Install.PathOk pre)
    (ha : Path.Spec.isAbs pre = true) (hpa : Path.Spec.isAbs p = true) (hn : Path.Spec.comps pre ≠ []) (hx : x ≠ []) (hc : Path.Spec.comps p = Path.Spec.comps pre ++ x) :
    prefixOne pre dirs o = .ok { o with val := .str (Path.Spec.sepJoin x) } := by
  unfold prefixOne
  have hpn : p ≠ [] := by rintro rfl; simp [Path.Spec.isAbs] at hpa
  rw [if_neg (by simp [hd]), hv]
  dsimp only
  rw [Path.isAbsolute_eq, if_neg (by simp [hpa]), Path.isSubpath_iff_partial pre p hpre.1 hp.1 hpn (.inl ha), Res.ok_bind, if_pos, Install.relative_below hpre ha hp hpa hn hx hc]
  · rfl
  · rw [decide_eq_true_eq]
    exact ⟨by rw [ha, hpa], x, hc.symm⟩

/-- All options, one after another. -/
theorem prefix_all (pre : Bytes) (dirs : List Bytes) (l l' : List Opt) : prefixAll pre dirs l = .ok l' →
    l'.length = l.length ∧ ∀ (i : Nat) (o : Opt), l[i]? = some o → ∃ o', l'[i]? = some o' ∧ prefixOne pre dirs o = .ok o' := by
  induction l generalizing l' with
  | nil => intro h; cases h; exact ⟨rfl, fun i o h => by simp at h⟩
  | cons a l ih =>
    intro h
    rw [prefixAll, Res.bind_eq_ok] at h
    obtain ⟨a', h1, h⟩ := h
    rw [Res.bind_eq_ok] at h
    obtain ⟨l2, h2, h⟩ := h
    cases h
    obtain ⟨g1, g2⟩ := ih l2 h2
    refine ⟨by simp [g1], fun i o ho => ?_⟩
    cases i with
    | zero => cases ho; exact ⟨a', rfl, h1⟩
    | succ i => exact g2 i o ho

example : prefixAll (ascii "/usr") [ascii "bindir", ascii "sysconfdir"]
    [⟨ascii "bindir", .string, .str (ascii "/usr/bin"), none, none, none, 8, none⟩, ⟨ascii "sysconfdir", .string, .str (ascii "/etc"), none, none, none, 8, none⟩] =
    .ok [⟨ascii "bindir", .string, .str (ascii "bin"), none, none, none, 8, none⟩, ⟨ascii "sysconfdir", .string, .str (ascii "/etc"), none, none, none, 8, none⟩] := by decide +kernel

end Muon.Odecl
