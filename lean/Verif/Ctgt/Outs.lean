import Verif.Ctgt.Props
import Verif.Install.RunSub
/-
C105: outputs of custom targets and generators.
-/
namespace Muon.Ctgt
open Muon Muon.Ctgt.Spec
open Muon.Names.Spec (Place FileName)
open Muon.Path.Spec (comps render sepJoin isAbs dotdot)

theorem sepJoin_snoc (cs : List Bytes) (c : Bytes) (h : cs ≠ []) : sepJoin (cs ++ [c]) = sepJoin cs ++ 47 :: c := by
  induction cs with
  | nil => exact absurd rfl h
  | cons a cs ih =>
    cases cs with
    | nil => simp [sepJoin]
    | cons b cs =>
      have := ih (by simp)
      simp only [List.cons_append] at this ⊢
      simp [sepJoin, this]

theorem join_name {dir t : Bytes} (hd : Place dir) (ht : FileName t) : Path.join dir t = slashed dir ++ t := by
  rw [Names.join_file hd ht]
  unfold slashed render
  simp only [if_true]
  rw [sepJoin_snoc _ _ hd.2.2.2]
  simp

theorem slashed_no_at {dir : Bytes} (h : ∀ c ∈ comps dir, 64 ∉ c) : 64 ∉ slashed dir := by
  unfold slashed
  intro hm
  simp only [render, if_true, List.cons_append, List.mem_cons, List.mem_append, List.not_mem_nil, or_false] at hm
  rcases hm with hm | hm | hm
  · exact absurd hm (by decide)
  · rcases Path.sepJoin_mem _ _ hm with h1 | ⟨c, hc, hx⟩
    · exact absurd h1 (by decide)
    · exact h c hc hx
  · exact absurd hm (by decide)

theorem outValue_eq (p k : Bytes) (hk : k = ascii "PLAINNAME" ∨ k = ascii "BASENAME") :
    ∃ v, outValue (some [p]) k = .ok (some v) ∧ ∀ v', OutValue p k v' ↔ v' = v := by
  rcases hk with rfl | rfl
  · refine ⟨Path.basename p, rfl, fun v' => ⟨fun h => ?_, fun h => h ▸ .plain⟩⟩
    generalize hk : ascii "PLAINNAME" = k at h
    cases h
    · rfl
    · exact absurd hk (by decide +kernel)
  · refine ⟨Path.withoutExt (Path.basename p), ?_, fun v' => ⟨fun h => ?_, fun h => h ▸ .base⟩⟩
    · unfold outValue
      rw [if_neg (by decide +kernel), if_pos rfl]; rfl
    generalize hk : ascii "BASENAME" = k at h
    cases h
    · exact absurd hk (by decide +kernel)
    · rfl

/-- The path of an output. -/
theorem format_output {dir src : Bytes} {ps : List Piece} (hd : Place dir) (h64 : ∀ c ∈ comps dir, 64 ∉ c) (hc : OutClean ps) (hf : FileName (written ps)) :
    ∃ name, Filled (OutValue src) ps name ∧ format (outValue (some [src])) (Path.join dir (written ps)) = .ok (slashed dir ++ name) ∧
      ∀ name', Filled (OutValue src) ps name' → name' = name := by
  have hkey : ∀ k, Piece.key k ∈ ps → outValue (some [src]) k ≠ .ok none := by
    intro k hk
    obtain ⟨v, h1, _⟩ := outValue_eq src k ((hc _ hk).2 k rfl)
    rw [h1]; simp
  have hfill : ∃ name, fill (outValue (some [src])) ps = .ok name := by
    clear hf hkey
    induction ps with
    | nil => exact ⟨[], rfl⟩
    | cons p ps ih =>
      obtain ⟨n, hn⟩ := ih (fun p hp => hc p (by simp [hp]))
      cases p with
      | text t => exact ⟨t ++ n, by rw [fill, hn]; rfl⟩
      | at_ => exact ⟨[64] ++ n, by rw [fill, hn]; rfl⟩
      | key k =>
        obtain ⟨v, h1, _⟩ := outValue_eq src k ((hc _ (by simp)).2 k rfl)
        exact ⟨v ++ n, by rw [fill, h1, hn]; rfl⟩
  obtain ⟨name, hn⟩ := hfill
  have hsound : ∀ k v, Piece.key k ∈ ps → outValue (some [src]) k = .ok (some v) → OutValue src k v := by
    intro k v hk hv
    obtain ⟨v', h1, h2⟩ := outValue_eq src k ((hc _ hk).2 k rfl)
    rw [h1] at hv; cases hv
    exact (h2 _).mpr rfl
  refine ⟨name, fill_filled _ _ ps hsound hkey name hn, ?_, ?_⟩
  · rw [join_name hd hf]
    have hw : slashed dir ++ written ps = written (.text (slashed dir) :: ps) := by simp [written, Piece.written]
    rw [hw, format_pieces]
    · rw [fill, hn]; rfl
    · intro p hp
      rcases List.mem_cons.mp hp with rfl | hp
      · exact ⟨slashed_no_at h64, by simp [slashed]⟩
      · exact (hc p hp).1
    · intro k hk
      rcases List.mem_cons.mp hk with hk | hk
      · cases hk
      · exact hkey k hk
  · intro name' h'
    clear hf hkey hsound
    induction h' generalizing name with
    | nil => simp [fill] at hn; exact hn.symm ▸ rfl
    | text t _ ih =>
      rw [fill, emit_ok] at hn
      obtain ⟨u, h1, rfl⟩ := hn
      rw [ih (fun p hp => hc p (by simp [hp])) u h1]
    | at_ _ ih =>
      rw [fill, emit_ok] at hn
      obtain ⟨u, h1, rfl⟩ := hn
      rw [ih (fun p hp => hc p (by simp [hp])) u h1]; rfl
    | @key k v ps r hv _ ih =>
      obtain ⟨w, h1, h2⟩ := outValue_eq src k ((hc (.key k) (by simp)).2 _ rfl)
      rw [fill, h1] at hn
      simp only [Res.ok_bind, Option.getD_some] at hn
      rw [emit_ok] at hn
      obtain ⟨u, h3, rfl⟩ := hn
      rw [ih (fun p hp => hc p (by simp [hp])) u h3, (h2 _).mp hv]

theorem isBasename_name {t : Bytes} (h : FileName t) : Path.isBasename t = true := by
  simp [Path.isBasename, h.2.2.2.1]

/-- C105, for a directory of the build without `@` and one input: the outputs of a target are files with the names given, with
`@PLAINNAME@` and `@BASENAME@` filled in, in that directory. -/
theorem outputs_places_partial (dir src : Bytes) (hd : Place dir) (h64 : ∀ c ∈ comps dir, 64 ∉ c) (l : List (List Piece))
    (hc : ∀ ps ∈ l, OutClean ps ∧ FileName (written ps)) :
    ∃ fs, outputs dir (some [src]) (l.map written) = .ok fs ∧ Outs dir src (l.map written) fs := by
  have hb : (l.map written).all Path.isBasename = true := by
    rw [List.all_eq_true]
    intro t ht
    obtain ⟨ps, h1, rfl⟩ := List.mem_map.mp ht
    exact isBasename_name (hc ps h1).2
  unfold outputs
  rw [hb]
  simp only [Bool.not_true, Bool.false_eq_true, if_false]
  clear hb
  induction l with
  | nil => exact ⟨[], rfl, .nil⟩
  | cons ps l ih =>
    obtain ⟨fs, h1, h2⟩ := ih (fun q hq => hc q (by simp [hq]))
    obtain ⟨name, h3, h4, _⟩ := format_output (src := src) hd h64 (hc ps (by simp)).1 (hc ps (by simp)).2
    refine ⟨(slashed dir ++ name) :: fs, ?_, .cons (hc ps (by simp)).1 h3 h2⟩
    simp only [List.map_cons, formatAll, h4, Res.ok_bind, h1]

/-- C105: no output is given with a directory. -/
theorem outputs_plain (dir : Bytes) (input : Option (List Bytes)) (l fs : List Bytes) (h : outputs dir input l = .ok fs) :
    (∀ t ∈ l, 47 ∉ t) ∧ fs.length = l.length := by
  unfold outputs at h
  cases hb : l.all Path.isBasename with
  | false => rw [hb] at h; simp at h
  | true =>
    rw [hb] at h
    simp only [Bool.not_true, Bool.false_eq_true, if_false] at h
    refine ⟨fun t ht => by simpa [Path.isBasename] using List.all_eq_true.mp hb t ht, ?_⟩
    clear hb
    induction l generalizing fs with
    | nil => simp [formatAll] at h; subst h; rfl
    | cons t l ih =>
      rw [formatAll, Res.bind_eq_ok] at h
      obtain ⟨f, _, h⟩ := h
      rw [Res.bind_eq_ok] at h
      obtain ⟨gs, h1, h2⟩ := h
      cases h2
      simp [ih gs h1]

/-- A path with the text of a directory and the name of a file. -/
theorem slashed_comps {dir name : Bytes} (hd : Place dir) (hn : FileName name) :
    comps (slashed dir ++ name) = comps dir ++ [name] ∧ Place (slashed dir ++ name) := by
  have h : slashed dir ++ name = render true (comps dir ++ [name]) := by
    unfold slashed render
    simp only [if_true]
    rw [sepJoin_snoc _ _ hd.2.2.2]
    simp
  have hg : ∀ c ∈ comps dir ++ [name], Path.Comp c := by
    intro c hc
    rcases List.mem_append.mp hc with hc | hc
    · exact hd.comp c hc
    · rw [List.mem_singleton.mp hc]; exact hn.comp
  rw [h]
  have h2 := Path.render_comps true _ hg
  refine ⟨h2, Path.render_isAbs true _ hg, Path.render_no0 true _ hg, ?_, by rw [h2]; simp⟩
  rw [h2]
  simp only [List.mem_append, List.mem_singleton, not_or]
  exact ⟨hd.2.2.1, fun h => hn.2.2.1 h.symm⟩

/-! ## Generators -/

theorem place_pathOk {p : Bytes} (h : Place p) : Install.PathOk p := ⟨h.2.1, h.2.2.1⟩

/-- C105: the directory of the outputs of a generator for a source. Without `preserve_path_from` it is the one of the target;
with it, it is below that one as the source is below the path that is kept. -/
theorem generator_directory (dir src : Bytes) (hd : Place dir) (hs : Place src) (keep : Option Bytes) (x : List Bytes)
    (hk : ∀ b, keep = some b → Place b ∧ Below b src x) :
    ∃ d, genDir dir keep src = .ok d ∧ Place d ∧ comps d = comps dir ++ (if keep.isSome then x.dropLast else []) := by
  cases keep with
  | none => exact ⟨dir, rfl, hd, by simp⟩
  | some b =>
    obtain ⟨hb, hx, hc⟩ := hk b rfl
    have hr := Install.relative_below (place_pathOk hb) hb.1 (place_pathOk hs) hs.1 hb.2.2.2 hx hc
    have hg : ∀ c ∈ x, Path.Comp c := fun c h => hs.comp c (by rw [hc]; simp [h])
    have hgd : ∀ c ∈ x.dropLast, Path.Comp c := fun c h => hg c (List.dropLast_subset _ h)
    have hsj : sepJoin x = render false x := by simp [render, hx]
    have hne : sepJoin x ≠ [] := by rw [hsj]; exact Path.render_ne false x hg
    have h0 : 0 ∉ sepJoin x := by rw [hsj]; exact Path.render_no0 false x hg
    have hdn : Path.dirname (sepJoin x) = render false x.dropLast := by
      rw [Path.dirname_spec _ h0 hne, hsj, Path.render_isAbs false x hg, Path.render_comps false x hg]
    refine ⟨Path.join dir (Path.dirname (sepJoin x)), ?_, ?_⟩
    · simp only [genDir, hr, Res.ok_bind]
    · obtain ⟨j1, j2, j3⟩ := Path.join_facts dir (render false x.dropLast) hd.2.1 (Path.render_no0 false _ hgd)
      rw [Path.render_isAbs false _ hgd] at j1 j2
      simp only [Bool.false_eq_true, if_false, Bool.false_or] at j1 j2
      rw [Path.render_comps false _ hgd] at j1
      rw [hdn]
      refine ⟨⟨by rw [j2]; exact hd.1, j3, ?_, by rw [j1]; simp [hd.2.2.2]⟩, by simpa using j1⟩
      rw [j1]
      simp only [List.mem_append, not_or]
      refine ⟨hd.2.2.1, fun h => hs.2.2.1 ?_⟩
      rw [hc]
      exact List.mem_append_right _ (List.dropLast_subset _ h)

theorem checkPreserve_ok (g : Gen) (b : Bytes) (hb : g.preserve = some b) (hpb : Place b) (hin : ∀ s ∈ g.input, Place s) :
    checkPreserve g = .ok () ↔ ∀ s ∈ g.input, comps b <+: comps s := by
  unfold checkPreserve
  rw [hb]
  have ha : Path.isAbsolute b = true := by rw [Path.isAbsolute_eq]; exact hpb.1
  simp only [ha, Bool.not_true, Bool.false_eq_true, if_false]
  generalize g.input = l at hin ⊢
  have hbad : ∀ (l : List Bytes), l.foldl (fun (r : Res Unit) f => r >>= fun _ => Path.isSubpath b f >>= fun x => if x then .ok () else .error) .error = .error := by
    intro l
    induction l with
    | nil => rfl
    | cons a l ih => exact ih
  induction l with
  | nil => simp
  | cons s l ih =>
    have hsub := Names.sub_eq hpb (hin s (by simp))
    simp only [List.foldl_cons, Res.ok_bind, hsub]
    by_cases hp : comps b <+: comps s
    · simp only [hp, decide_true, if_true, List.mem_cons, forall_eq_or_imp, true_and]
      exact ih (fun s hs => hin s (by simp [hs]))
    · simp only [hp, decide_false, Bool.false_eq_true, if_false, List.mem_cons, forall_eq_or_imp, false_and, iff_false]
      rw [hbad]
      simp

/-- What a generator makes of a source. -/
def Made (g : Gen) (dir src : Bytes) (t : Tgt) : Prop :=
  t.input = some [src] ∧
  ∃ d fs, Place d ∧ t.output = some fs ∧ Outs d src g.output fs ∧
    ∃ x, (∀ b, g.preserve = some b → Below b src x) ∧ comps d = comps dir ++ (if g.preserve.isSome then x.dropLast else [])

/-- One target for each source, in their order. -/
inductive Mades (g : Gen) (dir : Bytes) : List Bytes → List Tgt → Prop
  | nil : Mades g dir [] []
  | cons {s : Bytes} {l : List Bytes} {t : Tgt} {ts : List Tgt} : Made g dir s t → Mades g dir l ts → Mades g dir (s :: l) (t :: ts)

theorem genOne_made {E : Env} {g : Gen} {dir src : Bytes} {t : Tgt} (hd : Place dir) (hs : Place src) (h64 : ∀ c ∈ comps dir, 64 ∉ c) (hs64 : ∀ c ∈ comps src, 64 ∉ c)
    (pss : List (List Piece)) (hp : g.output = pss.map written) (hc : ∀ ps ∈ pss, OutClean ps ∧ FileName (written ps))
    (hk : ∀ b, g.preserve = some b → Place b ∧ Names.Spec.In b src) (h : genOne E g dir src = .ok t) : Made g dir src t := by
  obtain ⟨x, hx⟩ : ∃ x, ∀ b, g.preserve = some b → Place b ∧ Below b src x := by
    cases hg : g.preserve with
    | none => exact ⟨[], fun b h => by cases h⟩
    | some b =>
      obtain ⟨h1, x, h2, h3⟩ := hk b hg
      exact ⟨x, fun b' h => by cases h; exact ⟨h1, h2, h3⟩⟩
  obtain ⟨d, d1, d2, d3⟩ := generator_directory dir src hd hs g.preserve x hx
  have hd64 : ∀ c ∈ comps d, 64 ∉ c := by
    intro c hm
    rw [d3] at hm
    rcases List.mem_append.mp hm with hm | hm
    · exact h64 c hm
    · cases hg : g.preserve with
      | none => rw [hg] at hm; simp at hm
      | some b =>
        rw [hg] at hm
        simp only [Option.isSome_some, if_true] at hm
        refine hs64 c ?_
        rw [(hx b hg).2.2]
        exact List.mem_append_right _ (List.dropLast_subset _ hm)
  unfold genOne at h
  rw [d1] at h
  simp only [Res.ok_bind] at h
  rw [Res.bind_eq_ok] at h
  obtain ⟨t0, h1, h2⟩ := h
  cases h2
  unfold make at h1
  rw [Res.bind_eq_ok] at h1
  obtain ⟨out, h1, h3⟩ := h1
  rw [Res.bind_eq_ok] at h3
  obtain ⟨dep, h3, h4⟩ := h3
  rw [Res.bind_eq_ok] at h4
  obtain ⟨c, h4, h5⟩ := h4
  cases h5
  obtain ⟨fs, f1, f2⟩ := outputs_places_partial d src d2 hd64 pss hc
  rw [← hp] at f1 f2
  have ho : out = some fs := by
    unfold makeOutputs at h1
    simp only at h1
    split at h1
    · next h => cases h
    · cases h1
    · next l _ h =>
      cases h
      rw [f1] at h1
      simp at h1
      exact h1.symm
  exact ⟨rfl, d, fs, d2, ho, f2, x, fun b hb => (hx b hb).2, d3⟩

/-- C105, for paths without `@`: a generator makes one target for each source, in their order, whose input is the source and whose
outputs are in the directory of the target, or below it as the source is below the path that is kept. -/
theorem generate_made_partial (E : Env) (g : Gen) (dir : Bytes) (hd : Place dir) (h64 : ∀ c ∈ comps dir, 64 ∉ c)
    (pss : List (List Piece)) (hp : g.output = pss.map written) (hc : ∀ ps ∈ pss, OutClean ps ∧ FileName (written ps)) (l : List Bytes)
    (hl : ∀ s ∈ l, Place s ∧ (∀ c ∈ comps s, 64 ∉ c) ∧ ∀ b, g.preserve = some b → Place b ∧ Names.Spec.In b s) (ts : List Tgt)
    (h : generate E g dir l = .ok ts) : Mades g dir l ts := by
  induction l generalizing ts with
  | nil => simp [generate] at h; subst h; exact .nil
  | cons s l ih =>
    rw [generate, Res.bind_eq_ok] at h
    obtain ⟨t, h1, h2⟩ := h
    rw [Res.bind_eq_ok] at h2
    obtain ⟨us, h2, h3⟩ := h2
    cases h3
    obtain ⟨l1, l2, l3⟩ := hl s (by simp)
    exact .cons (genOne_made hd l1 h64 l2 pss hp hc l3 h1) (ih (fun s hs => hl s (by simp [hs])) us h2)

/-- C105: with `preserve_path_from` and names made of `@PLAINNAME@` and a suffix, different sources have different outputs. -/
theorem generated_apart (dir b s s' : Bytes) (hd : Place dir) (hb : Place b) (hs : Place s) (hs' : Place s') (x x' : List Bytes)
    (hx : Below b s x) (hx' : Below b s' x') (hne : comps s ≠ comps s') (e : Bytes)
    (d d' name name' : Bytes) (hg : genDir dir (some b) s = .ok d) (hg' : genDir dir (some b) s' = .ok d')
    (hn : Filled (OutValue s) [.key (ascii "PLAINNAME"), .text e] name) (hn' : Filled (OutValue s') [.key (ascii "PLAINNAME"), .text e] name')
    (hf : FileName name) (hf' : FileName name') : comps (slashed d ++ name) ≠ comps (slashed d' ++ name') := by
  obtain ⟨d0, a1, a2, a3⟩ := generator_directory dir s hd hs (some b) x (fun b' h => by cases h; exact ⟨hb, hx⟩)
  obtain ⟨d0', b1, b2, b3⟩ := generator_directory dir s' hd hs' (some b) x' (fun b' h => by cases h; exact ⟨hb, hx'⟩)
  rw [hg] at a1; cases a1
  rw [hg'] at b1; cases b1
  have hname : ∀ {s x n}, Place s → Below b s x → Filled (OutValue s) [.key (ascii "PLAINNAME"), .text e] n → ∃ y, x = x.dropLast ++ [y] ∧ n = y ++ e := by
    intro s x n hs hx h
    obtain ⟨hx1, hx2⟩ := hx
    cases h with
    | key hv h =>
      cases h with
      | text _ h =>
        cases h
        obtain ⟨v, v1, v2⟩ := outValue_eq s (ascii "PLAINNAME") (.inl rfl)
        have hv' := (v2 _).mp hv
        have hvb : v = Path.basename s := by
          have := (v2 (Path.basename s)).mp .plain
          exact this.symm
        have hlast : (comps s).getLast? = some (x.getLast hx1) := by
          rw [hx2, List.getLast?_append, List.getLast?_eq_some_getLast hx1]; rfl
        have hbn := Path.basename_spec s hs.2.1 hs.ne
        rw [hlast] at hbn
        refine ⟨x.getLast hx1, (List.dropLast_concat_getLast hx1).symm, ?_⟩
        rw [hv', hvb, hbn]
        simp
  obtain ⟨y, y1, y2⟩ := hname hs hx hn
  obtain ⟨y', y1', y2'⟩ := hname hs' hx' hn'
  rw [(slashed_comps a2 hf).1, (slashed_comps b2 hf').1, a3, b3]
  intro h
  simp only [Option.isSome_some, if_true, List.append_assoc] at h
  have h1 := List.append_cancel_left h
  obtain ⟨h2, h3⟩ := List.append_inj' h1 rfl
  have h4 : y ++ e = y' ++ e := by rw [← y2, ← y2']; simpa using h3
  have h5 := List.append_cancel_right h4
  apply hne
  rw [hx.2, hx'.2, y1, y1', h2, h5]

/-- A generator for `/w/s/sub/a.x`, in the private directory of a target. -/
def exG (keep : Option Bytes) : Gen :=
  { output := [ascii "@BASENAME@.c"], command := [.str (ascii "tool"), .str (ascii "@INPUT@"), .str (ascii "@OUTPUT@")],
    input := [ascii "/w/s/sub/a.x", ascii "/w/s/other/a.x"], preserve := keep }

def exPs : List Piece := [.key (ascii "BASENAME"), .text (ascii ".c")]

example : Place (ascii "/w/b/t.p") ∧ Place (ascii "/w/s/sub/a.x") ∧ (exG none).output = [exPs].map written ∧ FileName (written exPs) ∧
    (generate exE (exG (some (ascii "/w/s"))) (ascii "/w/b/t.p") (exG none).input >>= fun ts => .ok (ts.map (·.output))) =
      .ok [some [ascii "/w/b/t.p/sub/a.c"], some [ascii "/w/b/t.p/other/a.c"]] ∧
    checkPreserve (exG (some (ascii "/w/s"))) = .ok () ∧ checkPreserve (exG (some (ascii "/w/s/sub"))) = .error := by
  unfold Place FileName; decide +kernel

example : OutClean exPs := by
  intro p hp
  simp only [exPs, List.mem_cons, List.not_mem_nil, or_false] at hp
  rcases hp with rfl | rfl
  · refine ⟨by unfold Piece.Ok; decide +kernel, fun k h => ?_⟩
    cases h; exact .inr rfl
  · exact ⟨by unfold Piece.Ok; decide +kernel, fun k h => by cases h⟩

/-! ## Where C105 fails -/

/-- C105 fails for sources with the same name in different directories, without `preserve_path_from`: they have the same output. -/
theorem generate_same_counterexample :
    (generate exE (exG none) (ascii "/w/b/t.p") (exG none).input >>= fun ts => .ok (ts.map (·.output))) =
      .ok [some [ascii "/w/b/t.p/a.c"], some [ascii "/w/b/t.p/a.c"]] := by decide +kernel

/-- C105 fails in a build directory with `@` in its name: keys are looked for in the whole path, so a target without any key in the
names of its outputs is an error. -/
theorem output_directory_counterexample :
    outputs (ascii "/w/a@x@b") (some [ascii "/w/s/a.in"]) [ascii "o.c"] = .error ∧
    outputs (ascii "/w/ab") (some [ascii "/w/s/a.in"]) [ascii "o.c"] = .ok [ascii "/w/ab/o.c"] := by decide +kernel

/-- C105 fails for a target without inputs: `@INPUT0@` in its command, and `@BASENAME@` in the name of its output, abort instead
of being reported. -/
theorem no_input_counterexample :
    command exE { relativize := true } [.str (ascii "tool"), .str (ascii "@INPUT0@")] = .bad ∧
    outputs (ascii "/w/b") none [ascii "@BASENAME@.c"] = .bad ∧
    command exE { relativize := true } [.str (ascii "tool"), .str (ascii "@INPUT@")] = .error := by decide +kernel

/-- C105 fails for keys that are not known: they stay as they are, without an error, and so does a `@` alone. Where there are several
inputs, `@INPUT@` within a word is the first of them. -/
theorem key_counterexample :
    command exE exO [.str (ascii "tool"), .str (ascii "@INPTU@"), .str (ascii "a@b"), .str (ascii "--in=@INPUT@")] =
      .ok ([ascii "tool", ascii "@INPTU@", ascii "a@b", ascii "--in=../s/a.in"], []) := by decide +kernel

/-- C105: the `./` is also written before a file of the build directory that follows a program with arguments of its own. -/
theorem dot_counterexample :
    command exE exO [.prog true [ascii "/w/b/tool", ascii "-q"], .file (ascii "/w/b/x")] =
      .ok ([ascii "./tool", ascii "-q", ascii "./x"], [ascii "./tool", ascii "./x"]) ∧
    command exE exO [.prog true [ascii "/w/b/tool"], .file (ascii "/w/b/x")] =
      .ok ([ascii "./tool", ascii "x"], [ascii "./tool", ascii "x"]) := by decide +kernel

end Muon.Ctgt
