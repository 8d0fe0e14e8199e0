import Verif.Pc.Props
/-
C98: what pkg-config makes of a file that `pkgconfig.generate()` wrote.
-/
namespace Muon.Pc
open Muon
open Spec

/-! ### Lists of packages -/

theorem commas_step {a r : Bytes} (h : 44 ∉ a) : commas (a ++ 44 :: r) = a :: commas r := by
  induction a with
  | nil => simp [commas]
  | cons c a ih =>
    have hc : c ≠ 44 := fun e => h (by simp [e])
    rw [List.cons_append, commas, if_neg hc, ih (fun e => h (by simp [e]))]

theorem commas_last {a : Bytes} (h : 44 ∉ a) : commas a = [a] := by
  induction a with
  | nil => rfl
  | cons c a ih =>
    have hc : c ≠ 44 := fun e => h (by simp [e])
    rw [commas, if_neg hc, ih (fun e => h (by simp [e]))]

theorem packages_sepBy {l : List Bytes} (h : ∀ x ∈ l, x ≠ [] ∧ Clean x ∧ 44 ∉ x) :
    packages (sepBy (ascii ", ") l) = l := by
  have e : ascii ", " = [44, 32] := by decide +kernel
  rw [e]
  have key : ∀ (l : List Bytes), (∀ x ∈ l, x ≠ [] ∧ Clean x ∧ 44 ∉ x) → ∀ y, y ≠ [] ∧ Clean y ∧ 44 ∉ y →
      packages (sepBy [44, 32] (y :: l)) = y :: l ∧ packages (32 :: sepBy [44, 32] (y :: l)) = y :: l := by
    intro l
    induction l with
    | nil =>
      intro _ y hy
      have h32 : (44 : UInt8) ∉ 32 :: y := by
        intro h
        rcases List.mem_cons.1 h with h | h
        · exact absurd h (by decide)
        · exact hy.2.2 h
      constructor
      · unfold packages
        rw [sepBy, commas_last hy.2.2, List.map_singleton, trim_clean hy.2.1]
        simp [hy.1]
      · unfold packages
        rw [sepBy, commas_last h32, List.map_singleton, trim_blank hy.2.1]
        simp [hy.1]
    | cons z l ih =>
      intro hl y hy
      obtain ⟨_, i2⟩ := ih (fun x hx => hl x (by simp [hx])) z (hl z (by simp))
      have h32 : (44 : UInt8) ∉ 32 :: y := by
        intro h
        rcases List.mem_cons.1 h with h | h
        · exact absurd h (by decide)
        · exact hy.2.2 h
      have e1 : sepBy [44, 32] (y :: z :: l) = y ++ 44 :: (32 :: sepBy [44, 32] (z :: l)) := by
        rw [sepBy]; simp
      unfold packages at i2
      constructor
      · unfold packages
        rw [e1, commas_step hy.2.2, List.map_cons, trim_clean hy.2.1, List.filter_cons_of_pos (by simpa using hy.1), i2]
      · unfold packages
        rw [e1, ← List.cons_append, commas_step h32, List.map_cons, trim_blank hy.2.1,
          List.filter_cons_of_pos (by simpa using hy.1), i2]
  cases l with
  | nil => decide +kernel
  | cons y l => exact (key l (fun x hx => h x (by simp [hx])) y (h y (by simp))).1

/-! ### The parts of the contents -/

/-- The parts of a file that are given. -/
theorem contents_parts {R : Roots} {opt : Bytes → Bytes} {added added' : List Bytes} {c : Call} {f : File}
    (h : contents R opt added c = .ok (f, added')) :
    nameOf c = .ok f.name ∧ f.description = descriptionOf c f.name ∧ f.url = c.url ∧
    f.version = c.version.getD c.projectVersion ∧ f.dataonly = c.dataonly ∧
    variables opt added c (f.libs .pub ≠ [] || f.libs .priv ≠ []) = .ok (f.builtins, f.variables, added') := by
  unfold contents at h
  obtain ⟨name, hn, h⟩ := (Res.bind_eq_ok (x := nameOf c)).1 h
  obtain ⟨pc, hc, h⟩ := (Res.bind_eq_ok (x := collect R c)).1 h
  obtain ⟨pub, hp, h⟩ := (Res.bind_eq_ok (x := withLibdir (opt (ascii "prefix")) c.installDir (pc.internal .pub)
    ((dedup pc).libs .pub))).1 h
  obtain ⟨priv, hv, h⟩ := (Res.bind_eq_ok (x := withLibdir (opt (ascii "prefix")) c.installDir (pc.internal .priv)
    ((dedup pc).libs .priv))).1 h
  obtain ⟨rp, hrp, h⟩ := (Res.bind_eq_ok (x := procReqs c.requires ((dedup pc).reqs .pub))).1 h
  obtain ⟨rv, hrv, h⟩ := (Res.bind_eq_ok (x := procReqs c.requiresPrivate ((dedup pc).reqs .priv))).1 h
  obtain ⟨vars, hvs, h⟩ := (Res.bind_eq_ok (x := variables opt added c (pub ≠ [] || priv ≠ []))).1 h
  cases h
  exact ⟨hn, rfl, rfl, rfl, rfl, hvs⟩

/-- The values of variables: what the file is to say about directories. -/
structure Values (opt val : Bytes → Bytes) (needed : Bytes → Prop) : Prop where
  pre : val (ascii "prefix") = opt (ascii "prefix")
  dir : ∀ d ∈ dirs, d ≠ ascii "prefix" → needed d → val d = opt (ascii "prefix") ++ ascii "/" ++ opt d

/-- The values that directories have. -/
theorem dirs_values {opt : Bytes → Bytes} {ds : List Bytes} (hsub : ds.Sublist dirs) (hp : ascii "prefix" ∈ ds)
    (h36 : ∀ d ∈ dirs, 36 ∉ opt d) :
    let val := env ((ds.map (dirDef opt)).map (fun d => Line.var d.key d.val)) (fun _ => [])
    val (ascii "prefix") = opt (ascii "prefix") ∧
    (∀ d ∈ ds, d ≠ ascii "prefix" → val d = opt (ascii "prefix") ++ ascii "/" ++ opt d) ∧
    ∀ d, d ∉ ds → val d = [] := by
  -- the first directory is the prefix
  have hnd : dirs.Nodup := by decide +kernel
  obtain ⟨ds', rfl⟩ : ∃ ds', ds = ascii "prefix" :: ds' := by
    have hd : dirs = ascii "prefix" :: dirs.tail := rfl
    rw [hd] at hsub
    cases hsub with
    | cons _ h => exact absurd (h.subset hp) (by decide +kernel)
    | cons_cons _ h => exact ⟨_, rfl⟩
  have hnd' : (ascii "prefix" :: ds').Nodup := hsub.nodup hnd
  have hin : ∀ d ∈ ds', d ∈ dirs := fun d hd => hsub.subset (by simp [hd])
  have hnp : ascii "prefix" ∉ ds' := (List.nodup_cons.1 hnd').1
  have exp : ∀ (e : Bytes → Bytes) d, d ∈ ds' → expand e (dirDef opt d).val = e (ascii "prefix") ++ ascii "/" ++ opt d := by
    intro e d hd
    have hne : d ≠ ascii "prefix" := fun h => hnp (h ▸ hd)
    unfold dirDef
    rw [if_neg hne]
    have he : ascii "${prefix}/" ++ opt d = [Piece.ref (ascii "prefix"), .txt (ascii "/" ++ opt d)].flatMap Piece.text := by
      have : ascii "${prefix}/" = ascii "${" ++ ascii "prefix" ++ ascii "}" ++ ascii "/" := by decide +kernel
      rw [this]; simp [Piece.text]
    have h36' : (36 : UInt8) ∉ ascii "/" ++ opt d := by
      intro hm
      rcases List.mem_append.1 hm with hm | hm
      · exact absurd hm (by decide +kernel)
      · exact h36 d (hin d hd) hm
    have := expand_pieces e (ps := [Piece.ref (ascii "prefix"), .txt (ascii "/" ++ opt d)]) (by
      intro p hp
      simp only [List.mem_cons, List.not_mem_nil, or_false] at hp
      rcases hp with rfl | rfl
      · decide +kernel
      · simpa [Piece.ok] using h36') []
    rw [List.append_nil, ← he] at this
    dsimp only
    unfold expand
    rw [this]
    simp [pieceVal, expandFrom]
  have rest : ∀ (ds' : List Bytes) (e : Bytes → Bytes), ds'.Nodup → ascii "prefix" ∉ ds' →
      (∀ (e : Bytes → Bytes), ∀ d ∈ ds', expand e (dirDef opt d).val = e (ascii "prefix") ++ ascii "/" ++ opt d) →
      (∀ d ∈ ds', env ((ds'.map (dirDef opt)).map (fun d => Line.var d.key d.val)) e d =
        e (ascii "prefix") ++ ascii "/" ++ opt d) ∧
      ∀ d, d ∉ ds' → env ((ds'.map (dirDef opt)).map (fun d => Line.var d.key d.val)) e d = e d := by
    intro ds'
    induction ds' with
    | nil => intro e _ _ _; exact ⟨(fun _ h => nomatch h), fun _ _ => rfl⟩
    | cons x xs ih =>
      intro e hn hnp hexp
      obtain ⟨hx, hn⟩ := List.nodup_cons.1 hn
      have hxp : x ≠ ascii "prefix" := fun h => hnp (by simp [h])
      obtain ⟨i1, i2⟩ := ih (fun n => if n = (dirDef opt x).key then expand e (dirDef opt x).val else e n) hn
        (fun h => hnp (by simp [h])) (fun e d hd => hexp e d (by simp [hd]))
      rw [List.map_cons, List.map_cons, env]
      have hpe : (if ascii "prefix" = (dirDef opt x).key then expand e (dirDef opt x).val else e (ascii "prefix")) =
          e (ascii "prefix") := if_neg (fun h => hxp h.symm)
      refine ⟨fun d hd => ?_, fun d hd => ?_⟩
      · rcases List.mem_cons.1 hd with rfl | hd
        · rw [i2 d hx]
          have : d = (dirDef opt d).key := rfl
          rw [if_pos this]
          exact hexp e d (by simp)
        · rw [i1 d hd]
          simp only [hpe]
      · rw [i2 d (fun h => hd (by simp [h]))]
        exact if_neg (fun h => hd (by rw [h]; simp [dirDef]))
  have h0 : expand (fun _ => []) (dirDef opt (ascii "prefix")).val = opt (ascii "prefix") := by
    unfold dirDef
    rw [if_pos rfl]
    have := expand_plain (fun _ => []) (s := opt (ascii "prefix")) (r := []) (h36 _ (by decide +kernel))
    dsimp only
    unfold expand
    rw [List.append_nil] at this
    rw [this]; simp [expandFrom]
  obtain ⟨r1, r2⟩ := rest ds' (fun n => if n = ascii "prefix" then opt (ascii "prefix") else []) (List.nodup_cons.1 hnd').2 hnp exp
  intro val
  have hval : val = env ((ds'.map (dirDef opt)).map (fun d => Line.var d.key d.val))
      (fun n => if n = ascii "prefix" then opt (ascii "prefix") else []) := by
    show env _ _ = _
    rw [List.map_cons, List.map_cons, env, h0]
    rfl
  rw [hval]
  refine ⟨by rw [r2 _ hnp]; simp, fun d hd hne => ?_, fun d hd => ?_⟩
  · rcases List.mem_cons.1 hd with h | hd
    · exact absurd h hne
    · rw [r1 d hd]; simp
  · rw [r2 d (fun h => hd (by simp [h]))]
    exact if_neg (fun h => hd (by simp [h]))

/-- What is asked of a call, for its file to be read back: texts that a line can hold, flags that begin with `-`, names of
variables of letters, digits, `_` and `.`, directories of headers that are relative, and the default place for the file. -/
structure Fit (R : Roots) (opt : Bytes → Bytes) (c : Call) : Prop where
  opts : ∀ d ∈ dirs, Plain (opt d) ∧ 36 ∉ opt d
  subdirs : ∀ ds, c.subdirs = some ds → ∀ d ∈ ds, SubOk d ∧ Plain d
  cflags : ∀ f, Stands R c (.cflag f) ∨ f ∈ c.extraCflags → Plain f ∧ f.head? = some 45
  libs : ∀ v f, Stands R c (.lib v f) → Plain f ∧ 32 ∉ f
  reqs : ∀ v f, (Stands R c (.req v f) ∨ ∃ q ∈ requiresOf c v, Spec.Names q f) → f ≠ [] ∧ Clean f ∧ 44 ∉ f ∧ 36 ∉ f
  vars : ∀ ps, PairsOpt c.variables ps → ∀ p ∈ ps, p.1.all keyChar = true ∧ Plain p.2
  uvars : ∀ ps, PairsOpt c.unescapedVariables ps → ∀ p ∈ ps, p.1.all keyChar = true ∧ Plain p.2 ∧ 32 ∉ p.2
  name : ∀ n, nameOf c = .ok n → Clean n ∧ 36 ∉ n ∧ ∀ d, descriptionOf c n = some d → Clean d ∧ 36 ∉ d
  url : ∀ u, c.url = some u → Clean u ∧ 36 ∉ u
  version : Clean (c.version.getD c.projectVersion) ∧ 36 ∉ c.version.getD c.projectVersion
  place : c.installDir = none

/-- What the file says, as pkg-config reads it: `val` gives the values of the variables. -/
structure Says (R : Roots) (opt : Bytes → Bytes) (added : List Bytes) (c : Call) (t : Bytes) (val : Bytes → Bytes) : Prop where
  /-- The variables have these values; spaces in them are escaped. -/
  values : ∀ n, n.all keyChar = true → value t n = quoted (val n)
  pre : val (ascii "prefix") = opt (ascii "prefix")
  inc : val (ascii "includedir") = opt (ascii "prefix") ++ ascii "/" ++ opt (ascii "includedir")
  /-- A directory that a variable given begins with has the value of its option, unless it was itself given, here or before. -/
  dir : ∀ vs us, PairsOpt c.variables vs → PairsOpt c.unescapedVariables us → ∀ d ∈ dirs, d ≠ ascii "prefix" →
    (∃ p ∈ vs ++ us, (ascii "${" ++ d ++ ascii "}") <+: p.2) → (∀ p ∈ vs ++ us, p.1 ≠ d) → d ∉ added →
    val d = opt (ascii "prefix") ++ ascii "/" ++ opt d
  /-- The fields. -/
  name : ∃ n, nameOf c = .ok n ∧ fieldOf t (ascii "Name") = some n ∧ fieldOf t (ascii "Description") = descriptionOf c n
  url : fieldOf t (ascii "URL") = c.url
  version : fieldOf t (ascii "Version") = some (c.version.getD c.projectVersion)
  cflags : ∀ g, g ∈ args ((fieldOf t (ascii "Cflags")).getD []) ↔ ∃ f, Cflag R c f ∧ g = expand val f
  libs : ∀ v, ∃ l : List Bytes, l.Nodup ∧ (∀ f, f ∈ l ↔ Listed R c v f) ∧
    ((l = [] ∨ ¬ Stands R c (.internal v)) ∧ args ((fieldOf t (libsKey v)).getD []) = l.map (expand val) ∨
      l ≠ [] ∧ Stands R c (.internal v) ∧ args ((fieldOf t (libsKey v)).getD []) =
        (ascii "-L" ++ opt (ascii "prefix") ++ ascii "/" ++ opt (ascii "libdir")) :: l.map (expand val))
  reqs : ∀ v g, g ∈ packages ((fieldOf t (reqsKey v)).getD []) ↔ Needed R c v g ∨ ∃ q ∈ requiresOf c v, Spec.Names q g

theorem plain_header {c : Call} (h : ∀ ds, c.subdirs = some ds → ∀ d ∈ ds, SubOk d ∧ Plain d) {f : Bytes}
    (hf : Header c f) : Plain f ∧ f.head? = some 45 := by
  have key : ∀ d : Bytes, Plain d → 36 ∉ d ∨ WellRef d → Plain (ascii "-I${includedir}/" ++ d) := by
    intro d ⟨⟨h1, h2, h3, h4, h5, h6⟩, h7, ps, hp, he⟩ _
    refine ⟨⟨?_, ?_, ?_, ?_, ?_, ?_⟩, ?_, .txt (ascii "-I") :: .ref (ascii "includedir") :: .txt (ascii "/") :: ps, ?_, ?_⟩
    all_goals try
      (intro hm
       rcases List.mem_append.1 hm with hm | hm
       · exact absurd hm (by decide +kernel)
       · contradiction)
    · rw [List.getLast?_append]
      cases hg : d.getLast? with
      | none => decide +kernel
      | some z => rw [hg] at h7; exact h7
    · intro p hp'
      simp only [List.mem_cons] at hp'
      rcases hp' with rfl | rfl | rfl | hp'
      · decide +kernel
      · decide +kernel
      · decide +kernel
      · exact hp p hp'
    · have : ascii "-I${includedir}/" = ascii "-I" ++ (ascii "${" ++ ascii "includedir" ++ ascii "}") ++ ascii "/" := by decide +kernel
      rw [this, he]
      simp [Piece.text]
  have base : Plain (ascii "-I${includedir}") := by
    refine ⟨by decide +kernel, by decide +kernel, [.txt (ascii "-I"), .ref (ascii "includedir")], ?_, by decide +kernel⟩
    intro p hp
    simp only [List.mem_cons, List.not_mem_nil, or_false] at hp
    rcases hp with rfl | rfl <;> decide +kernel
  cases hf with
  | default _ => exact ⟨base, by decide +kernel⟩
  | dot _ _ => exact ⟨base, by decide +kernel⟩
  | sub hc hd _ =>
    have := (h _ hc _ hd).2
    refine ⟨key _ this (Or.inr this.2.2), ?_⟩
    have : ascii "-I${includedir}/" = 45 :: (ascii "-I${includedir}/").tail := by decide +kernel
    rw [this]; rfl

theorem lib_head {s f : Bytes} (h : Flag s f) : f.head? = some 45 := by
  have e : ascii "-l" = [45, 108] := by decide +kernel
  cases h with
  | opt s => rfl
  | lib s => rw [e]; rfl
  | plain s _ _ => rw [e]; rfl

theorem fileflag_head {s f : Bytes} (h : FileFlag s f) : f.head? = some 45 := by
  rcases h with ⟨_, _, _, _, h⟩ | ⟨_, h⟩ <;> exact lib_head h

theorem stands_head {R : Roots} {c : Call} {v : Vis} {f : Bytes} (h : Stands R c (.lib v f)) : f.head? = some 45 := by
  obtain ⟨_, y, _, _, ha⟩ := h
  cases ha with
  | str h => exact lib_head h
  | file h => exact fileflag_head h
  | shared h => exact lib_head h
  | static h => exact lib_head h
  | threads => decide +kernel
  | ext _ h => exact fileflag_head h
  | custom _ h => exact fileflag_head h

theorem listed_stands {R : Roots} {c : Call} {v : Vis} {f : Bytes} (h : Listed R c v f) : Stands R c (.lib v f) := by
  cases v with
  | pub => exact h.1
  | priv => exact h.1

theorem needed_stands {R : Roots} {c : Call} {v : Vis} {f : Bytes} (h : Needed R c v f) : Stands R c (.req v f) := by
  cases v with
  | pub => exact h.1
  | priv => exact h.1

theorem ref_eq (d : Bytes) : ref d = ascii "${" ++ d ++ ascii "}" := by rw [ascii_open, ascii_close]; rfl

theorem joined_ok {l : List Bytes} (h : ∀ a ∈ l, 10 ∉ a) : Esc.joinArgsPkgconf l = .ok (sepBy [32] (l.map quoted)) := by
  have hj := Esc.joinArgsFrom_ok Esc.pkgconfEscape quoted l.length l 0 []
    (fun a ha => by rw [escape_eq, if_neg (h a ha)]) (by simp)
  unfold Esc.joinArgsPkgconf
  rw [hj, List.nil_append, intersperse_sepBy]

theorem libdir_piece (val : Bytes → Bytes) : expand val (ascii "-L${libdir}") = ascii "-L" ++ val (ascii "libdir") := by
  have := expand_pieces val (ps := [.txt (ascii "-L"), .ref (ascii "libdir")]) (by
    intro p hp
    simp only [List.mem_cons, List.not_mem_nil, or_false] at hp
    rcases hp with rfl | rfl <;> decide +kernel) []
  have e : [Piece.txt (ascii "-L"), .ref (ascii "libdir")].flatMap Piece.text = ascii "-L${libdir}" := by decide +kernel
  rw [e, List.append_nil] at this
  unfold expand
  rw [this]
  simp [pieceVal, expandFrom]

theorem plain_libdir : Plain (ascii "-L${libdir}") := by
  refine ⟨by decide +kernel, by decide +kernel, [.txt (ascii "-L"), .ref (ascii "libdir")], ?_, by decide +kernel⟩
  intro p hp
  simp only [List.mem_cons, List.not_mem_nil, or_false] at hp
  rcases hp with rfl | rfl <;> decide +kernel

/-- The variables given are given. -/
theorem pairs_unique {g : Option Given} {ps ps' : List (Bytes × Bytes)} (h1 : PairsOpt g ps) (h2 : PairsOpt g ps') : ps = ps' := by
  have uniqs : ∀ l ps ps', Pairs (.strs l) ps → Pairs (.strs l) ps' → ps = ps' := by
    intro l
    induction l with
    | nil => intro ps ps' h1 h2; cases h1; cases h2; rfl
    | cons x l ih =>
      intro ps ps' h1 h2
      cases h1 with
      | cons hk hr =>
        rename_i k v qs
        generalize hx : k ++ 61 :: v = x at h2
        cases h2 with
        | cons hk' hr' =>
          rename_i k' v' qs'
          have key : ∀ (k k' : Bytes), 61 ∉ k → 61 ∉ k' → k ++ 61 :: v = k' ++ 61 :: v' → k = k' ∧ v = v' := by
            intro k
            induction k with
            | nil =>
              intro k' _ h2 h3
              cases k' with
              | nil => simpa using h3
              | cons a k' =>
                simp only [List.nil_append, List.cons_append, List.cons.injEq] at h3
                exact absurd (by simp [h3.1]) h2
            | cons a k ihk =>
              intro k' h1 h2 h3
              cases k' with
              | nil =>
                simp only [List.nil_append, List.cons_append, List.cons.injEq] at h3
                exact absurd (by simp [h3.1]) h1
              | cons b k' =>
                simp only [List.cons_append, List.cons.injEq] at h3
                obtain ⟨e1, e2⟩ := ihk k' (fun h => h1 (by simp [h])) (fun h => h2 (by simp [h])) h3.2
                exact ⟨by rw [h3.1, e1], e2⟩
          obtain ⟨e1, e2⟩ := key k k' hk hk' hx
          rw [e1, e2, ih _ _ hr hr']
  have uniq : ∀ g ps ps', PairsOpt g ps → PairsOpt g ps' → ps = ps' := by
    intro g ps ps' h1 h2
    cases g with
    | none => exact h1.trans h2.symm
    | some g =>
      cases g with
      | strs l => exact uniqs l ps ps' h1 h2
      | dict l => cases h1; cases h2; rfl
  exact uniq g ps ps' h1 h2

/-- **C98, for files that are not `dataonly`: pkg-config reads the file as what was asked for.** The variables for the
directories are those of the options, so that the flags name the directories things are installed in; `Cflags` are the
directories of headers, the arguments of declared dependencies and the extra ones; `Libs` and `Libs.private` are the libraries
that those given stand for, each once, after the directory of libraries if one of them is the project's; `Requires` are the
packages. -/
theorem generated_partial {R : Roots} {opt : Bytes → Bytes} {added : List Bytes} {c : Call} {m : Made}
    (h : generate R opt added c = .ok m) (hd : c.dataonly = false) (hres : ∀ d ∈ reserved, d ∉ added) (fit : Fit R opt c) :
    ∃ val, Says R opt added c m.text val := by
  unfold generate at h
  obtain ⟨⟨f, added'⟩, hcont, h⟩ := (Res.bind_eq_ok (x := contents R opt added c)).1 h
  obtain ⟨t, hw, h⟩ := (Res.bind_eq_ok (x := write f)).1 h
  cases h
  obtain ⟨hname, hdesc, hurl, hver, hdo, hvars⟩ := contents_parts hcont
  have L := contents_lists hcont (fun ds hds d hm => (fit.subdirs ds hds d hm).1)
  obtain ⟨vs, us, pv, pu, hout, hfree, hnl, hadded, refd, hrefd, hb, hbn⟩ := variables_exact hvars hd
  -- the definitions
  generalize hds : dirs.filter (fun d => decide (d ∈ refd ∧ d ∉ added')) = ds at hb
  have hmem : ∀ d, d ∈ ds ↔ d ∈ dirs ∧ d ∈ refd ∧ d ∉ added' := by
    intro d; rw [← hds]; simp [List.mem_filter]
  have hsub : ds.Sublist dirs := by rw [← hds]; exact List.filter_sublist
  have hnores : ∀ d ∈ reserved, d ∉ added' := by
    intro d hr hm
    rcases (hadded d).1 hm with h | ⟨_, p, hp, rfl⟩
    · exact hres d hr h
    · exact hfree p hp hr
  have hpre : ascii "prefix" ∈ ds :=
    (hmem _).2 ⟨by decide +kernel, (hrefd _).2 (Or.inl rfl), hnores _ (by simp [reserved])⟩
  have hinc : ascii "includedir" ∈ ds :=
    (hmem _).2 ⟨by decide +kernel, (hrefd _).2 (Or.inr (Or.inl rfl)), hnores _ (by simp [reserved])⟩
  -- all definitions, before escaping
  let defs : List Def := ds.map (dirDef opt) ++ (vs ++ us).map (fun p => Def.mk p.1 p.2)
  let val := env (defs.map (fun d => Line.var d.key d.val)) (fun _ => [])
  have hdp : ∀ d ∈ dirs, Plain (dirDef opt d).val := by
    intro d hd'
    obtain ⟨⟨⟨h1, h2, h3, h4, h5, h6⟩, h7, h8⟩, h9⟩ := fit.opts d hd'
    unfold dirDef
    dsimp only
    split
    · exact ⟨⟨h1, h2, h3, h4, h5, h6⟩, h7, h8⟩
    · refine ⟨⟨?_, ?_, ?_, ?_, ?_, ?_⟩, ?_, [.ref (ascii "prefix"), .txt (ascii "/" ++ opt d)], ?_, ?_⟩
      all_goals try
        (intro hm
         rcases List.mem_append.1 hm with hm | hm
         · exact absurd hm (by decide +kernel)
         · contradiction)
      · rw [List.getLast?_append]
        cases hg : (opt d).getLast? with
        | none => decide +kernel
        | some z => rw [hg] at h7; exact h7
      · have h36' : (36 : UInt8) ∉ ascii "/" ++ opt d := by
          intro hm
          rcases List.mem_append.1 hm with hm | hm
          · exact absurd hm (by decide +kernel)
          · exact h9 hm
        intro p hp
        simp only [List.mem_cons, List.not_mem_nil, or_false] at hp
        rcases hp with rfl | rfl
        · decide +kernel
        · simpa [Piece.ok] using h36'
      · have : ascii "${prefix}/" = ascii "${" ++ ascii "prefix" ++ ascii "}" ++ ascii "/" := by decide +kernel
        rw [this]; simp [Piece.text]
  have hkeys : ∀ d ∈ dirs, d.all keyChar = true := by decide +kernel
  have hdefs : ∀ d ∈ defs, d.key.all keyChar = true ∧ Plain d.val := by
    intro d hd'
    rcases List.mem_append.1 hd' with h | h
    · obtain ⟨x, hx, rfl⟩ := List.mem_map.1 h
      have := ((hmem x).1 hx).1
      exact ⟨hkeys x this, hdp x this⟩
    · obtain ⟨p, hp, rfl⟩ := List.mem_map.1 h
      rcases List.mem_append.1 hp with hp | hp
      · exact fit.vars vs pv p hp
      · exact ⟨(fit.uvars us pu p hp).1, (fit.uvars us pu p hp).2.1⟩
  -- what is written
  have hbq : f.builtins = ((ds.map (dirDef opt)).map quotedDef).map Def.line := by
    rw [hb]; simp only [List.map_map]; rfl
  have hvq : f.variables = (((vs ++ us).map (fun p => Def.mk p.1 p.2)).map quotedDef).map Def.line := by
    rw [hout]
    congr 1
    rw [List.map_append, List.map_append, List.map_map]
    congr 1
    rw [List.map_map]
    apply List.map_congr_left
    intro p hp
    show Def.mk p.1 p.2 = Def.mk p.1 (quoted p.2)
    rw [quoted_id (fit.uvars us pu p hp).2.2]
  have hokq : ∀ d, d.key.all keyChar = true ∧ Plain d.val → (quotedDef d).Ok := by
    intro d ⟨h1, h2⟩
    exact ⟨List.all_eq_true.1 h1, clean_quoted h2⟩
  have hcfp : ∀ x ∈ f.cflags, Plain x ∧ x.head? = some 45 := by
    intro x hx
    cases (L.cflags x).1 hx with
    | header h => exact plain_header fit.subdirs h
    | declared h => exact fit.cflags x (Or.inl h)
    | extra h => exact fit.cflags x (Or.inr h)
  have hflag : libdirFlag (opt (ascii "prefix")) c.installDir = .ok (ascii "-L${libdir}") := by
    rw [fit.place]; rfl
  have hlibp : ∀ v, ∀ x ∈ f.libs v, Plain x ∧ 32 ∉ x ∧ x.head? = some 45 := by
    intro v x hx
    obtain ⟨l, _, l2, l3⟩ := L.libs v
    have inl : x ∈ l → Plain x ∧ 32 ∉ x ∧ x.head? = some 45 := by
      intro hx
      have := listed_stands ((l2 x).1 hx)
      exact ⟨(fit.libs v x this).1, (fit.libs v x this).2, stands_head this⟩
    rcases l3 with ⟨_, e⟩ | ⟨_, _, d, hdir, e⟩
    · rw [e] at hx; exact inl hx
    · rw [hflag] at hdir
      cases hdir
      rw [e] at hx
      rcases List.mem_cons.1 hx with rfl | hx
      · exact ⟨plain_libdir, by decide +kernel, by decide +kernel⟩
      · exact inl hx
  have hlibq : ∀ v, (f.libs v).map quoted = f.libs v := by
    intro v
    have : ∀ l : List Bytes, (∀ x ∈ l, 32 ∉ x) → l.map quoted = l := by
      intro l hl
      induction l with
      | nil => rfl
      | cons x l ih => rw [List.map_cons, quoted_id (hl x (by simp)), ih (fun y hy => hl y (by simp [hy]))]
    exact this _ (fun x hx => (hlibp v x hx).2.1)
  have hreqp : ∀ v, ∀ x ∈ f.reqs v, x ≠ [] ∧ Clean x ∧ 44 ∉ x ∧ 36 ∉ x := by
    intro v x hx
    refine fit.reqs v x ?_
    rcases (L.reqs v x).1 hx with h | h
    · exact Or.inl (needed_stands h)
    · exact Or.inr h
  have hne45 : ∀ x : Bytes, x.head? = some 45 → x ≠ [] := by rintro x h rfl; cases h
  have hjoin : Esc.joinArgsPkgconf f.cflags = .ok (sepBy [32] (f.cflags.map quoted)) :=
    joined_ok (fun a ha => (hcfp a ha).1.1.1)
  have hcleanq : ∀ l : List Bytes, (∀ x ∈ l, Plain x ∧ x.head? = some 45) → Clean (sepBy [32] (l.map quoted)) := by
    intro l hl
    apply clean_sepBy (by decide)
    intro y hy
    obtain ⟨x, hx, rfl⟩ := List.mem_map.1 hy
    exact ⟨quoted_ne (hne45 x (hl x hx).2), clean_quoted (hl x hx).1⟩
  obtain ⟨n1, n2, n3⟩ := fit.name f.name hname
  have hr : Readable f := by
    refine ⟨n1, fun d hd' => (n3 d (by rw [← hdesc]; exact hd')).1, fun u hu => (fit.url u (by rw [← hurl]; exact hu)).1,
      by rw [hver]; exact fit.version.1, fun v => ?_, fun v => ?_, fun cf hcf => ?_⟩
    · exact clean_sepBy (by decide +kernel) (fun x hx => ⟨(hreqp v x hx).1, (hreqp v x hx).2.1⟩)
    · rw [← hlibq v]
      exact hcleanq _ (fun x hx => ⟨(hlibp v x hx).1, (hlibp v x hx).2.2⟩)
    · rw [hjoin] at hcf; cases hcf
      exact hcleanq _ hcfp
  obtain ⟨desc, cflags, hdesc', hcfl, hread⟩ := write_reads hw hr hbq hvq
    (by
      intro d hd'
      obtain ⟨x, hx, rfl⟩ := List.mem_map.1 hd'
      exact hokq x (hdefs x (List.mem_append_left _ hx)))
    (by
      intro d hd'
      obtain ⟨x, hx, rfl⟩ := List.mem_map.1 hd'
      exact hokq x (hdefs x (List.mem_append_right _ hx)))
  have hread' : Spec.read t = (defs.map quotedDef).map (fun d => Line.var d.key d.val) ++
      (fldLines f desc cflags).map (fun kv => Line.fld kv.1 kv.2) := by
    rw [hread]
    simp only [defs, List.map_append]
  have hvalue : ∀ n, n.all keyChar = true → value t n = quoted (val n) := by
    intro n hn
    unfold value
    rw [hread']
    exact env_quoted defs (fun d hd' => (hdefs d hd').2.2.2) (fldLines f desc cflags) (e := fun _ => []) (f := fun _ => []) (fun _ _ => rfl) n hn
  have hclean : ∀ n, 92 ∉ val n ∧ 9 ∉ val n := by
    intro n
    exact ⟨mem_env defs (fun d hd' => ⟨(hdefs d hd').2.2.2, (hdefs d hd').2.1.2.2.2.1⟩) (fun _ => List.not_mem_nil) n,
      mem_env defs (fun d hd' => ⟨(hdefs d hd').2.2.2, (hdefs d hd').2.1.2.2.1⟩) (fun _ => List.not_mem_nil) n⟩
  obtain ⟨dv1, dv2, _⟩ := dirs_values hsub hpre (fun d hd' => (fit.opts d hd').2)
  have hval : ∀ n, (∀ p ∈ vs ++ us, p.1 ≠ n) → val n =
      env ((ds.map (dirDef opt)).map (fun d => Line.var d.key d.val)) (fun _ => []) n := by
    intro n hn
    show env (defs.map _) _ n = _
    simp only [defs]
    rw [List.map_append, env_append]
    apply env_other
    intro d hd'
    obtain ⟨p, hp, rfl⟩ := List.mem_map.1 hd'
    exact hn p hp
  have hresv : ∀ d ∈ reserved, ∀ p ∈ vs ++ us, p.1 ≠ d := fun d hd' p hp e => hfree p hp (e ▸ hd')
  have vpre : val (ascii "prefix") = opt (ascii "prefix") := by
    rw [hval _ (hresv _ (by simp [reserved]))]; exact dv1
  have vinc : val (ascii "includedir") = opt (ascii "prefix") ++ ascii "/" ++ opt (ascii "includedir") := by
    rw [hval _ (hresv _ (by simp [reserved]))]; exact dv2 _ hinc (by decide +kernel)
  obtain ⟨f1, f2, f3, f4, f5, f6, f7⟩ := look_fields f desc cflags
  have hfo : ∀ key, fieldOf t key = (look (fldLines f desc cflags) key).map (expand (value t)) :=
    fun key => fieldOf_look hread'
  have hexp : ∀ s : Bytes, 36 ∉ s → expand (value t) s = s := by
    intro s hs
    have := expand_plain (value t) (r := []) hs
    rw [List.append_nil] at this
    unfold expand
    rw [this]; simp [expandFrom]
  refine ⟨val, hvalue, vpre, vinc, ?_, ⟨f.name, hname, ?_, ?_⟩, ?_, ?_, ?_, fun v => ?_, fun v g => ?_⟩
  · intro vs' us' pv' pu' d hd' hne ⟨p, hp, hpr⟩ hnk hna
    have ev := pairs_unique pv' pv
    have eu := pairs_unique pu' pu
    subst ev eu
    rw [hval d hnk]
    refine dv2 d ((hmem d).2 ⟨hd', (hrefd d).2 (Or.inr (Or.inr (Or.inr ⟨hd', p, hp, by rw [ref_eq]; exact hpr⟩))), ?_⟩) hne
    intro hm
    rcases (hadded d).1 hm with h | ⟨_, q, hq, e⟩
    · exact hna h
    · exact hnk q hq e
  · rw [hfo, f1, Option.map_some, hexp _ n2]
  · rw [hfo, f2, Option.map_some, ← hdesc, hdesc', hexp _ (n3 desc (by rw [← hdesc]; exact hdesc')).2]
  · rw [hfo, f3, hurl]
    cases hu : c.url with
    | none => rfl
    | some u => rw [Option.map_some, hexp _ (fit.url u hu).2]
  · rw [hfo, f4, hver, Option.map_some, hexp _ fit.version.2]
  · intro g
    have hargs : args ((fieldOf t (ascii "Cflags")).getD []) = f.cflags.map (expand val) := by
      rw [hfo, f7]
      rcases hcfl with ⟨h, rfl⟩ | ⟨_, cf, h1, rfl⟩
      · rcases h with h | h
        · rw [hdo, hd] at h; cases h
        · rw [h]; rfl
      · rw [hjoin] at h1
        cases h1
        exact args_expanded hvalue hclean hcfp
    rw [hargs, List.mem_map]
    constructor
    · rintro ⟨x, hx, rfl⟩; exact ⟨x, (L.cflags x).1 hx, rfl⟩
    · rintro ⟨x, hx, rfl⟩; exact ⟨x, (L.cflags x).2 hx, rfl⟩
  · obtain ⟨l, l1, l2, l3⟩ := L.libs v
    have hargs : args ((fieldOf t (libsKey v)).getD []) = (f.libs v).map (expand val) := by
      rw [hfo, f6]
      by_cases he : f.libs v = []
      · rw [if_pos he, he]; rfl
      · rw [if_neg he]
        have := args_expanded hvalue hclean (l := f.libs v) (fun x hx => ⟨(hlibp v x hx).1, (hlibp v x hx).2.2⟩)
        rw [hlibq v] at this
        exact this
    refine ⟨l, l1, l2, ?_⟩
    rw [hargs]
    rcases l3 with ⟨h1, e⟩ | ⟨h1, h2, d, hdir, e⟩
    · exact Or.inl ⟨h1, by rw [e]⟩
    · rw [hflag] at hdir
      cases hdir
      refine Or.inr ⟨h1, h2, ?_⟩
      rw [e, List.map_cons, libdir_piece]
      have hl : ascii "libdir" ∈ ds := by
        refine (hmem _).2 ⟨by decide +kernel, (hrefd _).2 (Or.inr (Or.inr (Or.inl ⟨rfl, ?_⟩))), hnores _ (by simp [reserved])⟩
        cases v with
        | pub => rw [e]; simp
        | priv => rw [e]; simp
      rw [hval _ (hresv _ (by simp [reserved])), dv2 _ hl (by decide +kernel)]
      simp
  · have hpk : packages ((fieldOf t (reqsKey v)).getD []) = f.reqs v := by
      rw [hfo, f5]
      by_cases he : f.reqs v = []
      · rw [if_pos he, he]
        have : packages [] = [] := by decide +kernel
        exact this
      · rw [if_neg he, Option.map_some, Option.getD_some, hexp, packages_sepBy]
        · exact fun x hx => ⟨(hreqp v x hx).1, (hreqp v x hx).2.1, (hreqp v x hx).2.2.1⟩
        · have : ∀ l : List Bytes, (∀ x ∈ l, 36 ∉ x) → 36 ∉ sepBy (ascii ", ") l := by
            intro l hl
            induction l with
            | nil => simp [sepBy]
            | cons x l ih =>
              have ih := ih (fun y hy => hl y (by simp [hy]))
              cases l with
              | nil => exact hl x (by simp)
              | cons y l =>
                rw [sepBy]
                simp only [List.mem_append, not_or]
                exact ⟨⟨hl x (by simp), by decide +kernel⟩, ih⟩
          exact this _ (fun x hx => (hreqp v x hx).2.2.2)
    rw [hpk]
    exact L.reqs v g

/-! ### The reserved names, over all calls -/

/-- Calls one after the other, in the order they are made; `added` is kept from each to the next. -/
inductive Calls (R : Roots) (opt : Bytes → Bytes) : List Bytes → List Call → List Bytes → Prop
  | nil {a} : Calls R opt a [] a
  | cons {a b c cs m} : generate R opt a c = .ok m → Calls R opt m.added cs b → Calls R opt a (c :: cs) b

theorem declared_skip {escape : Bool} {g : Option Given} {s t : Vars} (h : declareOpt escape true g s = .ok t) :
    t.added = s.added ∧ t.refd = s.refd := by
  have one : ∀ k v (s t : Vars), declareVar escape true k v s = .ok t → t.added = s.added ∧ t.refd = s.refd := by
    intro k v s t h
    unfold declareVar at h
    split at h
    · cases h
    · dsimp only at h
      obtain ⟨w, _, h2⟩ := (Res.bind_eq_ok (x := if escape = true then Esc.pkgconfEscape v else Res.ok v)).1 h
      cases h2
      exact ⟨rfl, rfl⟩
  cases g with
  | none => simp only [declareOpt] at h; cases h; exact ⟨rfl, rfl⟩
  | some g =>
    cases g with
    | strs l =>
      simp only [declareOpt, declareGiven] at h
      induction l generalizing s with
      | nil => simp only [declareStrs] at h; cases h; exact ⟨rfl, rfl⟩
      | cons x l ih =>
        simp only [declareStrs] at h
        cases hx : splitVar x with
        | none => rw [hx] at h; cases h
        | some kv =>
          obtain ⟨k, v⟩ := kv
          rw [hx] at h
          obtain ⟨u, h1, h2⟩ := (Res.bind_eq_ok (x := declareVar escape true k v s)).1 h
          obtain ⟨a1, a2⟩ := one _ _ _ _ h1
          obtain ⟨b1, b2⟩ := ih h2
          exact ⟨b1.trans a1, b2.trans a2⟩
    | dict l =>
      simp only [declareOpt, declareGiven] at h
      induction l generalizing s with
      | nil => simp only [declareDict] at h; cases h; exact ⟨rfl, rfl⟩
      | cons x l ih =>
        obtain ⟨k, v⟩ := x
        simp only [declareDict] at h
        obtain ⟨u, h1, h2⟩ := (Res.bind_eq_ok (x := declareVar escape true k v s)).1 h
        obtain ⟨a1, a2⟩ := one _ _ _ _ h1
        obtain ⟨b1, b2⟩ := ih h2
        exact ⟨b1.trans a1, b2.trans a2⟩

theorem generate_added {R : Roots} {opt : Bytes → Bytes} {added : List Bytes} {c : Call} {m : Made}
    (h : generate R opt added c = .ok m) (hres : ∀ d ∈ reserved, d ∉ added) : ∀ d ∈ reserved, d ∉ m.added := by
  unfold generate at h
  obtain ⟨⟨f, added'⟩, hcont, h⟩ := (Res.bind_eq_ok (x := contents R opt added c)).1 h
  obtain ⟨t, hw, h⟩ := (Res.bind_eq_ok (x := write f)).1 h
  cases h
  obtain ⟨_, _, _, _, _, hvars⟩ := contents_parts hcont
  cases hd : c.dataonly with
  | false =>
    obtain ⟨vs, us, pv, pu, hout, hfree, hnl, hadded, _⟩ := variables_exact hvars hd
    intro d hr hm
    rcases (hadded d).1 hm with h | ⟨_, p, hp, rfl⟩
    · exact hres d hr h
    · exact hfree p hp hr
  | true =>
    unfold variables at hvars
    rw [hd] at hvars
    obtain ⟨s, h1, h⟩ := (Res.bind_eq_ok (x := declareOpt true true c.variables
      ⟨firstRefd true (f.libs .pub ≠ [] || f.libs .priv ≠ []), added, []⟩)).1 hvars
    obtain ⟨u, h2, h⟩ := (Res.bind_eq_ok (x := declareOpt false true c.unescapedVariables s)).1 h
    obtain ⟨b', h3, h⟩ := (Res.bind_eq_ok (x := builtins opt u.refd u.added dirs)).1 h
    have h : u.added = added' := congrArg (fun x => match x with | Res.ok p => p.2.2 | _ => []) h
    have e1 := (declared_skip h1).1
    have e2 := (declared_skip h2).1
    dsimp only at e1
    intro d hr
    show d ∉ added'
    rw [← h, e2, e1]
    exact hres d hr

/-- **C98, over all calls:** whatever files were generated before, the prefix and the directories of headers and libraries
are defined in the next one. -/
theorem all_generated_partial {R : Roots} {opt : Bytes → Bytes} {cs : List Call} {added : List Bytes}
    (hc : Calls R opt [] cs added) {c : Call} {m : Made} (h : generate R opt added c = .ok m) (hd : c.dataonly = false)
    (fit : Fit R opt c) : ∃ val, Says R opt added c m.text val := by
  refine generated_partial h hd ?_ fit
  have : ∀ a b cs, Calls R opt a cs b → (∀ d ∈ reserved, d ∉ a) → ∀ d ∈ reserved, d ∉ b := by
    intro a b cs hc
    induction hc with
    | nil => exact id
    | cons h _ ih => intro h0; exact ih (generate_added h h0)
  exact this _ _ _ hc (fun _ _ => List.not_mem_nil)

/-- The names that are reserved are refused, except in `dataonly` files. -/
theorem reserved_refused {R : Roots} {opt : Bytes → Bytes} {added : List Bytes} {c : Call} {m : Made}
    (h : generate R opt added c = .ok m) (hd : c.dataonly = false) :
    ∃ vs us, PairsOpt c.variables vs ∧ PairsOpt c.unescapedVariables us ∧
      ∀ p ∈ vs ++ us, p.1 ≠ ascii "prefix" ∧ p.1 ≠ ascii "libdir" ∧ p.1 ≠ ascii "includedir" := by
  unfold generate at h
  obtain ⟨⟨f, added'⟩, hcont, h⟩ := (Res.bind_eq_ok (x := contents R opt added c)).1 h
  obtain ⟨_, _, _, _, _, hvars⟩ := contents_parts hcont
  obtain ⟨vs, us, pv, pu, _, hfree, _⟩ := variables_exact hvars hd
  refine ⟨vs, us, pv, pu, fun p hp => ?_⟩
  have := hfree p hp
  simpa [reserved] using this

/-! ### A case -/

/-- The options of an installation in `/usr/my dir`. -/
def exOpt : Bytes → Bytes := fun d =>
  if d = ascii "prefix" then ascii "/usr/my dir" else if d = ascii "libdir" then ascii "lib"
  else if d = ascii "includedir" then ascii "include" else ascii "share"

def exRoots : Roots := ⟨ascii "/s", ascii "/s/b"⟩

/-- A library, linked with another and threads, that is described with a variable. -/
def exCall : Call where
  project := ascii "p"
  projectVersion := ascii "1.2"
  main := some (.target (ascii "foo") .shared true none [.threads, .pkg (ascii "glib")]
    [.target (ascii "bar") .shared true none [] [] []] [.target (ascii "in") .static false none [] [] []])
  mainName := ascii "foo"
  subdirs := some [ascii ".", ascii "foo-1"]
  extraCflags := [ascii "-DA=b c"]
  requires := [.str (ascii "zlib")]
  variables := some (.strs [ascii "data=${datadir}/x y"])

example : (match generate exRoots exOpt [] exCall with | .ok m => m.text | _ => []) =
    ascii "prefix=/usr/my\\ dir\ndatadir=${prefix}/share\nincludedir=${prefix}/include\nlibdir=${prefix}/lib\n\ndata=${datadir}/x\\ y\n\nName: foo\nDescription: p: foo\nVersion: 1.2\nRequires: zlib\nRequires.private: glib\nLibs: -L${libdir} -lfoo\nLibs.private: -L${libdir} -pthread -lbar\nCflags: -I${includedir} -I${includedir}/foo-1 -DA=b\\ c\n" := by
  decide +kernel

theorem wellRef_plain {s : Bytes} (h : 36 ∉ s) : WellRef s := ⟨[.txt s], by simpa [Piece.ok] using h, by simp [Piece.text]⟩

/-- The call is fit. -/
theorem exFit : Fit exRoots exOpt exCall := by
  obtain ⟨pc, hpc⟩ : ∃ pc, collect exRoots exCall = .ok pc := ⟨_, rfl⟩
  have l1 : pc.libs .pub = [ascii "-lfoo"] := by
    have : (match collect exRoots exCall with | .ok pc => pc.libs .pub | _ => []) = [ascii "-lfoo"] := by decide +kernel
    rw [hpc] at this; exact this
  have l2 : pc.libs .priv = [ascii "-pthread", ascii "-lbar"] := by
    have : (match collect exRoots exCall with | .ok pc => pc.libs .priv | _ => []) = [ascii "-pthread", ascii "-lbar"] := by
      decide +kernel
    rw [hpc] at this; exact this
  have l3 : pc.reqs .pub = [] := by
    have : (match collect exRoots exCall with | .ok pc => pc.reqs .pub | _ => []) = [] := by decide +kernel
    rw [hpc] at this; exact this
  have l4 : pc.reqs .priv = [ascii "glib"] := by
    have : (match collect exRoots exCall with | .ok pc => pc.reqs .priv | _ => []) = [ascii "glib"] := by decide +kernel
    rw [hpc] at this; exact this
  have l5 : pc.cflags = [ascii "-I${includedir}", ascii "-I${includedir}/foo-1"] := by
    have : (match collect exRoots exCall with | .ok pc => pc.cflags | _ => []) =
      [ascii "-I${includedir}", ascii "-I${includedir}/foo-1"] := by decide +kernel
    rw [hpc] at this; exact this
  obtain ⟨k1, k2, k3, _⟩ := collect_exact hpc
  have plain : ∀ s : Bytes, (decide (10 ∉ s ∧ 35 ∉ s ∧ 9 ∉ s ∧ 92 ∉ s ∧ 34 ∉ s ∧ 39 ∉ s) && decide (s.getLast? ≠ some 32) &&
      decide (36 ∉ s)) = true → Plain s := by
    intro s h
    simp only [Bool.and_eq_true, decide_eq_true_eq] at h
    exact ⟨h.1.1, h.1.2, wellRef_plain h.2⟩
  have clean : ∀ s : Bytes, (decide (10 ∉ s) && decide (35 ∉ s) && s.head?.all (fun c => !blank c) &&
      s.getLast?.all (fun c => !blank c && c ≠ 92)) = true → Clean s := by
    intro s h
    simp only [Bool.and_eq_true, decide_eq_true_eq] at h
    exact ⟨h.1.1.1, h.1.1.2, h.1.2, h.2⟩
  have hsub : ∀ ds, exCall.subdirs = some ds → ∀ d ∈ ds, SubOk d ∧ Plain d := by
    intro ds hds d hd
    cases hds
    simp only [List.mem_cons, List.not_mem_nil, or_false] at hd
    rcases hd with rfl | rfl
    · exact ⟨Or.inl rfl, plain _ (by decide +kernel)⟩
    · refine ⟨Or.inr ⟨[ascii "foo-1"], by simp, ?_, rfl⟩, plain _ (by decide +kernel)⟩
      intro p hp
      rw [List.mem_singleton] at hp
      subst hp
      exact ⟨by decide +kernel, by decide +kernel, by decide +kernel, by decide +kernel⟩
  refine ⟨?_, ?_, ?_, ?_, ?_, ?_, ?_, ?_, ?_, ?_, rfl⟩
  · intro d hd
    have : ∀ d ∈ dirs, (decide (10 ∉ exOpt d ∧ 35 ∉ exOpt d ∧ 9 ∉ exOpt d ∧ 92 ∉ exOpt d ∧ 34 ∉ exOpt d ∧ 39 ∉ exOpt d) &&
        decide ((exOpt d).getLast? ≠ some 32) && decide (36 ∉ exOpt d)) = true := by decide +kernel
    refine ⟨plain _ (this d hd), ?_⟩
    have := this d hd
    simp only [Bool.and_eq_true, decide_eq_true_eq] at this
    exact this.2
  · exact hsub
  · intro f hf
    rcases hf with hf | hf
    · have h1 := (k3 f).2 (Or.inr hf)
      rw [l5] at h1
      have h2 : f ∈ includes exCall.subdirs := by
        have : includes exCall.subdirs = [ascii "-I${includedir}", ascii "-I${includedir}/foo-1"] := by decide +kernel
        rw [this]; exact h1
      exact plain_header hsub ((includes_iff (fun ds h d hd => (hsub ds h d hd).1)).1 h2)
    · simp only [exCall, List.mem_singleton] at hf
      subst hf
      exact ⟨plain _ (by decide +kernel), by decide +kernel⟩
  · intro v f hf
    rw [← k1] at hf
    cases v with
    | pub =>
      rw [l1, List.mem_singleton] at hf
      subst hf
      exact ⟨plain _ (by decide +kernel), by decide +kernel⟩
    | priv =>
      rw [l2] at hf
      simp only [List.mem_cons, List.not_mem_nil, or_false] at hf
      rcases hf with rfl | rfl <;> exact ⟨plain _ (by decide +kernel), by decide +kernel⟩
  · intro v f hf
    rw [← k2] at hf
    cases v with
    | pub =>
      rw [l3] at hf
      rcases hf with hf | ⟨q, hq, hn⟩
      · cases hf
      · simp only [requiresOf, exCall, List.mem_singleton] at hq
        subst hq
        cases hn
        exact ⟨by decide +kernel, clean _ (by decide +kernel), by decide +kernel, by decide +kernel⟩
    | priv =>
      rw [l4] at hf
      rcases hf with hf | ⟨q, hq, hn⟩
      · rw [List.mem_singleton] at hf
        subst hf
        exact ⟨by decide +kernel, clean _ (by decide +kernel), by decide +kernel, by decide +kernel⟩
      · cases hq
  · intro ps hps p hp
    have h0 : PairsOpt exCall.variables [(ascii "data", ascii "${datadir}/x y")] := by
      have : exCall.variables = some (.strs [ascii "data" ++ 61 :: ascii "${datadir}/x y"]) := by
        simp only [exCall]
        have : ascii "data=${datadir}/x y" = ascii "data" ++ 61 :: ascii "${datadir}/x y" := by decide +kernel
        rw [this]
      rw [this]
      exact .cons (by decide +kernel) .nil
    rw [pairs_unique hps h0, List.mem_singleton] at hp
    subst hp
    refine ⟨by decide +kernel, by decide +kernel, by decide +kernel, [.ref (ascii "datadir"), .txt (ascii "/x y")], ?_, by decide +kernel⟩
    intro p hp
    simp only [List.mem_cons, List.not_mem_nil, or_false] at hp
    rcases hp with rfl | rfl <;> decide +kernel
  · intro ps hps p hp
    cases hps
    cases hp
  · intro n hn
    cases hn
    refine ⟨clean _ (by decide +kernel), by decide +kernel, ?_⟩
    intro d hd
    cases hd
    exact ⟨clean _ (by decide +kernel), by decide +kernel⟩
  · intro u hu; cases hu
  · exact ⟨clean _ (by decide +kernel), by decide +kernel⟩

end Muon.Pc
