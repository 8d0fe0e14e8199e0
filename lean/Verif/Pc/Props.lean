import Verif.Pc.Vars
import Verif.Names.Lemmas
/-
C98: the file that `pkgconfig.generate()` writes says what the call asked for.
-/
namespace Muon.Pc
open Muon
open Spec

/-! ### The lists -/

theorem withLibdir_spec {pre : Bytes} {i : Option Bytes} {int : Bool} {l r : List Bytes} (h : withLibdir pre i int l = .ok r) :
    ((l = [] ∨ int = false) ∧ r = l) ∨ (l ≠ [] ∧ int = true ∧ ∃ f, libdirFlag pre i = .ok f ∧ r = f :: l) := by
  unfold withLibdir at h
  split at h
  · rename_i hc
    obtain ⟨f, h1, h2⟩ := (Res.bind_eq_ok (x := libdirFlag pre i)).1 h
    cases h2
    exact Or.inr ⟨hc.1, hc.2, f, h1, rfl⟩
  · rename_i hc
    cases h
    refine Or.inl ⟨?_, rfl⟩
    by_cases hl : l = []
    · exact Or.inl hl
    · refine Or.inr ?_
      cases int with
      | false => rfl
      | true => exact absurd ⟨hl, rfl⟩ hc

theorem procReqs_spec {rs : List Req} {d r : List Bytes} (h : procReqs rs d = .ok r) :
    ∃ ns, r = d ++ ns ∧ (∀ n, n ∈ ns ↔ ∃ q ∈ rs, Spec.Names q n) ∧ ∀ q ∈ rs, q = .nothing ∨ ∃ n, Spec.Names q n := by
  induction rs generalizing d with
  | nil => simp only [procReqs] at h; cases h; exact ⟨[], by simp, by simp, fun _ h => nomatch h⟩
  | cons q rs ih =>
    have one : ∀ n, Spec.Names q n → (∀ m, Spec.Names q m → m = n) → procReqs rs (d ++ [n]) = .ok r →
        ∃ ns, r = d ++ ns ∧ (∀ n, n ∈ ns ↔ ∃ q' ∈ q :: rs, Spec.Names q' n) ∧ ∀ q' ∈ q :: rs, q' = .nothing ∨ ∃ n, Spec.Names q' n := by
      intro n h1 h2 h3
      obtain ⟨ns, i1, i2, i3⟩ := ih h3
      refine ⟨n :: ns, by rw [i1]; simp, fun m => ?_, fun q' hq => ?_⟩
      · rw [List.mem_cons, i2]
        constructor
        · rintro (rfl | ⟨q', hq, h⟩)
          · exact ⟨q, by simp, h1⟩
          · exact ⟨q', by simp [hq], h⟩
        · rintro ⟨q', hq, hn⟩
          rcases List.mem_cons.1 hq with e | hq
          · rw [e] at hn; exact Or.inl (h2 m hn)
          · exact Or.inr ⟨q', hq, hn⟩
      · rcases List.mem_cons.1 hq with rfl | hq
        · exact Or.inr ⟨n, h1⟩
        · exact i3 q' hq
    cases q with
    | str s => exact one s (.str s) (by intro m h; cases h; rfl) (by simpa only [procReqs] using h)
    | target g =>
      cases g with
      | none => simp only [procReqs] at h; cases h
      | some g => exact one g (.target g) (by intro m h; cases h; rfl) (by simpa only [procReqs] using h)
    | nothing =>
      simp only [procReqs] at h
      obtain ⟨ns, i1, i2, i3⟩ := ih h
      refine ⟨ns, i1, fun m => ?_, fun q' hq => ?_⟩
      · rw [i2]
        constructor
        · rintro ⟨q', hq, h⟩; exact ⟨q', by simp [hq], h⟩
        · rintro ⟨q', hq, h⟩
          rcases List.mem_cons.1 hq with rfl | hq
          · cases h
          · exact ⟨q', hq, h⟩
      · rcases List.mem_cons.1 hq with rfl | hq
        · exact Or.inl rfl
        · exact i3 q' hq
    | pkg n => exact one n (.pkg n) (by intro m h; cases h; rfl) (by simpa only [procReqs] using h)
    | dep => simp only [procReqs] at h; cases h

/-- The parts of a directory for headers that is given. -/
def SubOk (d : Bytes) : Prop :=
  d = ascii "." ∨ ∃ x : List Bytes, x ≠ [] ∧ (∀ p ∈ x, Path.Comp p) ∧ d = Path.Spec.sepJoin x

theorem dot_eq : ascii "." = [46] := by decide +kernel

theorem include_text {d : Bytes} (h : SubOk d) (hd : d ≠ ascii ".") : include_ d = ascii "-I${includedir}/" ++ d := by
  rcases h with h | ⟨x, h1, h2, rfl⟩
  · exact absurd h hd
  · unfold include_
    rw [if_neg (by rw [← dot_eq]; exact hd), Names.join_sep (by decide +kernel) (by decide +kernel) h1 h2]
    have e1 : Path.Spec.isAbs (ascii "-I${includedir}") = false := by decide +kernel
    have e2 : Path.Spec.comps (ascii "-I${includedir}") = [ascii "-I${includedir}"] := by decide +kernel
    rw [e1, e2, Path.render_append _ _ _ (by simp) h1]
    have e3 : Path.Spec.render false [ascii "-I${includedir}"] ++ [47] = ascii "-I${includedir}/" := by decide +kernel
    rw [e3]

theorem includes_iff {c : Call} (hs : ∀ ds, c.subdirs = some ds → ∀ d ∈ ds, SubOk d) {f : Bytes} :
    f ∈ includes c.subdirs ↔ Header c f := by
  constructor
  · intro h
    cases hc : c.subdirs with
    | none => rw [hc] at h; simp only [includes, List.mem_singleton] at h; subst h; exact .default hc
    | some ds =>
      rw [hc] at h
      simp only [includes, List.mem_map] at h
      obtain ⟨d, hd, rfl⟩ := h
      by_cases he : d = ascii "."
      · subst he
        exact .dot hc hd
      · rw [include_text (hs ds hc d hd) he]; exact .sub hc hd he
  · intro h
    cases h with
    | default hc => rw [hc]; simp [includes]
    | dot hc hd => rw [hc]; simp only [includes, List.mem_map]; exact ⟨_, hd, by decide +kernel⟩
    | sub hc hd he => rw [hc]; simp only [includes, List.mem_map]; exact ⟨_, hd, include_text (hs _ hc _ hd) he⟩

/-- What the lists of a file are. -/
structure Lists (R : Roots) (c : Call) (pre : Bytes) (f : File) : Prop where
  cflags : ∀ x, x ∈ f.cflags ↔ Cflag R c x
  libs : ∀ v, ∃ l : List Bytes, l.Nodup ∧ (∀ x, x ∈ l ↔ Listed R c v x) ∧
    ((l = [] ∨ ¬ Stands R c (.internal v)) ∧ f.libs v = l ∨
      l ≠ [] ∧ Stands R c (.internal v) ∧ ∃ d, libdirFlag pre c.installDir = .ok d ∧ f.libs v = d :: l)
  reqs : ∀ v x, x ∈ f.reqs v ↔ Needed R c v x ∨ ∃ q ∈ requiresOf c v, Spec.Names q x
  proper : ∀ r y, Root c r → Behind r y → Proper y

/-- **The lists of the file.** Every flag that the libraries and dependencies stand for, directly or through others, is in the
list it belongs to, and nothing else; no library is listed twice. -/
theorem contents_lists {R : Roots} {opt : Bytes → Bytes} {added added' : List Bytes} {c : Call} {f : File}
    (h : contents R opt added c = .ok (f, added')) (hs : ∀ ds, c.subdirs = some ds → ∀ d ∈ ds, SubOk d) :
    Lists R c (opt (ascii "prefix")) f := by
  unfold contents at h
  obtain ⟨name, _, h⟩ := (Res.bind_eq_ok (x := nameOf c)).1 h
  obtain ⟨pc, hc, h⟩ := (Res.bind_eq_ok (x := collect R c)).1 h
  obtain ⟨pub, hp, h⟩ := (Res.bind_eq_ok (x := withLibdir (opt (ascii "prefix")) c.installDir (pc.internal .pub)
    ((dedup pc).libs .pub))).1 h
  obtain ⟨priv, hv, h⟩ := (Res.bind_eq_ok (x := withLibdir (opt (ascii "prefix")) c.installDir (pc.internal .priv)
    ((dedup pc).libs .priv))).1 h
  obtain ⟨rp, hrp, h⟩ := (Res.bind_eq_ok (x := procReqs c.requires ((dedup pc).reqs .pub))).1 h
  obtain ⟨rv, hrv, h⟩ := (Res.bind_eq_ok (x := procReqs c.requiresPrivate ((dedup pc).reqs .priv))).1 h
  obtain ⟨vars, _, h⟩ := (Res.bind_eq_ok (x := variables opt added c (pub ≠ [] || priv ≠ []))).1 h
  cases h
  obtain ⟨k1, k2, k3, k4, k5, k6⟩ := collect_exact hc
  obtain ⟨d0, d1, d2, d3, d4, _⟩ := dedup_exact pc
  have n1 := (List.nodup_append.1 d0).1
  have n2 := (List.nodup_append.1 d0).2.1
  have np := (List.nodup_append.1 n1).2.1
  have nv := (List.nodup_append.1 n2).2.1
  have hi : ∀ v, pc.internal v = false ↔ ¬ Stands R c (.internal v) := by
    intro v
    rw [← k5 v]
    simp
  refine ⟨fun x => ?_, fun v => ?_, fun v x => ?_, k6⟩
  · simp only [List.mem_append, k3, includes_iff hs]
    constructor
    · rintro ((h | h) | h)
      · exact .header h
      · exact .declared h
      · exact .extra h
    · intro h
      cases h with
      | header h => exact Or.inl (Or.inl h)
      | declared h => exact Or.inl (Or.inr h)
      | extra h => exact Or.inr h
  · cases v with
    | pub =>
      refine ⟨(dedup pc).libs .pub, np, fun x => ?_, ?_⟩
      · rw [d2, k1, k4, k2]; rfl
      · have := withLibdir_spec hp
        rw [hi, k5] at this
        exact this
    | priv =>
      refine ⟨(dedup pc).libs .priv, nv, fun x => ?_, ?_⟩
      · rw [d4, k1, k4, k2, k1, k2]; rfl
      · have := withLibdir_spec hv
        rw [hi, k5] at this
        exact this
  · cases v with
    | pub =>
      obtain ⟨ns, e1, e2, _⟩ := procReqs_spec hrp
      show x ∈ rp ↔ _
      rw [e1, List.mem_append, e2, d1, k2, k4]; rfl
    | priv =>
      obtain ⟨ns, e1, e2, _⟩ := procReqs_spec hrv
      show x ∈ rv ↔ _
      rw [e1, List.mem_append, e2, d3, k2, k4, k2, k1]; rfl

/-! ### Joined lists -/

theorem intersperse_sepBy (sep : Bytes) (l : List Bytes) : (l.intersperse sep).flatten = sepBy sep l := by
  induction l with
  | nil => rfl
  | cons x l ih =>
    cases l with
    | nil => simp [sepBy]
    | cons y l =>
      rw [List.intersperse_cons_cons, List.flatten_cons, List.flatten_cons, ih, sepBy, List.append_assoc]

theorem sepBy_ne {sep : Bytes} {x : Bytes} {l : List Bytes} (h : x ≠ []) : sepBy sep (x :: l) ≠ [] := by
  cases l with
  | nil => exact h
  | cons y l => rw [sepBy]; simp [h]

theorem clean_sepBy {sep : Bytes} (hsep : 10 ∉ sep ∧ 35 ∉ sep) {l : List Bytes} (h : ∀ x ∈ l, x ≠ [] ∧ Clean x) :
    Clean (sepBy sep l) := by
  induction l with
  | nil => exact ⟨by simp [sepBy], by simp [sepBy], rfl, rfl⟩
  | cons x l ih =>
    have ih := ih (fun y hy => h y (by simp [hy]))
    obtain ⟨hx, h1, h2, h3, h4⟩ := h x (by simp)
    cases l with
    | nil => exact ⟨h1, h2, h3, h4⟩
    | cons y l =>
      have hn : sepBy sep (y :: l) ≠ [] := sepBy_ne (h y (by simp)).1
      obtain ⟨i1, i2, i3, i4⟩ := ih
      rw [sepBy]
      refine ⟨?_, ?_, ?_, ?_⟩
      · simp only [List.mem_append, not_or]; exact ⟨⟨h1, hsep.1⟩, i1⟩
      · simp only [List.mem_append, not_or]; exact ⟨⟨h2, hsep.2⟩, i2⟩
      · cases x with
        | nil => exact absurd rfl hx
        | cons a x => exact h3
      · rw [List.getLast?_append]
        cases hg : (sepBy sep (y :: l)).getLast? with
        | none => exact absurd (List.getLast?_eq_none_iff.1 hg) hn
        | some z => rw [hg] at i4; exact i4

theorem quoted_last {s : Bytes} (h : s.getLast? ≠ some 32) : (quoted s).getLast? = s.getLast? := by
  rcases List.eq_nil_or_concat s with rfl | ⟨l, a, rfl⟩
  · rfl
  · have ha : a ≠ 32 := by
      intro e; subst e; exact h (by simp)
    rw [List.concat_eq_append, quoted_append]
    have : quoted [a] = [a] := by simp [quoted, ha]
    rw [this]; simp

theorem clean_quoted {s : Bytes} (h : Plain s) : Clean (quoted s) := by
  obtain ⟨⟨h1, h2, h3, h4, _⟩, h5, _⟩ := h
  refine ⟨?_, ?_, ?_, ?_⟩
  · intro hm
    rcases mem_quoted hm with hm | hm
    · exact h1 hm
    · exact absurd hm (by decide)
  · intro hm
    rcases mem_quoted hm with hm | hm
    · exact h2 hm
    · exact absurd hm (by decide)
  · cases s with
    | nil => rfl
    | cons c s =>
      have h9 : c ≠ 9 := fun e => h3 (by simp [e])
      by_cases hc : c = 32
      · subst hc; rfl
      · have e : quoted (c :: s) = c :: quoted s := by simp [quoted, hc]
        rw [e]
        simp [blank, hc, h9]
  · rw [quoted_last h5]
    cases hg : s.getLast? with
    | none => rfl
    | some z =>
      have hz := List.mem_of_getLast? hg
      have z1 : z ≠ 9 := fun e => h3 (e ▸ hz)
      have z2 : z ≠ 92 := fun e => h4 (e ▸ hz)
      have z3 : z ≠ 32 := fun e => h5 (by rw [hg, e])
      simp [blank, z1, z2, z3]

theorem quoted_ne {s : Bytes} (h : s ≠ []) : quoted s ≠ [] := by
  cases s with
  | nil => exact absurd rfl h
  | cons c s =>
    unfold quoted
    rw [List.flatMap_cons]
    split <;> simp

theorem expand_sepBy {e f : Bytes → Bytes} (h : ∀ n, n.all keyChar = true → e n = quoted (f n)) {l : List Bytes}
    (hl : ∀ s ∈ l, WellRef s) : expand e (sepBy [32] (l.map quoted)) = sepBy [32] ((l.map (expand f)).map quoted) := by
  induction l with
  | nil => rfl
  | cons s l ih =>
    have ih := ih (fun y hy => hl y (by simp [hy]))
    cases l with
    | nil => exact expand_quoted' h (hl s (by simp))
    | cons t l =>
      have ih' : expandFrom e none (sepBy [32] (List.map quoted (t :: l))) =
        sepBy [32] (List.map quoted (List.map (expand f) (t :: l))) := ih
      simp only [List.map_cons, sepBy] at ih' ⊢
      unfold expand
      rw [List.append_assoc, expand_quoted h (hl s (by simp))]
      have : expandFrom e none ([32] ++ sepBy [32] (quoted t :: List.map quoted l)) =
          [32] ++ expandFrom e none (sepBy [32] (quoted t :: List.map quoted l)) := expand_plain e (by decide)
      rw [this, ih', ← List.append_assoc]
      rfl

theorem mem_expand {f : Bytes → Bytes} {s : Bytes} (hs : WellRef s) {x : UInt8} (h : x ∈ expand f s) :
    x ∈ s ∨ ∃ n, n.all keyChar = true ∧ x ∈ f n := by
  obtain ⟨ps, hp, rfl⟩ := hs
  have := expand_pieces f hp []
  rw [List.append_nil] at this
  unfold expand at h
  rw [this] at h
  simp only [expandFrom, List.append_nil] at h
  obtain ⟨p, h1, h2⟩ := List.mem_flatMap.1 h
  cases p with
  | txt s => exact Or.inl (List.mem_flatMap.2 ⟨_, h1, h2⟩)
  | ref n => exact Or.inr ⟨n, hp _ h1, h2⟩

/-- The values of the variables have only bytes that are in the values written, which are no reference. -/
theorem mem_env {x : UInt8} (ds : List Def) (hd : ∀ d ∈ ds, WellRef d.val ∧ x ∉ d.val) {f : Bytes → Bytes} (hf : ∀ n, x ∉ f n) :
    ∀ n, x ∉ env (ds.map (fun d => Line.var d.key d.val)) f n := by
  induction ds generalizing f with
  | nil => exact hf
  | cons d ds ih =>
    rw [List.map_cons, env]
    refine ih (fun d hd' => hd d (by simp [hd'])) ?_
    intro n
    by_cases hk : n = d.key
    · rw [if_pos hk]
      intro hx
      rcases mem_expand (hd d (by simp)).1 hx with h | ⟨m, _, h⟩
      · exact (hd d (by simp)).2 h
      · exact hf m h
    · rw [if_neg hk]; exact hf n

theorem args_expanded {e f : Bytes → Bytes} (h : ∀ n, n.all keyChar = true → e n = quoted (f n))
    (hf : ∀ n, 92 ∉ f n ∧ 9 ∉ f n) {l : List Bytes} (hl : ∀ s ∈ l, Plain s ∧ s.head? = some 45) :
    args (expand e (sepBy [32] (l.map quoted))) = l.map (expand f) := by
  rw [expand_sepBy h (fun s hs => (hl s hs).1.2.2), ← intersperse_sepBy, args_joined]
  intro a ha
  obtain ⟨s, hs, rfl⟩ := List.mem_map.1 ha
  obtain ⟨hp, hh⟩ := hl s hs
  refine ⟨?_, ?_, ?_⟩
  · cases s with
    | nil => cases hh
    | cons c s =>
      simp only [List.head?_cons, Option.some.injEq] at hh
      subst hh
      unfold expand
      rw [expandFrom.eq_def]
      simp
  · intro hm
    rcases mem_expand hp.2.2 hm with h | ⟨n, _, h⟩
    · exact hp.1.2.2.2.1 h
    · exact (hf n).1 h
  · intro hm
    rcases mem_expand hp.2.2 hm with h | ⟨n, _, h⟩
    · exact hp.1.2.2.1 h
    · exact (hf n).2 h

/-! ### Fields -/

/-- The first of the fields with a name. -/
def look (fs : List (Bytes × Bytes)) (key : Bytes) : Option Bytes := (fs.find? (fun kv => kv.1 = key)).map (·.2)

theorem findSome_look {fs : List (Bytes × Bytes)} {key : Bytes} {g : Bytes → Bytes} {k : Line → Option Bytes}
    (hk : ∀ a b, k (.fld a b) = if a = key then some (g b) else none) :
    (fs.map (fun kv => Line.fld kv.1 kv.2)).findSome? k = (look fs key).map g := by
  induction fs with
  | nil => rfl
  | cons x fs ih =>
    rw [List.map_cons, List.findSome?_cons, hk]
    unfold look
    by_cases h : x.1 = key
    · rw [if_pos h, List.find?_cons_of_pos (by simpa using h)]; rfl
    · rw [if_neg h, List.find?_cons_of_neg (by simpa using h)]; exact ih

theorem fieldOf_look {t key : Bytes} {ds : List Def} {fs : List (Bytes × Bytes)}
    (h : Spec.read t = ds.map (fun d => Line.var d.key d.val) ++ fs.map (fun kv => Line.fld kv.1 kv.2)) :
    fieldOf t key = (look fs key).map (expand (value t)) := by
  unfold fieldOf
  rw [h, List.findSome?_append]
  have : (ds.map (fun d => Line.var d.key d.val)).findSome? (ofLine (value t) key) = none := by
    rw [List.findSome?_eq_none_iff]
    intro l hl
    obtain ⟨d, _, rfl⟩ := List.mem_map.1 hl
    rfl
  rw [this, Option.none_or]
  exact findSome_look (fun _ _ => rfl)

theorem look_append (a b : List (Bytes × Bytes)) (key : Bytes) : look (a ++ b) key = (look a key).or (look b key) := by
  unfold look
  rw [List.find?_append]
  cases a.find? (fun kv => decide (kv.1 = key)) <;> rfl

theorem look_one (k v key : Bytes) : look [(k, v)] key = if k = key then some v else none := by
  unfold look
  by_cases h : k = key
  · rw [if_pos h, List.find?_cons_of_pos (by simpa using h)]; rfl
  · rw [if_neg h, List.find?_cons_of_neg (by simpa using h)]; rfl

theorem look_if (P : Prop) [Decidable P] (k v key : Bytes) :
    look (if P then [] else [(k, v)]) key = if k = key then (if P then none else some v) else none := by
  by_cases hP : P
  · simp only [hP, if_true]
    by_cases h : k = key
    · rw [if_pos h]; rfl
    · rw [if_neg h]; rfl
  · simp only [hP, if_false]; exact look_one k v key

theorem look_opt (o : Option Bytes) (k key : Bytes) :
    look (optFld k o) key = if k = key then o else none := by
  cases o with
  | none => simp [look, optFld]
  | some u => exact look_one k u key

theorem keys_distinct : [ascii "Name", ascii "Description", ascii "URL", ascii "Version", ascii "Requires",
    ascii "Requires.private", ascii "Libs", ascii "Libs.private", ascii "Cflags"].Pairwise (fun a b => a ≠ b ∧ b ≠ a) := by
  decide +kernel

/-- The fields of a file. -/
theorem look_fields (f : File) (desc : Bytes) (cflags : Option Bytes) :
    look (fldLines f desc cflags) (ascii "Name") = some f.name ∧
    look (fldLines f desc cflags) (ascii "Description") = some desc ∧
    look (fldLines f desc cflags) (ascii "URL") = f.url ∧
    look (fldLines f desc cflags) (ascii "Version") = some f.version ∧
    (∀ v, look (fldLines f desc cflags) (reqsKey v) = if f.reqs v = [] then none else some (sepBy (ascii ", ") (f.reqs v))) ∧
    (∀ v, look (fldLines f desc cflags) (libsKey v) = if f.libs v = [] then none else some (sepBy [32] (f.libs v))) ∧
    look (fldLines f desc cflags) (ascii "Cflags") = cflags := by
  have hk := keys_distinct
  simp only [List.pairwise_cons, List.mem_cons, List.not_mem_nil, or_false, forall_eq_or_imp, forall_eq] at hk
  have e : [(ascii "Name", f.name), (ascii "Description", desc)] = [(ascii "Name", f.name)] ++ [(ascii "Description", desc)] := rfl
  unfold fldLines
  rw [e]
  simp only [look_append, look_one, look_if, look_opt]
  refine ⟨?_, ?_, ?_, ?_, fun v => ?_, fun v => ?_, ?_⟩
  · simp [hk]
  · simp [hk]
  · simp [hk]
  · simp [hk]
  · cases v <;> simp [hk, reqsKey]
  · cases v <;> simp [hk, libsKey]
  · simp [hk]

end Muon.Pc
