import Verif.Deps.Lang
namespace Muon.Deps
open Muon Spec

/-! ### what a target is built with -/

/-- A target is built with exactly what its calls, and those of the things it links with or depends on, bring. -/
theorem target_has {e : Env} {P : List Cmd} {st : Store} (h : run e P [] = .ok st) {i : Nat} {k : Kind} {p : Bytes} {int ext : BDep}
    (ho : st[i]? = some (.target k p int ext)) :
    ∃ c, P[i]? = some c ∧ ∀ f v, v ∈ int.lists f ↔ Brings e.root P i f v ∨ (f = .linkArgs ∧ v ∈ ownLinkArgs c) := by
  obtain ⟨lw, lh, ds, la, inc, od, rp, ss, os, hP, hm⟩ := run_fits h i _ ho
  exact ⟨_, hP, fun f v => (hm f v).1⟩

/-- A dependency carries exactly what it brings. -/
theorem dependency_has {e : Env} {P : List Cmd} {st : Store} (h : run e P [] = .ok st) {i : Nat} {found : Bool} {d : BDep}
    (ho : st[i]? = some (.dep found d)) : (found = true ↔ Found P i) ∧ ∀ f v, v ∈ d.lists f ↔ Brings e.root P i f v := by
  obtain ⟨a, b, -⟩ := run_fits h i _ ho
  exact ⟨a, b⟩

/-- In particular the libraries on which a static library is built reach the programs that link with it, over any number
of static libraries in between. -/
theorem static_chain {e : Env} {P : List Cmd} {st : Store} (h : run e P [] = .ok st) {i j : Nat} {k : Kind} {p q : Bytes} {int ext int' ext' : BDep}
    (ho : st[i]? = some (.target k p int ext)) (hj : st[j]? = some (.target .static q int' ext')) {c : Cmd} (hP : P[i]? = some c)
    (hl : Links c false j) :
    (⟨q, false⟩ : Item) ∈ int.lists .linkWith ∧ (∀ v ∈ int'.lists .linkWith, v ∈ int.lists .linkWith) ∧
      (∀ v ∈ int'.lists .linkWhole, v ∈ int.lists .linkWhole) ∧ (∀ v ∈ int'.lists .rpath, v ∈ int.lists .rpath) := by
  obtain ⟨c1, hc1, hi⟩ := target_has h ho
  obtain ⟨c2, hc2, hj'⟩ := target_has h hj
  obtain ⟨_, _, _, _, _, _, _, _, _, hPj, -⟩ := run_fits h j _ hj
  have hm : Makes P j j .static q := .target hPj
  refine ⟨(hi _ _).2 (.inl (.library hP hl hm (by decide))), ?_, ?_, ?_⟩
  all_goals
    intro v hv
    refine (hi _ _).2 (.inl (.through hP hl hm ?_ (((hj' _ _).1 hv).elim id (fun h => absurd h.1 (by decide)))))
    first | rfl | trivial

/-- Where the keywords are used at all, nothing stands twice in what comes out of them, except arguments, of which only
`-pthread` is not repeated. -/
theorem link_once {root : Bytes} {st : Store} {whole : Bool} {l : List Nat} {d d' : BDep}
    (h : processLink root st whole (some l) d = .ok d') {f : Field} (hf : f ≠ .linkArgs ∧ f ≠ .compileArgs) : (d'.lists f).Nodup := by
  unfold processLink at h
  obtain ⟨s, hs, h⟩ := Res.bind_eq_ok.1 h
  cases h
  unfold dedupDep
  simp only
  rw [if_neg (by rintro (h | h); exact hf.1 h; exact hf.2 h)]
  exact nodup_dedup _

theorem foldl_grow (l : List Item) : ∀ r : List Item, r <+: l.foldl (fun r x => if x ∈ r then r else r ++ [x]) r := by
  induction l with
  | nil => intro r; exact List.prefix_refl r
  | cons x l ih =>
    intro r
    rw [List.foldl_cons]
    refine List.IsPrefix.trans ?_ (ih _)
    split
    · exact List.prefix_refl r
    · exact List.prefix_append r [x]

theorem foldl_nodup (l : List Item) : ∀ r : List Item, (r ++ l).Nodup → l.foldl (fun r x => if x ∈ r then r else r ++ [x]) r = r ++ l := by
  induction l with
  | nil => intro r _; simp
  | cons x l ih =>
    intro r h
    have hx : x ∉ r := by
      intro hx
      rw [List.nodup_append] at h
      exact h.2.2 x hx x (by simp) rfl
    rw [List.foldl_cons, if_neg hx, ih _ (by rw [List.append_assoc]; exact h), List.append_assoc, List.singleton_append]

theorem dedup_prefix {a b : List Item} (hn : a.Nodup) (h : a <+: b) : a <+: dedup b := by
  obtain ⟨t, rfl⟩ := h
  unfold dedup
  rw [List.foldl_append, foldl_nodup a [] (by simpa using hn), List.nil_append]
  exact foldl_grow t a

theorem each_prefix {st : Store} (f : Field) : ∀ (l : List Nat) (s s' : List Nat × BDep), each (depOne st) l s = .ok s' → s.2.lists f <+: s'.2.lists f := by
  intro l
  induction l with
  | nil => intro s s' h; unfold each at h; cases h; exact List.prefix_refl _
  | cons i l ih =>
    intro s s' h
    unfold each at h
    obtain ⟨s1, h1, h⟩ := (Res.bind_eq_ok (x := depOne st s i)).1 h
    refine List.IsPrefix.trans ?_ (ih _ _ h)
    unfold depOne at h1
    split at h1
    · cases h1; exact List.prefix_refl _
    · split at h1
      · rename_i found src hk
        cases h1
        cases found with
        | true => simp [merge]
        | false => exact List.prefix_refl _
      · cases h1

/-- The libraries that are named in `link_with` and `link_whole` come first, before those that `dependencies` bring: what
there is without this keyword is a beginning of what there is with it. And the target's own include directories come
before all others. -/
theorem own_first {e : Env} {st : Store} {k k' : Kind} {p p' : Bytes} {lw lh ds : Option (List Nat)} {la inc od rp : List Item} {ss os : List Bytes}
    {int ext int0 ext0 : BDep} (h0 : createTarget e st k p lw lh none la inc od rp ss os = .ok (.target k p int0 ext0))
    (h : createTarget e st k' p' lw lh ds la inc od rp ss os = .ok (.target k' p' int ext)) :
    int0.lists .linkWith <+: int.lists .linkWith ∧ int0.lists .linkWhole <+: int.lists .linkWhole ∧ inc <+: int.lists .includes := by
  obtain ⟨a1, a2, a3, _, b1, b2, b3, -, a4, b4, -, b5⟩ := createTarget_ok h0
  obtain ⟨d1, d2, d3, _, h1, h2, h3, -, d4, h4, -, h5⟩ := createTarget_ok h
  rw [b1] at h1; cases h1
  rw [b2] at h2; cases h2
  unfold processDeps at b3
  cases b3
  cases b5
  cases h5
  have hnd : ∀ f, f = .linkWith ∨ f = .linkWhole → (a2.lists f).Nodup := by
    intro f hf
    have hf' : f ≠ .linkArgs ∧ f ≠ .compileArgs := by rcases hf with rfl | rfl <;> decide
    cases lh with
    | some l => exact link_once b2 hf'
    | none =>
      unfold processLink at b2
      cases b2
      cases lw with
      | some l => exact link_once b1 hf'
      | none => unfold processLink at b1; cases b1; exact List.nodup_nil
  have key : ∀ f, f = .linkWith ∨ f = .linkWhole → a2.lists f <+: d3.lists f := by
    intro f hf
    unfold processDeps at h3
    cases ds with
    | none => cases h3; exact List.prefix_refl _
    | some l =>
      obtain ⟨s, hs, h3⟩ := (Res.bind_eq_ok (x := each (depOne st) l ([], a2))).1 h3
      cases h3
      unfold dedupDep
      simp only
      rw [if_neg (by rcases hf with rfl | rfl <;> decide)]
      exact dedup_prefix (hnd f hf) (each_prefix f l _ _ hs)
  refine ⟨?_, ?_, ?_⟩
  · have := key .linkWith (.inl rfl)
    simpa [BDep.set, b4, h4] using this
  · have := key .linkWhole (.inr rfl)
    simpa [BDep.set, b4, h4] using this
  · simp [BDep.set, h4]

theorem linkOuts_seen {st : Store} {whole : Bool} : ∀ {js : List Nat} {s s' : List Nat × BDep},
    linkOuts st whole js s = .ok s' → ∀ i ∈ s'.1, i ∈ s.1 ∨ ∃ p, st[i]? = some (.file p)
  | [], s, s', h => by
    simp only [linkOuts] at h
    cases h
    exact fun i hi => .inl hi
  | j :: js, (seen, d), s', h => by
    simp only [linkOuts] at h
    split at h
    · exact linkOuts_seen h
    · split at h
      · rename_i p hp
        intro i hi
        rcases linkOuts_seen h i hi with hi | hi
        · rcases List.mem_cons.1 hi with rfl | hi
          · exact .inr ⟨p, hp⟩
          · exact .inl hi
        · exact .inr hi
      · cases h

/-- Only static libraries can be linked whole. -/
theorem whole_static {root : Bytes} {st : Store} {l : List Nat} {d d' : BDep}
    (h : processLink root st true (some l) d = .ok d') {i : Nat} (hi : i ∈ l) {k : Kind} {p : Bytes} {int ext : BDep}
    (ht : st[i]? = some (.target k p int ext)) : k = .static := by
  unfold processLink at h
  obtain ⟨s, hs, -⟩ := Res.bind_eq_ok.1 h
  have key : ∀ (l : List Nat) (a b : List Nat × BDep), each (linkOne root st true) l a = .ok b →
      (∀ j ∈ a.1, ∀ k p int ext, st[j]? = some (.target k p int ext) → k = .static) →
      ∀ j ∈ l, ∀ k p int ext, st[j]? = some (.target k p int ext) → k = .static := by
    intro l
    induction l with
    | nil => intro a b _ _ j hj; cases hj
    | cons x xs ih =>
      intro a b h ha
      obtain ⟨a', h1, h2⟩ := (Res.bind_eq_ok (x := linkOne root st true a x)).1 h
      have hx : (∀ k p int ext, st[x]? = some (.target k p int ext) → k = .static) ∧
          (∀ j ∈ a'.1, ∀ k p int ext, st[j]? = some (.target k p int ext) → k = .static) := by
        have ht : ∀ {k p int ext} {ks : Nat}, st[ks]? = some (.target k p int ext) →
            ∀ {y}, (linkTarget root true k p ext a.2).bind (fun d => Res.ok (x :: a.1, d)) = .ok y →
            k = .static ∧ y.1 = x :: a.1 := by
          intro k p int ext ks _ y hy
          obtain ⟨z, hz, hy⟩ := Res.bind_eq_ok.1 hy
          cases hy
          unfold linkTarget at hz
          split at hz
          · cases hz
          · rename_i hk
            exact ⟨by cases k <;> simp_all, rfl⟩
        unfold linkOne at h1
        split at h1
        · rename_i hm
          cases h1
          exact ⟨ha x hm, ha⟩
        · split at h1
          · rename_i k p int ext hst
            obtain ⟨hk, he⟩ := ht hst h1
            refine ⟨fun k' p' i' e' h' => ?_, fun j hj k' p' i' e' h' => ?_⟩
            · rw [hst] at h'; cases h'; exact hk
            · rw [he] at hj
              rcases List.mem_cons.1 hj with rfl | hj
              · rw [hst] at h'; cases h'; exact hk
              · exact ha j hj _ _ _ _ h'
          · rename_i sb dyn hst
            split at h1
            · rename_i k p int ext hdyn
              obtain ⟨_, he⟩ := ht hdyn h1
              refine ⟨fun k' p' i' e' h' => (by rw [hst] at h'; cases h'), fun j hj k' p' i' e' h' => ?_⟩
              rw [he] at hj
              rcases List.mem_cons.1 hj with rfl | hj
              · rw [hst] at h'; cases h'
              · exact ha j hj _ _ _ _ h'
            · cases h1
          · rename_i outs hst
            refine ⟨fun k' p' i' e' h' => (by rw [hst] at h'; cases h'), fun j hj k' p' i' e' h' => ?_⟩
            rcases linkOuts_seen h1 j hj with hj | ⟨q, hq⟩
            · rcases List.mem_cons.1 hj with rfl | hj
              · rw [hst] at h'; cases h'
              · exact ha j hj _ _ _ _ h'
            · rw [hq] at h'; cases h'
          · rename_i q hst
            cases h1
            refine ⟨fun k' p' i' e' h' => (by rw [hst] at h'; cases h'), fun j hj k' p' i' e' h' => ?_⟩
            rcases List.mem_cons.1 hj with rfl | hj
            · rw [hst] at h'; cases h'
            · exact ha j hj _ _ _ _ h'
          · cases h1
      intro j hj
      rcases List.mem_cons.1 hj with rfl | hj
      · exact hx.1
      · exact ih a' b h2 hx.2 j hj
  exact key l ([], d) s hs (fun j hj => by cases hj) i hi k p int ext ht

example : processLink [] [.target .static [108] empty empty] true (some [0]) empty ≠ .error := by
  simp [processLink, each, linkOne, linkTarget, Res.bind]

/-! ### the linker's arguments -/

theorem dedup_nil {l : List Item} (h : (dedup l).isEmpty = true) : l = [] := by
  rw [List.isEmpty_iff] at h
  cases l with
  | nil => rfl
  | cons x l => have := (mem_dedup (x :: l) x).2 (by simp); rw [h] at this; cases this

/-- Everything a target is linked with stands on its command line, in one group; the libraries of `link_whole` between
the arguments that switch this on and off; and the run paths as far as they are not empty. -/
theorem link_line (l : Linker) (rel : Bytes → Bytes) (opts : List Bytes) (d : BDep) :
    ∃ before whole with_ notFound,
      (linkLine l rel opts d = before ∧ whole = [] ∧ with_ = [] ∧ notFound = [] ∨
        ∃ on off, linkLine l rel opts d = before ++ l.startGroup ++ (on ++ whole ++ off) ++ with_ ++ notFound ++ l.endGroup ∧
          (whole ≠ [] → on = l.wholeArchive ∧ off = l.noWholeArchive) ∧ (whole = [] → on = [] ∧ off = [])) ∧
      (∀ p, p ∈ whole ↔ ∃ v ∈ d.lists .linkWhole, rel v.text = p) ∧ whole.Nodup ∧
      (∀ p, p ∈ with_ ↔ ∃ v ∈ d.lists .linkWith, rel v.text = p) ∧ with_.Nodup ∧
      (∀ v ∈ d.lists .notFound, ∀ a ∈ l.lib v.text, a ∈ notFound) ∧
      (∀ v ∈ d.lists .linkArgs, v.text ∈ before) ∧ (∀ a ∈ opts, a ∈ before) ∧
      (∀ v ∈ d.lists .rpath, v.text ≠ [] → ∀ a ∈ l.rpath v.text, a ∈ before) := by
  have mem : ∀ (f : Field) (p : Bytes), p ∈ (dedup ((d.lists f).map (fun v => (⟨rel v.text, false⟩ : Item)))).map Item.text ↔
      ∃ v ∈ d.lists f, rel v.text = p := by
    intro f p
    rw [List.mem_map]
    constructor
    · rintro ⟨w, hw, rfl⟩
      rw [mem_dedup] at hw
      obtain ⟨v, hv, rfl⟩ := List.mem_map.1 hw
      exact ⟨v, hv, rfl⟩
    · rintro ⟨v, hv, rfl⟩
      exact ⟨⟨rel v.text, false⟩, (mem_dedup _ _).2 (List.mem_map.2 ⟨v, hv, rfl⟩), rfl⟩
  have nd : ∀ (f : Field), ((dedup ((d.lists f).map (fun v => (⟨rel v.text, false⟩ : Item)))).map Item.text).Nodup := by
    intro f
    have h1 := nodup_dedup ((d.lists f).map (fun v => (⟨rel v.text, false⟩ : Item)))
    have h2 : ∀ w ∈ dedup ((d.lists f).map (fun v => (⟨rel v.text, false⟩ : Item))), w.system = false := by
      intro w hw
      rw [mem_dedup] at hw
      obtain ⟨v, hv, rfl⟩ := List.mem_map.1 hw
      rfl
    revert h1 h2
    generalize dedup ((d.lists f).map (fun v => (⟨rel v.text, false⟩ : Item))) = L
    intro h1 h2
    induction L with
    | nil => exact List.nodup_nil
    | cons x L ih =>
      rw [List.nodup_cons] at h1
      rw [List.map_cons, List.nodup_cons]
      refine ⟨fun hm => ?_, ih h1.2 (fun w hw => h2 w (List.mem_cons_of_mem _ hw))⟩
      obtain ⟨y, hy, he⟩ := List.mem_map.1 hm
      apply h1.1
      have a := h2 x (by simp)
      have b := h2 y (List.mem_cons_of_mem _ hy)
      have : y = x := by
        obtain ⟨xt, xs⟩ := x
        obtain ⟨yt, ys⟩ := y
        simp only at a b he
        rw [a, b, he]
      exact this ▸ hy
  refine ⟨(d.lists .linkArgs).map Item.text ++ opts ++
      ((d.lists .rpath).filter (fun v => !v.text.isEmpty)).flatMap (fun v => l.rpath v.text), _, _,
    (dedup (d.lists .notFound)).flatMap (fun v => l.lib v.text), ?_, mem .linkWhole, nd .linkWhole, mem .linkWith, nd .linkWith, ?_, ?_, ?_, ?_⟩
  · unfold linkLine
    simp only
    split
    · rename_i hh
      simp only [Bool.and_eq_true] at hh
      obtain ⟨⟨a, b⟩, c⟩ := hh
      rw [List.isEmpty_iff] at a b c
      refine .inl ⟨rfl, by rw [a]; rfl, by rw [b]; rfl, by rw [c]; rfl⟩
    · by_cases hw : (dedup ((d.lists .linkWhole).map (fun v => (⟨rel v.text, false⟩ : Item)))).isEmpty = true
      · refine .inr ⟨[], [], ?_, ?_, fun _ => ⟨rfl, rfl⟩⟩
        · rw [if_pos hw]
          rw [List.isEmpty_iff] at hw
          rw [hw]
          simp only [List.map_nil, List.append_nil, List.append_assoc]
        · intro hne
          rw [List.isEmpty_iff] at hw
          rw [hw] at hne
          exact absurd rfl hne
      · refine .inr ⟨l.wholeArchive, l.noWholeArchive, ?_, fun _ => ⟨rfl, rfl⟩, ?_⟩
        · rw [if_neg hw]
        · intro hnil
          rw [List.map_eq_nil_iff] at hnil
          rw [hnil] at hw
          exact absurd rfl hw
  · intro v hv a ha
    exact List.mem_flatMap.2 ⟨v, (mem_dedup _ _).2 hv, ha⟩
  · intro v hv
    exact List.mem_append.2 (.inl (List.mem_append.2 (.inl (List.mem_map.2 ⟨v, hv, rfl⟩))))
  · intro a ha
    exact List.mem_append.2 (.inl (List.mem_append.2 (.inr ha)))
  · intro v hv hne a ha
    refine List.mem_append.2 (.inr (List.mem_flatMap.2 ⟨v, List.mem_filter.2 ⟨hv, ?_⟩, ha⟩))
    cases hv' : v.text with
    | nil => exact absurd hv' hne
    | cons => rfl

/-! ### the language -/

/-- The projects in which no dependency was made by the compiler of another language than C, C++ and assembly. -/
def Ordinary (e : Env) (P : List Cmd) : Prop :=
  (e.fallback = .null ∨ e.fallback = .c ∨ e.fallback = .cpp) ∧
  ∀ (i : Nat) (b : Bool) (d : BDep), P[i]? = some (.external b d) → d.lang = .null ∨ d.lang = .c ∨ d.lang = .cpp ∨ d.lang = .assembly

/-- A target that contains C++, or links with something that does, or depends on something that does, is linked as C++;
and only such a target is, unless C++ is the only language of the project. -/
theorem cpp_linker_partial {e : Env} {P : List Cmd} {st : Store} (hor : Ordinary e P) (h : run e P [] = .ok st) {i : Nat} {k : Kind} {p : Bytes}
    {int ext : BDep} (ho : st[i]? = some (.target k p int ext)) :
    (Cpp e P i → int.lang = .cpp) ∧ (int.lang = .cpp → Cpp e P i ∨ e.fallback = .cpp) ∧ int.lang ≠ .null := by
  have hf : Plain e.fallback := by
    rcases hor.1 with h | h | h
    · exact .inl h
    · exact .inr (.inl h)
    · exact .inr (.inr (.inl h))
  obtain ⟨a, b, c⟩ := run_lang hf hor.2 h i _ ho
  simp only [olang] at a b
  rw [c.1]
  exact ⟨c.2.2, b, c.2.1⟩

/-! ### examples -/

/-- The environment of the examples: names that end in `.cpp` are C++, in `.c` are C. -/
def exEnv : Env :=
  { root := ascii "/b",
    langOf := fun s => if s.reverse.take 4 = (ascii ".cpp").reverse then some .cpp else if s.reverse.take 2 = (ascii ".c").reverse then some .c else none,
    fallback := .c }

/-- A shared library in C++, a static library that is linked with it, a program that is linked with the static one; and
the same over a dependency. -/
def exProg : List Cmd :=
  [.target .shared (ascii "/b/x/liba.so") none none none [] [] [] [] [ascii "a.cpp"] [],
   .target .static (ascii "/b/libb.a") (some [0]) none none [⟨ascii "-lown", false⟩] [] [] [] [ascii "b.c"] [],
   .target .exe (ascii "/b/prog") (some [1]) none none [⟨ascii "-lm", false⟩] [] [] [] [ascii "p.c"] [],
   .declare (some [1]) none none [⟨ascii "-pthread", false⟩] [] [⟨ascii "/inc", false⟩] [] [],
   .target .exe (ascii "/b/prog2") none none (some [3]) [] [] [] [] [ascii "p.c"] [],
   .asSystem 3 .system,
   .target .exe (ascii "/b/prog3") none none (some [5, 5]) [] [] [] [] [ascii "p.c"] []]

/-- A list of a target of the store, and its language. -/
def view (r : Res Store) (i : Nat) (f : Field) : Option (List Item × Lang) :=
  match r with
  | .ok st => match st[i]? with
    | some (.target _ _ int _) => some (int.lists f, int.lang)
    | some (.dep _ d) => some (d.lists f, d.lang)
    | _ => none
  | _ => none

example : view (run exEnv exProg []) 2 .linkWith = some ([⟨ascii "/b/libb.a", false⟩, ⟨ascii "/b/x/liba.so", false⟩], .cpp) := by decide +kernel
example : view (run exEnv exProg []) 2 .rpath = some ([⟨ascii "/b/x", false⟩], .cpp) := by decide +kernel
example : view (run exEnv exProg []) 2 .linkArgs = some ([⟨ascii "-lm", false⟩], .cpp) := by decide +kernel
example : view (run exEnv exProg []) 4 .linkWith = some ([⟨ascii "/b/libb.a", false⟩, ⟨ascii "/b/x/liba.so", false⟩], .cpp) := by decide +kernel
example : view (run exEnv exProg []) 6 .includes = some ([⟨ascii "/inc", true⟩], .cpp) := by decide +kernel
example : Ordinary exEnv exProg := by
  refine ⟨.inr (.inl rfl), ?_⟩
  intro i b d h
  unfold exProg at h
  rcases i with _ | _ | _ | _ | _ | _ | _ | i <;> simp at h

/-! ### what goes wrong -/

/-- A shared library in C++, a static library that needs it, a dependency on the static library, its links only, and a
program in C that depends on this: linked with the C compiler, and without the directory of the shared library. -/
def partialProg : List Cmd :=
  [.target .shared (ascii "/b/x/liba.so") none none none [] [] [] [] [ascii "a.cpp"] [],
   .target .static (ascii "/b/libb.a") (some [0]) none none [] [] [] [] [ascii "b.cpp"] [],
   .declare (some [1]) none none [] [] [] [] [],
   .partialDep 2 false false false true false,
   .target .exe (ascii "/b/prog") none none (some [3]) [] [] [] [] [ascii "p.c"] [],
   .target .exe (ascii "/b/full") none none (some [2]) [] [] [] [] [ascii "p.c"] []]

theorem partial_links_counterexample :
    view (run exEnv partialProg []) 4 .linkWith = some ([⟨ascii "/b/libb.a", false⟩, ⟨ascii "/b/x/liba.so", false⟩], .c) ∧
    view (run exEnv partialProg []) 4 .rpath = some ([], .c) ∧
    view (run exEnv partialProg []) 5 .linkWith = some ([⟨ascii "/b/libb.a", false⟩, ⟨ascii "/b/x/liba.so", false⟩], .cpp) ∧
    view (run exEnv partialProg []) 5 .rpath = some ([⟨ascii "/b/x", false⟩], .cpp) := by
  refine ⟨?_, ?_, ?_, ?_⟩ <;> decide +kernel

/-- `as_system()` on a dependency whose include directories were never set: one that was not found, or that a
`partial_dependency` without `includes` made. -/
theorem as_system_counterexample (e : Env) :
    run e [.external false ⟨fun _ => [], .null, false⟩, .asSystem 0 .system] [] = .bad ∧
    run e [.declare none none none [] [] [] [] [], .partialDep 0 false false true true false, .asSystem 1 .system] [] = .bad :=
  ⟨rfl, rfl⟩

/-- An object whose name has no dot. -/
theorem object_name_counterexample :
    run exEnv [.target .exe (ascii "/b/prog") none none none [] [] [] [] [ascii "p.c"] [ascii "/s/blob"]] [] = .bad := by
  have : ∀ r : Res Store, (match r with | .bad => true | _ => false) = true → r = .bad := by
    intro r h
    cases r with
    | ok => cases h
    | error => cases h
    | bad => rfl
  exact this _ (by decide +kernel)

/-- A library found by the Objective-C compiler makes a C++ program be linked as Objective-C. -/
theorem objc_counterexample :
    view (run exEnv [.external true ⟨fun _ => [], .objc, true⟩,
      .target .exe (ascii "/b/prog") none none (some [0]) [] [] [] [] [ascii "p.cpp"] []] []) 1 .linkWith = some ([], .objc) := by
  decide +kernel

end Muon.Deps
