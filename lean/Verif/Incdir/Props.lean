import Verif.Incdir.Spec
import Verif.Path.Props
import Verif.Install.RunSub
/-
C115: directories for headers.
-/
namespace Muon.Incdir
open Muon Path Path.Spec
open Muon.Incdir.Spec

theorem dotdot_eq : dotdot = ascii ".." := by decide

theorem plain_ok {p : Bytes} (h : Plain p) : Install.PathOk p := ⟨h.2.1, by rw [dotdot_eq]; exact h.2.2⟩

theorem plain_canon {q : Bytes} (h : Plain q) : Path.normalize true q = render true (comps q) := by
  have hn : q ≠ [] := by rintro rfl; simp [Plain, isAbs] at h
  rw [Path.normalize_canon true q h.2.1]
  unfold canon
  rw [if_neg hn, h.1, if_pos rfl, Path.cancel_eq, Path.cancelFold_nn _ (fun c hc he => (plain_ok h).2 (he ▸ hc))]
  rfl

/-- From a directory to something in it, joined to another directory. -/
theorem moved {s b p : Bytes} {x : List Bytes} (hs : Plain s) (hsn : comps s ≠ []) (hb : Plain b) (hp : Plain p) (hc : comps p = comps s ++ x) :
    ∃ r, Path.relativeTo s p = .ok r ∧ isAbs (Path.join b r) = true ∧ comps (Path.join b r) = comps b ++ x := by
  by_cases hx : x = []
  · subst hx
    rw [List.append_nil] at hc
    refine ⟨[46], ?_, ?_⟩
    · unfold Path.relativeTo
      dsimp only
      rw [plain_canon hs, plain_canon hp, hc]
      have : Path.isAbsolute (render true (comps s)) = true := by rw [Path.isAbsolute_eq, Path.render_isAbs _ _ (Path.comps_good s hs.2.1)]
      simp [this]
    · obtain ⟨j1, j2, _⟩ := Path.join_facts b [46] hb.2.1 (by decide)
      have a0 : isAbs [46] = false := by decide
      have c0 : comps [46] = [] := by decide
      rw [j1, j2, a0, c0]
      simp [hb.1]
  · have hg : ∀ c ∈ x, Comp c := fun c h => Path.comps_good p hp.2.1 c (by rw [hc]; simp [h])
    have h0 : 0 ∉ sepJoin x := by
      intro h
      rcases Path.sepJoin_mem x 0 h with h | ⟨c, hm, h⟩
      · cases h
      · exact (hg c hm).2.2.2 h
    have ha : isAbs (sepJoin x) = false := by
      match x, hx, hg with
      | c :: l, _, hg =>
        have hc := hg c (by simp)
        unfold isAbs
        rw [Path.sepJoin_head c l hc.1]
        cases c with
        | nil => exact absurd rfl hc.1
        | cons a c =>
          have : a ≠ 47 := fun e => hc.2.2.1 (by simp [e])
          simpa using this
    refine ⟨_, Install.relative_below (plain_ok hs) hs.1 (plain_ok hp) hp.1 hsn hx hc, ?_⟩
    obtain ⟨j1, j2, _⟩ := Path.join_facts b (sepJoin x) hb.2.1 h0
    rw [j1, j2, ha, Path.sepJoin_comps x hg]
    simp [hb.1]

theorem place_stands (E : World) (s : Bytes) (hc : Plain E.cwd) (h0 : 0 ∉ s) (hd : ascii ".." ∉ comps s) : Stands E s (place E s) ∧ Plain (place E s) := by
  unfold place Stands
  rw [Path.isAbsolute_eq]
  cases ha : isAbs s with
  | true => exact ⟨⟨ha, by simp⟩, ha, h0, hd⟩
  | false =>
    obtain ⟨j1, j2, j3⟩ := Path.join_facts E.cwd s hc.2.1 h0
    rw [ha] at j1 j2
    simp only [Bool.false_eq_true, if_false] at j1 ⊢
    refine ⟨⟨by rw [j2, hc.1]; rfl, j1⟩, by rw [j2, hc.1]; rfl, j3, ?_⟩
    rw [j1, List.mem_append, not_or]
    exact ⟨hc.2.2, hd⟩

/-- The argument is a directory that exists. -/
def Fine (E : World) : Item → Prop
  | .made _ _ => True
  | .str s => ∀ p, p = place E s → E.ex p = true
  | .other => False

theorem item_brings (E : World) (sys : Bool) (i : Item) (hs : Plain E.source) (hsn : comps E.source ≠ []) (hb : Plain E.build) (hc : Plain E.cwd)
    (hi : ∀ s, i = .str s → 0 ∉ s ∧ ascii ".." ∉ comps s) :
    (Fine E i → ∃ l, item E sys i = .ok l ∧ Brings E sys i l) ∧ (¬ Fine E i → item E sys i = .error) := by
  cases i with
  | made p b => exact ⟨fun _ => ⟨_, rfl, .made p b⟩, fun h => absurd trivial h⟩
  | other => exact ⟨fun h => h.elim, fun _ => rfl⟩
  | str s =>
    obtain ⟨h0, hd⟩ := hi s rfl
    obtain ⟨hst, hp⟩ := place_stands E s hc h0 hd
    have hpn : place E s ≠ [] := by intro e; rw [e] at hp; simp [Plain, isAbs] at hp
    have hsub := Path.isSubpath_iff_partial E.source (place E s) hs.2.1 hp.2.1 hpn (.inl hs.1)
    rw [item, if_neg h0]
    constructor
    · intro h
      have he := h _ rfl
      rw [he, hsub]
      simp only [Bool.not_true, Bool.false_eq_true, if_false, Res.ok_bind, decide_eq_true_eq, hs.1, hp.1, true_and]
      by_cases hpre : comps E.source <+: comps (place E s)
      · obtain ⟨x, hx⟩ := hpre
        obtain ⟨r, hr, hq⟩ := moved hs hsn hb hp hx.symm
        rw [if_pos ⟨x, hx⟩, hr]
        exact ⟨_, rfl, .inside x hst he hx.symm hq⟩
      · rw [if_neg hpre]
        exact ⟨_, rfl, .outside hst he hpre⟩
    · intro h
      have he : E.ex (place E s) = false := by
        cases he : E.ex (place E s) with
        | false => rfl
        | true => exact absurd (by rintro _ rfl; exact he) h
      simp [he]

/-- C115: the directories of `include_directories()`, in the order of the arguments: that of the build directory is searched before that of the source directory, directories
made before keep their kind, and it is an error exactly if a directory does not exist or an argument is no directory. Missing: strings with `..`, see `up_counterexample`. -/
theorem include_directories_partial (E : World) (sys : Option Bool) (hs : Plain E.source) (hsn : comps E.source ≠ []) (hb : Plain E.build) (hc : Plain E.cwd) :
    ∀ (is : List Item), (∀ s, .str s ∈ is → 0 ∉ s ∧ ascii ".." ∉ comps s) →
    ((∀ i ∈ is, Fine E i) → ∃ l, includeDirectories E sys is = .ok l ∧ AllBring E (sys.getD false) is l) ∧ ((∃ i ∈ is, ¬ Fine E i) → includeDirectories E sys is = .error)
  | [], _ => ⟨fun _ => ⟨[], rfl, .nil⟩, fun ⟨_, h, _⟩ => by cases h⟩
  | i :: is, h => by
    obtain ⟨h1, h2⟩ := item_brings E (sys.getD false) i hs hsn hb hc (fun s e => h s (by simp [e]))
    obtain ⟨r1, r2⟩ := include_directories_partial E sys hs hsn hb hc is (fun s m => h s (by simp [m]))
    unfold includeDirectories at r1 r2 ⊢
    rw [items]
    constructor
    · intro hf
      obtain ⟨a, e1, b1⟩ := h1 (hf i (by simp))
      obtain ⟨b, e2, b2⟩ := r1 (fun j hj => hf j (by simp [hj]))
      rw [e1, e2]
      exact ⟨_, rfl, .cons b1 b2⟩
    · rintro ⟨j, hj, hn⟩
      by_cases hi : Fine E i
      · obtain ⟨a, e1, _⟩ := h1 hi
        rcases List.mem_cons.1 hj with rfl | hj
        · exact absurd hi hn
        · rw [e1, r2 ⟨j, hj, hn⟩]; rfl
      · rw [h2 hi]; rfl

/-- A directory outside of the source directory, written with `..`, brings a directory outside of the build directory, that has nothing to do with it. -/
theorem up_counterexample :
    includeDirectories { source := ascii "/w/s", build := ascii "/w/b/c", cwd := ascii "/w/s", ex := fun _ => true } none [.str (ascii "../o")] =
      .ok [(ascii "/w/b/c/../o", false), (ascii "/w/s/../o", false)] := by decide +kernel

example : includeDirectories { source := ascii "/s", build := ascii "/s/b", cwd := ascii "/s/d", ex := fun p => p != ascii "/s/d/n" } (some true)
    [.str (ascii "i"), .made (ascii "/x") false, .str (ascii "/usr/include"), .str (ascii ".")] =
      .ok [(ascii "/s/b/d/i", true), (ascii "/s/d/i", true), (ascii "/x", false), (ascii "/usr/include", true), (ascii "/s/b/d", true), (ascii "/s/d", true)] ∧
    includeDirectories { source := ascii "/s", build := ascii "/s/b", cwd := ascii "/s/d", ex := fun p => p != ascii "/s/d/n" } none [.str (ascii "n")] = .error := by decide +kernel
example : Plain (ascii "/s/d") ∧ comps (ascii "/s") ≠ [] := by unfold Plain; decide +kernel

end Muon.Incdir
