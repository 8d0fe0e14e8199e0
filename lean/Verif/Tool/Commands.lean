import Verif.Tool.Props
/-
The tool `commands` prints each command that is needed once, after those of the steps it needs.
-/
namespace Muon.Tool
open Muon

/-! ### It ends -/

/-- The steps not yet marked. -/
def fresh (g : Graph) (m : List Nat) : Nat := (List.range g.edges.length).countP (fun k => decide (k ∉ m))

theorem fresh_mono {g : Graph} {m m' : List Nat} (h : ∀ x ∈ m, x ∈ m') : fresh g m' ≤ fresh g m := by
  unfold fresh
  refine List.countP_mono_left (fun x _ hx => ?_)
  simp only [decide_eq_true_eq] at hx ⊢
  exact fun hm => hx (h x hm)

theorem countP_lt {p q : Nat → Bool} {l : List Nat} (h : ∀ x, p x = true → q x = true) {x : Nat} (hx : x ∈ l)
    (hq : q x = true) (hp : p x = false) : l.countP p < l.countP q := by
  induction l with
  | nil => cases hx
  | cons y l ih =>
    have hle : l.countP p ≤ l.countP q := List.countP_mono_left (fun z _ => h z)
    rcases List.mem_cons.1 hx with rfl | hx
    · rw [List.countP_cons_of_neg (by rw [hp]; simp), List.countP_cons_of_pos hq]; omega
    · have := ih hx
      rw [List.countP_cons, List.countP_cons]
      have hy := h y
      cases h1 : p y <;> cases h2 : q y <;> simp_all <;> omega

theorem fresh_cons {g : Graph} {m : List Nat} {k : Nat} (hk : k < g.edges.length) (hm : k ∉ m) :
    fresh g (k :: m) < fresh g m := by
  unfold fresh
  refine countP_lt (x := k) ?_ (List.mem_range.2 hk) (by simpa using hm) (by simp)
  intro x hx
  simp only [decide_eq_true_eq] at hx ⊢
  exact fun h => hx (List.mem_cons_of_mem _ h)

theorem visit_ends {g : Graph} (f : Nat) (s : Walk) (n : Nat) (hf : fresh g s.marked < f) :
    ∃ s', targetCommands g f s n = some s' ∧ ∀ x ∈ s.marked, x ∈ s'.marked := by
  induction f generalizing s n with
  | zero => omega
  | succ f ih =>
    have hl : ∀ (l : List Nat) (s : Walk), fresh g s.marked < f →
        ∃ s', l.foldlM (fun s i => targetCommands g f s i) s = some s' ∧ ∀ x ∈ s.marked, x ∈ s'.marked := by
      intro l
      induction l with
      | nil => intro s _; exact ⟨s, rfl, fun _ h => h⟩
      | cons i l ihl =>
        intro s hs
        obtain ⟨s1, h1, h1'⟩ := ih s i hs
        obtain ⟨s2, h2, h2'⟩ := ihl s1 (Nat.lt_of_le_of_lt (fresh_mono h1') hs)
        refine ⟨s2, ?_, fun x hx => h2' x (h1' x hx)⟩
        simp only [List.foldlM_cons, Option.bind_eq_bind, h1]
        exact h2
    unfold targetCommands
    cases hg : g.gen n with
    | none => exact ⟨s, rfl, fun _ h => h⟩
    | some k =>
      dsimp only
      by_cases hk : k ∈ s.marked
      · rw [if_pos hk]; exact ⟨s, rfl, fun _ h => h⟩
      · rw [if_neg hk]
        cases he : g.edges[k]? with
        | none => exact ⟨s, rfl, fun _ h => h⟩
        | some e =>
          dsimp only
          have hlt := fresh_cons (g := g) (m := s.marked) (List.getElem?_eq_some_iff.1 he).1 hk
          obtain ⟨s1, h1, h1'⟩ := hl e.ins { s with marked := k :: s.marked } (by show fresh g (k :: s.marked) < f; omega)
          rw [h1]
          exact ⟨_, rfl, fun x hx => h1' x (List.mem_cons_of_mem _ hx)⟩

/-! ### Once -/

/-- What visiting the files `ns` does, whatever the graph. -/
structure Once (g : Graph) (ns : List Nat) (s s' : Walk) : Prop where
  out : ∀ x ∈ s.out, x ∈ s'.out
  marked : ∀ x ∈ s.marked, x ∈ s'.marked
  fresh : ∀ x ∈ s'.out, x ∈ s.out ∨ x ∉ s.marked
  needed : ∀ x ∈ s'.out, x ∈ s.out ∨ ∃ n ∈ ns, Needed g n x
  done : ∀ x ∈ s'.marked, x ∈ s.marked ∨ x ∈ s'.out
  sub : (∀ x ∈ s.out, x ∈ s.marked) → ∀ x ∈ s'.out, x ∈ s'.marked
  nodup : (∀ x ∈ s.out, x ∈ s.marked) → s.out.Nodup → s'.out.Nodup

theorem once_refl {g : Graph} {ns : List Nat} {s : Walk} : Once g ns s s :=
  ⟨fun _ h => h, fun _ h => h, fun _ h => Or.inl h, fun _ h => Or.inl h, fun _ h => Or.inl h, fun h => h, fun _ h => h⟩

theorem Once.trans {g : Graph} {ns ms : List Nat} {a b c : Walk} (h1 : Once g ns a b) (h2 : Once g ms b c) :
    Once g (ns ++ ms) a c where
  out x hx := h2.out x (h1.out x hx)
  marked x hx := h2.marked x (h1.marked x hx)
  fresh x hx := by
    rcases h2.fresh x hx with h | h
    · exact h1.fresh x h
    · exact Or.inr (fun hm => h (h1.marked x hm))
  needed x hx := by
    rcases h2.needed x hx with h | ⟨n, hn, h⟩
    · rcases h1.needed x h with h | ⟨n, hn, h⟩
      · exact Or.inl h
      · exact Or.inr ⟨n, List.mem_append_left _ hn, h⟩
    · exact Or.inr ⟨n, List.mem_append_right _ hn, h⟩
  done x hx := by
    rcases h2.done x hx with h | h
    · rcases h1.done x h with h | h
      · exact Or.inl h
      · exact Or.inr (h2.out x h)
    · exact Or.inr h
  sub h := h2.sub (h1.sub h)
  nodup h hn := h2.nodup (h1.sub h) (h1.nodup h hn)

theorem once_list {g : Graph} {f : Nat} (ih : ∀ s n s', targetCommands g f s n = some s' → Once g [n] s s')
    (l : List Nat) (s s' : Walk) (h : l.foldlM (fun s i => targetCommands g f s i) s = some s') : Once g l s s' := by
  induction l generalizing s with
  | nil => cases h; exact once_refl
  | cons i l ihl =>
    simp only [List.foldlM_cons, Option.bind_eq_bind, Option.bind_eq_some_iff] at h
    obtain ⟨s1, h1, h2⟩ := h
    exact (ih s i s1 h1).trans (ihl s1 h2)

theorem visit_once {g : Graph} (f : Nat) (s : Walk) (n : Nat) (s' : Walk) (h : targetCommands g f s n = some s') :
    Once g [n] s s' := by
  induction f generalizing s n s' with
  | zero => cases h
  | succ f ih =>
    unfold targetCommands at h
    cases hg : g.gen n with
    | none => rw [hg] at h; cases h; exact once_refl
    | some k =>
      rw [hg] at h
      dsimp only at h
      by_cases hk : k ∈ s.marked
      · rw [if_pos hk] at h; cases h; exact once_refl
      · rw [if_neg hk] at h
        cases he : g.edges[k]? with
        | none => rw [he] at h; cases h; exact once_refl
        | some e =>
          rw [he] at h
          dsimp only at h
          split at h
          · cases h
          · rename_i s1 h1
            cases h
            have o := once_list ih e.ins _ _ h1
            exact
              { out := fun x hx => List.mem_append_left _ (o.out x hx)
                marked := fun x hx => o.marked x (List.mem_cons_of_mem _ hx)
                fresh := fun x hx => by
                  rcases List.mem_append.1 hx with hx | hx
                  · rcases o.fresh x hx with h | h
                    · exact Or.inl h
                    · exact Or.inr (fun hm => h (List.mem_cons_of_mem _ hm))
                  · rw [List.mem_singleton.1 hx]; exact Or.inr hk
                needed := fun x hx => by
                  rcases List.mem_append.1 hx with hx | hx
                  · rcases o.needed x hx with h | ⟨i, hi, h⟩
                    · exact Or.inl h
                    · exact Or.inr ⟨n, by simp, .step hg he hi h⟩
                  · rw [List.mem_singleton.1 hx]; exact Or.inr ⟨n, by simp, .self hg⟩
                done := fun x hx => by
                  rcases o.done x hx with h | h
                  · rcases List.mem_cons.1 h with rfl | h
                    · exact Or.inr (by simp)
                    · exact Or.inl h
                  · exact Or.inr (List.mem_append_left _ h)
                sub := fun hs x hx => by
                  rcases List.mem_append.1 hx with hx | hx
                  · exact o.sub (fun y hy => List.mem_cons_of_mem _ (hs y hy)) x hx
                  · rw [List.mem_singleton.1 hx]; exact o.marked k (by simp)
                nodup := fun hs hn => by
                  have hs' : ∀ y ∈ s.out, y ∈ k :: s.marked := fun y hy => List.mem_cons_of_mem _ (hs y hy)
                  have h2 := o.nodup hs' hn
                  refine List.nodup_append.2 ⟨h2, by simp, ?_⟩
                  intro a ha b hb
                  rw [List.mem_singleton.1 hb]
                  rintro rfl
                  rcases o.fresh a ha with h | h
                  · exact hk (hs a h)
                  · exact h (by simp) }

/-- **It ends, and prints nothing twice and nothing that is not needed**, on every graph. -/
theorem commands_once {g : Graph} (ns : List Nat) :
    ∃ ks, commands g ns = some ks ∧ ks.Nodup ∧ ∀ k ∈ ks, ∃ n ∈ ns, Needed g n k := by
  have hlen : ∀ m, fresh g m < g.edges.length + 1 := by
    intro m
    have : fresh g m ≤ (List.range g.edges.length).length := List.countP_le_length
    rw [List.length_range] at this
    omega
  obtain ⟨s, hs⟩ := Option.isSome_iff_exists.1
    (foldlM_some (f := fun s n => targetCommands g (g.edges.length + 1) s n) ns (fun n hn s => by
      obtain ⟨s', h, _⟩ := visit_ends (g.edges.length + 1) s n (hlen _)
      rw [h]; rfl) ⟨[], []⟩)
  have o := once_list (visit_once _) ns _ _ hs
  refine ⟨s.out, by simp only [commands, hs, Option.map_some], o.nodup (fun _ h => h) List.nodup_nil, fun k hk => ?_⟩
  rcases o.needed k hk with h | h
  · cases h
  · exact h

/-! ### In order -/

/-- Every step comes after the steps that make its inputs. -/
def Ordered (g : Graph) (ks : List Nat) : Prop :=
  ∀ pre k post, ks = pre ++ k :: post → ∀ e i j, g.edges[k]? = some e → i ∈ e.ins → g.gen i = some j → j ∈ pre

theorem ordered_snoc {g : Graph} {ks : List Nat} {k : Nat} {e : Edge} (h : Ordered g ks) (he : g.edges[k]? = some e)
    (hk : ∀ i ∈ e.ins, ∀ j, g.gen i = some j → j ∈ ks) : Ordered g (ks ++ [k]) := by
  intro pre x post hx e' i j he' hi hj
  rcases List.append_eq_append_iff.1 hx with ⟨c, h1, h2⟩ | ⟨c, h1, h2⟩
  · cases c with
    | nil =>
      rw [List.append_nil] at h1
      rw [List.nil_append] at h2
      injection h2 with h2 _
      subst h2
      rw [he] at he'
      cases he'
      rw [h1]
      exact hk i hi j hj
    | cons y c => simp at h2
  · cases c with
    | nil =>
      rw [List.append_nil] at h1
      simp at h2
      obtain ⟨h2, _⟩ := h2
      subst h2
      rw [he] at he'
      cases he'
      rw [← h1]
      exact hk i hi j hj
    | cons y c =>
      injection h2 with h2 h3
      subst h2
      exact h pre x c h1 e' i j he' hi hj

/-- One more than the greatest height of an input of a step. -/
def rank (g : Graph) (ht : Nat → Nat) (k : Nat) : Nat :=
  match g.edges[k]? with
  | none => 0
  | some e => e.ins.foldr (fun i m => max (ht i + 1) m) 0

theorem rank_in {g : Graph} {ht : Nat → Nat} {k i : Nat} {e : Edge} (he : g.edges[k]? = some e) (hi : i ∈ e.ins) :
    ht i < rank g ht k := by
  unfold rank
  rw [he]
  dsimp only
  generalize e.ins = l at hi
  induction l with
  | nil => cases hi
  | cons y l ih =>
    rw [List.foldr_cons]
    rcases List.mem_cons.1 hi with rfl | hi
    · omega
    · have := ih hi; omega

theorem rank_le {g : Graph} {ht : Nat → Nat} {k c : Nat} (h : ∀ e, g.edges[k]? = some e → ∀ i ∈ e.ins, ht i < c) :
    rank g ht k ≤ c := by
  unfold rank
  cases he : g.edges[k]? with
  | none => exact Nat.zero_le _
  | some e =>
    dsimp only
    have := h e he
    revert this
    generalize e.ins = l
    intro hl
    induction l with
    | nil => exact Nat.zero_le _
    | cons y l ih =>
      rw [List.foldr_cons]
      have h1 := hl y (by simp)
      have h2 := ih (fun i hi => hl i (by simp [hi]))
      omega

theorem rank_lt {g : Graph} {ht : Nat → Nat} (hh : ∀ n e i, Gen g n e → i ∈ e.ins → ht i < ht n) {k i j : Nat}
    {e : Edge} (he : g.edges[k]? = some e) (hi : i ∈ e.ins) (hj : g.gen i = some j) : rank g ht j < rank g ht k :=
  Nat.lt_of_le_of_lt (rank_le (fun e' he' i' hi' => hh i e' i' ⟨j, hj, he'⟩ hi')) (rank_in he hi)

/-- What is marked and not printed is being visited, so it is above. -/
def Above (g : Graph) (ht : Nat → Nat) (b : Nat) (s : Walk) : Prop := ∀ j ∈ s.marked, j ∈ s.out ∨ b ≤ rank g ht j

theorem Once.above {g : Graph} {ht : Nat → Nat} {b : Nat} {ns : List Nat} {s s' : Walk} (o : Once g ns s s')
    (h : Above g ht b s) : Above g ht b s' := by
  intro j hj
  rcases o.done j hj with h1 | h1
  · rcases h j h1 with h2 | h2
    · exact Or.inl (o.out j h2)
    · exact Or.inr h2
  · exact Or.inl h1

theorem order_list {g : Graph} {ht : Nat → Nat} {f b : Nat}
    (ih : ∀ s n s', targetCommands g f s n = some s' → Above g ht b s → (∀ k, g.gen n = some k → rank g ht k < b) →
      Ordered g s.out → Ordered g s'.out ∧ ∀ k, g.gen n = some k → k ∈ s'.out)
    (l : List Nat) (s s' : Walk) (h : l.foldlM (fun s i => targetCommands g f s i) s = some s') (ha : Above g ht b s)
    (hl : ∀ i ∈ l, ∀ k, g.gen i = some k → rank g ht k < b) (ho : Ordered g s.out) :
    Ordered g s'.out ∧ ∀ i ∈ l, ∀ k, g.gen i = some k → k ∈ s'.out := by
  induction l generalizing s with
  | nil => cases h; exact ⟨ho, fun _ h => nomatch h⟩
  | cons i l ihl =>
    simp only [List.foldlM_cons, Option.bind_eq_bind, Option.bind_eq_some_iff] at h
    obtain ⟨s1, h1, h2⟩ := h
    obtain ⟨ho1, hk1⟩ := ih s i s1 h1 ha (hl i (by simp)) ho
    have o1 := visit_once f s i s1 h1
    have o2 := once_list (visit_once f) l s1 s' h2
    obtain ⟨ho2, hk2⟩ := ihl s1 h2 (o1.above ha) (fun j hj => hl j (by simp [hj])) ho1
    refine ⟨ho2, fun x hx k hk => ?_⟩
    rcases List.mem_cons.1 hx with rfl | hx
    · exact o2.out k (hk1 k hk)
    · exact hk2 x hx k hk

theorem visit_order {g : Graph} {ht : Nat → Nat} (hh : ∀ n e i, Gen g n e → i ∈ e.ins → ht i < ht n)
    (hwf : ∀ n k, g.gen n = some k → k < g.edges.length) (f : Nat) :
    ∀ (b : Nat) (s : Walk) (n : Nat) (s' : Walk), targetCommands g f s n = some s' → Above g ht b s →
      (∀ k, g.gen n = some k → rank g ht k < b) → Ordered g s.out →
      Ordered g s'.out ∧ ∀ k, g.gen n = some k → k ∈ s'.out := by
  induction f with
  | zero => intro b s n s' h; cases h
  | succ f ih =>
    intro b s n s' h ha hr ho
    unfold targetCommands at h
    cases hg : g.gen n with
    | none => rw [hg] at h; cases h; exact ⟨ho, fun _ h => nomatch h⟩
    | some k =>
      rw [hg] at h
      dsimp only at h
      by_cases hk : k ∈ s.marked
      · rw [if_pos hk] at h; cases h
        refine ⟨ho, fun k' hk' => ?_⟩
        cases hk'
        rcases ha k hk with h1 | h1
        · exact h1
        · have := hr k hg; omega
      · rw [if_neg hk] at h
        cases he : g.edges[k]? with
        | none => rw [List.getElem?_eq_none_iff] at he; have := hwf n k hg; omega
        | some e =>
          rw [he] at h
          dsimp only at h
          split at h
          · cases h
          · rename_i s1 h1
            cases h
            have ha' : Above g ht (rank g ht k) { s with marked := k :: s.marked } := by
              intro j hj
              rcases List.mem_cons.1 hj with rfl | hj
              · exact Or.inr (Nat.le_refl _)
              · rcases ha j hj with h2 | h2
                · exact Or.inl h2
                · exact Or.inr (by have := hr k hg; omega)
            obtain ⟨ho1, hk1⟩ := order_list (ih _) e.ins _ _ h1 ha'
              (fun i hi j hj => rank_lt hh he hi hj) ho
            refine ⟨ordered_snoc ho1 he hk1, fun k' hk' => ?_⟩
            cases hk'
            simp

theorem ordered_closed {g : Graph} {ks : List Nat} (h : Ordered g ks) {n k : Nat} (hn : Needed g n k)
    (hk : ∀ j, g.gen n = some j → j ∈ ks) : k ∈ ks := by
  induction hn with
  | self h1 => exact hk _ h1
  | step h1 h2 h3 _ ih =>
    obtain ⟨pre, post, hp⟩ := List.append_of_mem (hk _ h1)
    exact ih (fun j hj => by rw [hp]; exact List.mem_append_left _ (h pre _ post hp _ _ j h2 h3 hj))

/-- **The commands come in an order in which they can be run.** On a graph without cycles the steps printed are exactly
those needed for the targets, each once, and every step comes after the steps that make its inputs. -/
theorem commands_order {g : Graph} (ha : Acyclic g) (hwf : ∀ n k, g.gen n = some k → k < g.edges.length) {ns : List Nat}
    {ks : List Nat} (h : commands g ns = some ks) :
    ks.Nodup ∧ Ordered g ks ∧ ∀ k, k ∈ ks ↔ ∃ n ∈ ns, Needed g n k := by
  obtain ⟨ks', h', hnd, hnn⟩ := commands_once (g := g) ns
  rw [h] at h'
  cases h'
  obtain ⟨ht, hh⟩ := ha
  unfold commands at h
  rw [Option.map_eq_some_iff] at h
  obtain ⟨s, hs, rfl⟩ := h
  have hb : ∃ b, ∀ n ∈ ns, ∀ k, g.gen n = some k → rank g ht k < b := by
    clear hs hnn
    induction ns with
    | nil => exact ⟨0, fun _ h => nomatch h⟩
    | cons n ns ih =>
      obtain ⟨b, hb⟩ := ih
      refine ⟨max b ((match g.gen n with | none => 0 | some k => rank g ht k) + 1), fun m hm k hk => ?_⟩
      rcases List.mem_cons.1 hm with rfl | hm
      · rw [hk]; dsimp only; omega
      · have := hb m hm k hk; omega
  obtain ⟨b, hb⟩ := hb
  obtain ⟨ho, hin⟩ := order_list (visit_order hh hwf _ b) ns ⟨[], []⟩ s hs (fun _ h => nomatch h) hb
    (fun pre k post he => by simp at he)
  refine ⟨hnd, ho, fun k => ⟨hnn k, ?_⟩⟩
  rintro ⟨n, hn, hk⟩
  exact ordered_closed ho hk (hin n hn)

example : commands g1 [3] = some [0, 1, 2] := by decide +kernel
example : printed g1 [0, 1, 2] = [ascii "cp", ascii "cp"] := by decide +kernel
example : ∀ n k, g1.gen n = some k → k < g1.edges.length := by
  intro n k h
  simp only [g1] at h
  split at h
  · cases h; decide
  · split at h
    · cases h; decide
    · split at h
      · cases h; decide
      · cases h

/-- **What is printed.** A line is printed exactly for the steps with a command that is not empty, in the order of the
steps. -/
theorem printed_spec {g : Graph} {pre post : List Nat} {k : Nat} :
    printed g (pre ++ k :: post) = printed g pre ++
      (match g.edges[k]?.bind (·.command) with | some c => if c = [] then [] else [c] | none => []) ++ printed g post := by
  unfold printed
  rw [List.filterMap_append, List.filterMap_cons]
  cases g.edges[k]?.bind (·.command) with
  | none => simp
  | some c =>
    by_cases hc : c = []
    · simp [hc, Option.filter]
    · simp [hc, Option.filter]

end Muon.Tool
