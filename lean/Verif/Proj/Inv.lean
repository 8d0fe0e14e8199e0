import Verif.Proj.Lemmas
/-
The invariant of a build and what a call keeps.
-/
namespace Muon.Proj
open Muon Muon.Proj.Spec

/-- What holds at every moment of a build. -/
structure Inv (ws : Ws) : Prop where
  cur : ws.cur < ws.projs.length
  tbl : ∀ (i : Nat) p, ws.projs[i]? = some p → ∀ k l, p.tbl k l = ws.log.flatMap (given k i l)
  glob : ∀ k l, ws.glob k l = ws.log.flatMap (givenAll k l)
  main : ∀ q k ns as, Ev.args q true k ns as ∈ ws.log → q = 0
  dirs : ∀ (i : Nat) p, ws.projs[i]? = some p → p.cwd = below p.src (inside i ws.log) ∧ p.build = below p.bld (inside i ws.log)
  files : ∀ pre post (i : Nat) n f, ws.log = pre ++ Ev.file i n f :: post → ∃ p, ws.projs[i]? = some p ∧ f = Path.join (below p.src (inside i pre)) n
  known : ∀ e ∈ ws.log, proj e < ws.projs.length
  asm : ∀ (i : Nat) p, ws.projs[i]? = some p → Asm p

/-- What a call leaves as it was. -/
structure Keep (ws ws' : Ws) : Prop where
  cur : ws'.cur = ws.cur
  projs : ∀ (i : Nat) p, ws.projs[i]? = some p → ∃ q, ws'.projs[i]? = some q ∧ q.src = p.src ∧ q.bld = p.bld ∧ q.cwd = p.cwd ∧ q.build = p.build ∧ Grows p q
  inside : ∀ i, inside i ws'.log = inside i ws.log
  log : ∃ d, ws'.log = ws.log ++ d

theorem keep_refl (ws : Ws) : Keep ws ws :=
  ⟨rfl, fun _ p h => ⟨p, h, rfl, rfl, rfl, rfl, grows_refl p⟩, fun _ => rfl, ⟨[], by simp⟩⟩

theorem keep_trans {a b c : Ws} (h : Keep a b) (h' : Keep b c) : Keep a c := by
  refine ⟨h'.cur.trans h.cur, ?_, fun i => (h'.inside i).trans (h.inside i), ?_⟩
  · intro i p hp
    obtain ⟨q, hq, e1, e2, e3, e4, e5⟩ := h.projs i p hp
    obtain ⟨r, hr, f1, f2, f3, f4, f5⟩ := h'.projs i q hq
    exact ⟨r, hr, f1.trans e1, f2.trans e2, f3.trans e3, f4.trans e4, grows_trans e5 f5⟩
  · obtain ⟨d, hd⟩ := h.log
    obtain ⟨e, he⟩ := h'.log
    exact ⟨d ++ e, by rw [he, hd, List.append_assoc]⟩

theorem inside_snoc (i : Nat) (log : List Ev) (e : Ev) : inside i (log ++ [e]) = turn i (inside i log) e := by
  unfold inside; simp

theorem below_snoc (r n : Bytes) (ns : List Bytes) : below r (ns ++ [n]) = Path.join (below r ns) n := by
  unfold below; simp

/-- The last event of a log. -/
theorem last_file {log pre post : List Ev} {e x : Ev} (h : log ++ [e] = pre ++ x :: post) :
    (∃ t, log = pre ++ x :: t) ∨ (log = pre ∧ e = x) := by
  rcases List.eq_nil_or_concat post with rfl | ⟨t, y, rfl⟩
  · have := List.append_inj' h rfl
    exact .inr ⟨this.1, by simpa using this.2⟩
  · left
    refine ⟨t, ?_⟩
    have h' : log ++ [e] = (pre ++ x :: t) ++ [y] := by rw [h]; simp
    exact (List.append_inj' h' rfl).1

theorem len_modify (l : List Proj) (i : Nat) (f : Proj → Proj) : (l.modify i f).length = l.length := by simp

theorem get_modify (l : List Proj) (i j : Nat) (f : Proj → Proj) (q : Proj) (h : (l.modify i f)[j]? = some q) :
    ∃ p, l[j]? = some p ∧ q = if i = j then f p else p := by
  rw [List.getElem?_modify] at h
  obtain ⟨p, hp, e⟩ := Option.map_eq_some_iff.1 h
  refine ⟨p, hp, ?_⟩
  split at e <;> rename_i hij
  · simp [hij, e]
  · simp [hij] at e ⊢; exact e.symm

theorem modify_get {l : List Proj} {j : Nat} {p : Proj} (i : Nat) (f : Proj → Proj) (h : l[j]? = some p) :
    (l.modify i f)[j]? = some (if i = j then f p else p) := by
  rw [List.getElem?_modify, h]
  split <;> rename_i hij <;> simp

/-- One event that is not `files()` with a change of the current project. -/
theorem inv_upd {ws : Ws} (h : Inv ws) (f : Proj → Proj) (e : Ev) (he : proj e = ws.cur) (hf : ∀ n x, e ≠ .file ws.cur n x)
    (hg : ∀ q k ns as, e = .args q true k ns as → False)
    (hsrc : ∀ p, (f p).src = p.src ∧ (f p).bld = p.bld)
    (hasm : ∀ p, ws.projs[ws.cur]? = some p → Asm p → Asm (f p))
    (htbl : ∀ p k l, ws.projs[ws.cur]? = some p → (f p).tbl k l = p.tbl k l ++ given k ws.cur l e)
    (hdir : ∀ p, ws.projs[ws.cur]? = some p → (f p).cwd = below p.src (turn ws.cur (inside ws.cur ws.log) e) ∧
      (f p).build = below p.bld (turn ws.cur (inside ws.cur ws.log) e)) : Inv (ws.upd f [e]) := by
  have hother : ∀ j, ws.cur ≠ j → turn j (inside j ws.log) e = inside j ws.log ∧ ∀ k l, given k j l e = [] := by
    intro j hj
    cases e <;> simp only [proj] at he <;> subst he <;> refine ⟨by simp [turn, hj], fun k l => ?_⟩ <;> simp [given, hj]
    all_goals (try (split <;> simp_all))
  refine ⟨?_, ?_, ?_, ?_, ?_, ?_, ?_, ?_⟩
  · show ws.cur < (ws.projs.modify ws.cur f).length
    rw [len_modify]; exact h.cur
  · intro i q hq k l
    obtain ⟨p, hp, rfl⟩ := get_modify _ _ _ _ _ hq
    show _ = (ws.log ++ [e]).flatMap _
    rw [List.flatMap_append, ← h.tbl i p hp k l]
    by_cases hi : ws.cur = i
    · subst hi
      rw [if_pos rfl, htbl p k l hp]
      simp
    · rw [if_neg hi]
      simp [(hother i hi).2 k l]
  · intro k l
    show ws.glob k l = (ws.log ++ [e]).flatMap _
    rw [List.flatMap_append, ← h.glob k l]
    have : givenAll k l e = [] := by
      unfold givenAll
      split
      · exact (hg _ _ _ _ rfl).elim
      · rfl
    simp [this]
  · intro q k ns as hm
    have hm : Ev.args q true k ns as ∈ ws.log ++ [e] := hm
    rw [List.mem_append] at hm
    rcases hm with hm | hm
    · exact h.main q k ns as hm
    · exact (hg q k ns as (List.mem_singleton.1 hm).symm).elim
  · intro i q hq
    obtain ⟨p, hp, rfl⟩ := get_modify _ _ _ _ _ hq
    show _ = below _ (inside i (ws.log ++ [e])) ∧ _ = below _ (inside i (ws.log ++ [e]))
    rw [inside_snoc]
    by_cases hi : ws.cur = i
    · subst hi
      rw [if_pos rfl, (hsrc p).1, (hsrc p).2]
      exact hdir p hp
    · rw [if_neg hi, (hother i hi).1]
      exact h.dirs i p hp
  · intro pre post i n x hlog
    have hlog : ws.log ++ [e] = pre ++ Ev.file i n x :: post := hlog
    rcases last_file hlog with ⟨t, ht⟩ | ⟨_, he'⟩
    · obtain ⟨p, hp, hx⟩ := h.files pre t i n x ht
      refine ⟨_, modify_get ws.cur f hp, ?_⟩
      rw [hx]
      split
      · rw [(hsrc p).1]
      · rfl
    · exfalso
      subst he'
      simp only [proj] at he
      subst he
      exact hf n x rfl
  · intro e' he'
    have he' : e' ∈ ws.log ++ [e] := he'
    show _ < (ws.projs.modify ws.cur f).length
    rw [len_modify]
    rw [List.mem_append] at he'
    rcases he' with he' | he'
    · exact h.known e' he'
    · have : e' = e := by simpa using he'
      rw [this, he]; exact h.cur
  · intro i q hq
    obtain ⟨p, hp, rfl⟩ := get_modify _ _ _ _ _ hq
    split
    · rename_i hi; subst hi; exact hasm p hp (h.asm _ p hp)
    · exact h.asm i p hp

/-- A change of the current project without an event. -/
theorem inv_upd0 {ws : Ws} (h : Inv ws) (f : Proj → Proj) (hsame : ∀ p, ws.projs[ws.cur]? = some p → SameRest p (f p) ∧ (Asm p → Asm (f p))) :
    Inv (ws.upd f []) := by
  have e : (ws.upd f []).log = ws.log := by simp [Ws.upd]
  refine ⟨?_, ?_, ?_, ?_, ?_, ?_, ?_, ?_⟩
  · show ws.cur < (ws.projs.modify ws.cur f).length
    rw [len_modify]; exact h.cur
  · intro i q hq k l
    obtain ⟨p, hp, rfl⟩ := get_modify _ _ _ _ _ hq
    rw [e, ← h.tbl i p hp k l]
    split
    · rename_i hi; subst hi; rw [(hsame p hp).1.2.2.2.2]
    · rfl
  · intro k l; rw [e]; exact h.glob k l
  · rw [e]; exact h.main
  · intro i q hq
    obtain ⟨p, hp, rfl⟩ := get_modify _ _ _ _ _ hq
    rw [e]
    split
    · rename_i hi; subst hi
      obtain ⟨s1, s2, s3, s4, _⟩ := (hsame p hp).1
      rw [s1, s2, s3, s4]; exact h.dirs _ p hp
    · exact h.dirs i p hp
  · intro pre post i n x hlog
    rw [e] at hlog
    obtain ⟨p, hp, hx⟩ := h.files pre post i n x hlog
    refine ⟨_, modify_get ws.cur f hp, ?_⟩
    rw [hx]
    split
    · rename_i hi; subst hi; rw [(hsame p hp).1.1]
    · rfl
  · intro e' he'
    rw [e] at he'
    show _ < (ws.projs.modify ws.cur f).length
    rw [len_modify]; exact h.known e' he'
  · intro i q hq
    obtain ⟨p, hp, rfl⟩ := get_modify _ _ _ _ _ hq
    split
    · rename_i hi; subst hi; exact (hsame p hp).2 (h.asm _ p hp)
    · exact h.asm i p hp

theorem keep_upd {ws : Ws} (f : Proj → Proj) (es : List Ev)
    (hsame : ∀ p, ws.projs[ws.cur]? = some p → (f p).src = p.src ∧ (f p).bld = p.bld ∧ (f p).cwd = p.cwd ∧ (f p).build = p.build ∧ Grows p (f p))
    (hin : ∀ i, inside i (ws.log ++ es) = inside i ws.log) : Keep ws (ws.upd f es) := by
  refine ⟨rfl, ?_, hin, ⟨es, rfl⟩⟩
  intro i p hp
  refine ⟨_, modify_get ws.cur f hp, ?_⟩
  split
  · rename_i hi; subst hi; exact hsame p hp
  · exact ⟨rfl, rfl, rfl, rfl, grows_refl p⟩

/-- An event that changes nothing but the log. -/
theorem inv_log {ws : Ws} (h : Inv ws) (e : Ev) (he : proj e = ws.cur) (hg : ∀ k i l, given k i l e = []) (hga : ∀ k l, givenAll k l e = [])
    (hm : ∀ q k ns as, e = .args q true k ns as → False)
    (ht : ∀ i s, turn i s e = s) (hf : ∀ i n x, e = .file i n x → ∃ p, ws.projs[i]? = some p ∧ x = Path.join p.cwd n) :
    Inv { ws with log := ws.log ++ [e] } := by
  refine ⟨h.cur, ?_, ?_, ?_, ?_, ?_, ?_, h.asm⟩
  · intro i p hp k l
    show _ = (ws.log ++ [e]).flatMap _
    rw [List.flatMap_append, ← h.tbl i p hp k l]; simp [hg]
  · intro k l
    show _ = (ws.log ++ [e]).flatMap _
    rw [List.flatMap_append]
    show ws.glob k l = _
    rw [h.glob k l]; simp [hga]
  · intro q k ns as hx
    have hx : Ev.args q true k ns as ∈ ws.log ++ [e] := hx
    rw [List.mem_append] at hx
    rcases hx with hx | hx
    · exact h.main q k ns as hx
    · exact (hm q k ns as (List.mem_singleton.1 hx).symm).elim
  · intro i p hp
    show _ = below _ (inside i (ws.log ++ [e])) ∧ _ = below _ (inside i (ws.log ++ [e]))
    rw [inside_snoc, ht]; exact h.dirs i p hp
  · intro pre post i n x hlog
    have hlog : ws.log ++ [e] = pre ++ Ev.file i n x :: post := hlog
    rcases last_file hlog with ⟨t, ht⟩ | ⟨h1, he'⟩
    · exact h.files pre t i n x ht
    · obtain ⟨p, hp, hx⟩ := hf i n x he'
      exact ⟨p, hp, by rw [hx, (h.dirs i p hp).1, h1]⟩
  · intro e' he'
    have he' : e' ∈ ws.log ++ [e] := he'
    rw [List.mem_append] at he'
    rcases he' with he' | he'
    · exact h.known e' he'
    · have : e' = e := by simpa using he'
      rw [this, he]; exact h.cur

theorem keep_log (ws : Ws) (e : Ev) (ht : ∀ i s, turn i s e = s) : Keep ws { ws with log := ws.log ++ [e] } :=
  ⟨rfl, fun _ p h => ⟨p, h, rfl, rfl, rfl, rfl, grows_refl p⟩, fun i => by
    show inside i (ws.log ++ [e]) = _
    rw [inside_snoc, ht], ⟨[e], rfl⟩⟩

/-- What files do which are evaluated. -/
def Sound (ev : Bytes → Bool → Ws → Out) : Prop :=
  ∀ path first ws ok ws', Inv ws → ev path first ws = .ret ok ws' → Inv ws' ∧ Keep ws ws'

theorem addArgs_sound {glob : Bool} {k : Kind} {langs as : List Bytes} {p : Proj} {ws ws' : Ws} {ok : Bool} (h : Inv ws) (hp : ws.projs[ws.cur]? = some p)
    (e : addArgs glob k langs as p ws = .ret ok ws') : Inv ws' ∧ Keep ws ws' := by
  unfold addArgs at e
  cases glob with
  | true =>
    simp only [if_true] at e
    split at e
    · cases e; exact ⟨h, keep_refl ws⟩
    · rename_i hc
      have hc : ws.cur = 0 := Decidable.not_not.1 hc
      cases e
      refine ⟨⟨h.cur, ?_, ?_, ?_, ?_, ?_, ?_, h.asm⟩, ⟨rfl, fun _ p h => ⟨p, h, rfl, rfl, rfl, rfl, grows_refl p⟩, fun i => ?_, ⟨_, rfl⟩⟩⟩
      · intro i q hq k' l
        show _ = (ws.log ++ [_]).flatMap _
        rw [List.flatMap_append, ← h.tbl i q hq k' l]; simp [given]
      · intro k' l
        show (putArgs k as langs ws.glob).2 k' l = (ws.log ++ [_]).flatMap _
        rw [List.flatMap_append, putArgs_tbl, h.glob k' l]
        by_cases hk : k = k'
        · subst hk; simp [givenAll]
        · simp [givenAll, hk, Ne.symm hk]
      · intro q k' ns as' hx
        rcases List.mem_append.1 (show Ev.args q true k' ns as' ∈ ws.log ++ [_] from hx) with hx | hx
        · exact h.main q k' ns as' hx
        · simp only [List.mem_singleton, Ev.args.injEq] at hx
          rw [hx.1, hc]
      · intro i q hq
        show _ = below _ (inside i (ws.log ++ [_])) ∧ _ = below _ (inside i (ws.log ++ [_]))
        rw [inside_snoc]; exact h.dirs i q hq
      · intro pre post i n x hlog
        rcases last_file (show ws.log ++ [_] = pre ++ Ev.file i n x :: post from hlog) with ⟨t, ht⟩ | ⟨_, he'⟩
        · exact h.files pre t i n x ht
        · cases he'
      · intro e' he'
        rcases List.mem_append.1 (show e' ∈ ws.log ++ [_] from he') with he' | he'
        · exact h.known e' he'
        · have := List.mem_singleton.1 he'
          rw [this]; exact h.cur
      · show inside i (ws.log ++ [_]) = _
        rw [inside_snoc]; rfl
  | false =>
    simp only [Bool.false_eq_true, if_false] at e
    cases e
    refine ⟨inv_upd h _ _ rfl (by intro n x; simp) (by intro q k' ns as' e; simp at e) (fun p => ⟨rfl, rfl⟩) (fun q _ hq => hq) ?_ ?_, keep_upd _ _ ?_ ?_⟩
    · intro q k' l _
      show (putArgs k as langs q.tbl).2 k' l = _
      rw [putArgs_tbl]
      by_cases hk : k = k'
      · subst hk; simp [given]
      · simp [given, hk, Ne.symm hk]
    · intro q hq; exact h.dirs _ q hq
    · intro q _; exact ⟨rfl, rfl, rfl, rfl, grows_refl q⟩
    · intro i; rw [inside_snoc]; rfl

theorem project_sound {E : Env} {langs : List Bytes} {subs : Option Bytes} {p : Proj} {ws ws' : Ws} {ok : Bool} (h : Inv ws) (hp : ws.projs[ws.cur]? = some p)
    (e : project E langs subs p ws = .ret ok ws') : Inv ws' ∧ Keep ws ws' := by
  unfold project at e
  split at e
  · cases e; exact ⟨h, keep_refl ws⟩
  · have ho := addAll_addOk (E.detect ws.cur) .required langs p
    obtain ⟨s1, s2, s3, s4, s5⟩ := ho.same
    dsimp only at e
    split at e
    · cases e
      refine ⟨inv_upd0 h _ ?_, keep_upd _ _ ?_ (by simp)⟩
      · intro q hq
        obtain rfl : p = q := by rw [hp] at hq; exact Option.some.inj hq
        exact ⟨⟨s1, s2, s3, s4, s5⟩, ho.asm⟩
      · intro q hq
        obtain rfl : p = q := by rw [hp] at hq; exact Option.some.inj hq
        exact ⟨s1, s2, s3, s4, ho.grows⟩
    · cases e
      refine ⟨inv_upd0 h _ ?_, keep_upd _ _ ?_ (by simp)⟩
      · intro q hq
        obtain rfl : p = q := by rw [hp] at hq; exact Option.some.inj hq
        exact ⟨⟨s1, s2, s3, s4, s5⟩, ho.asm⟩
      · intro q hq
        obtain rfl : p = q := by rw [hp] at hq; exact Option.some.inj hq
        exact ⟨s1, s2, s3, s4, ho.grows⟩

theorem enter_inv {name : Bytes} {ws : Ws} (h : Inv ws) : Inv (enter name ws) := by
  refine inv_upd h _ _ rfl (by intro n x; simp) (by intro q k ns as e; simp at e) (fun p => ⟨rfl, rfl⟩) (fun _ _ hq => hq) ?_ ?_
  · intro p k l _; simp [given]
  · intro p hp
    obtain ⟨h1, h2⟩ := h.dirs _ p hp
    simp only [turn, if_true]
    rw [below_snoc, below_snoc, ← h1, ← h2]
    exact ⟨rfl, rfl⟩

/-- Going back after what was done in a directory. -/
theorem back_sound {name : Bytes} {p : Proj} {ws ws2 : Ws} (h : Inv ws) (hp : ws.projs[ws.cur]? = some p) (h2 : Inv ws2) (hk : Keep (enter name ws) ws2) :
    Inv (back p.cwd p.build ws2) ∧ Keep ws (back p.cwd p.build ws2) := by
  have hcur : ws2.cur = ws.cur := hk.cur
  have hin : ∀ i, inside i (ws2.log ++ [.leave ws2.cur]) = inside i ws.log := by
    intro i
    rw [inside_snoc, hk.inside i]
    show turn i (inside i (ws.log ++ [.enter ws.cur name])) _ = _
    rw [inside_snoc, hcur]
    by_cases hi : ws.cur = i <;> simp [turn, hi]
  have hpe : (enter name ws).projs[ws.cur]? = some { p with cwd := Path.join p.cwd name, build := Path.join p.build name } := by
    have := modify_get ws.cur (fun p : Proj => { p with cwd := Path.join p.cwd name, build := Path.join p.build name }) hp
    rw [if_pos rfl] at this
    exact this
  obtain ⟨q, hq, q1, q2, _, _, q5⟩ := hk.projs _ _ hpe
  constructor
  · refine inv_upd h2 _ _ rfl (by intro n x; simp) (by intro a b c d e; simp at e) (fun p => ⟨rfl, rfl⟩) (fun _ _ hq => hq) ?_ ?_
    · intro p k l _; simp [given]
    · intro r hr
      rw [hcur, hq] at hr
      cases hr
      have e := hin ws2.cur
      rw [inside_snoc] at e
      rw [e, q1, q2, hcur]
      exact h.dirs _ p hp
  · refine ⟨hcur, ?_, hin, ?_⟩
    · intro i r hr
      by_cases hi : ws.cur = i
      · subst hi
        rw [hp] at hr; cases hr
        have := modify_get ws2.cur (fun x : Proj => { x with cwd := p.cwd, build := p.build }) hq
        rw [if_pos hcur] at this
        exact ⟨_, this, q1, q2, rfl, rfl, q5⟩
      · have hre : (enter name ws).projs[i]? = some r := by
          have := modify_get ws.cur (fun p : Proj => { p with cwd := Path.join p.cwd name, build := Path.join p.build name }) hr
          rw [if_neg hi] at this
          exact this
        obtain ⟨r', hr', e⟩ := hk.projs _ _ hre
        have := modify_get ws2.cur (fun x : Proj => { x with cwd := p.cwd, build := p.build }) hr'
        rw [if_neg (by rw [hcur]; exact hi)] at this
        exact ⟨_, this, e⟩
    · obtain ⟨d, hd⟩ := hk.log
      refine ⟨Ev.enter ws.cur name :: d ++ [.leave ws2.cur], ?_⟩
      show ws2.log ++ [_] = _
      rw [hd]
      show (ws.log ++ [Ev.enter ws.cur name]) ++ d ++ [_] = _
      simp

theorem subdir_sound {E : Env} {ev : Bytes → Bool → Ws → Out} (hev : Sound ev) {name : Bytes} {p : Proj} {ws ws' : Ws} {ok : Bool} (h : Inv ws)
    (hp : ws.projs[ws.cur]? = some p) (e : subdir E ev name p ws = .ret ok ws') : Inv ws' ∧ Keep ws ws' := by
  unfold subdir at e
  split at e
  · cases e
    exact back_sound h hp (enter_inv h) (keep_refl _)
  · generalize hr : ev (Path.push (Path.join p.cwd name) (ascii "meson.build")) false (enter name ws) = r at e
    cases r with
    | ret ok2 ws2 =>
      cases e
      obtain ⟨i2, k2⟩ := hev _ _ _ _ _ (enter_inv h) hr
      exact back_sound h hp i2 k2
    | bad => cases e
    | fuel => cases e

theorem given_other (k : Kind) (i : Nat) (l : Lang) (log : List Ev) (h : ∀ e ∈ log, proj e < i) : log.flatMap (given k i l) = [] := by
  rw [List.flatMap_eq_nil_iff]
  intro e he
  have hlt := h e he
  unfold given
  split
  · rw [if_neg]
    rintro ⟨e, _⟩
    simp only [proj] at hlt
    omega
  · rw [if_neg]
    intro e
    simp only [proj] at hlt
    omega
  · rfl

theorem inside_other (i : Nat) : ∀ (log : List Ev), (∀ e ∈ log, proj e < i) → inside i log = [] := by
  intro log
  unfold inside
  induction log with
  | nil => intro _; rfl
  | cons e log ih =>
    intro h
    have hlt := h e (by simp)
    have : turn i [] e = [] := by
      unfold turn
      split
      · simp only [proj] at hlt; rw [if_neg (by omega)]
      · simp
      · rfl
    rw [List.foldl_cons, this]
    exact ih (fun x hx => h x (List.mem_cons_of_mem _ hx))

theorem new_inv {cwd build : Bytes} {ws : Ws} (h : Inv ws ∨ ws = {}) : Inv (newProject cwd build ws) := by
  have hknown : ∀ e ∈ ws.log, proj e < ws.projs.length := by
    rcases h with h | rfl
    · exact h.known
    · intro e he; cases he
  have hget : ∀ (i : Nat) p, (newProject cwd build ws).projs[i]? = some p →
      ws.projs[i]? = some p ∨ (i = ws.projs.length ∧ p = { src := cwd, bld := build, cwd := cwd, build := build }) := by
    intro i p hp
    have hp : (ws.projs ++ [_])[i]? = some p := hp
    by_cases hi : i < ws.projs.length
    · left; rw [List.getElem?_append_left hi] at hp; exact hp
    · right
      rw [List.getElem?_append_right (by omega)] at hp
      have hi' : i - ws.projs.length = 0 := by
        cases hx : i - ws.projs.length with
        | zero => rfl
        | succ n => rw [hx] at hp; simp at hp
      rw [hi'] at hp
      simp at hp
      exact ⟨by omega, hp.symm⟩
  have hold : ∀ (i : Nat) p, ws.projs[i]? = some p → Inv ws := by
    intro i p hp
    rcases h with h | rfl
    · exact h
    · simp at hp
  have hlen : (newProject cwd build ws).projs.length = ws.projs.length + 1 := by simp [newProject]
  refine ⟨?_, ?_, ?_, ?_, ?_, ?_, ?_, ?_⟩
  · rw [hlen]; exact Nat.lt_succ_self _
  · intro i p hp k l
    rcases hget i p hp with hp | ⟨rfl, rfl⟩
    · exact (hold i p hp).tbl i p hp k l
    · exact (given_other k _ l ws.log hknown).symm
  · intro k l
    rcases h with h | rfl
    · exact h.glob k l
    · rfl
  · intro q k ns as hx
    rcases h with h | rfl
    · exact h.main q k ns as hx
    · cases hx
  · intro i p hp
    rcases hget i p hp with hp | ⟨rfl, rfl⟩
    · exact (hold i p hp).dirs i p hp
    · show cwd = below cwd (inside _ ws.log) ∧ build = below build (inside _ ws.log)
      rw [inside_other _ ws.log hknown]
      exact ⟨rfl, rfl⟩
  · intro pre post i n x hlog
    rcases h with h | rfl
    · obtain ⟨p, hp, hx⟩ := h.files pre post i n x hlog
      refine ⟨p, ?_, hx⟩
      show (ws.projs ++ [_])[i]? = some p
      rw [List.getElem?_append_left (List.getElem?_eq_some_iff.1 hp).1]
      exact hp
    · exact absurd (show ([] : List Ev) = pre ++ Ev.file i n x :: post from hlog) (by simp)
  · intro e he
    rw [hlen]; exact Nat.lt_succ_of_lt (hknown e he)
  · intro i p hp
    rcases hget i p hp with hp | ⟨rfl, rfl⟩
    · exact (hold i p hp).asm i p hp
    · intro hx; simp at hx

/-- After a subproject. -/
theorem leave_sound {cwd build : Bytes} {ws ws2 : Ws} {cache : List (Bytes × Nat)} (f : Proj → Proj) (hf : f = id ∨ f = fun p => { p with notOk := true })
    (h : Inv ws) (h2 : Inv ws2) (hk : Keep (newProject cwd build ws) ws2) :
    Inv { ws2 with cur := ws.cur, cache := cache, projs := ws2.projs.modify ws.projs.length f } ∧
    Keep ws { ws2 with cur := ws.cur, cache := cache, projs := ws2.projs.modify ws.projs.length f } := by
  have hfs : ∀ p, (f p).src = p.src ∧ (f p).bld = p.bld ∧ (f p).cwd = p.cwd ∧ (f p).build = p.build ∧ (f p).tbl = p.tbl ∧ (f p).comps = p.comps := by
    intro p
    rcases hf with rfl | rfl <;> exact ⟨rfl, rfl, rfl, rfl, rfl, rfl⟩
  have hmod : ∀ (i : Nat) q, (ws2.projs.modify ws.projs.length f)[i]? = some q → ∃ p, ws2.projs[i]? = some p ∧ q.src = p.src ∧ q.bld = p.bld ∧
      q.cwd = p.cwd ∧ q.build = p.build ∧ q.tbl = p.tbl ∧ q.comps = p.comps := by
    intro i q hq
    obtain ⟨p, hp, rfl⟩ := get_modify _ _ _ _ _ hq
    refine ⟨p, hp, ?_⟩
    split
    · exact hfs p
    · exact ⟨rfl, rfl, rfl, rfl, rfl, rfl⟩
  have hold : ∀ (i : Nat) p, ws.projs[i]? = some p → (newProject cwd build ws).projs[i]? = some p := by
    intro i p hp
    show (ws.projs ++ [_])[i]? = some p
    rw [List.getElem?_append_left (List.getElem?_eq_some_iff.1 hp).1]
    exact hp
  constructor
  · refine ⟨?_, ?_, h2.glob, h2.main, ?_, ?_, ?_, ?_⟩
    · show ws.cur < (ws2.projs.modify _ _).length
      rw [len_modify]
      obtain ⟨p, hp⟩ : ∃ p, ws.projs[ws.cur]? = some p := ⟨_, List.getElem?_eq_getElem h.cur⟩
      obtain ⟨q, hq, _⟩ := hk.projs _ _ (hold _ _ hp)
      exact (List.getElem?_eq_some_iff.1 hq).1
    · intro i q hq k l
      obtain ⟨p, hp, _, _, _, _, e, _⟩ := hmod i q hq
      rw [e]; exact h2.tbl i p hp k l
    · intro i q hq
      obtain ⟨p, hp, e1, e2, e3, e4, _⟩ := hmod i q hq
      rw [e1, e2, e3, e4]; exact h2.dirs i p hp
    · intro pre post i n x hlog
      obtain ⟨p, hp, hx⟩ := h2.files pre post i n x hlog
      refine ⟨_, modify_get ws.projs.length f hp, ?_⟩
      rw [hx]
      split
      · rw [(hfs p).1]
      · rfl
    · intro e he
      show _ < (ws2.projs.modify _ _).length
      rw [len_modify]; exact h2.known e he
    · intro i q hq
      obtain ⟨p, hp, _, _, _, _, _, e⟩ := hmod i q hq
      unfold Asm; rw [e]; exact h2.asm i p hp
  · refine ⟨rfl, ?_, ?_, ?_⟩
    · intro i p hp
      obtain ⟨q, hq, e1, e2, e3, e4, e5⟩ := hk.projs _ _ (hold _ _ hp)
      refine ⟨_, modify_get ws.projs.length f hq, ?_⟩
      split
      · obtain ⟨f1, f2, f3, f4, _, f6⟩ := hfs q
        exact ⟨f1.trans e1, f2.trans e2, f3.trans e3, f4.trans e4, by unfold Grows; rw [f6]; exact e5⟩
      · exact ⟨e1, e2, e3, e4, e5⟩
    · intro i; exact hk.inside i
    · exact hk.log

theorem subproject_sound {E : Env} {ev : Bytes → Bool → Ws → Out} (hev : Sound ev) {name : Bytes} {req : Req} {p : Proj} {ws ws' : Ws} {ok : Bool} (h : Inv ws)
    (e : subproject E ev name req p ws = .ret ok ws') : Inv ws' ∧ Keep ws ws' := by
  unfold subproject at e
  split at e
  · cases e; exact ⟨h, keep_refl ws⟩
  · split at e
    · cases e; exact ⟨h, keep_refl ws⟩
    · dsimp only at e
      split at e
      · cases e; exact ⟨h, keep_refl ws⟩
      · generalize hr : ev _ true (newProject _ _ ws) = r at e
        cases r with
        | ret ok2 ws2 =>
          obtain ⟨i2, k2⟩ := hev _ _ _ _ _ (new_inv (.inl h)) hr
          cases ok2 with
          | true =>
            cases e
            have := leave_sound (cache := ws2.cache ++ [(name, ws.projs.length)]) id (.inl rfl) h i2 k2
            have hid : ws2.projs.modify ws.projs.length id = ws2.projs := by
              apply List.ext_getElem?
              intro i
              rw [List.getElem?_modify]
              cases ws2.projs[i]? with
              | none => rfl
              | some x => simp
            rw [hid] at this
            exact this
          | false =>
            cases e
            exact leave_sound (cache := ws2.cache) _ (.inr rfl) h i2 k2
        | bad => cases e
        | fuel => cases e

theorem inv_meta {ws : Ws} (h : Inv ws) (ast : Bytes) (done : Bool) : Inv { ws with ast := ast, done := done } :=
  ⟨h.cur, h.tbl, h.glob, h.main, h.dirs, h.files, h.known, h.asm⟩

theorem keep_meta {a ws : Ws} (h : Keep a ws) (ast : Bytes) (done : Bool) : Keep a { ws with ast := ast, done := done } :=
  ⟨h.cur, h.projs, h.inside, h.log⟩

theorem keep_meta_left {a ws : Ws} {ast : Bytes} {done : Bool} (h : Keep { a with ast := ast, done := done } ws) : Keep a ws :=
  ⟨h.cur, h.projs, h.inside, h.log⟩

theorem exec_sound {E : Env} {ev : Bytes → Bool → Ws → Out} (hev : Sound ev) {s : Stmt} {ws ws' : Ws} {ok : Bool} (h : Inv ws)
    (e : exec E ev s ws = .ret ok ws') : Inv ws' ∧ Keep ws ws' := by
  unfold exec at e
  cases hp : ws.projs[ws.cur]? with
  | none => rw [hp] at e; cases e
  | some p =>
    rw [hp] at e
    dsimp only at e
    cases s with
    | project langs subs => exact project_sound h hp e
    | addArgs glob k langs as => exact addArgs_sound h hp e
    | addDeps langs c l i =>
      cases e
      refine ⟨inv_upd h _ _ rfl (by intro n x; simp) (by intro q k' ns as' e; simp at e) (fun p => ⟨rfl, rfl⟩) (fun _ _ hq => hq) ?_ ?_, keep_upd _ _ ?_ ?_⟩
      · intro q k m hq
        obtain rfl : p = q := by rw [hp] at hq; exact Option.some.inj hq
        show putDeps p c l i langs p.tbl k m = _
        rw [putDeps_tbl p c l i _ langs p.tbl k m (decl_filter p langs)]
        simp [given]
      · intro q hq; exact h.dirs _ q hq
      · intro q _; exact ⟨rfl, rfl, rfl, rfl, grows_refl q⟩
      · intro j; rw [inside_snoc]; rfl
    | addLangs req names =>
      cases e
      have ho := addAll_addOk (E.detect ws.cur) req names p
      obtain ⟨s1, s2, s3, s4, s5⟩ := ho.same
      refine ⟨inv_upd0 h _ ?_, keep_upd _ _ ?_ (by simp)⟩
      · intro q hq
        obtain rfl : p = q := by rw [hp] at hq; exact Option.some.inj hq
        exact ⟨⟨s1, s2, s3, s4, s5⟩, ho.asm⟩
      · intro q hq
        obtain rfl : p = q := by rw [hp] at hq; exact Option.some.inj hq
        exact ⟨s1, s2, s3, s4, ho.grows⟩
    | files name =>
      cases e
      refine ⟨inv_log h _ rfl (fun _ _ _ => rfl) (fun _ _ => rfl) (by intro q k ns as e; simp at e) (fun _ _ => rfl) ?_, keep_log ws _ (fun _ _ => rfl)⟩
      intro i n x e
      simp only [Ev.file.injEq] at e
      obtain ⟨rfl, rfl, rfl⟩ := e
      exact ⟨p, hp, rfl⟩
    | subdir name found =>
      dsimp only at e
      split at e
      · exact subdir_sound hev h hp e
      · cases e; exact ⟨h, keep_refl ws⟩
    | done =>
      cases e
      exact ⟨inv_meta h ws.ast true, keep_meta (keep_refl ws) ws.ast true⟩
    | subproject name req => exact subproject_sound hev h e

theorem run_sound {E : Env} {ev : Bytes → Bool → Ws → Out} (hev : Sound ev) (me : Bytes) : ∀ (ss : List Stmt) (ws ws' : Ws) (ok : Bool), Inv ws →
    run E ev me ss ws = .ret ok ws' → Inv ws' ∧ Keep ws ws'
  | [], ws, ws', ok, h, e => by cases e; exact ⟨h, keep_refl ws⟩
  | s :: ss, ws, ws', ok, h, e => by
    rw [run] at e
    split at e
    · cases e
    · split at e
      · rename_i ws1 he
        obtain ⟨i1, k1⟩ := exec_sound hev h he
        split at e
        · cases e; exact ⟨i1, k1⟩
        · obtain ⟨i2, k2⟩ := run_sound hev me ss ws1 ws' ok i1 e
          exact ⟨i2, keep_trans k1 k2⟩
      · exact exec_sound hev h e

theorem evalFile_sound (E : Env) : ∀ n, Sound (evalFile E n)
  | 0 => by intro path first ws ok ws' _ e; cases e
  | n + 1 => by
    intro path first ws ok ws' h e
    rw [evalFile] at e
    have h1 : Inv { ws with log := ws.log ++ [.read ws.cur path] } :=
      inv_log h _ rfl (fun _ _ _ => rfl) (fun _ _ => rfl) (by intro q k ns as e; simp at e) (fun _ _ => rfl) (by intro i n x e; simp at e)
    have k1 : Keep ws { ws with log := ws.log ++ [.read ws.cur path] } := keep_log ws _ (fun _ _ => rfl)
    dsimp only at e
    split at e
    · cases e; exact ⟨h1, k1⟩
    · rename_i ss _
      split at e
      · cases e; exact ⟨inv_meta h1 path ws.done, keep_meta k1 path ws.done⟩
      · generalize hr : run E (evalFile E n) path ss _ = r at e
        cases r with
        | ret ok2 ws2 =>
          cases e
          obtain ⟨i2, k2⟩ := run_sound (evalFile_sound E n) path ss _ ws2 _ (inv_meta h1 path ws.done) hr
          have k3 : Keep ws ws2 := keep_trans k1 (keep_meta_left k2)
          exact ⟨inv_meta i2 _ _, keep_meta k3 _ _⟩
        | bad => cases e
        | fuel => cases e

end Muon.Proj
