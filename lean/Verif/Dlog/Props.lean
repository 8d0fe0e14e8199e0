import Verif.Dlog.Reload
/-
C53: the dependency log.
-/
namespace Muon.Dlog
open Muon Muon.Dlog.Spec

theorem goodE_nil : GoodE [] := ⟨by simp, by simp, by simp, by simp, by simp, by simp⟩

theorem inv_init : Inv W.init [] := ⟨goodE_nil, rfl, by decide, fun p i => by simp [W.init]⟩

theorem header_len : (header ++ le32 version).length = 16 := by decide +kernel

/-- A log cut off in its header or version is taken for empty. -/
theorem deps_crash_header (hd : Bytes → Bool) (rs : List Op) (w : W) (hw : writeAll W.init rs = .ok w) (hg : ∀ o ∈ rs, Good o) (k : Nat) (hk : k < 16) :
    readDeps hd (w.file.take k) = .ok [] := by
  obtain ⟨body, hb, _⟩ := writeAll_read hd rs [] inv_init hg (fun _ _ => rfl) hw
  have e : w.file.take k = (header ++ le32 version).take k := by
    rw [hb, List.take_append_of_le_length]
    · rfl
    · show k ≤ (header ++ le32 version).length; rw [header_len]; omega
  rw [e]
  unfold readDeps
  split
  · rfl
  · dsimp only
    rw [if_pos]
    have : header.length = 12 := by decide +kernel
    rw [List.length_drop, List.length_take, header_len]
    omega

/-- What reading finds after a crash. -/
theorem crash_read (hd : Bytes → Bool) (rs : List Op) (w : W) (hw : writeAll W.init rs = .ok w) (hg : ∀ o ∈ rs, Good o) (k : Nat) :
    ∃ n, n ≤ rs.length ∧
      (16 ≤ k → ∃ wn, writeAll W.init (rs.take n) = .ok wn ∧ wn.file.length ≤ k) ∧
      (n < rs.length → ∃ w1, writeAll W.init (rs.take (n + 1)) = .ok w1 ∧ k < w1.file.length) ∧
      ∃ E, readDeps hd (w.file.take k) = .ok E ∧ GoodE E ∧ ∀ p, hd p = true → recovered E p = latest (rs.take n) p := by
  obtain ⟨body, hb, h⟩ := writeAll_read hd rs [] inv_init hg (fun _ _ => rfl) hw
  have hi : W.init.file.length = 16 := header_len
  by_cases hk : 16 ≤ k
  · have e : w.file.take k = header ++ (le32 version ++ body.take (k - 16)) := by
      rw [hb, List.take_append, hi, List.take_of_length_le (by omega)]
      show (header ++ le32 version) ++ _ = _
      rw [List.append_assoc]
    obtain ⟨n, h1, wn, h2, h3, h4, E, h5, hgE, h6⟩ := h (k - 16) (w.file.take k).length (by
      rw [e, List.length_append, List.length_append, le32_length]
      have : header.length = 12 := by decide +kernel
      omega)
    refine ⟨n, h1, fun _ => ⟨wn, h2, by omega⟩, ?_, E, ?_, hgE, by simpa using h6⟩
    · intro hn
      obtain ⟨w1, a, b⟩ := h4 hn
      exact ⟨w1, a, by omega⟩
    · rw [← h5, e]
      unfold readDeps
      rw [List.take_left' rfl, List.drop_left' rfl, if_neg (by simp)]
      dsimp only
      rw [get32_le32 _ (by decide), if_neg (by rw [List.length_append, le32_length]; omega), if_neg (by simp), List.drop_left' (le32_length _)]
  · obtain ⟨n, h1, wn, h2, h3, h4, _⟩ := h 0 1 (by simp)
    refine ⟨0, by omega, fun h => absurd h hk, ?_, [], deps_crash_header hd rs w hw hg k (by omega), goodE_nil, fun p _ => rfl⟩
    intro hn
    cases hrs : rs with
    | nil => rw [hrs] at hn; cases hn
    | cons o rs' =>
      rw [hrs] at hw
      unfold writeAll at hw
      rw [Res.bind_eq_ok] at hw
      obtain ⟨w1, hw1, _⟩ := hw
      refine ⟨w1, ?_, ?_⟩
      · show writeAll W.init [o] = _
        unfold writeAll
        rw [hw1]; rfl
      · obtain ⟨cs, E', _, hf, _⟩ := record_inv hd inv_init (hg o (by simp [hrs])) hw1
        rw [hf, List.length_append, hi]; omega

/-- C53: after a crash at any byte of the log, reading it finds exactly the dependencies in the last record of each output,
of those records that were written completely. -/
theorem deps_crash (hd : Bytes → Bool) (rs : List Op) (w : W) (hw : writeAll W.init rs = .ok w) (hg : ∀ o ∈ rs, Good o) (k : Nat) :
    ∃ n, n ≤ rs.length ∧
      (16 ≤ k → ∃ wn, writeAll W.init (rs.take n) = .ok wn ∧ wn.file.length ≤ k) ∧
      (n < rs.length → ∃ w1, writeAll W.init (rs.take (n + 1)) = .ok w1 ∧ k < w1.file.length) ∧
      ∃ E, readDeps hd (w.file.take k) = .ok E ∧ ∀ p, hd p = true → recovered E p = latest (rs.take n) p := by
  obtain ⟨n, h1, h2, h3, E, h4, _, h5⟩ := crash_read hd rs w hw hg k
  exact ⟨n, h1, h2, h3, E, h4, h5⟩

theorem writeAll_append (xs ys : List Op) : ∀ (w0 : W), writeAll w0 (xs ++ ys) = writeAll w0 xs >>= fun w => writeAll w ys := by
  induction xs with
  | nil => intro w0; rfl
  | cons x xs ih =>
    intro w0
    show record w0 _ _ _ >>= _ = (record w0 _ _ _ >>= _) >>= _
    cases record w0 x.out x.deps x.mtime with
    | ok w1 => exact ih w1
    | error => rfl
    | bad => rfl

theorem recordid_mono {w w' : W} {p : Bytes} {b : Bool} (h : recordid w p = .ok (w', b)) : w.file.length ≤ w'.file.length := by
  unfold recordid at h
  cases hi : w.ids p with
  | some i => rw [hi] at h; cases h; exact Nat.le_refl _
  | none =>
    rw [hi] at h; dsimp only at h
    split at h
    · cases h
    · split at h
      · cases h
      · cases h; dsimp only; rw [List.length_append]; omega

theorem recordids_mono (ps : List Bytes) : ∀ {w w' : W} {b : Bool}, recordids w ps = .ok (w', b) → w.file.length ≤ w'.file.length := by
  induction ps with
  | nil => intro w w' b h; cases h; exact Nat.le_refl _
  | cons p ps ih =>
    intro w w' b h
    unfold recordids at h
    rw [Res.bind_eq_ok] at h
    obtain ⟨⟨w1, b1⟩, h1, h⟩ := h
    rw [Res.bind_eq_ok] at h
    obtain ⟨⟨w2, b2⟩, h2, h⟩ := h
    cases h
    exact Nat.le_trans (recordid_mono h1) (ih h2)

theorem writeAll_mono (ys : List Op) : ∀ {w0 w' : W}, writeAll w0 ys = .ok w' → w0.file.length ≤ w'.file.length := by
  induction ys with
  | nil => intro w0 w' h; cases h; exact Nat.le_refl _
  | cons y ys ih =>
    intro w0 w' h
    unfold writeAll at h
    rw [Res.bind_eq_ok] at h
    obtain ⟨w2, hr, h⟩ := h
    refine Nat.le_trans ?_ (ih h)
    unfold record at hr
    rw [Res.bind_eq_ok] at hr
    obtain ⟨⟨w3, b3⟩, hr3, hr⟩ := hr
    rw [Res.bind_eq_ok] at hr
    obtain ⟨⟨w4, b4⟩, hr4, hr⟩ := hr
    refine Nat.le_trans (recordid_mono hr3) (Nat.le_trans (recordids_mono _ hr4) ?_)
    unfold recorddeps at hr
    dsimp only at hr
    split at hr
    · cases hr
    · cases hr; dsimp only; rw [List.length_append]; omega

theorem whole {rs : List Op} {w : W} (hw : writeAll W.init rs = .ok w) {n : Nat} (hn : n ≤ rs.length)
    (h : n < rs.length → ∃ w1, writeAll W.init (rs.take (n + 1)) = .ok w1 ∧ w.file.length < w1.file.length) : n = rs.length := by
  rcases Nat.lt_or_ge n rs.length with hlt | hge
  · exfalso
    obtain ⟨w1, a, b⟩ := h hlt
    rw [← List.take_append_drop (n + 1) rs, writeAll_append, a] at hw
    have := writeAll_mono _ hw
    omega
  · omega

/-- C53: a whole log. -/
theorem deps_all (hd : Bytes → Bool) (rs : List Op) (w : W) (hw : writeAll W.init rs = .ok w) (hg : ∀ o ∈ rs, Good o) :
    ∃ E, readDeps hd w.file = .ok E ∧ ∀ p, hd p = true → recovered E p = latest rs p := by
  obtain ⟨n, h1, h2, h3, E, h4, h5⟩ := deps_crash hd rs w hw hg w.file.length
  rw [List.take_of_length_le (Nat.le_refl _)] at h4
  rw [whole hw h1 h3, List.take_of_length_le (Nat.le_refl _)] at h5
  exact ⟨E, h4, h5⟩

/-- C53: starting with a log cut off anywhere succeeds, and the log is written again. The new log says of each output what the old
one said. **Partial**: a record without dependencies is lost (`deps_empty_counterexample`). What is in memory for an output
with dependencies is its own record; for other nodes see `deps_stale_counterexample`. -/
theorem deps_reload_partial (hd : Bytes → Bool) (rs : List Op) (w : W) (hw : writeAll W.init rs = .ok w) (hg : ∀ o ∈ rs, Good o) (k : Nat) :
    ∃ n s rs', n ≤ rs.length ∧
      (n < rs.length → ∃ w1, writeAll W.init (rs.take (n + 1)) = .ok w1 ∧ k < w1.file.length) ∧
      depsinit hd (some (w.file.take k)) = .ok s ∧
      (∀ o ∈ rs', Good o) ∧ writeAll W.init rs' = .ok s.w ∧
      (∀ p, hd p = true → (latest (rs.take n) p).1 ≠ [] → latest rs' p = latest (rs.take n) p ∧
        entryOf s p = .ok (some ⟨p, (latest (rs.take n) p).1, (latest (rs.take n) p).2⟩)) ∧
      (∀ p, hd p = true → (latest (rs.take n) p).1 = [] → latest rs' p = ([], 0)) := by
  obtain ⟨n, h1, _, h3, E, h4, hE, h5⟩ := crash_read hd rs w hw hg k
  have hnl : (E.map (·.node)).length ≤ 2 ^ 31 - 1 := by rw [List.length_map]; exact hE.count
  have hmem : ∀ {q}, q ∈ E.map (·.node) → ∃ e ∈ E, e.node = q := fun h => by
    obtain ⟨e, a, b⟩ := List.mem_map.1 h; exact ⟨e, a, b⟩
  have hall : ∀ e ∈ E, Good (toOp e) ∧ e.node ∈ E.map (·.node) ∧ (∀ d ∈ e.deps, d ∈ E.map (·.node)) ∧ 12 + e.deps.length * 4 + 4 < maxRecord :=
    fun e he => ⟨hE.ok e he, List.mem_map.2 ⟨e, he, rfl⟩, hE.closed e he, hE.deps e he⟩
  let s0 : Session := ⟨W.init, fun i => E[i]?, capFor E.length 32 0⟩
  have hi0 : Inv s0.w [] := inv_init
  have hn0 : ∀ q, (s0.w.ids q).isSome → q ∈ E.map (·.node) := fun q hq => by simp [s0, W.init] at hq
  obtain ⟨s, hs⟩ := rewriteLoop_total (E.map (·.node)) hnl
    (fun q hq => by obtain ⟨e, a, rfl⟩ := hmem hq; exact hE.node e a)
    (fun q hq => by obtain ⟨e, a, rfl⟩ := hmem hq; exact (hE.ok e a).1) E (s := s0) hi0 hn0 hall
  obtain ⟨a1, a2, ⟨F, a3⟩, a4, _, _, a7⟩ := rewriteLoop_ok (E.map (·.node)) E hi0 hn0 (fun e he => ⟨(hall e he).1, (hall e he).2.1, (hall e he).2.2.1⟩) hE.nodup hs
  refine ⟨n, s, ops E, h1, h3, ?_, ?_, a1, ?_, ?_⟩
  · show (readDeps hd _ >>= _) = _
    rw [h4]
    exact hs
  · intro o ho
    obtain ⟨e, he, rfl⟩ := List.mem_map.1 ho
    exact hE.ok e (List.mem_filter.1 he).1
  · intro p hp hne
    rw [ops_latest E hE.nodup p, h5 p hp, if_neg hne]
    refine ⟨rfl, ?_⟩
    rw [← h5 p hp] at hne ⊢
    unfold recovered at hne ⊢
    cases hf : E.find? (fun e => e.node == p) with
    | none => rw [hf] at hne; exact absurd rfl hne
    | some e =>
      rw [hf] at hne
      dsimp only at hne ⊢
      have he := List.mem_of_find?_eq_some hf
      have hnp : e.node = p := by simpa using List.find?_some hf
      obtain ⟨i, hi, hv⟩ := a7 e he hne
      have hlt : i < s.cap := by
        have b1 := a3.lt hi
        have b2 := a3.next_le a4
        rw [a3.len] at b1
        rw [List.length_map] at b2
        have b3 := capFor_ge E.length (by have := hE.count; omega)
        rw [a2]
        show i < capFor E.length 32 0
        omega
      unfold entryOf
      rw [← hnp, hi]
      dsimp only
      rw [if_pos hlt, hv]
  · intro p hp he
    rw [ops_latest E hE.nodup p, h5 p hp, if_pos he]

/-- C53: recording what a build found. If what is in memory for the output is its last record, then afterwards the last record of
the output is what was found, and the records of the other outputs are the same. **Partial**: for an output which is known
only as a dependency of another, what is in memory is something else (`deps_stale_counterexample`,
`deps_first_counterexample`). -/
theorem deps_recorded_partial (s s' : Session) (rs : List Op) (o : Op) (hw : writeAll W.init rs = .ok s.w)
    (hm : ∀ e, entryOf s o.out = .ok (some e) → latest rs o.out = (e.deps, e.mtime))
    (hr : depsrecord s o.out o.deps o.mtime = .ok s') :
    ∃ rs', writeAll W.init rs' = .ok s'.w ∧ (rs' = rs ∨ rs' = rs ++ [o]) ∧ latest rs' o.out = (o.deps, o.mtime) ∧
      ∀ p, p ≠ o.out → latest rs' p = latest rs p := by
  unfold depsrecord at hr
  rw [Res.bind_eq_ok] at hr
  obtain ⟨⟨w1, b1⟩, h1, hr⟩ := hr
  rw [Res.bind_eq_ok] at hr
  obtain ⟨u, hu, hr⟩ := hr
  rw [Res.bind_eq_ok] at hr
  obtain ⟨⟨w2, b2⟩, h2, hr⟩ := hr
  dsimp only at hu h2 hr
  by_cases hub : (u || b2) = true
  · rw [if_pos hub, Res.bind_eq_ok] at hr
    obtain ⟨w3, h3, hr⟩ := hr
    cases hr
    refine ⟨rs ++ [o], ?_, Or.inr rfl, by rw [latest_snoc, if_pos rfl], fun p hp => by rw [latest_snoc, if_neg hp]⟩
    rw [writeAll_append, hw]
    show record s.w _ _ _ >>= _ = _
    have : record s.w o.out o.deps o.mtime = .ok w3 := by
      unfold record
      rw [h1, Res.ok_bind]
      dsimp only
      rw [h2, Res.ok_bind]
      exact h3
    rw [this]; rfl
  · rw [if_neg hub] at hr
    cases hr
    have hub' : u = false ∧ b2 = false := by simpa using hub
    have e2 := (recordids_ids _ h2).2.2 hub'.2
    cases hb1 : b1 with
    | true => rw [hb1, if_pos rfl] at hu; cases hu; cases hub'.1
    | false =>
      rw [hb1, if_neg (by simp), Res.bind_eq_ok] at hu
      have e1 := (recordid_ids h1).2.2.2 hb1
      obtain ⟨oe, hoe, hu⟩ := hu
      cases oe with
      | none => cases hu
      | some e =>
        dsimp only at hu
        have hu' : decide (e.mtime ≠ o.mtime ∨ e.deps ≠ o.deps) = u := by injection hu
        rw [hub'.1] at hu'
        have hu'' : e.mtime = o.mtime ∧ e.deps = o.deps := by simpa using hu'
        refine ⟨rs, by show _ = Res.ok w2; rw [e2, e1]; exact hw, Or.inl rfl, ?_, fun _ _ => rfl⟩
        rw [hm e hoe, hu''.1, hu''.2]

/-- C53, end to end: start with a log that has dependencies for an output, record another build of that output, and start
again: the dependencies used then are those of that build. -/
theorem deps_cycle (hd : Bytes → Bool) (rs : List Op) (w : W) (hw : writeAll W.init rs = .ok w) (hg : ∀ o ∈ rs, Good o)
    (s s' : Session) (hs : depsinit hd (some w.file) = .ok s) (o : Op) (ho : Good o) (hdo : hd o.out = true) (hne : o.deps ≠ [])
    (hold : (latest rs o.out).1 ≠ []) (hr : depsrecord s o.out o.deps o.mtime = .ok s') :
    ∃ s2, depsinit hd (some s'.w.file) = .ok s2 ∧ entryOf s2 o.out = .ok (some ⟨o.out, o.deps, o.mtime⟩) := by
  obtain ⟨n, t, rs', h1, h2, h3, h4, h5, h6, _⟩ := deps_reload_partial hd rs w hw hg w.file.length
  rw [List.take_of_length_le (Nat.le_refl _), hs] at h3
  cases h3
  rw [whole hw h1 h2, List.take_of_length_le (Nat.le_refl _)] at h6
  obtain ⟨h6, h7⟩ := h6 o.out hdo hold
  obtain ⟨rs2, g1, g2, g3, _⟩ := deps_recorded_partial s s' rs' o h5 (fun e he => by rw [h7] at he; cases he; exact h6) hr
  have hg2 : ∀ o ∈ rs2, Good o := by
    intro x hx
    rcases g2 with rfl | rfl
    · exact h4 x hx
    · rcases List.mem_append.1 hx with hx | hx
      · exact h4 x hx
      · rw [List.mem_singleton] at hx; rw [hx]; exact ho
  obtain ⟨m, s2, _, k1, k2, k3, _, _, k6, _⟩ := deps_reload_partial hd rs2 s'.w g1 hg2 s'.w.file.length
  rw [List.take_of_length_le (Nat.le_refl _)] at k3
  rw [whole g1 k1 k2, List.take_of_length_le (Nat.le_refl _)] at k6
  have k7 := k6 o.out hdo
  rw [g3] at k7
  exact ⟨s2, k3, (k7 hne).2⟩

/-! ### Where it fails -/

/-- `a.o` was built, and had no dependencies; when the log is read again it has no record of `a.o` left: the output is dirty. -/
theorem deps_empty_counterexample :
    (do let w ← writeAll W.init [⟨ascii "a.o", [], 5⟩]
        let s ← depsinit (fun _ => true) (some w.file)
        .ok (s.w.file, entryOf s (ascii "a.o"))) = .ok (W.init.file, .ok none) := by decide +kernel

/-- `x.o` has a record without dependencies, `h.h` is a dependency of `y.o`. When the log is read again the number of `h.h` is
that of `y.o` before: for `h.h` the record of `y.o` is used, and `h.h` depends on itself. -/
theorem deps_stale_counterexample :
    (do let w ← writeAll W.init [⟨ascii "x.o", [], 5⟩, ⟨ascii "y.o", [ascii "h.h"], 7⟩]
        let s ← depsinit (fun _ => true) (some w.file)
        .ok (entryOf s (ascii "h.h"))) = .ok (.ok (some ⟨ascii "y.o", [ascii "h.h"], 7⟩)) := by decide +kernel

/-- Without a log, the build of `a.o` finds that it depends on the generated file `h.h`; when `h.h` is built next, in the same
run, it has a number, but there is no array of records to look at. -/
theorem deps_first_counterexample :
    (do let s ← depsinit (fun _ => true) none
        let s ← depsrecord s (ascii "a.o") [ascii "h.h"] 5
        let s ← depsrecord s (ascii "h.h") [ascii "z.h"] 6
        .ok s.w.file) = .bad := by decide +kernel

/-- When the log is read, the file is truncated and written again: a crash then loses everything. -/
theorem deps_rewrite_counterexample :
    (do let w ← writeAll W.init [⟨ascii "a.o", [ascii "h.h"], 5⟩]
        let s ← depsinit (fun _ => true) (some w.file)
        let E ← readDeps (fun _ => true) (s.w.file.take 16)
        .ok (recovered E (ascii "a.o"))) = .ok ([], 0) := by decide +kernel

/-- A record that names an invalid dependency stops the reading, but leaves a list of dependencies that is not filled. -/
theorem deps_invalid_counterexample :
    readDeps (fun _ => true) (header ++ le32 version ++
      (le32 8 ++ ascii "abc\x00" ++ le32 (2 ^ 32 - 1)) ++ (le32 (2 ^ 31 + 16) ++ le32 0 ++ le32 5 ++ le32 0 ++ le32 9)) = .bad := by
  decide +kernel

/-- A record of a node with an empty path: the loop that skips NULs leaves the buffer. -/
theorem deps_nul_counterexample :
    readDeps (fun _ => true) (header ++ le32 version ++ (le32 8 ++ le32 0 ++ le32 (2 ^ 32 - 1))) = .bad := by
  decide +kernel

/-! ### The hypotheses can be met -/

/-- Three builds; `b.o` was built twice. -/
def sample : List Op := [⟨ascii "a.o", [ascii "a.c", ascii "h.h"], 5⟩, ⟨ascii "b.o", [ascii "h.h"], -6⟩, ⟨ascii "b.o", [ascii "b.c", ascii "h.h"], 70000000000⟩]

example : ∀ o ∈ sample, Good o := by decide +kernel
example : (writeAll W.init sample >>= fun w => Res.ok w.file.length) = .ok 144 := by decide +kernel
example : (writeAll W.init sample >>= fun w => readDeps (fun p => p = ascii "b.o") w.file >>= fun E => Res.ok (recovered E (ascii "b.o"))) =
    .ok ([ascii "b.c", ascii "h.h"], 70000000000) := by decide +kernel
example : (writeAll W.init sample >>= fun w => readDeps (fun p => p = ascii "b.o") (w.file.take 130) >>= fun E => Res.ok (recovered E (ascii "b.o"))) =
    .ok ([ascii "h.h"], -6) := by decide +kernel
/-- `deps_cycle`. -/
example : (do
    let w ← writeAll W.init sample
    let s ← depsinit (fun _ => true) (some w.file)
    let s' ← depsrecord s (ascii "b.o") [ascii "z.h"] 9
    let s2 ← depsinit (fun _ => true) (some s'.w.file)
    entryOf s2 (ascii "b.o")) = .ok (some ⟨ascii "b.o", [ascii "z.h"], 9⟩) := by decide +kernel

end Muon.Dlog
