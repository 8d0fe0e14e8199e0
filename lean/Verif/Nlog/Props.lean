import Verif.Nlog.Lemmas
namespace Muon.Nlog
open Muon Muon.Nlog.Spec

/-- C52: reading a log finds the last record of each output. -/
theorem log_latest (known : Bytes → Bool) (rs : List Entry) (hg : ∀ e ∈ rs, Good e) (p : Bytes) (hp : known p = true) :
    readLog known (written rs) p = latest rs p := by
  have := readLog_recs known rs hg [] (by simp)
  rw [List.append_nil] at this
  rw [this]
  show replay known rs St.init p = _
  rw [replay_latest, if_pos hp]

/-- C52: after a crash at any byte the last complete record of each output is found, except that the torn record can
change what is known of its own output, and the time stamp, but not the command hash, of an output whose path is the
beginning of its path. -/
theorem log_crash_partial (known : Bytes → Bool) (rs : List Entry) (hg : ∀ e ∈ rs, Good e) (k : Nat) :
    (k < header.length ∧ ∀ p, readLog known ((written rs).take k) p = ⟨2, 0⟩) ∨
    ∃ n, Complete rs k n ∧ ∀ p, known p = true →
      readLog known ((written rs).take k) p = latest (rs.take n) p ∨
      ∃ e, rs[n]? = some e ∧ p <+: e.1 ∧
        (p ≠ e.1 → (readLog known ((written rs).take k) p).hash = (latest (rs.take n) p).hash) := by
  by_cases hk : k < header.length
  · exact Or.inl ⟨hk, fun p => by rw [readLog_header known rs k hk]; rfl⟩
  · right
    obtain ⟨n, h1, h2, h3, t, h4, h5⟩ := body_take rs (k - header.length)
    have hgn : ∀ e ∈ rs.take n, Good e := fun e he => hg e (List.mem_of_mem_take he)
    refine ⟨n, ⟨h1, ?_, ?_⟩, fun p hp => ?_⟩
    · rw [written_eq, List.length_append]; omega
    · intro h; have := h3 h; rw [written_eq, List.length_append]; omega
    · have e : (written rs).take k = written (rs.take n) ++ t := by
        rw [written_eq, List.take_append, h4, written_eq, List.append_assoc, List.take_of_length_le (by omega)]
      rw [e]
      rcases h5 with rfl | ⟨e, he, ht⟩
      · left; rw [List.append_nil]; exact log_latest known _ hgn p hp
      · have hge := hg e (List.mem_of_getElem? he)
        have hno := recText_no e hge
        have t0 : 0 ∉ t := fun h => hno.2 (ht.subset h)
        have t10 : 10 ∉ t := fun h => hno.1 (ht.subset h)
        rw [readLog_recs known _ hgn t t0]
        by_cases htn : t = []
        · left; subst htn
          show replay known (rs.take n) St.init p = _
          rw [replay_latest, if_pos hp]
        · rw [Lines.toLines_last t t10 htn]
          have hr : (Lines.run (parseCb known) [t] (false, replay known (rs.take n) St.init)).2 =
              parseLine known (replay known (rs.take n) St.init) t := by
            simp [Lines.run, parseCb]
          rw [hr]
          obtain ⟨q1, q2⟩ := parseLine_torn known (replay known (rs.take n) St.init) e hge.1 t ht p
          rw [replay_latest, if_pos hp] at q1 q2
          by_cases hpre : p <+: e.1
          · exact Or.inr ⟨e, he, hpre, q2⟩
          · exact Or.inl (q1 hpre)

/-- C52: starting rewrites the log; reading the new contents gives the same for every output that has a command hash. -/
theorem log_rewrite_partial (known : Bytes → Bool) (outs : List Bytes) (file : Bytes) (hk : ∀ p, known p = true ↔ p ∈ outs)
    (hg : ∀ p ∈ outs, 9 ∉ p ∧ 10 ∉ p ∧ 0 ∉ p) (p : Bytes) (hp : known p = true) (hh : (readLog known file p).hash ≠ 0) :
    readLog known (loginit known outs file).2 p = readLog known file p := by
  have hb := readLog_bounded known file
  generalize hst : readLog known file = st at *
  let rs : List Entry := (outs.filter fun p => (st p).hash ≠ 0).map fun p => (p, st p)
  have e : (loginit known outs file).2 = written rs := by
    show rewritten outs (readLog known file) = _
    rw [hst]
    unfold rewritten written
    simp only [rs, List.flatMap_map]
  have hgr : ∀ e ∈ rs, Good e := by
    intro e he
    obtain ⟨q, hq, rfl⟩ := List.mem_map.1 he
    have := hg q (List.mem_filter.1 hq).1
    exact ⟨this.1, this.2.1, this.2.2, hb q⟩
  rw [e, log_latest known rs hgr p hp]
  have hmem : (p, st p) ∈ rs := List.mem_map.2 ⟨p, List.mem_filter.2 ⟨(hk p).1 hp, by simpa using hh⟩, rfl⟩
  unfold latest
  cases hf : rs.reverse.find? (fun e => e.1 == p) with
  | none =>
    rw [List.find?_eq_none] at hf
    exact absurd (hf (p, st p) (List.mem_reverse.2 hmem)) (by simp)
  | some e =>
    have h1 := List.find?_some hf
    obtain ⟨q, _, rfl⟩ := List.mem_map.1 (List.mem_reverse.1 (List.mem_of_find?_eq_some hf))
    have h1 : q = p := by simpa using h1
    subst h1; rfl

/-- The two outputs of the examples. -/
def knownAB (p : Bytes) : Bool := p == ascii "a" || p == ascii "ab"

/-- Records of `a` and then of `ab`. -/
def rsAB : List Entry := [(ascii "a", ⟨7, 0x1234⟩), (ascii "ab", ⟨900, 0xabcd⟩)]

example : (∀ e ∈ rsAB, Good e) ∧ (∀ p, knownAB p = true ↔ p ∈ [ascii "a", ascii "ab"]) := by
  refine ⟨by decide, fun p => ?_⟩
  unfold knownAB
  simp

theorem rsAB_text : written rsAB = ascii "# ninja log v5\n0\t0\t7\ta\t1234\n0\t0\t900\tab\tabcd\n" := by
  have d7 : Lex.Spec.digits 10 7 = [55] := by rw [Lex.Spec.digits]; rfl
  have d900 : Lex.Spec.digits 10 900 = [57, 48, 48] := by rw [Lex.Spec.digits, Lex.Spec.digits, Lex.Spec.digits]; rfl
  have h1 : Lex.Spec.digits 16 0x1234 = ascii "1234" := by
    rw [Lex.Spec.digits, Lex.Spec.digits, Lex.Spec.digits, Lex.Spec.digits]; rfl
  have h2 : Lex.Spec.digits 16 0xabcd = ascii "abcd" := by
    rw [Lex.Spec.digits, Lex.Spec.digits, Lex.Spec.digits, Lex.Spec.digits]; rfl
  have e1 : Int.natAbs 7 = 7 := rfl
  have e2 : Int.natAbs 900 = 900 := rfl
  unfold written rsAB logrecord recText dec
  simp only [List.flatMap_cons, List.flatMap_nil, e1, e2, d7, d900, h1, h2]
  decide +kernel

/-- C52 fails: a crash in the middle of the path of `ab` changes the recorded time stamp of `a`. -/
theorem log_other_counterexample :
    readLog knownAB ((written rsAB).take 37) (ascii "a") = ⟨900, 0x1234⟩ ∧ latest rsAB (ascii "a") = ⟨7, 0x1234⟩ := by
  rw [rsAB_text]; decide +kernel

/-- C52 fails: a crash in the middle of the hash leaves a wrong record, taken for a complete one. -/
theorem log_hash_counterexample :
    readLog knownAB ((written rsAB).take 41) (ascii "ab") = ⟨900, 0xab⟩ ∧ latest rsAB (ascii "ab") = ⟨900, 0xabcd⟩ := by
  rw [rsAB_text]; decide +kernel

/-- C52 fails: starting truncates the log before writing it anew, so that a crash then loses the records. -/
theorem log_rewrite_counterexample :
    readLog knownAB ((loginit knownAB [ascii "a", ascii "ab"] (written rsAB)).2.take 0) (ascii "a") = ⟨2, 0⟩ ∧
    readLog knownAB (written rsAB) (ascii "a") = ⟨7, 0x1234⟩ := by
  rw [rsAB_text]; decide +kernel

end Muon.Nlog
