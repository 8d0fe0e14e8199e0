import Verif.Esc.Lemmas
/-
Properties C19, C20, C21: quoting for the shell and for ninja.
-/
namespace Muon.Esc
open Muon Spec

/-! ## C19: the shell -/

/-- Arguments that `shell_escape` leaves without quotes although the shell does not read them literally: they contain
none of the characters it looks for, and contain a tab, `(`, `)`, `*`, `;`, `?`, `[`, a backtick or `|`, or begin with
`~`. -/
def Misquoted (s : Bytes) : Prop :=
  s ≠ [] ∧ (∀ c ∈ s, c ∉ ascii "\"'$ \\><&#\n") ∧ ((∃ c ∈ s, c ∈ ascii "\t()*;?[`|") ∨ s.head? = some 126)

theorem need_eq : needEscaping = ascii "\"'$ \\><&#\n" := by decide +kernel

theorem shellEscape_reads (s : Bytes) (h : ¬ Misquoted s) : Reads (shellEscape s) s := by
  unfold shellEscape
  by_cases hs : s = []
  · subst hs; exact reads_quoted []
  · rw [if_neg hs]
    by_cases hany : s.any needEscaping.contains = true
    · rw [if_neg (by simp [hany])]; exact reads_quoted s
    · rw [if_pos (by simpa using hany)]
      have hn : ∀ c ∈ s, c ∉ ascii "\"'$ \\><&#\n" := by
        rw [← need_eq]; simpa using hany
      have hb : ∀ c ∈ s, c ∉ ascii "\t()*;?[`|" := fun c hc hm => h ⟨hs, hn, Or.inl ⟨c, hc, hm⟩⟩
      have key : ∀ c : UInt8, c ∉ ascii "\"'$ \\><&#\n" → c ∉ ascii "\t()*;?[`|" → Ordinary c := by
        unfold Ordinary special
        exact forall_byte (by decide +kernel)
      match s with
      | [] => exact absurd rfl hs
      | c :: s =>
        refine reads_ordinary c s (fun d hd => key d (hn d hd) (hb d hd)) ?_
        intro hf
        have h1 := hn c (by simp)
        have h2 : c = 35 ∨ c = 126 := by simpa [specialFirst] using hf
        rcases h2 with rfl | rfl
        · exact h1 (by decide +kernel)
        · exact h ⟨hs, hn, Or.inr rfl⟩

/-- C19, with the exact set of exceptions: the shell reads an escaped argument as one word equal to the argument if and
only if the argument is not in `Misquoted`. -/
theorem shellEscape_iff_partial (s : Bytes) : shellWords (shellEscape s) = some [s] ↔ ¬ Misquoted s := by
  constructor
  · rintro h ⟨hs, hn, hb⟩
    have hany : ¬ s.any needEscaping.contains = true := by
      rw [need_eq]; simpa using hn
    unfold shellEscape at h
    rw [if_neg hs, if_pos (by simpa using hany)] at h
    have h39 : 39 ∉ s := fun hm => hn 39 hm (by decide +kernel)
    have h92 : 92 ∉ s := fun hm => hn 92 hm (by decide +kernel)
    unfold shellWords at h
    rcases hb with ⟨c, hc, hm⟩ | hb
    · have key : ∀ c : UInt8, c ∈ ascii "\t()*;?[`|" → c = 9 ∨ c ∈ special := by
        unfold special; exact forall_byte (by decide +kernel)
      rcases key c hm with rfl | hsp
      · exact read_tab s none [] [s] h39 h92 (by simp) (by simp) h s (by simp) hc
      · rw [read_special s none [] h39 h92 ⟨c, hc, hsp⟩] at h; cases h
    · cases s with
      | nil => exact hs rfl
      | cons c s =>
        simp only [List.head?_cons, Option.some.injEq] at hb
        subst hb
        rw [readWords] at h
        simp [special, specialFirst] at h
  · intro h; exact (shellEscape_reads s h).words

/-- C19 is false in general: a semicolon is not quoted, so the shell runs a second command; a tab separates words. -/
theorem shellEscape_counterexample :
    shellEscape (ascii "a;reboot") = ascii "a;reboot" ∧ shellWords (ascii "a;reboot") = none ∧
    shellWords (shellEscape (ascii "a\tb")) = some [ascii "a", ascii "b"] := by decide +kernel

/-- C19 for whole command lines: arguments joined for the shell are read back as the same list of words. -/
theorem joinArgsShell_words_partial (args : List Bytes) (h : ∀ a ∈ args, ¬ Misquoted a) :
    ∃ t, joinArgsShell args = .ok t ∧ shellWords t = some args := by
  refine ⟨_, joinArgsFrom_ok _ shellEscape _ args 0 [] (fun _ _ => rfl) (by simp), ?_⟩
  have := read_words shellEscape args [] (fun a ha => shellEscape_reads a (h a ha))
  simpa [shellWords] using this

example : ¬ Misquoted (ascii "-DX=\"it's $HOME; *\"") ∧ ¬ Misquoted (ascii "-O2") ∧ ¬ Misquoted [] ∧
    shellEscape (ascii "it's") = ascii "'it'\\''s'" := by
  refine ⟨?_, ?_, ?_, by decide +kernel⟩
  · rintro ⟨_, h, _⟩; exact h 34 (by decide +kernel) (by decide +kernel)
  · rintro ⟨_, _, ⟨c, h1, h2⟩ | h⟩
    · revert c; decide +kernel
    · revert h; decide +kernel
  · rintro ⟨h, _⟩; exact h rfl

/-! ## C20: ninja -/

/-- C20 for a path: what `ninja_escape` writes is read back by the ninja reader as the same literal path, if the path
is not empty and contains no `|`, carriage return, newline or byte 0xff; `r` is what follows it in the file. -/
theorem ninjaEscape_path_partial (s r : Bytes) (hs : s ≠ []) (h : ∀ c ∈ s, c ≠ 10 ∧ c ≠ 13 ∧ c ≠ 255 ∧ c ≠ 124)
    (hr : r = [] ∨ ∃ c t, r = c :: t ∧ c ∈ ascii " :|\n\r") :
    ∃ t, ninjaEscape s = .ok t ∧
      ∀ b r', space r = .ok (b, r') → scanString true (t ++ r) = .ok ([.lit s], r') := by
  refine ⟨_, simpleEscape_ok _ _ s (Or.inr fun hm => (h 10 hm).1 rfl), ?_⟩
  have hst : Stops true r := by
    rcases hr with hr | ⟨c, t, rfl, hc⟩
    · exact Or.inl hr
    · refine Or.inr ⟨c, t, rfl, ?_⟩
      have : c ∈ ([32, 58, 124, 10, 13] : Bytes) := by
        have e : ascii " :|\n\r" = [32, 58, 124, 10, 13] := by decide +kernel
        rwa [e] at hc
      simp at this
      rcases this with rfl | rfl | rfl | rfl | rfl <;> simp
  unfold scanString
  rw [scanLoop_escaped true _ ninjaNeed (by decide) (fun _ => by decide) r s
    (fun c hc => ⟨(h c hc).1, (h c hc).2.1, (h c hc).2.2.1, fun _ => (h c hc).2.2.2⟩) hst]
  intro b r' hsp
  simp [flush, hs, hsp]

theorem words_cons (f : Bytes → Bytes) (a b : Bytes) (as : List Bytes) :
    (((a :: b :: as).map f).intersperse [32]).flatten = f a ++ 32 :: (((b :: as).map f).intersperse [32]).flatten := by
  simp

theorem flush_eval (env : Bytes → Option Bytes) (s : Bytes) : envEval env (flush [] s) = s := by
  unfold flush; split <;> simp_all [envEval]

/-- C20 for lists of paths: what `join_args_ninja` writes is read back as the same list, without variables. -/
theorem joinArgsNinja_paths_partial (paths : List Bytes) (c : UInt8) (r : Bytes)
    (h : ∀ p ∈ paths, p ≠ [] ∧ ∀ c ∈ p, c ≠ 10 ∧ c ≠ 13 ∧ c ≠ 255 ∧ c ≠ 124) (hc : c ∈ ascii ":|\n") :
    ∃ t, joinArgsNinja paths = .ok t ∧ scanPaths (t ++ c :: r) = .ok (paths.map fun p => [.lit p], c :: r) := by
  have hc' : c = 58 ∨ c = 124 ∨ c = 10 := by
    have e : ascii ":|\n" = [58, 124, 10] := by decide +kernel
    rw [e] at hc; simpa using hc
  have hsp : space (c :: r) = .ok (false, c :: r) := by rcases hc' with rfl | rfl | rfl <;> simp [space]
  refine ⟨_, joinArgsFrom_ok _ (escText [32, 58, 36] 36) _ paths 0 []
    (fun p hp => simpleEscape_ok _ _ p (Or.inr fun hm => ((h p hp).2 10 hm).1 rfl)) (by simp), ?_⟩
  unfold scanPaths
  simp only [List.nil_append]
  have key : ∀ (ps : List Bytes) (fuel : Nat), ps.length < fuel →
      (∀ p ∈ ps, p ≠ [] ∧ ∀ c ∈ p, c ≠ 10 ∧ c ≠ 13 ∧ c ≠ 255 ∧ c ≠ 124) →
      scanPathsLoop fuel (((ps.map (escText [32, 58, 36] 36)).intersperse [32]).flatten ++ c :: r) =
        .ok (ps.map fun p => [.lit p], c :: r) := by
    intro ps
    induction ps with
    | nil =>
      intro fuel hf _
      obtain ⟨k, rfl⟩ : ∃ k, fuel = k + 1 := ⟨fuel - 1, by simp at hf; omega⟩
      rw [scanPathsLoop]
      have hst : Stops true (c :: r) := Or.inr ⟨c, r, rfl, by rcases hc' with rfl | rfl | rfl <;> simp⟩
      have : scanString true (c :: r) = .ok ([], c :: r) := by
        unfold scanString
        rw [scanLoop_stop true _ _ _ _ hst]
        simp [hsp, flush]
      simp [this]
    | cons p ps ih =>
      intro fuel hf hp
      obtain ⟨k, rfl⟩ : ∃ k, fuel = k + 1 := ⟨fuel - 1, by simp at hf; omega⟩
      simp only [List.length_cons] at hf
      rw [scanPathsLoop]
      have h1 := hp p (by simp)
      cases ps with
      | nil =>
        obtain ⟨t, ht, hscan⟩ := ninjaEscape_path_partial p (c :: r) h1.1 h1.2
          (Or.inr ⟨c, r, rfl, by
            have e : ascii " :|\n\r" = [32, 58, 124, 10, 13] := by decide +kernel
            rw [e]; rcases hc' with rfl | rfl | rfl <;> simp⟩)
        rw [ninjaEscape, simpleEscape_ok _ _ p (Or.inr fun hm => (h1.2 10 hm).1 rfl)] at ht
        cases ht
        have hscan := hscan _ _ hsp
        simp only [List.map_cons, List.map_nil, List.intersperse_singleton, List.flatten_cons, List.flatten_nil, List.append_nil]
        rw [hscan]
        have := ih k (by omega) (by simp)
        simp only [List.map_nil, List.intersperse_nil, List.flatten_nil, List.nil_append] at this
        simp [this]
      | cons q ps =>
        have h2 := hp q (by simp)
        obtain ⟨d, q', rfl⟩ : ∃ d q', q = d :: q' := by
          cases q with
          | nil => exact absurd rfl h2.1
          | cons d q' => exact ⟨d, q', rfl⟩
        have hrest : ∃ rest, ((((d :: q') :: ps).map (escText [32, 58, 36] 36)).intersperse [32]).flatten = escText [32, 58, 36] 36 (d :: q') ++ rest := by
          cases ps with
          | nil => exact ⟨[], by simp⟩
          | cons e ps => exact ⟨[32] ++ (((e :: ps).map (escText [32, 58, 36] 36)).intersperse [32]).flatten, by simp⟩
        obtain ⟨rest, hrest⟩ := hrest
        have hih := ih k (by omega) (fun p hp' => hp p (by simp [hp']))
        rw [words_cons]
        have hd := h2.2 d (by simp)
        obtain ⟨t, ht, hscan⟩ := ninjaEscape_path_partial p
          (32 :: ((((d :: q') :: ps).map (escText [32, 58, 36] 36)).intersperse [32]).flatten ++ c :: r) h1.1 h1.2
          (Or.inr ⟨32, _, rfl, by decide +kernel⟩)
        rw [ninjaEscape, simpleEscape_ok _ _ p (Or.inr fun hm => (h1.2 10 hm).1 rfl)] at ht
        cases ht
        have hspace : space (32 :: ((((d :: q') :: ps).map (escText [32, 58, 36] 36)).intersperse [32]).flatten ++ c :: r) =
            .ok (true, ((((d :: q') :: ps).map (escText [32, 58, 36] 36)).intersperse [32]).flatten ++ c :: r) := by
          rw [hrest, List.cons_append, List.append_assoc]
          exact space_escText d q' _ ⟨hd.1, hd.2.1⟩
        have hscan := hscan _ _ hspace
        simp only [List.append_assoc, List.cons_append, List.nil_append] at hscan ⊢
        rw [hscan]
        simp only []
        rw [hih]
        simp
  apply key paths _ _ h
  have : paths.length ≤ (((paths.map (escText [32, 58, 36] 36)).intersperse [32]).flatten).length := by
    clear key
    induction paths with
    | nil => simp
    | cons p ps ih =>
      have h1 := h p (by simp)
      have hl : 1 ≤ (escText [32, 58, 36] 36 p).length := by
        cases p with
        | nil => exact absurd rfl h1.1
        | cons d p => rw [escText_cons, List.length_append]; split <;> simp <;> omega
      have := ih (fun p hp => h p (by simp [hp]))
      cases ps with
      | nil => simp; omega
      | cons q ps =>
        rw [words_cons]
        simp only [List.length_cons, List.length_append, List.length_nil] at this ⊢
        omega
  rw [List.length_append, List.length_cons]; omega

/-- C20 for values of variables: what `ninja_escape` writes is read back as the same literal text. -/
theorem ninjaEscape_value_partial (s r : Bytes) (h : ∀ c ∈ s, c ≠ 10 ∧ c ≠ 13 ∧ c ≠ 255) (env : Bytes → Option Bytes) :
    ∃ t ps, ninjaEscape s = .ok t ∧ scanString false (t ++ 10 :: r) = .ok (ps, 10 :: r) ∧ envEval env ps = s := by
  refine ⟨_, flush [] s, simpleEscape_ok _ _ s (Or.inr fun hm => (h 10 hm).1 rfl), ?_, ?_⟩
  · unfold scanString
    rw [scanLoop_escaped false _ ninjaNeed (by decide) (fun h => by cases h) (10 :: r) s
      (fun c hc => ⟨(h c hc).1, (h c hc).2.1, (h c hc).2.2, fun h => by cases h⟩) (Or.inr ⟨10, r, rfl, Or.inl rfl⟩)]
    simp
  · exact flush_eval env s

/-- Text as it may be written into a ninja file: literal text with escapes, `${name}` and `$name`. -/
inductive Piece
  | text (s : Bytes)
  | braced (name : Bytes)
  | bare (name : Bytes)

def Piece.written : Piece → Bytes
  | .text s => s.flatMap fun c => if c = 32 ∨ c = 58 ∨ c = 36 then [36, c] else [c]
  | .braced v => ascii "${" ++ v ++ ascii "}"
  | .bare v => ascii "$" ++ v

/-- What a piece stands for. -/
def Piece.value (env : Bytes → Option Bytes) : Piece → Bytes
  | .text s => s
  | .braced v => (env v).getD []
  | .bare v => (env v).getD []

/-- Well-formed pieces: no line ends or 0xff in the text, names of letters, digits, `_`, `-` (and `.` in braces), and
a bare name is followed by something that cannot continue it. -/
def wellFormed : List Piece → Prop
  | [] => True
  | .text s :: ps => (∀ c ∈ s, c ≠ 10 ∧ c ≠ 13 ∧ c ≠ 255) ∧ wellFormed ps
  | .braced v :: ps => (∀ c ∈ v, isAlnum c ∨ c ∈ ascii "_-.") ∧ wellFormed ps
  | .bare v :: ps => v ≠ [] ∧ (∀ c ∈ v, isAlnum c ∨ c ∈ ascii "_-") ∧
      (∀ c, (ps.flatMap Piece.written).head? = some c → ¬ (isAlnum c ∨ c ∈ ascii "_-")) ∧ wellFormed ps

theorem isVar_iff (c : UInt8) : isVar c = true ↔ isAlnum c ∨ c ∈ ascii "_-." := by
  revert c; exact forall_byte (by decide +kernel)
theorem isSimpleVar_iff (c : UInt8) : isSimpleVar c = true ↔ isAlnum c ∨ c ∈ ascii "_-" := by
  revert c; exact forall_byte (by decide +kernel)

theorem takeWhile_all (p : UInt8 → Bool) (v r : Bytes) (h : ∀ c ∈ v, p c = true) (hr : ∀ c, r.head? = some c → p c = false) :
    (v ++ r).takeWhile p = v ∧ (v ++ r).dropWhile p = r := by
  induction v with
  | nil =>
    cases r with
    | nil => simp
    | cons c r => simp [hr c rfl]
  | cons c v ih =>
    have := ih (fun c hc => h c (by simp [hc]))
    simp [h c (by simp), this]

theorem envEval_flush (env : Bytes → Option Bytes) (parts : List Part) (buf : Bytes) :
    envEval env (flush parts buf) = envEval env parts ++ buf := by
  unfold flush; split <;> simp_all [envEval]

theorem scanLoop_pieces (env : Bytes → Option Bytes) (r : Bytes) (ps : List Piece) :
    ∀ (fuel : Nat) (parts : List Part) (buf : Bytes), wellFormed ps →
    (ps.flatMap Piece.written).length + 1 < fuel →
    ∃ parts' buf', scanLoop false fuel parts buf (ps.flatMap Piece.written ++ 10 :: r) = .ok (parts', buf', 10 :: r) ∧
      envEval env (flush parts' buf') = envEval env (flush parts buf) ++ ps.flatMap (Piece.value env) := by
  induction ps with
  | nil =>
    intro fuel parts buf _ hf
    obtain ⟨k, rfl⟩ : ∃ k, fuel = k + 1 := ⟨fuel - 1, by omega⟩
    exact ⟨parts, buf, by simpa using scanLoop_stop false k parts buf (10 :: r) (Or.inr ⟨10, r, rfl, Or.inl rfl⟩), by simp⟩
  | cons p ps ih =>
    intro fuel parts buf hw hf
    rw [List.flatMap_cons, List.length_append] at hf
    rw [List.flatMap_cons, List.flatMap_cons, List.append_assoc]
    cases p with
    | text s =>
      have he : Piece.written (.text s) = escText [32, 58, 36] 36 s := by
        simp [Piece.written, escText]
      rw [he] at hf ⊢
      have hl : s.length ≤ (escText [32, 58, 36] 36 s).length := by
        clear he hw hf
        induction s with
        | nil => simp
        | cons c s ih => rw [escText_cons, List.length_append]; split <;> simp <;> omega
      obtain ⟨k, rfl⟩ : ∃ k, fuel = k + s.length := ⟨fuel - s.length, by omega⟩
      rw [scanLoop_text false _ ninjaNeed (by decide) (fun h => by cases h) _ s k parts buf
        (fun c hc => ⟨(hw.1 c hc).1, (hw.1 c hc).2.1, (hw.1 c hc).2.2, fun h => by cases h⟩)]
      obtain ⟨p', b', h1, h2⟩ := ih k parts (buf ++ s) hw.2 (by omega)
      refine ⟨p', b', h1, ?_⟩
      rw [h2, envEval_flush, envEval_flush]
      simp [Piece.value]
    | braced v =>
      obtain ⟨hv, hw⟩ := hw
      have he : Piece.written (.braced v) = 36 :: 123 :: (v ++ [125]) := by
        have e1 : ascii "${" = [36, 123] := by decide +kernel
        have e2 : ascii "}" = [125] := by decide +kernel
        simp [Piece.written, e1, e2]
      rw [he] at hf ⊢
      simp only [List.length_cons, List.length_append] at hf
      obtain ⟨k, rfl⟩ : ∃ k, fuel = k + 1 := ⟨fuel - 1, by omega⟩
      obtain ⟨p', b', h1, h2⟩ := ih k (flush parts buf ++ [.var v]) [] hw (by omega)
      refine ⟨p', b', ?_, ?_⟩
      · have ht := takeWhile_all isVar v (125 :: (ps.flatMap Piece.written ++ 10 :: r)) (fun c hc => (isVar_iff c).2 (hv c hc))
          (by intro c hc; simp at hc; subst hc; decide +kernel)
        rw [scanLoop]
        have hx : escape parts buf (List.drop 1 (36 :: 123 :: (v ++ [125]) ++ (ps.flatMap Piece.written ++ 10 :: r))) =
            .ok (flush parts buf ++ [.var v], [], ps.flatMap Piece.written ++ 10 :: r) := by
          simp only [List.cons_append, List.append_assoc, List.nil_append, List.drop_succ_cons, List.drop_zero]
          unfold escape
          simp only [ht]
          simp
        have hc : chr (36 :: 123 :: (v ++ [125]) ++ (ps.flatMap Piece.written ++ 10 :: r)) = some 36 := rfl
        rw [hc]
        simp only [hx, if_true]
        exact h1
      · rw [h2]; simp [envEval, flush, Piece.value]
    | bare v =>
      obtain ⟨hne, hv, hn, hw⟩ := hw
      have he : Piece.written (.bare v) = 36 :: v := by
        have e1 : ascii "$" = [36] := by decide +kernel
        simp [Piece.written, e1]
      rw [he] at hf ⊢
      simp only [List.length_cons] at hf
      obtain ⟨k, rfl⟩ : ∃ k, fuel = k + 1 := ⟨fuel - 1, by omega⟩
      obtain ⟨p', b', h1, h2⟩ := ih k (flush parts buf ++ [.var v]) [] hw (by omega)
      refine ⟨p', b', ?_, ?_⟩
      · have hhead : ∀ c, (ps.flatMap Piece.written ++ 10 :: r).head? = some c → isSimpleVar c = false := by
          intro c hc
          cases hq : ps.flatMap Piece.written with
          | nil => rw [hq] at hc; simp at hc; subst hc; decide +kernel
          | cons d t =>
            rw [hq] at hc; simp at hc; subst hc
            have := hn d (by rw [hq]; rfl)
            rw [← isSimpleVar_iff] at this
            simpa using this
        have ht := takeWhile_all isSimpleVar v (ps.flatMap Piece.written ++ 10 :: r) (fun c hc => (isSimpleVar_iff c).2 (hv c hc)) hhead
        rw [scanLoop]
        have hx : escape parts buf (List.drop 1 (36 :: v ++ (ps.flatMap Piece.written ++ 10 :: r))) =
            .ok (flush parts buf ++ [.var v], [], ps.flatMap Piece.written ++ 10 :: r) := by
          simp only [List.cons_append, List.drop_succ_cons, List.drop_zero]
          unfold escape
          rw [ht.1, ht.2]
          cases v with
          | nil => exact absurd rfl hne
          | cons c v =>
            have h1 := (isSimpleVar_iff c).2 (hv c (by simp))
            have key : ∀ c : UInt8, isSimpleVar c = true → c ≠ 36 ∧ c ≠ 32 ∧ c ≠ 58 ∧ c ≠ 123 ∧ c ≠ 13 ∧ c ≠ 10 :=
              forall_byte (by decide +kernel)
            obtain ⟨k1, k2, k3, k4, k5, k6⟩ := key c h1
            simp [k1, k2, k3, k4, k5, k6]
        have hc : chr (36 :: v ++ (ps.flatMap Piece.written ++ 10 :: r)) = some 36 := rfl
        rw [hc]
        simp only [hx, if_true]
        exact h1
      · rw [h2]; simp [envEval, flush, Piece.value]

/-- C20 for values with variables, such as the commands muon writes: the ninja reader gives literal text, variables
and literal text in the order in which they are written. -/
theorem scanString_pieces_partial (env : Bytes → Option Bytes) (ps : List Piece) (r : Bytes) (h : wellFormed ps) :
    ∃ parts, scanString false (ps.flatMap Piece.written ++ 10 :: r) = .ok (parts, 10 :: r) ∧
      envEval env parts = ps.flatMap (Piece.value env) := by
  obtain ⟨p', b', h1, h2⟩ := scanLoop_pieces env r ps ((ps.flatMap Piece.written ++ 10 :: r).length + 1) [] [] h (by simp)
  refine ⟨flush p' b', ?_, by rw [h2]; simp [envEval, flush]⟩
  unfold scanString
  rw [h1]
  simp

example : wellFormed [.text (ascii "cc "), .bare (ascii "ARGS"), .text (ascii " -c "), .braced (ascii "in")] ∧
    [Piece.text (ascii "cc "), .bare (ascii "ARGS"), .text (ascii " -c "), .braced (ascii "in")].flatMap Piece.written =
      ascii "cc$ $ARGS$ -c$ ${in}" := by
  refine ⟨?_, by decide +kernel⟩
  simp only [wellFormed, and_true]
  refine ⟨by decide +kernel, by decide +kernel, by decide +kernel, ?_, by decide +kernel, by decide +kernel⟩
  intro c hc
  have : (List.flatMap Piece.written [Piece.text (ascii " -c "), Piece.braced (ascii "in")]).head? = some 36 := by decide +kernel
  rw [this] at hc; cases hc; decide +kernel

/-- Escaping a newline for a path or argument fails an assertion. -/
theorem ninjaEscape_newline (s : Bytes) (h : 10 ∈ s) : ninjaEscape s = .bad := simpleEscape_bad _ _ s (by decide) h

/-- C20 is false in general: a `|` ends the path. -/
theorem ninjaEscape_pipe_counterexample :
    ninjaEscape (ascii "a|b") = .ok (ascii "a|b") ∧
    scanString true (ascii "a|b: c") = .ok ([.lit (ascii "a")], ascii "|b: c") := by decide +kernel

/-- C20 is false in general: bytes 0xff end the text as if the file ended there. -/
theorem ninjaEscape_eof_counterexample :
    ninjaEscape [97, 255, 98] = .ok [97, 255, 98] ∧
    scanString true [97, 255, 98, 32] = .ok ([.lit [97]], [255, 98, 32]) := by decide +kernel

theorem escText_dollar (s : Bytes) (h : 10 ∉ s) : escText [36, 10] 36 s = escText [36] 36 s := by
  induction s with
  | nil => rfl
  | cons c s ih =>
    simp only [List.mem_cons, not_or] at h
    rw [escText_cons, escText_cons, ih h.2]
    simp [Ne.symm h.1]

theorem shellEscape_mem (s : Bytes) : ∀ c ∈ shellEscape s, c ∈ s ∨ c = 39 ∨ c = 92 := by
  intro c hc
  unfold shellEscape at hc
  split at hc
  · right; left; simpa using hc
  · split at hc
    · exact Or.inl hc
    · simp only [List.mem_append, List.mem_singleton, List.mem_flatMap] at hc
      rcases hc with (hc | ⟨d, hd, hc⟩) | hc
      · exact Or.inr (Or.inl hc)
      · split at hc
        · simp at hc; rcases hc with rfl | rfl | rfl <;> simp
        · simp at hc; subst hc; exact Or.inl hd
      · exact Or.inr (Or.inl hc)

/-- C19 and C20 together: arguments written to build.ninja (`join_args_shell_ninja`, as the value of a variable), read
by the ninja reader and given to the shell are the same list of words, if they contain no carriage return, newline or
byte 0xff and `shell_escape` quotes them properly. -/
theorem joinArgsShellNinja_words_partial (args : List Bytes) (r : Bytes) (env : Bytes → Option Bytes)
    (hq : ∀ a ∈ args, ¬ Misquoted a) (h : ∀ a ∈ args, ∀ c ∈ a, c ≠ 10 ∧ c ≠ 13 ∧ c ≠ 255) :
    ∃ t ps, joinArgsShellNinja args = .ok t ∧ scanString false (t ++ 10 :: r) = .ok (ps, 10 :: r) ∧
      shellWords (envEval env ps) = some args := by
  have hc : ∀ a ∈ args, ∀ c ∈ shellEscape a, c ≠ 10 ∧ c ≠ 13 ∧ c ≠ 255 := by
    intro a ha c hc
    rcases shellEscape_mem a c hc with h1 | rfl | rfl
    · exact h a ha c h1
    · decide
    · decide
  have hj := joinArgsFrom_ok shellNinjaEscape (fun a => escText [36] 36 (shellEscape a)) args.length args 0 []
    (fun a ha => by
      have h10 : 10 ∉ shellEscape a := fun hm => (hc a ha 10 hm).1 rfl
      rw [← escText_dollar _ h10]; exact simpleEscape_ok _ _ _ (Or.inl (by decide))) (by simp)
  have hesc : ((args.map fun a => escText [36] 36 (shellEscape a)).intersperse [32]).flatten =
      escText [36] 36 (((args.map shellEscape).intersperse [32]).flatten) := by
    have happ : ∀ a b, escText [36] 36 (a ++ b) = escText [36] 36 a ++ escText [36] 36 b := by
      intro a b; simp [escText]
    clear hj hc h hq
    induction args with
    | nil => rfl
    | cons a as ih =>
      cases as with
      | nil => simp
      | cons b as =>
        rw [words_cons, words_cons, ih, happ, escText_cons]
        simp
  have hall : ∀ c ∈ ((args.map shellEscape).intersperse [32]).flatten, c ≠ 10 ∧ c ≠ 13 ∧ c ≠ 255 := by
    clear hj hesc h hq
    induction args with
    | nil => simp
    | cons a as ih =>
      have ih' := ih (fun b hb => hc b (by simp [hb]))
      have ha := hc a (by simp)
      cases as with
      | nil => simpa using ha
      | cons b as =>
        intro c hcm
        rw [words_cons] at hcm
        rcases List.mem_append.1 hcm with hcm | hcm
        · exact ha c hcm
        · rcases List.mem_cons.1 hcm with rfl | hcm
          · decide
          · exact ih' c hcm
  refine ⟨_, flush [] (((args.map shellEscape).intersperse [32]).flatten), hj, ?_, ?_⟩
  · simp only [List.nil_append]
    rw [hesc]
    unfold scanString
    rw [scanLoop_escaped false _ shellNinjaNeed (by decide) (fun h => by cases h) (10 :: r) _
      (fun c hc => ⟨(hall c hc).1, (hall c hc).2.1, (hall c hc).2.2, fun h => by cases h⟩) (Or.inr ⟨10, r, rfl, Or.inl rfl⟩)]
    simp
  · have he : envEval env (flush [] (((args.map shellEscape).intersperse [32]).flatten)) =
        ((args.map shellEscape).intersperse [32]).flatten := flush_eval env _
    rw [he]
    have := read_words shellEscape args [] (fun a ha => shellEscape_reads a (hq a ha))
    simpa [shellWords] using this

/-- A newline in an argument is lost on the way through build.ninja, with the spaces after it. -/
theorem shellNinjaEscape_newline_counterexample :
    ¬ Misquoted (ascii "a\n b") ∧
    shellNinjaEscape (ascii "a\n b") = .ok (ascii "'a$\n b'") ∧
    scanString false (ascii "'a$\n b'\n") = .ok ([.lit (ascii "'ab'")], [10]) := by
  refine ⟨?_, by decide +kernel, by decide +kernel⟩
  rintro ⟨_, h, _⟩; exact h 10 (by decide +kernel) (by decide +kernel)

example : (∀ c ∈ ascii "a b:c$d", c ≠ 10 ∧ c ≠ 13 ∧ c ≠ 255 ∧ c ≠ 124) ∧
    ninjaEscape (ascii "a b:c$d") = .ok (ascii "a$ b$:c$$d") ∧
    scanString true (ascii "a$ b$:c$$d x") = .ok ([.lit (ascii "a b:c$d")], ascii "x") ∧
    scanPaths (ascii "a b: c") = .ok ([[.lit (ascii "a")], [.lit (ascii "b")]], ascii ": c") ∧
    joinArgsShellNinja [ascii "-DX=$Y", ascii "a b"] = .ok (ascii "'-DX=$$Y' 'a b'") := by decide +kernel

/-! ## C21: `$in` and `$out` -/

theorem nodePath_reads (s : Bytes) (hs : s ≠ []) : Reads (nodePath s) s := by
  unfold nodePath
  split
  · have : s.flatMap (fun c => if c = 39 then [c, 92, 39, 39] else [c]) = quoteBody s := by
      unfold quoteBody
      congr 1
      funext c
      split
      · next h => rw [h]
      · rfl
    rw [this]; exact reads_quoted s
  · next h =>
    have hp : ∀ c ∈ s, plainPathChar c = true := by simpa using h
    have key : ∀ c : UInt8, plainPathChar c = true → Ordinary c ∧ c ∉ specialFirst := by
      unfold Ordinary special specialFirst
      exact forall_byte (by decide +kernel)
    cases s with
    | nil => exact absurd rfl hs
    | cons c s => exact reads_ordinary c s (fun d hd => (key d (hp d hd)).1) (key c (hp c (by simp))).2

/-- C21 for one path: whatever bytes a path contains, the shell reads its quoted form as one word, the path. -/
theorem nodePath_word_partial (s : Bytes) (hs : s ≠ []) : shellWords (nodePath s) = some [s] := (nodePath_reads s hs).words

/-- C21 for `$in` and `$out`: the shell reads the list as exactly the paths. -/
theorem pathList_words_partial (paths : List Bytes) (hp : paths ≠ []) (h : ∀ p ∈ paths, p ≠ []) :
    ∃ t, pathList 32 paths = some t ∧ shellWords t = some paths := by
  have hflat : ∀ ps : List Bytes, ps ≠ [] →
      (ps.flatMap fun n => nodePath n ++ [32]).dropLast = ((ps.map nodePath).intersperse [32]).flatten := by
    intro ps
    induction ps with
    | nil => intro h; exact absurd rfl h
    | cons p ps ih =>
      intro _
      cases ps with
      | nil => simp
      | cons q ps =>
        have hne : ((q :: ps).flatMap fun n => nodePath n ++ [32]) ≠ [] := by simp
        rw [List.flatMap_cons, List.dropLast_append_of_ne_nil hne, ih (by simp)]
        simp
  have hw := read_words nodePath paths [] (fun a ha => nodePath_reads a (h a ha))
  match paths, hp with
  | [p], _ => exact ⟨_, rfl, nodePath_word_partial p (h p (by simp))⟩
  | p :: q :: ps, _ =>
    refine ⟨_, rfl, ?_⟩
    rw [hflat _ (by simp)]
    simpa [shellWords] using hw

/-- C21: the quoted path exactly fills the memory allocated for it. -/
theorem nodePath_size (s : Bytes) (h : nodePath s ≠ s) : (nodePath s).length = nodePathSize s := by
  unfold nodePath at h ⊢
  split at h
  · next hc =>
    rw [if_pos hc]
    have : ∀ s : Bytes, (s.flatMap fun c => if c = 39 then [c, 92, 39, 39] else [c]).length = s.length + 3 * (s.filter (· = 39)).length := by
      intro s
      induction s with
      | nil => rfl
      | cons c s ih =>
        rw [List.flatMap_cons, List.length_append, ih]
        by_cases h39 : c = 39
        · subst h39; simp; omega
        · simp [h39]; omega
    simp only [List.length_append, this, nodePathSize, List.length_cons, List.length_nil]
    omega
  · exact absurd rfl h

/-- C21 fails for the empty path (which path canonicalisation makes of `/`): the shell sees no word at all. -/
theorem nodePath_empty_counterexample : nodePath [] = [] ∧ shellWords (nodePath []) = some [] := by decide +kernel

example : nodePath (ascii "a;b's") = ascii "'a;b'\\''s'" ∧ pathList 32 [ascii "a b", ascii "c"] = some (ascii "'a b' c") ∧
    shellWords (ascii "'a b' c") = some [ascii "a b", ascii "c"] := by decide +kernel

end Muon.Esc
