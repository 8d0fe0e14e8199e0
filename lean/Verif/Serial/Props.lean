import Verif.Serial.CloneLemmas
import Verif.Serial.Lemmas
/-
C36: what is written by `serial_dump` and read by `serial_load`.
-/
namespace Muon.Serial
open Muon Muon.Serial.Spec
open _root_.Muon.Dlog (le32 get32)

/-- The structures in memory hold the objects, and the copy which is dumped is not too big for the format. -/
structure Fits (L : Layout) (f : Nat) (auto : Option Nat) (src : List Obj) (o : Nat) : Prop where
  back : ∀ r, clone auto src f Ws.init o = .ok r → L.objs (L.img r.1.objs) = r.1.objs
  wf : ∀ r, clone auto src f Ws.init o = .ok r → WF L.sizes r.2 (L.img r.1.objs)

theorem init_ok : DOk Ws.init := ⟨rfl, fun s i h => (by cases h), fun c hc => (by
  rw [List.mem_singleton.1 (show c ∈ [Obj.null] from hc)]; rfl)⟩

theorem map_id_of {α : Type} {g : α → α} : ∀ {l : List α}, (∀ c ∈ l, g c = c) → l.map g = l := by
  intro l
  induction l with
  | nil => intro _; rfl
  | cons a l ih => intro h; rw [List.map_cons, h a (by simp), ih (fun c hc => h c (by simp [hc]))]

/-- Dumping an object and loading it, into any workspace and whatever follows in the file, gives an object with the value
of the object that was dumped, but for what `kept` drops. -/
theorem serial_roundtrip (L : Layout) (f : Nat) (auto : Option Nat) (src : List Obj) (o : Nat) (pad : Nat) (v : V) (d : Ws) (rest : Bytes)
    (hpad : pad < 2 ^ 32) (hfit : Fits L f auto src o) (hv : val (src.map (kept auto)) f o = some v) (hd : DOk d) :
    ∃ file d' i, serialDump L pad f auto src o = .ok file ∧ serialLoad L f d (file ++ rest) = .ok (d', i) ∧ val d'.objs f i = some v ∧ Ext d d' := by
  obtain ⟨d1, i1, c1, o1, _, v1⟩ := clone_ok auto src f Ws.init o v init_ok (by rw [← kept_eq]; exact hv)
  have hex := exact_load L.sizes pad hpad (hfit.wf _ c1)
  have hsame : d1.objs.map (keptM none) = d1.objs := map_id_of o1.plain
  obtain ⟨d2, i2, c2, _, e2, v2⟩ := clone_ok none d1.objs f d i1 v hd (by rw [hsame]; exact v1)
  refine ⟨_, d2, i2, by unfold serialDump; rw [c1]; rfl, ?_, v2, e2⟩
  unfold serialLoad
  rw [load_eq, hex.full]
  show clone none (L.objs (L.img d1.objs)) f d i1 = _
  rw [hfit.back _ c1, c2]

/-- If nothing of the object is dropped, it has the same value. -/
theorem serial_same (L : Layout) (f : Nat) (auto : Option Nat) (src : List Obj) (o : Nat) (pad : Nat) (v : V) (d : Ws) (rest : Bytes)
    (hpad : pad < 2 ^ 32) (hfit : Fits L f auto src o) (hv : val src f o = some v) (hplain : ∀ c ∈ src, Plain auto c) (hd : DOk d) :
    ∃ file d' i, serialDump L pad f auto src o = .ok file ∧ serialLoad L f d (file ++ rest) = .ok (d', i) ∧ val d'.objs f i = some v ∧ Ext d d' :=
  serial_roundtrip L f auto src o pad v d rest hpad hfit (by rw [map_id_of hplain]; exact hv) hd

/-- A file of which the end is missing is not loaded. -/
theorem serial_truncated (L : Layout) (f f' : Nat) (auto : Option Nat) (src : List Obj) (o : Nat) (pad : Nat) (d : Ws) (file : Bytes) (k : Nat)
    (hpad : pad < 2 ^ 32) (hfit : Fits L f auto src o) (hdump : serialDump L pad f auto src o = .ok file) (hk : k < file.length) :
    serialLoad L f' d (file.take k) = .error := by
  unfold serialDump at hdump
  cases hc : clone auto src f Ws.init o with
  | ok r =>
    rw [hc, Res.ok_bind] at hdump
    cases hdump
    unfold serialLoad
    rw [load_eq, (exact_load L.sizes pad hpad (hfit.wf _ hc)).cut k hk]
    rfl
  | error => rw [hc] at hdump; cases hdump
  | bad => rw [hc] at hdump; cases hdump

/-- A file of another version, or another kind of file, is not loaded. -/
theorem serial_foreign (L : Layout) (f : Nat) (d : Ws) (file : Bytes) (h : file.take 12 ≠ header) : serialLoad L f d file = .error := by
  have hl : load L.sizes file = .error ∨ ∃ x, loadHeader file = .ok x := by
    unfold load
    cases hh : loadHeader file with
    | ok x => exact .inr ⟨x, rfl⟩
    | error => exact .inl rfl
    | bad =>
      exfalso
      unfold loadHeader take load32 take at hh
      split at hh
      · cases hh
      · rw [Res.ok_bind] at hh
        split at hh
        · cases hh
        · split at hh
          · cases hh
          · rw [Res.ok_bind, Res.ok_bind] at hh
            split at hh <;> cases hh
  rcases hl with hl | ⟨x, hx⟩
  · unfold serialLoad; rw [hl]; rfl
  · exfalso
    apply h
    unfold loadHeader take load32 take at hx
    split at hx
    · cases hx
    · rw [Res.ok_bind] at hx
      dsimp only at hx
      split at hx
      · cases hx
      · next hm =>
        split at hx
        · cases hx
        · next hlen =>
          rw [Res.ok_bind, Res.ok_bind] at hx
          dsimp only at hx
          split at hx
          · cases hx
          · next hver =>
            have h1 : file.take 8 = ascii "muondump" := Decidable.not_not.1 hm
            have h2 : get32 ((file.drop 8).take 4) = 7 := Decidable.not_not.1 hver
            have h3 : file.take 12 = file.take 8 ++ (file.drop 8).take 4 := List.take_add (i := 8) (j := 4) (l := file)
            rw [h3, h1]
            unfold header
            congr 1
            have hl4 : ((file.drop 8).take 4).length = 4 := by rw [List.length_take]; omega
            generalize (file.drop 8).take 4 = w at h2 hl4
            match w, hl4 with
            | [a, b, c, e], _ =>
              have ha := a.toNat_lt; have hb := b.toNat_lt; have hc := c.toNat_lt; have he := e.toNat_lt
              simp only [get32] at h2
              have e1 : a.toNat = 7 := by omega
              have e2 : b.toNat = 0 := by omega
              have e3 : c.toNat = 0 := by omega
              have e4 : e.toNat = 0 := by omega
              rw [show a = 7 from UInt8.toNat_inj.1 e1, show b = 0 from UInt8.toNat_inj.1 e2, show c = 0 from UInt8.toNat_inj.1 e3, show e = 0 from UInt8.toNat_inj.1 e4]
              decide

/-- An object of another type can not be dumped, nor anything that has one in it. -/
theorem serial_other (L : Layout) (pad f : Nat) (auto : Option Nat) (src : List Obj) (o t : Nat) (h : src[o]? = some (.other t)) :
    serialDump L pad (f + 1) auto src o = .error := by
  unfold serialDump clone
  rw [h]; rfl

/-! ### What is lost -/

/-- The kind of an option is lost. -/
theorem serial_option_kind_counterexample : ∃ (src : List Obj) (d' : Ws) (i : Nat),
    clone none src 3 Ws.init 1 = .ok (d', i) ∧ src[1]? = some (.struct 25 [0, 0, 1, 0, 0] [0, 0, 0, 0, 0, 0, 0]) ∧ d'.objs[i]? = some (.struct 25 [0, 0, 0, 0, 0] [0, 0, 0, 0, 0, 0, 0]) :=
  ⟨[.null, .struct 25 [0, 0, 1, 0, 0] [0, 0, 0, 0, 0, 0, 0]], _, _, rfl, rfl, rfl⟩

/-- A feature option that is automatic (0) is dumped as enabled (1) if `auto_features` is enabled. -/
theorem serial_feature_counterexample : ∃ (src : List Obj) (d' : Ws) (i : Nat),
    clone (some 1) src 1 Ws.init 1 = .ok (d', i) ∧ src[1]? = some (.feature 0) ∧ d'.objs[i]? = some (.feature 1) :=
  ⟨[.null, .feature 0], _, _, rfl, rfl, rfl⟩

/-! ### Crashes

Until all big strings are written, the file says that there are none. If one of them looks like what follows in the file,
the crash is not noticed, and an object is loaded that was never dumped. -/

/-- A big string that looks like the boolean `true`. -/
def trap (fill : Bytes) : Bytes := [1, 0, 0, 0, 4, 1, 0, 0, 0, 0, 0, 0, 0] ++ fill

theorem crash_trap (sz : Sizes) (fill : Bytes) (h1 : 4096 ≤ fill.length) (h2 : fill.length < 2 ^ 31) :
    ∃ (text : Bytes) (k : Nat), ∃ file ∈ crashed 0 1 ⟨[], [.big 1 text], []⟩ k,
    4096 ≤ text.length ∧ WF sz 1 ⟨[], [.big 1 text], []⟩ ∧ k < (dump 0 1 ⟨[], [.big 1 text], []⟩).length ∧
    load sz file = .ok (1, ⟨[], [.simple 4 1], []⟩) := by
  have hlen : (trap fill).length = fill.length + 13 := by unfold trap; simp
  have hbig : bigData [.big 1 (trap fill)] = trap fill ++ [0] := by simp [bigData, Cell.bigText]
  have hwf : WF sz 1 ⟨[], [.big 1 (trap fill)], []⟩ := by
    refine ⟨by decide, by simp, by simp, by simp, ?_, ?_, by simp, by simp⟩
    · intro c hc; rw [List.mem_singleton.1 hc]; exact ⟨by decide, by decide⟩
    · show (bigData [.big 1 (trap fill)]).length < _
      rw [hbig, List.length_append, hlen]; simp; omega
  have hwf' : WF sz 1 ⟨[], [.simple 4 1], []⟩ := by
    refine ⟨by decide, by decide, by simp, by simp, ?_, by decide, by decide, by simp⟩
    intro c hc; rw [List.mem_singleton.1 hc]; exact ⟨by decide, by decide⟩
  have hfile : dumpStart 1 ⟨[], [.big 1 (trap fill)], []⟩ ++ (le64 0 ++ bigData [.big 1 (trap fill)]) = dump 0 1 ⟨[], [.simple 4 1], []⟩ ++ (fill ++ [0]) := by
    rw [hbig]; rfl
  refine ⟨trap fill, (dumpStart 1 ⟨[], [.big 1 (trap fill)], []⟩ ++ (le64 0 ++ bigData [.big 1 (trap fill)])).length, (dumpStart 1 ⟨[], [.big 1 (trap fill)], []⟩ ++ (le64 0 ++ bigData [.big 1 (trap fill)])).take
    (dumpStart 1 ⟨[], [.big 1 (trap fill)], []⟩ ++ (le64 0 ++ bigData [.big 1 (trap fill)])).length,
    List.mem_cons_of_mem _ (List.mem_singleton.2 rfl), by omega, hwf, ?_, ?_⟩
  · unfold dump
    simp only [List.length_append, le64, dumpObjs, Dlog.le32_length]
    omega
  · rw [List.take_length, hfile, load_eq, (exact_load sz 0 (by decide) hwf').full]
    rfl

theorem serial_crash_counterexample (sz : Sizes) : ∃ (text : Bytes) (k : Nat), ∃ file ∈ crashed 0 1 ⟨[], [.big 1 text], []⟩ k,
    4096 ≤ text.length ∧ WF sz 1 ⟨[], [.big 1 text], []⟩ ∧ k < (dump 0 1 ⟨[], [.big 1 text], []⟩).length ∧
    load sz file = .ok (1, ⟨[], [.simple 4 1], []⟩) :=
  crash_trap sz (List.replicate 4096 97) (by rw [List.length_replicate]; exact Nat.le_refl _) (by rw [List.length_replicate]; decide)

/-- The same without such strings: if there are no big strings, no crash is unnoticed. -/
theorem serial_crash_partial (L : Layout) (f f' : Nat) (auto : Option Nat) (src : List Obj) (o : Nat) (pad : Nat) (d : Ws) (r : Ws × Nat) (k : Nat)
    (hpad : pad < 2 ^ 32) (hfit : Fits L f auto src o) (hc : clone auto src f Ws.init o = .ok r)
    (hsmall : ∀ c ∈ (L.img r.1.objs).objs, ∀ fl s, c ≠ .big fl s) (hk : k < (dump pad r.2 (L.img r.1.objs)).length) :
    ∀ file ∈ crashed pad r.2 (L.img r.1.objs) k, serialLoad L f' d file = .error := by
  have hex := exact_load L.sizes pad hpad (hfit.wf _ hc)
  have hbig : bigData (L.img r.1.objs).objs = [] := by
    unfold bigData
    rw [List.flatMap_eq_nil_iff]
    intro c hcm
    cases c with
    | big fl s => exact absurd rfl (hsmall _ hcm fl s)
    | _ => rfl
  have hcut : ∀ j, j < (dump pad r.2 (L.img r.1.objs)).length → serialLoad L f' d ((dump pad r.2 (L.img r.1.objs)).take j) = .error := by
    intro j hj
    unfold serialLoad
    rw [load_eq, hex.cut j hj]
    rfl
  intro file hfile
  rcases List.mem_cons.1 hfile with rfl | hfile
  · exact hcut k hk
  · rw [List.mem_singleton.1 hfile]
    have hsplit : dump pad r.2 (L.img r.1.objs) = (dumpStart r.2 (L.img r.1.objs) ++ (le64 0 ++ bigData (L.img r.1.objs).objs)) ++
        (dumpObjs pad (L.img r.1.objs).objs ++ dumpBuckets 12 (L.img r.1.objs).elems) := by
      unfold dump
      rw [hbig]
      simp
    have hpos : 0 < (dumpObjs pad (L.img r.1.objs).objs).length := by
      unfold dumpObjs; rw [List.length_append, Dlog.le32_length]; omega
    generalize dumpStart r.2 (L.img r.1.objs) ++ (le64 0 ++ bigData (L.img r.1.objs).objs) = a at hsplit
    have hle : min k a.length < (dump pad r.2 (L.img r.1.objs)).length := by omega
    have := hcut _ hle
    rw [hsplit, List.take_append_of_le_length (by omega)] at this
    rw [List.take_eq_take_min]
    exact this

/-! ### Corrupted files -/

/-- The length of a big string is not checked: what is read is not inside the file. -/
theorem serial_big_counterexample : load (fun _ => 0) (header ++ le32 1 ++ le32 0 ++ le64 1 ++ [0] ++ le32 1 ++ [8] ++ le64 0 ++ le64 1000 ++ le32 1 ++ le32 0) = .bad := by
  decide +kernel

/-- The check of the place of a small string is off by one. -/
theorem serial_small_counterexample : load (fun _ => 0) (header ++ le32 1 ++ le32 0 ++ le64 0 ++ le32 1 ++ [8] ++ le64 0 ++ le64 0 ++ le32 0 ++ le32 0) = .bad := by
  decide +kernel

/-! ### An example -/

/-- A layout for booleans, strings and lists of them. -/
def demoCell : Obj → Cell
  | .bool b => .simple 4 (if b then 1 else 0)
  | .str s => .big 1 s
  | .array l => .aos 9 (l.flatMap le32)
  | _ => .simple 0 0

def demoLists : List UInt8 → List Nat
  | a :: b :: c :: d :: r => get32 [a, b, c, d] :: demoLists r
  | _ => []

def demoObj : Cell → Obj
  | .simple 4 v => .bool (v = 1)
  | .big _ s => .str s
  | .aos 9 b => .array (demoLists b)
  | _ => .null

def demoL : Layout := ⟨fun _ => 12, fun l => ⟨[], l.tail.map demoCell, []⟩, fun m => .null :: m.objs.map demoObj⟩

def demoSrc : List Obj := [.null, .bool true, .str [97, 98], .array [2, 1, 2], .hole]

/-- The file of `['ab', true, 'ab']`. -/
def demoFile : Bytes := match serialDump demoL 0 5 none demoSrc 3 with
  | .ok f => f
  | _ => []

example : demoFile = header ++ (le32 1 ++ (le32 0 ++ (le64 3 ++ ([97, 98, 0] ++ (le32 3 ++ (([9] ++ (le32 2 ++ (le32 3 ++ le32 2))) ++
    (([8] ++ (le64 0 ++ (le64 2 ++ (le32 1 ++ le32 0)))) ++ (([4] ++ le32 1) ++ le32 0)))))))) := by decide +kernel

example : ∃ d', serialLoad demoL 5 ⟨[.null, .bool false], fun _ => none⟩ demoFile = .ok (d', 2) ∧
    d'.objs = [.null, .bool false, .array [3, 4, 3], .str [97, 98], .bool true] := by
  exact ⟨_, rfl, rfl⟩

theorem demo_clone : ∃ g, clone none demoSrc 5 Ws.init 3 = .ok (⟨[.null, .array [2, 3, 2], .str [97, 98], .bool true], g⟩, 1) := ⟨_, rfl⟩

theorem demo_fits : Fits demoL 5 none demoSrc 3 := by
  obtain ⟨g, hg⟩ := demo_clone
  refine ⟨?_, ?_⟩
  · intro r hr
    rw [hg] at hr
    cases hr
    rfl
  · intro r hr
    rw [hg] at hr
    cases hr
    show WF demoL.sizes 1 (demoL.img [.null, .array [2, 3, 2], .str [97, 98], .bool true])
    refine ⟨by decide, by decide, by decide, by decide, ?_, by decide, by decide, by decide⟩
    intro c hc
    change c ∈ [Cell.aos 9 (le32 2 ++ (le32 3 ++ (le32 2 ++ []))), Cell.big 1 [97, 98], Cell.simple 4 1] at hc
    simp only [List.mem_cons, List.not_mem_nil, or_false] at hc
    rcases hc with rfl | rfl | rfl
    · exact ⟨by decide, by decide, by decide, by decide⟩
    · exact ⟨by decide, by decide⟩
    · exact ⟨by decide, by decide⟩

/-- The value of the object that was dumped. -/
def demoVal : V := .array [.str [97, 98], .bool true, .str [97, 98]]

example : ∃ file d' i, serialDump demoL 0 5 none demoSrc 3 = .ok file ∧ serialLoad demoL 5 Ws.init (file ++ [1, 2]) = .ok (d', i) ∧
    val d'.objs 5 i = some demoVal ∧ Ext Ws.init d' :=
  serial_same demoL 5 none demoSrc 3 0 demoVal Ws.init [1, 2] (by decide) demo_fits rfl (by decide) init_ok

example : ∀ k < demoFile.length, serialLoad demoL 9 Ws.init (demoFile.take k) = .error := fun k hk =>
  serial_truncated demoL 5 9 none demoSrc 3 0 Ws.init demoFile k (by decide) demo_fits rfl hk

end Muon.Serial
