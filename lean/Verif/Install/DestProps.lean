import Verif.Install.Dest
import Verif.Path.Props
/-
C89: where files are installed.
-/
namespace Muon.Install
open Muon Path Path.Spec

namespace Spec

/-- `dest` is the place `rest` in the directory `dir`, which is in the prefix unless it is absolute. -/
def Place (E : Proj) (dir : Bytes) (rest : List Bytes) (dest : Bytes) : Prop :=
  isAbs dest = true ∧ comps dest = (if isAbs dir then [] else comps E.pre) ++ comps dir ++ rest

/-- The directory `sub` in the directory `dir`. -/
def below (dir sub : Bytes) : List Bytes := comps dir ++ comps sub

/-- The last component. -/
def last (p : Bytes) : List Bytes := match (comps p).getLast? with
  | some c => [c]
  | none => []

/-- The file `f` names `p`: a name is that of a file in the current directory. -/
def Names (E : Proj) (f : Src) (p : Bytes) : Prop := match f with
  | .file q => p = q
  | .str s => isAbs p = true ∧ walk [] (comps p) = walk [] (if isAbs s then comps s else comps E.cwd ++ comps s) ∧ E.exist p = true

/-- No NUL in any of the strings, and the prefix and the current directory are absolute. -/
structure Proj.Good (E : Proj) : Prop where
  cwd : isAbs E.cwd = true ∧ 0 ∉ E.cwd
  pre : isAbs E.pre = true ∧ 0 ∉ E.pre
  name : 0 ∉ E.name
  datadir : 0 ∉ E.datadir
  includedir : 0 ∉ E.includedir
  mandir : 0 ∉ E.mandir
  bindir : 0 ∉ E.bindir
  libdir : 0 ∉ E.libdir

def Src.text : Src → Bytes
  | .str s => s
  | .file p => p

end Spec
open Spec

/-! ### One target -/

theorem bind_ok {α β : Type} {x : Res α} {f : α → Res β} {b : β} (h : x.bind f = .ok b) : ∃ a, x = .ok a ∧ f a = .ok b := Res.bind_eq_ok.1 h

theorem join_place (E : Proj) (hE : Proj.Good E) (dir b : Bytes) (h1 : 0 ∉ dir) (h2 : 0 ∉ b) (hb : isAbs b = false) :
    Place E dir (comps b) (if isAbsolute (join dir b) then join dir b else join E.pre (join dir b)) := by
  obtain ⟨p1, p2, p3⟩ := join_facts dir b h1 h2
  rw [hb] at p1 p2
  simp only [Bool.false_eq_true, if_false, Bool.false_or] at p1 p2
  rw [isAbsolute_eq, p2]
  unfold Place
  by_cases h : isAbs dir = true
  · rw [if_pos h, if_pos h, p1, p2]; exact ⟨h, by simp⟩
  · obtain ⟨q1, q2, -⟩ := join_facts E.pre (join dir b) hE.pre.2 p3
    rw [p2] at q1 q2
    rw [if_neg h, if_neg h, q1, q2, if_neg h, p1, hE.pre.1]
    exact ⟨by simp, by simp⟩

theorem pushTarget_ok {E : Proj} {src dest : Bytes} {mode : Option (List ModeVal)} {t : Target} (h : pushTarget E src dest mode = .ok t) :
    t.src = src ∧ t.dest = (if isAbsolute dest then dest else join E.pre dest) ∧ pushMode mode = .ok t.perm ∧ t.kind = .default ∧ t.build = false ∧ t.excludeDirs = [] ∧ t.excludeFiles = [] := by
  unfold pushTarget at h
  obtain ⟨p, hp, h⟩ := bind_ok h
  cases h
  exact ⟨rfl, rfl, hp, rfl, rfl, rfl, rfl⟩

theorem basename_facts (p : Bytes) (h0 : 0 ∉ p) (hp : comps p ≠ []) : comps (basename p) = last p ∧ isAbs (basename p) = false ∧ 0 ∉ basename p ∧ last p = [basename p] := by
  have hne : p ≠ [] := by rintro rfl; exact hp (by decide)
  have hb := basename_spec p h0 hne
  obtain ⟨c, hc⟩ : ∃ c, (comps p).getLast? = some c := by
    cases h : (comps p).getLast? with
    | none => exact absurd (List.getLast?_eq_none_iff.1 h) hp
    | some c => exact ⟨c, rfl⟩
  rw [hc] at hb
  simp only at hb
  have hg := comps_good p h0 c (List.mem_of_getLast? hc)
  have hl : last p = [c] := by unfold last; rw [hc]
  rw [hb, hl]
  refine ⟨comps_self c hg, ?_, hg.2.2.2, rfl⟩
  unfold isAbs
  cases c with
  | nil => rfl
  | cons x c =>
    have : x ≠ 47 := fun h => hg.2.2.1 (by simp [h])
    simp [this]

/-- The names of files are those the functions give. -/
theorem coerceFile_names {E : Proj} (hE : Proj.Good E) {f : Src} (h0 : 0 ∉ Src.text f) {p : Bytes} (h : coerceFile E f = .ok p) : Names E f p ∧ 0 ∉ p := by
  cases f with
  | file q => cases h; exact ⟨rfl, h0⟩
  | str s =>
    simp only [Src.text] at h0
    have hx : E.exist p = true ∧ p = normalize true (if isAbsolute s then copy s else join E.cwd s) := by
      unfold coerceFile at h
      dsimp only at h
      generalize normalize true (if isAbsolute s then copy s else join E.cwd s) = q at h
      by_cases hq : E.exist q = true
      · rw [if_pos hq] at h; cases h; exact ⟨hq, rfl⟩
      · rw [if_neg hq] at h; cases h
    obtain ⟨hx, rfl⟩ := hx
    by_cases ha : isAbs s = true
    · rw [isAbsolute_eq, if_pos ha] at hx ⊢
      have hc : 0 ∉ copy s := by unfold copy; rw [normalize_canon _ s h0]; exact canon_no0 _ s h0
      refine ⟨⟨?_, ?_, hx⟩, ?_⟩
      · rw [normalize_isAbs _ _ hc]; unfold copy; rw [normalize_isAbs _ s h0, ha]
      · rw [if_pos ha, normalize_walk _ _ hc]; unfold copy; rw [normalize_comps s h0]
      · rw [normalize_canon _ _ hc]; exact canon_no0 _ _ hc
    · rw [isAbsolute_eq, if_neg ha] at hx ⊢
      obtain ⟨q1, q2, q3⟩ := join_facts E.cwd s hE.cwd.2 h0
      refine ⟨⟨?_, ?_, hx⟩, ?_⟩
      · rw [normalize_isAbs _ _ q3, q2, hE.cwd.1]; simp
      · rw [if_neg ha, normalize_walk _ _ q3, q1, if_neg ha]
      · rw [normalize_canon _ _ q3]; exact canon_no0 _ _ q3

/-! ### Lists -/

/-- The lists have the same length and the elements at the same places are related. -/
def All2 {α β : Type} (R : α → β → Prop) : List α → List β → Prop
  | [], [] => True
  | a :: l, b :: m => R a b ∧ All2 R l m
  | _, _ => False

/-- What `All2` says. -/
theorem all2_iff {α β : Type} (R : α → β → Prop) (l : List α) (m : List β) : All2 R l m ↔ l.length = m.length ∧ ∀ (i : Nat) a b, l[i]? = some a → m[i]? = some b → R a b := by
  induction l generalizing m with
  | nil => cases m <;> simp [All2]
  | cons a l ih =>
    cases m with
    | nil => simp [All2]
    | cons b m =>
      simp only [All2, ih, List.length_cons, Nat.add_right_cancel_iff]
      constructor
      · rintro ⟨h1, h2, h3⟩
        refine ⟨h2, fun i => ?_⟩
        cases i with
        | zero => simp; exact h1
        | succ i => simpa using h3 i
      · rintro ⟨h1, h2⟩
        exact ⟨by simpa using h2 0 a b rfl rfl, h1, fun i => by simpa using h2 (i + 1)⟩

/-- How a target is made from a file. -/
def Made (E : Proj) (mode : Option (List ModeVal)) (f : Src) (dir : Bytes) (rest : Bytes → List Bytes) (t : Target) : Prop :=
  Names E f t.src ∧ Place E dir (rest t.src) t.dest ∧ pushMode mode = .ok t.perm ∧ t.kind = .default ∧ t.build = false

/-- Files that can be given: they have a last component. -/
def FileOk (E : Proj) (f : Src) : Prop := 0 ∉ Src.text f ∧ ∀ p, coerceFile E f = .ok p → comps p ≠ []

theorem iter_made {E : Proj} (hE : Proj.Good E) {mode : Option (List ModeVal)} {f : Src} {dir : Bytes} (hf : FileOk E f) (hd : 0 ∉ dir) {preserve : Bool} {ts : List Target}
    (hp : preserve = true → isAbs (Src.text f) = false) (h : pushTargetsIter E mode preserve f (.str dir) = .ok ts) :
    ∃ t, ts = [t] ∧ Made E mode f dir (fun p => if preserve then comps (Src.text f) else last p) t ∧ (preserve = true → ∃ s, f = .str s) := by
  unfold pushTargetsIter at h
  dsimp only at h
  cases f with
  | str s =>
    dsimp only at h
    obtain ⟨p, h1, h⟩ := bind_ok h
    obtain ⟨t, h2, h⟩ := bind_ok h
    cases h
    obtain ⟨n1, n0⟩ := coerceFile_names hE hf.1 h1
    obtain ⟨b1, b2, b3, -⟩ := basename_facts p n0 (hf.2 p h1)
    obtain ⟨t1, t2, t3, t4, t5, -, -⟩ := pushTarget_ok h2
    refine ⟨t, rfl, ⟨by rw [t1]; exact n1, ?_, t3, t4, t5⟩, fun _ => ⟨s, rfl⟩⟩
    rw [t2, t1]
    cases preserve with
    | true => exact join_place E hE dir s hd hf.1 (hp rfl)
    | false => simp only [Bool.false_eq_true, if_false]; rw [← b1]; exact join_place E hE dir _ hd b3 b2
  | file p =>
    dsimp only at h
    split at h
    · cases h
    · rename_i hpr
      obtain ⟨t, h2, h⟩ := bind_ok h
      cases h
      obtain ⟨n1, n0⟩ := coerceFile_names (f := .file p) hE hf.1 rfl
      obtain ⟨b1, b2, b3, -⟩ := basename_facts p n0 (hf.2 p rfl)
      obtain ⟨t1, t2, t3, t4, t5, -, -⟩ := pushTarget_ok h2
      refine ⟨t, rfl, ⟨by rw [t1]; exact n1, ?_, t3, t4, t5⟩, fun h => absurd h hpr⟩
      rw [t2, t1]
      simp only [if_neg hpr]
      rw [← b1]
      exact join_place E hE dir _ hd b3 b2

theorem pushTargets_made {E : Proj} (hE : Proj.Good E) {mode : Option (List ModeVal)} {dir : Bytes} (hd : 0 ∉ dir) {preserve : Bool} (files : List Src) (hf : ∀ f ∈ files, FileOk E f)
    (hp : preserve = true → ∀ f ∈ files, isAbs (Src.text f) = false) : ∀ {ts : List Target}, pushTargets E files (.inl dir) mode preserve = .ok ts →
    All2 (fun f t => Made E mode f dir (fun p => if preserve then comps (Src.text f) else last p) t) files ts := by
  simp only [pushTargets]
  induction files with
  | nil => intro ts h; cases h; trivial
  | cons f l ih =>
    intro ts h
    rw [List.map_cons, pushTargetsLoop] at h
    obtain ⟨t, h1, h⟩ := bind_ok h
    obtain ⟨ts', h2, h⟩ := bind_ok h
    cases h
    obtain ⟨t', rfl, m, -⟩ := iter_made hE (hf f (by simp)) hd (fun hh => hp hh f (by simp)) h1
    exact ⟨m, ih (fun g hg => hf g (by simp [hg])) (fun hh g hg => hp hh g (by simp [hg])) h2⟩

/-- C89: `install_data` installs each file under its own name, or under its relative path if that is to be preserved, in the directory that is given, or in the one for the data of the project; with the
permissions that were asked for. -/
theorem install_data_partial {E : Proj} (hE : Proj.Good E) (files : List Src) (hf : ∀ f ∈ files, FileOk E f) (dir : Option Bytes) (hd : ∀ d, dir = some d → 0 ∉ d)
    (mode : Option (List ModeVal)) (preserve : Option Bool) (hp : preserve = some true → ∀ f ∈ files, isAbs (Src.text f) = false)
    (ts : List Target) (h : installData E files dir mode none preserve = .ok ts) :
    All2 (fun f t => Made E mode f (dir.getD (join E.datadir E.name)) (fun p => if preserve = some true then comps (Src.text f) else last p) t) files ts ∧
    comps (join E.datadir E.name) = (if isAbs E.name then comps E.name else below E.datadir E.name) := by
  refine ⟨?_, (join_facts _ _ hE.datadir hE.name).1⟩
  unfold installData at h
  rw [if_neg (by simp)] at h
  dsimp only at h
  cases dir with
  | some d =>
    have := pushTargets_made hE (hd d rfl) files hf (fun hh => hp (by simpa using hh)) h
    simpa using this
  | none =>
    have := pushTargets_made hE (join_facts _ _ hE.datadir hE.name).2.2 files hf (fun hh => hp (by simpa using hh)) h
    simpa using this

/-! ### Files under other names -/

theorem coerceFiles_ok {E : Proj} : ∀ {files : List Src} {ps : List Bytes}, coerceFiles E files = .ok ps → All2 (fun f p => coerceFile E f = .ok p) files ps := by
  intro files
  induction files with
  | nil => intro ps h; cases h; trivial
  | cons f l ih =>
    intro ps h
    obtain ⟨p, h1, h⟩ := bind_ok h
    obtain ⟨ps', h2, h⟩ := bind_ok h
    cases h
    exact ⟨h1, ih h2⟩

theorem rename_made {E : Proj} (hE : Proj.Good E) (dir : Bytes) (hd : 0 ∉ dir) (mode : Option (List ModeVal)) (perm : Option Nat) (hm : pushMode mode = .ok perm) (files : List Src) :
    ∀ (rs ps : List Bytes) (ts : List Target), (∀ f ∈ files, FileOk E f) → (∀ r ∈ rs, 0 ∉ r ∧ isAbs r = false) → rs.length = files.length → All2 (fun f p => coerceFile E f = .ok p) files ps →
    renameLoop E mode dir (ps.zip rs) = .ok ts →
    All2 (fun f (x : Bytes × Target) => Made E mode f dir (fun _ => comps x.1) x.2) files (rs.zip ts) ∧ rs.length = ts.length := by
  induction files with
  | nil =>
    intro rs ps ts hf hr hl h1 h
    have : rs = [] := List.length_eq_zero_iff.1 (by simpa using hl)
    subst this
    simp [renameLoop] at h
    subst h
    exact ⟨trivial, rfl⟩
  | cons f l ih =>
    intro rs ps ts hf hr hl h1 h
    cases rs with
    | nil => simp at hl
    | cons r rs =>
      cases ps with
      | nil => exact h1.elim
      | cons p ps =>
        rw [List.zip_cons_cons, renameLoop] at h
        have hpt : ∃ t, pushTarget E p (join dir r) mode = .ok t := by unfold pushTarget; rw [hm]; exact ⟨_, rfl⟩
        obtain ⟨t, ht⟩ := hpt
        rw [ht] at h
        dsimp only at h
        obtain ⟨ts', h2, h⟩ := bind_ok h
        cases h
        obtain ⟨a1, a2⟩ := ih rs ps ts' (fun g hg => hf g (by simp [hg])) (fun x hx => hr x (by simp [hx])) (by simpa using hl) h1.2 h2
        obtain ⟨t1, t2, t3, t4, t5, -, -⟩ := pushTarget_ok ht
        have hff := hf f (by simp)
        have hrr := hr r (by simp)
        refine ⟨⟨⟨by rw [t1]; exact (coerceFile_names hE hff.1 h1.1).1, ?_, t3, t4, t5⟩, a1⟩, by simp [a2]⟩
        rw [t2]
        exact join_place E hE dir r hd hrr.1 hrr.2

/-- C89: with `rename` the files get the given names. **Partial**: if the permissions are not malformed, see `rename_mode_counterexample`. -/
theorem install_rename_partial {E : Proj} (hE : Proj.Good E) (files : List Src) (hf : ∀ f ∈ files, FileOk E f) (dir : Bytes) (hd : 0 ∉ dir) (rs : List Bytes) (hr : ∀ r ∈ rs, 0 ∉ r ∧ isAbs r = false)
    (mode : Option (List ModeVal)) (perm : Option Nat) (hm : pushMode mode = .ok perm) (ts : List Target) (h : installData E files (some dir) mode (some rs) none = .ok ts) :
    rs.length = ts.length ∧ All2 (fun f (x : Bytes × Target) => Made E mode f dir (fun _ => comps x.1) x.2) files (rs.zip ts) := by
  unfold installData at h
  rw [if_neg (by simp)] at h
  dsimp only at h
  split at h
  · cases h
  · rename_i hl
    obtain ⟨ps, h1, h⟩ := bind_ok h
    exact (rename_made hE dir hd mode perm hm files rs ps ts hf hr (by omega) (coerceFiles_ok h1) h).symm

/-- With malformed permissions, and a file given another name, nothing is installed and there is no error. -/
theorem rename_mode_counterexample : ∀ E : Proj, installData E [.file (ascii "/s/a")] (some (ascii "d")) (some [.str (ascii "0644")]) (some [ascii "b"]) none = .ok [] ∧
    installData E [.file (ascii "/s/a")] (some (ascii "d")) (some [.str (ascii "0644")]) none none = .error := by
  intro E
  have h : pushMode (some [.str (ascii "0644")]) = .error := by decide +kernel
  have h2 : ∀ a b, pushTarget E a b (some [.str (ascii "0644")]) = .error := fun a b => by unfold pushTarget; rw [h]; rfl
  constructor
  · unfold installData
    rw [if_neg (by simp)]
    dsimp only
    rw [if_neg (by simp)]
    simp only [coerceFiles, coerceFile, Res.bind, List.zip_cons_cons, List.zip_nil_left, renameLoop, h2]
  · unfold installData
    rw [if_neg (by simp)]
    simp only [pushTargets, List.map_cons, List.map_nil, pushTargetsLoop, pushTargetsIter, h2, Res.bind]
    rfl

/-! ### Headers -/

/-- C89: `install_headers`. -/
theorem install_headers_partial {E : Proj} (hE : Proj.Good E) (files : List Src) (hf : ∀ f ∈ files, FileOk E f) (dir subdir : Option Bytes) (hd : ∀ d, dir = some d → 0 ∉ d)
    (hs : ∀ d, subdir = some d → 0 ∉ d ∧ isAbs d = false) (mode : Option (List ModeVal)) (preserve : Option Bool) (hp : preserve = some true → ∀ f ∈ files, isAbs (Src.text f) = false)
    (ts : List Target) (h : installHeaders E files dir subdir mode preserve = .ok ts) :
    ∃ d, All2 (fun f t => Made E mode f d (fun p => if preserve = some true then comps (Src.text f) else last p) t) files ts ∧
      ((dir = some d ∧ subdir = none) ∨ (dir = none ∧ subdir = none ∧ d = E.includedir) ∨
        ∃ s, dir = none ∧ subdir = some s ∧ comps d = below E.includedir s ∧ isAbs d = isAbs E.includedir) := by
  unfold installHeaders at h
  cases dir with
  | some d =>
    cases subdir with
    | some s => rw [if_pos (by simp)] at h; cases h
    | none =>
      rw [if_neg (by simp)] at h
      have := pushTargets_made hE (hd d rfl) files hf (fun hh => hp (by simpa using hh)) h
      exact ⟨d, by simpa using this, Or.inl ⟨rfl, rfl⟩⟩
  | none =>
    cases subdir with
    | some s =>
      rw [if_neg (by simp)] at h
      obtain ⟨s0, sa⟩ := hs s rfl
      obtain ⟨q1, q2, q3⟩ := join_facts E.includedir s hE.includedir s0
      have := pushTargets_made hE q3 files hf (fun hh => hp (by simpa using hh)) h
      rw [sa] at q1 q2
      exact ⟨_, by simpa using this, Or.inr (Or.inr ⟨s, rfl, rfl, by simpa [below] using q1, by simpa using q2⟩)⟩
    | none =>
      rw [if_neg (by simp)] at h
      have := pushTargets_made hE hE.includedir files hf (fun hh => hp (by simpa using hh)) h
      exact ⟨_, by simpa using this, Or.inr (Or.inl ⟨rfl, rfl, rfl⟩)⟩

/-! ### Several directories -/

/-- C89: the outputs of a custom target with one directory for each: those with `false` are not installed, the others are, in their directories. -/
theorem install_dirs_partial {E : Proj} (hE : Proj.Good E) (files : List Src) (hf : ∀ f ∈ files, FileOk E f) (dirs : List DirVal) (hd : ∀ d, .str d ∈ dirs → 0 ∉ d)
    (mode : Option (List ModeVal)) (ts : List Target) (h : pushTargets E files (.inr dirs) mode false = .ok ts) :
    files.length = dirs.length ∧ .bool true ∉ dirs ∧
    All2 (fun (x : Src × DirVal) t => ∃ d, x.2 = .str d ∧ Made E mode x.1 d last t) ((files.zip dirs).filter fun x => x.2 ≠ .bool false) ts := by
  simp only [pushTargets] at h
  split at h
  · cases h
  · rename_i hl
    have hl : files.length = dirs.length := by omega
    refine ⟨hl, ?_⟩
    induction files generalizing dirs ts with
    | nil =>
      have : dirs = [] := List.length_eq_zero_iff.1 (by simpa using hl.symm)
      subst this
      cases h
      exact ⟨by simp, trivial⟩
    | cons f l ih =>
      cases dirs with
      | nil => simp at hl
      | cons d dirs =>
        rw [List.zip_cons_cons, pushTargetsLoop] at h
        obtain ⟨t, h1, h⟩ := bind_ok h
        obtain ⟨ts', h2, h⟩ := bind_ok h
        cases h
        obtain ⟨i1, i2⟩ := ih (fun g hg => hf g (by simp [hg])) dirs (fun x hx => hd x (by simp [hx])) ts' (by simpa using hl) h2 (by simpa using hl)
        cases d with
        | bool b =>
          unfold pushTargetsIter at h1
          cases b with
          | true => cases h1
          | false =>
            cases h1
            refine ⟨by simpa using i1, ?_⟩
            rw [List.zip_cons_cons, List.filter_cons, if_neg (by simp)]
            exact i2
        | str d =>
          obtain ⟨t', rfl, m, -⟩ := iter_made hE (hf f (by simp)) (hd d (by simp)) (preserve := false) (by simp) h1
          refine ⟨by simpa using i1, ?_⟩
          rw [List.zip_cons_cons, List.filter_cons, if_pos (by simp)]
          exact ⟨⟨d, rfl, by simpa using m⟩, i2⟩

/-! ### Directories, links, built targets -/

/-- C89: links and empty directories are made where they are asked for. -/
theorem install_symlink_partial {E : Proj} (hE : Proj.Good E) (name dir target : Bytes) (h1 : 0 ∉ name) (h2 : isAbs name = false) (h3 : 0 ∉ dir) :
    ∃ t, installSymlink E name dir target = .ok t ∧ t.src = target ∧ t.kind = .symlink ∧ t.perm = none ∧ Place E dir (comps name) t.dest :=
  ⟨_, rfl, rfl, rfl, rfl, join_place E hE dir name h3 h1 h2⟩

theorem emptydir_place {E : Proj} (hE : Proj.Good E) (d : Bytes) (h0 : 0 ∉ d) : Place E d [] (if isAbsolute d then d else join E.pre d) := by
  rw [isAbsolute_eq]
  unfold Place
  by_cases h : isAbs d = true
  · rw [if_pos h, if_pos h]; exact ⟨h, by simp⟩
  · obtain ⟨q1, q2, -⟩ := join_facts E.pre d hE.pre.2 h0
    rw [if_neg h, if_neg h, q1, q2, if_neg h, hE.pre.1]; simp

theorem install_emptydir_place {E : Proj} (hE : Proj.Good E) (mode : Option (List ModeVal)) (ds : List Bytes) (hd : ∀ d ∈ ds, 0 ∉ d) : ∀ (ts : List Target), installEmptydir E mode ds = .ok ts →
    All2 (fun d t => t.kind = .emptydir ∧ Place E d [] t.dest ∧ pushMode mode = .ok t.perm) ds ts := by
  induction ds with
  | nil => intro ts h; cases h; trivial
  | cons d l ih =>
    intro ts h
    obtain ⟨t, h1, h⟩ := bind_ok h
    obtain ⟨ts', h2, h⟩ := bind_ok h
    cases h
    obtain ⟨t1, t2, t3, t4, t5, -, -⟩ := pushTarget_ok h1
    refine ⟨⟨rfl, ?_, t3⟩, ih (fun x hx => hd x (by simp [hx])) ts' h2⟩
    show Place E d [] t.dest
    rw [t2]; exact emptydir_place hE d (hd d (by simp))

/-- C89: a directory `name` of one or two components is installed as its last component, or as the directory itself. **Partial**: with more components only the first is left out, and a slash at
the end is not ignored, see `subdir_counterexample`. -/
theorem install_subdir_partial {E : Proj} (hE : Proj.Good E) (a b dir : Bytes) (ha : Comp a) (hb : Comp b) (hd : 0 ∉ dir) (mode : Option (List ModeVal)) (exD exF : List Bytes) (two : Bool) (strip : Bool) (t : Target)
    (h : installSubdir E (if two then a ++ 47 :: b else b) dir mode exD exF strip = .ok t) :
    t.kind = .subdir ∧ t.excludeDirs = exD ∧ t.excludeFiles = exF ∧ pushMode mode = .ok t.perm ∧ isAbs t.src = true ∧ comps t.src = comps E.cwd ++ (if two then [a, b] else [b]) ∧
    Place E dir (if strip then [] else [b]) t.dest := by
  unfold installSubdir at h
  obtain ⟨t', h1, h⟩ := bind_ok h
  cases h
  obtain ⟨t1, t2, t3, t4, t5, -, -⟩ := pushTarget_ok h1
  have ca := comps_self a ha
  have cb := comps_self b hb
  have notabs : ∀ x : Bytes, Comp x → ∀ r, isAbs (x ++ r) = false := by
    intro x hx r
    cases x with
    | nil => exact absurd rfl hx.1
    | cons c x =>
      have : c ≠ 47 := fun h => hx.2.2.1 (by simp [h])
      simp [isAbs, this]
  have ab : isAbs b = false := by simpa using notabs b hb []
  have n0 : 0 ∉ (if two then a ++ 47 :: b else b) := by
    cases two with
    | false => exact hb.2.2.2
    | true => simp [ha.2.2.2, hb.2.2.2]
  have na : isAbs (if two then a ++ 47 :: b else b) = false := by
    cases two with
    | false => exact ab
    | true => exact notabs a ha _
  have nc : comps (if two then a ++ 47 :: b else b) = if two then [a, b] else [b] := by
    cases two with
    | false => exact cb
    | true => simp only [if_true]; rw [comps_append, ca, cb]; rfl
  obtain ⟨q1, q2, q3⟩ := join_facts E.cwd _ hE.cwd.2 n0
  rw [na] at q1 q2
  refine ⟨rfl, rfl, rfl, t3, ?_, ?_, ?_⟩
  · show isAbs t'.src = true
    rw [t1, q2, hE.cwd.1]; rfl
  · show comps t'.src = _
    rw [t1, q1, nc]; rfl
  · show Place E dir _ t'.dest
    rw [t2]
    cases strip with
    | true => exact emptydir_place hE dir hd
    | false =>
      have tail : (if (if two then a ++ 47 :: b else b).contains 47 then ((if two then a ++ 47 :: b else b).dropWhile (· ≠ 47)).drop 1 else (if two then a ++ 47 :: b else b)) = b := by
        cases two with
        | false => simp only [Bool.false_eq_true, if_false]; rw [if_neg (by simpa using hb.2.2.1)]
        | true =>
          simp only [if_true]
          rw [if_pos (by simp)]
          have : ∀ x : Bytes, 47 ∉ x → (x ++ 47 :: b).dropWhile (· ≠ 47) = 47 :: b := by
            intro x hx
            induction x with
            | nil => simp
            | cons c x ih =>
              simp only [List.mem_cons, not_or] at hx
              rw [List.cons_append, List.dropWhile_cons, if_pos (by simpa using Ne.symm hx.1), ih hx.2]
          rw [this a ha.2.2.1]; rfl
      simp only [Bool.false_eq_true, if_false, tail]
      rw [← cb]
      exact join_place E hE dir b hd hb.2.2.2 ab

/-- C89: built programs and libraries go to the directory that is given, or to the one for programs or for libraries, under their own name. -/
theorem install_build_partial {E : Proj} (hE : Proj.Good E) (lib : Bool) (buildDir name : Bytes) (h0 : 0 ∉ name) (h1 : isAbs name = false) (dir : Option Bytes) (hd : ∀ d, dir = some d → 0 ∉ d)
    (mode : Option (List ModeVal)) (links : List Bytes) (hl : ∀ l ∈ links, 0 ∉ l ∧ comps l ≠ []) (ts : List Target) (h : installBuild E lib buildDir name dir mode links = .ok ts) :
    ∃ t ls, ts = t :: ls ∧ t.src = join buildDir name ∧ t.build = true ∧ pushMode mode = .ok t.perm ∧
      Place E (dir.getD (if lib then E.libdir else E.bindir)) (comps name) t.dest ∧
      All2 (fun l (t : Target) => t.src = l ∧ t.build = false ∧ Place E (dir.getD (if lib then E.libdir else E.bindir)) (last l) t.dest) links ls := by
  unfold installBuild at h
  dsimp only at h
  have hd' : 0 ∉ (dir.getD (if lib then E.libdir else E.bindir)) := by
    cases dir with
    | some d => exact hd d rfl
    | none => cases lib <;> simp [hE.libdir, hE.bindir]
  generalize hdd : (dir.getD (if lib then E.libdir else E.bindir)) = D at h hd'
  obtain ⟨t, h2, h⟩ := bind_ok h
  cases h
  obtain ⟨t1, t2, t3, t4, t5, -, -⟩ := pushTarget_ok h2
  refine ⟨_, _, rfl, t1, rfl, t3, ?_, ?_⟩
  · show Place E _ _ t.dest
    rw [t2]; exact join_place E hE D name hd' h0 h1
  · clear h2 h
    induction links with
    | nil => trivial
    | cons l links ih =>
      obtain ⟨l0, lc⟩ := hl l (by simp)
      obtain ⟨b1, b2, b3, -⟩ := basename_facts l l0 lc
      have hpt : ∃ t', pushTargetDir E l D mode = .ok t' := by unfold pushTargetDir pushTarget; rw [t3]; exact ⟨_, rfl⟩
      obtain ⟨t', ht'⟩ := hpt
      rw [List.filterMap_cons, ht']
      dsimp only
      obtain ⟨s1, s2, s3, s4, s5, -, -⟩ := pushTarget_ok ht'
      refine ⟨⟨s1, s5, ?_⟩, ih (fun x hx => hl x (by simp [hx]))⟩
      rw [s2, ← b1]
      exact join_place E hE D _ hd' b3 b2

/-- C89: the output of `configure_file`. **Partial**: if the permissions are not malformed. -/
theorem install_configured_partial {E : Proj} (hE : Proj.Good E) (output dir : Bytes) (h0 : 0 ∉ output) (hc : comps output ≠ []) (hd : 0 ∉ dir) (mode : Option (List ModeVal)) (perm : Option Nat)
    (hm : pushMode mode = .ok perm) (install : Option Bool) (hi : install ≠ some false) :
    ∃ t, installConfigured E output install (some dir) mode = .ok [t] ∧ t.src = output ∧ t.perm = perm ∧ Place E dir (last output) t.dest := by
  have hpt : ∃ t', pushTargetDir E output dir mode = .ok t' := by unfold pushTargetDir pushTarget; rw [hm]; exact ⟨_, rfl⟩
  obtain ⟨t, ht⟩ := hpt
  obtain ⟨t1, t2, t3, t4, t5, -, -⟩ := pushTarget_ok ht
  obtain ⟨b1, b2, b3, -⟩ := basename_facts output h0 hc
  refine ⟨t, ?_, t1, ?_, ?_⟩
  · unfold installConfigured
    rw [if_pos (by cases install with
      | none => simp
      | some b => cases b <;> simp_all)]
    simp only [ht]
  · rw [hm] at t3; cases t3; rfl
  · rw [t2, ← b1]; exact join_place E hE dir _ hd b3 b2

/-- C89: the output of `configure_file` is installed only if `install` is true, or absent with a directory given. -/
theorem install_configured_asked {E : Proj} {output : Bytes} {install : Option Bool} {dir : Option Bytes} {mode : Option (List ModeVal)} {ts : List Target}
    (h : installConfigured E output install dir mode = .ok ts) (hn : ts ≠ []) : install = some true ∨ (install = none ∧ ∃ d, dir = some d) := by
  unfold installConfigured at h
  split at h
  · rename_i hc
    rcases hc with hc | ⟨hc, hd⟩
    · exact Or.inl hc
    · cases hdir : dir with
      | none => exact absurd hdir hd
      | some d => exact Or.inr ⟨hc, d, rfl⟩
  · cases h; exact absurd rfl hn

theorem configured_mode_counterexample (E : Proj) : installConfigured E (ascii "/b/x.h") (some true) (some (ascii "d")) (some [.str (ascii "0644")]) = .ok [] := by
  have h : pushMode (some [.str (ascii "0644")]) = .error := by decide +kernel
  unfold installConfigured
  rw [if_pos (by simp)]
  simp only [pushTargetDir, pushTarget, h, Res.bind]

/-! ### Manual pages -/

theorem sect_dir (dir : Bytes) (d : UInt8) (hd : 48 ≤ d ∧ d ≤ 57) (hne : dir ≠ []) (h0 : 0 ∉ dir) :
    comps (dir ++ ascii "/man" ++ [d]) = comps dir ++ [ascii "man" ++ [d]] ∧ isAbs (dir ++ ascii "/man" ++ [d]) = isAbs dir ∧ 0 ∉ dir ++ ascii "/man" ++ [d] := by
  have e : dir ++ ascii "/man" ++ [d] = dir ++ 47 :: (ascii "man" ++ [d]) := by
    rw [List.append_assoc]; rfl
  have key : ∀ d : UInt8, 48 ≤ d ∧ d ≤ 57 → d ≠ 47 ∧ d ≠ 0 := forall_byte (by decide +kernel)
  obtain ⟨k1, k2⟩ := key d hd
  have hc : Comp (ascii "man" ++ [d]) := by
    refine ⟨by simp, ?_, ?_, ?_⟩
    · intro h; exact absurd (congrArg List.length h) (by simp [ascii])
    · have : (47 : UInt8) ∉ ascii "man" := by decide +kernel
      simp [this, Ne.symm k1]
    · have : (0 : UInt8) ∉ ascii "man" := by decide +kernel
      simp [this, Ne.symm k2]
  rw [e, comps_append, comps_self _ hc]
  refine ⟨rfl, isAbs_append _ _ hne, ?_⟩
  simp only [List.mem_append, List.mem_cons, not_or]
  exact ⟨h0, by decide, by simpa using hc.2.2.2⟩

theorem manName_cases (locale : Option Bytes) (man : Bytes) (d : UInt8) : manName locale man d = man ∨ manName locale man d = man.takeWhile (· ≠ 46) ++ [46, d] := by
  cases locale with
  | none => exact Or.inl rfl
  | some loc =>
    simp only [manName]
    split
    · exact Or.inr rfl
    · exact Or.inl rfl

theorem takeWhile_dot (s loc : Bytes) (d : UInt8) (h46 : 46 ∉ s) : ((s ++ 46 :: loc) ++ [46, d]).takeWhile (· ≠ 46) = s := by
  induction s with
  | nil => simp
  | cons x s ih =>
    simp only [List.mem_cons, not_or] at h46
    rw [List.cons_append, List.cons_append, List.takeWhile_cons, if_pos (by simpa using Ne.symm h46.1), ih h46.2]

theorem man_iter {E : Proj} (hE : Proj.Good E) {mode : Option (List ModeVal)} {dir : Bytes} (hne : dir ≠ []) (h0 : 0 ∉ dir) {dflt : Bool} {locale : Option Bytes} {p : Bytes} (hp0 : 0 ∉ p) (hp : comps p ≠ []) {t : Target}
    (h : manIter E mode dir dflt locale p = .ok t) :
    t.src = p ∧ pushMode mode = .ok t.perm ∧ t.kind = .default ∧ ∃ stem d name, last p = [stem ++ [46, d]] ∧ stem ≠ [] ∧ 48 ≤ d ∧ d ≤ 57 ∧ Place E dir ((if dflt then [ascii "man" ++ [d]] else []) ++ [name]) t.dest ∧
      (locale = none → name = stem ++ [46, d]) ∧ ∀ loc s, locale = some loc → stem = s ++ 46 :: loc → s ≠ [] → 46 ∉ s → name = s ++ [46, d] := by
  obtain ⟨b1, b2, b3, b4⟩ := basename_facts p hp0 hp
  have bg : Comp (basename p) := by
    have hx := comps_good (basename p) b3 (basename p)
    rw [b1, b4] at hx
    exact hx (by simp)
  unfold manIter at h
  dsimp only at h
  generalize basename p = man at *
  split at h
  · cases h
  · split at h
    · cases h
    · rename_i hl hc
      have hlen : 3 ≤ man.length := by omega
      obtain ⟨stem, c, d, rfl⟩ : ∃ stem c d, man = stem ++ [c, d] := by
        refine ⟨man.take (man.length - 2), man[man.length - 2], man[man.length - 1], ?_⟩
        conv => lhs; rw [← List.take_append_drop (man.length - 2) man]
        congr 1
        rw [List.drop_eq_getElem_cons (by omega), List.drop_eq_getElem_cons (by omega), List.drop_eq_nil_of_le (by omega)]
        congr 2
        congr 1; omega
      have e1 : byteAt (stem ++ [c, d]) ((stem ++ [c, d]).length - 1) = d := by
        have : (stem ++ [c, d]).length - 1 = stem.length + 1 := by simp
        rw [this, byteAt_append]; rfl
      have e2 : byteAt (stem ++ [c, d]) ((stem ++ [c, d]).length - 1 - 1) = c := by
        have : (stem ++ [c, d]).length - 1 - 1 = stem.length + 0 := by simp
        rw [this, byteAt_append]; rfl
      rw [e1, e2] at hc
      rw [e1] at h
      have hc46 : c = 46 := by
        by_cases h : c = 46
        · exact h
        · exact absurd (Or.inr (Or.inl h)) hc
      subst hc46
      have hd1 : 48 ≤ d := by
        by_cases h : d < 48
        · exact absurd (Or.inr (Or.inr (Or.inl h))) hc
        · exact UInt8.not_lt.1 h
      have hd2 : d ≤ 57 := by
        by_cases h : d > 57
        · exact absurd (Or.inr (Or.inr (Or.inr h))) hc
        · exact UInt8.not_lt.1 h
      have hst : stem ≠ [] := by rintro rfl; simp at hlen
      obtain ⟨t1, t2, t3, t4, t5, -, -⟩ := pushTarget_ok h
      refine ⟨t1, t3, t4, stem, d, manName locale (stem ++ [46, d]) d, b4, hst, hd1, hd2, ?_, ?_, ?_⟩
      · have nameOk : ∀ name : Bytes, (name = stem ++ [46, d] ∨ name = (stem ++ [46, d]).takeWhile (· ≠ 46) ++ [46, d]) → comps name = [name] ∧ isAbs name = false ∧ 0 ∉ name := by
          intro name hn
          have hcomp : Comp name := by
            rcases hn with rfl | rfl
            · exact bg
            · obtain ⟨g1, g2, g3, g4⟩ := bg
              have sub : ∀ x ∈ (stem ++ [46, d]).takeWhile (· ≠ 46), x ∈ stem ++ [46, d] := fun x hx => (List.takeWhile_sublist _).subset hx
              refine ⟨by simp, ?_, ?_, ?_⟩
              · intro hh
                have := congrArg List.length hh
                simp at this
              · intro hh
                rcases List.mem_append.1 hh with hh | hh
                · exact g3 (sub _ hh)
                · exact g3 (List.mem_append.2 (Or.inr hh))
              · intro hh
                rcases List.mem_append.1 hh with hh | hh
                · exact g4 (sub _ hh)
                · exact g4 (List.mem_append.2 (Or.inr hh))
          refine ⟨comps_self _ hcomp, ?_, hcomp.2.2.2⟩
          cases name with
          | nil => exact absurd rfl hcomp.1
          | cons x r =>
            have : x ≠ 47 := fun hh => hcomp.2.2.1 (by simp [hh])
            simp [isAbs, this]
        rw [t2]
        have hplace : ∀ name : Bytes, comps name = [name] ∧ isAbs name = false ∧ 0 ∉ name →
            Place E dir ((if dflt then [ascii "man" ++ [d]] else []) ++ [name])
              (if isAbsolute (join (if dflt then dir ++ ascii "/man" ++ [d] else dir) name) then join (if dflt then dir ++ ascii "/man" ++ [d] else dir) name
                else join E.pre (join (if dflt then dir ++ ascii "/man" ++ [d] else dir) name)) := by
          rintro name ⟨n1, n2, n3⟩
          cases dflt with
          | false =>
            simp only [Bool.false_eq_true, if_false, List.nil_append]
            rw [← n1]; exact join_place E hE dir name h0 n3 n2
          | true =>
            simp only [if_true]
            obtain ⟨d1, d2, d3⟩ := sect_dir dir d ⟨hd1, hd2⟩ hne h0
            have := join_place E hE _ name d3 n3 n2
            unfold Place at this ⊢
            rw [d1, d2, n1] at this
            refine ⟨this.1, ?_⟩
            rw [this.2]; simp
        exact hplace (manName locale (stem ++ [46, d]) d) (nameOk _ (manName_cases locale _ d))
      · rintro rfl; rfl
      · rintro loc s rfl rfl hs h46
        simp only [manName]
        have tw := takeWhile_dot s loc d h46
        rw [tw]
        have dr : ((s ++ 46 :: loc) ++ [46, d]).drop (s.length + 1) = loc ++ [46, d] := by
          rw [List.append_assoc, List.drop_append]; simp
        rw [dr, if_pos]
        simp [Str.startswith]

/-- C89: manual pages go to the directory of their section, those of a locale to the one of the locale, and without the locale in their name; if a directory is given they go there. -/
theorem install_man_partial {E : Proj} (hE : Proj.Good E) (hmd : E.mandir ≠ []) (files : List Src) (hf : ∀ f ∈ files, FileOk E f) (dir locale : Option Bytes) (hd : ∀ d, dir = some d → 0 ∉ d ∧ d ≠ [])
    (hl : ∀ l, locale = some l → 0 ∉ l ∧ isAbs l = false) (mode : Option (List ModeVal)) (ts : List Target) (h : installMan E files dir locale mode = .ok ts) :
    All2 (fun f t => Names E f t.src ∧ pushMode mode = .ok t.perm ∧ ∃ stem sec name, last t.src = [stem ++ [46, sec]] ∧ 48 ≤ sec ∧ sec ≤ 57 ∧
      match dir, locale with
      | some d, _ => Place E d [stem ++ [46, sec]] t.dest
      | none, none => Place E E.mandir [ascii "man" ++ [sec], stem ++ [46, sec]] t.dest
      | none, some loc => Place E E.mandir (comps loc ++ [ascii "man" ++ [sec], name]) t.dest ∧ ∀ s, stem = s ++ 46 :: loc → s ≠ [] → 46 ∉ s → name = s ++ [46, sec]) files ts := by
  unfold installMan at h
  obtain ⟨ps, h1, h⟩ := bind_ok h
  have h1 := coerceFiles_ok h1
  dsimp only at h
  have fold : ∀ (d : Bytes) (dflt : Bool) (loc : Option Bytes) (files : List Src) (ps : List Bytes) (ts : List Target), All2 (fun f p => coerceFile E f = .ok p) files ps →
      ps.foldr (fun p r => (manIter E mode d dflt loc p).bind fun t => r.bind fun ts => .ok (t :: ts)) (.ok []) = .ok ts →
      All2 (fun f t => ∃ p, coerceFile E f = .ok p ∧ manIter E mode d dflt loc p = .ok t) files ts := by
    intro d dflt loc files
    induction files with
    | nil =>
      intro ps ts ha h
      cases ps with
      | nil => cases h; trivial
      | cons p ps => exact ha.elim
    | cons f l ih =>
      intro ps ts ha h
      cases ps with
      | nil => exact ha.elim
      | cons p ps =>
        rw [List.foldr_cons] at h
        obtain ⟨t, h3, h⟩ := bind_ok h
        obtain ⟨ts', h4, h⟩ := bind_ok h
        cases h
        exact ⟨⟨p, ha.1, h3⟩, ih ps ts' ha.2 h4⟩
  have mono : ∀ {R S : Src → Target → Prop} (files : List Src) (ts : List Target), (∀ f ∈ files, FileOk E f) → All2 R files ts → (∀ f t, FileOk E f → R f t → S f t) → All2 S files ts := by
    intro R S files
    induction files with
    | nil => intro ts _ h _; cases ts with
      | nil => trivial
      | cons t ts => exact h.elim
    | cons f l ih =>
      intro ts hf h hi
      cases ts with
      | nil => exact h.elim
      | cons t ts => exact ⟨hi f t (hf f (by simp)) h.1, ih ts (fun g hg => hf g (by simp [hg])) h.2 hi⟩
  cases dir with
  | some d =>
    refine mono files ts hf (fold d false none files ps ts h1 h) ?_
    rintro f t hff ⟨p, hp, hm⟩
    obtain ⟨n1, n0⟩ := coerceFile_names hE hff.1 hp
    obtain ⟨a1, a2, a3, stem, sec, name, a4, a5, a6, a7, a8, a9, -⟩ := man_iter hE (hd d rfl).2 (hd d rfl).1 n0 (hff.2 p hp) hm
    refine ⟨by rw [a1]; exact n1, a2, stem, sec, name, by rw [a1]; exact a4, a6, a7, ?_⟩
    rw [a9 rfl] at a8; simpa using a8
  | none =>
    cases locale with
    | none =>
      refine mono files ts hf (fold E.mandir true none files ps ts h1 h) ?_
      rintro f t hff ⟨p, hp, hm⟩
      obtain ⟨n1, n0⟩ := coerceFile_names hE hff.1 hp
      obtain ⟨a1, a2, a3, stem, sec, name, a4, a5, a6, a7, a8, a9, -⟩ := man_iter hE hmd hE.mandir n0 (hff.2 p hp) hm
      refine ⟨by rw [a1]; exact n1, a2, stem, sec, name, by rw [a1]; exact a4, a6, a7, ?_⟩
      rw [a9 rfl] at a8; simpa using a8
    | some loc =>
      obtain ⟨l0, la⟩ := hl loc rfl
      obtain ⟨q1, q2, q3⟩ := join_facts E.mandir loc hE.mandir l0
      rw [la] at q1 q2
      have qne : join E.mandir loc ≠ [] := by
        rw [join_text E.mandir loc hE.mandir l0 hmd la]
        split
        · simp
        · refine render_ne _ _ ?_
          intro c hc
          rcases List.mem_append.1 hc with hc | hc
          · exact comps_good _ hE.mandir c hc
          · exact comps_good _ l0 c hc
      refine mono files ts hf (fold _ true (some loc) files ps ts h1 h) ?_
      rintro f t hff ⟨p, hp, hm⟩
      obtain ⟨n1, n0⟩ := coerceFile_names hE hff.1 hp
      obtain ⟨a1, a2, a3, stem, sec, name, a4, a5, a6, a7, a8, -, a10⟩ := man_iter hE qne q3 n0 (hff.2 p hp) hm
      refine ⟨by rw [a1]; exact n1, a2, stem, sec, name, by rw [a1]; exact a4, a6, a7, ?_, fun s => a10 loc s rfl⟩
      unfold Place at a8 ⊢
      rw [q1, q2] at a8
      refine ⟨a8.1, ?_⟩
      rw [a8.2]; simp

/-! ### Cases in which the place is another one, and examples -/

/-- A project for the examples: `/s` is the current directory, everything exists. -/
def demo : Proj where
  cwd := ascii "/s"
  name := ascii "p"
  pre := ascii "/usr"
  datadir := ascii "share"
  includedir := ascii "include"
  mandir := ascii "share/man"
  bindir := ascii "bin"
  libdir := ascii "lib"
  exist := fun _ => true

theorem demo_good : Proj.Good demo := ⟨by decide +kernel, by decide +kernel, by decide +kernel, by decide +kernel, by decide +kernel, by decide +kernel, by decide +kernel, by decide +kernel⟩

/-- Of a name with three components only the first is left out, and with a slash at the end the directory itself becomes the place (the documentation: the last component of the name is used). -/
theorem subdir_counterexample :
    (∃ t, installSubdir demo (ascii "a/b/c") (ascii "d") none [] [] false = .ok t ∧ t.dest = ascii "/usr/d/b/c" ∧ ¬ Place demo (ascii "d") [ascii "c"] t.dest) ∧
    (∃ t, installSubdir demo (ascii "a/") (ascii "d") none [] [] false = .ok t ∧ comps t.dest = [ascii "usr", ascii "d"] ∧ ¬ Place demo (ascii "d") [ascii "a"] t.dest) := by
  refine ⟨⟨_, rfl, by decide +kernel, ?_⟩, ⟨_, rfl, by decide +kernel, ?_⟩⟩
  · unfold Place; decide +kernel
  · unfold Place; decide +kernel

/-- With `preserve_path` a file with an absolute name is installed onto itself, whatever the directory is. -/
theorem preserve_absolute_counterexample : ∃ t, installData demo [.str (ascii "/s/x")] (some (ascii "d")) none none (some true) = .ok [t] ∧ t.src = ascii "/s/x" ∧ t.dest = ascii "/s/x" := by
  refine ⟨⟨ascii "/s/x", ascii "/s/x", none, .default, false, [], []⟩, ?_, rfl, rfl⟩
  decide +kernel

/-- The locale is compared with the beginning of what follows the first dot only. -/
theorem man_locale_counterexample : ∃ t, installMan demo [.file (ascii "/s/foo.french.1")] none (some (ascii "fr")) none = .ok [t] ∧ t.dest = ascii "/usr/share/man/fr/man1/foo.1" := by
  refine ⟨⟨ascii "/s/foo.french.1", ascii "/usr/share/man/fr/man1/foo.1", none, .default, false, [], []⟩, ?_, rfl⟩
  decide +kernel

/-- `rename` with an absolute name ignores the directory. -/
theorem rename_absolute_counterexample : ∃ t, installData demo [.str (ascii "x")] (some (ascii "d")) none (some [ascii "/etc/y"]) none = .ok [t] ∧ t.dest = ascii "/etc/y" := by
  refine ⟨⟨ascii "/s/x", ascii "/etc/y", none, .default, false, [], []⟩, ?_, rfl⟩
  decide +kernel

theorem demo_file (s : Bytes) (h : 0 ∉ s) (hc : comps (normalize true (if isAbsolute s then copy s else join demo.cwd s)) ≠ []) : FileOk demo (.str s) := by
  refine ⟨h, ?_⟩
  intro p hp
  simp only [coerceFile] at hp
  rw [if_pos (show demo.exist _ = true from rfl)] at hp
  cases hp
  exact hc

example : FileOk demo (.str (ascii "sub/x.txt")) := demo_file _ (by decide +kernel) (by decide +kernel)
example : installData demo [.str (ascii "sub/x.txt")] none (some [.str (ascii "rw-r--r--")]) none none = .ok [⟨ascii "/s/sub/x.txt", ascii "/usr/share/p/x.txt", some 0o644, .default, false, [], []⟩] := by decide +kernel
example : installData demo [.str (ascii "sub/x.txt")] (some (ascii "/opt")) none none (some true) = .ok [⟨ascii "/s/sub/x.txt", ascii "/opt/sub/x.txt", none, .default, false, [], []⟩] := by decide +kernel
example : installData demo [.str (ascii "sub/x.txt")] (some (ascii "e")) none (some [ascii "q/y"]) none = .ok [⟨ascii "/s/sub/x.txt", ascii "/usr/e/q/y", none, .default, false, [], []⟩] := by decide +kernel
example : installHeaders demo [.str (ascii "sub/x.h")] none (some (ascii "z")) none none = .ok [⟨ascii "/s/sub/x.h", ascii "/usr/include/z/x.h", none, .default, false, [], []⟩] := by decide +kernel
example : pushTargets demo [.file (ascii "/b/1"), .file (ascii "/b/2")] (.inr [.bool false, .str (ascii "e")]) none false = .ok [⟨ascii "/b/2", ascii "/usr/e/2", none, .default, false, [], []⟩] := by decide +kernel
example : installEmptydir demo none [ascii "var/x", ascii "/y"] = .ok [⟨[], ascii "/usr/var/x", none, .emptydir, false, [], []⟩, ⟨[], ascii "/y", none, .emptydir, false, [], []⟩] := by decide +kernel
example : Comp (ascii "a") ∧ Comp (ascii "b") ∧ installSubdir demo (ascii "a" ++ 47 :: ascii "b") (ascii "e") none [] [] false = .ok ⟨ascii "/s/a/b", ascii "/usr/e/b", none, .subdir, false, [], []⟩ :=
  ⟨by unfold Comp; decide +kernel, by unfold Comp; decide +kernel, by decide +kernel⟩
example : installBuild demo true (ascii "/b") (ascii "libx.so.1.2") none none [ascii "/b/libx.so"] =
    .ok [⟨ascii "/b/libx.so.1.2", ascii "/usr/lib/libx.so.1.2", none, .default, true, [], []⟩, ⟨ascii "/b/libx.so", ascii "/usr/lib/libx.so", none, .default, false, [], []⟩] := by decide +kernel
example : installConfigured demo (ascii "/b/x.h") none (some (ascii "e")) none = .ok [⟨ascii "/b/x.h", ascii "/usr/e/x.h", none, .default, false, [], []⟩] := by decide +kernel
example : installMan demo [.str (ascii "doc/foo.fr.1")] none (some (ascii "fr")) none = .ok [⟨ascii "/s/doc/foo.fr.1", ascii "/usr/share/man/fr/man1/foo.1", none, .default, false, [], []⟩] := by decide +kernel
example : installMan demo [.str (ascii "doc/foo")] none none none = .error := by decide +kernel

end Muon.Install
