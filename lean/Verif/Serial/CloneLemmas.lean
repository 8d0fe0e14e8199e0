import Verif.Serial.Spec
namespace Muon.Serial
open Muon Muon.Serial.Spec

theorem fields_shape (t : Nat) : fields t = (shape t).map fun sh => (sh.raw.length, sh.kids) := by
  unfold fields
  split
  any_goals rfl
  have hnone : shape t = none := by
    unfold shape
    split <;> first | contradiction | rfl
  rw [hnone]; rfl

/-- `kept`, in terms of what is copied. -/
def keptM (auto : Option Nat) : Obj → Obj
  | .feature s => .feature (getFeature auto s)
  | .struct t raw kids => match shape t with
    | some sh => .struct t (if raw.length = sh.raw.length then maskRaw sh.raw raw else raw) kids
    | none => .struct t raw kids
  | c => c

theorem maskRaw_all : ∀ (n : Nat) (raw : List Nat), raw.length = n → maskRaw (List.replicate n true) raw = raw := by
  intro n
  induction n with
  | zero => intro raw h; cases raw with | nil => rfl | cons a l => cases h
  | succ n ih =>
    intro raw h
    cases raw with
    | nil => cases h
    | cons a l => rw [List.replicate_succ, maskRaw, if_pos rfl, ih l (by simpa using h)]

theorem kept_eq (auto : Option Nat) : kept auto = keptM auto := by
  funext c
  cases c with
  | feature s => cases s <;> rfl
  | struct t raw kids =>
    by_cases h25 : t = 25
    · subst h25
      match raw with
      | [a, b, c, d, e] => rfl
      | [] => rfl
      | [_] => rfl
      | [_, _] => rfl
      | [_, _, _] => rfl
      | [_, _, _, _] => rfl
      | _ :: _ :: _ :: _ :: _ :: _ :: _ =>
        simp [keptM, shape, kept]
    · have hk : kept auto (.struct t raw kids) = .struct t raw kids := by
        unfold kept
        split
        · next h => cases h
        · next h => exact absurd (by cases h; rfl) h25
        · rfl
      rw [hk]
      have hid : ∀ n ks, shape t = some ⟨List.replicate n true, ks⟩ → Obj.struct t raw kids = keptM auto (.struct t raw kids) := by
        intro n ks h
        unfold keptM
        dsimp only
        rw [h]
        dsimp only
        by_cases hl : raw.length = (List.replicate n true).length
        · rw [if_pos hl, maskRaw_all n raw (by simpa using hl)]
        · rw [if_neg hl]
      by_cases h18 : t = 18
      · exact hid 2 _ (by rw [h18]; rfl)
      by_cases h19 : t = 19
      · exact hid 0 _ (by rw [h19]; rfl)
      by_cases h20 : t = 20
      · exact hid 5 _ (by rw [h20]; rfl)
      by_cases h22 : t = 22
      · exact hid 4 _ (by rw [h22]; rfl)
      by_cases h23 : t = 23
      · exact hid 0 _ (by rw [h23]; rfl)
      have hnone : shape t = none := by
        unfold shape
        split <;> first | contradiction | rfl
      unfold keptM
      dsimp only
      rw [hnone]
  | _ => rfl

/-- All objects but the holes are still there. -/
def Le (a b : List Obj) : Prop := ∀ (i : Nat) (c : Obj), a[i]? = some c → c ≠ .hole → b[i]? = some c

theorem Le.refl (a : List Obj) : Le a a := fun _ _ h _ => h
theorem Le.trans {a b c : List Obj} (h1 : Le a b) (h2 : Le b c) : Le a c := fun i x h n => h2 i x (h1 i x h n) n
theorem Le.append (a n : List Obj) : Le a (a ++ n) := fun i c h _ => by
  rw [List.getElem?_append_left (List.getElem?_eq_some_iff.1 h).1]; exact h
theorem Le.set {a : List Obj} {i : Nat} (h : a[i]? = some .hole) (c : Obj) : Le a (a.set i c) := fun j x hj hn => by
  by_cases e : i = j
  · subst e; rw [h] at hj; cases hj; exact absurd rfl hn
  · rw [List.getElem?_set_ne e]; exact hj

theorem strOf_some {o : List Obj} {i : Nat} {s : Bytes} : strOf o i = some s ↔ o[i]? = some (.str s) := by
  unfold strOf
  constructor
  · intro h
    split at h
    · next t ht => cases h; exact ht
    · cases h
  · intro h; rw [h]

theorem strOf_mono {a b : List Obj} (h : Le a b) {i : Nat} {s : Bytes} (hs : strOf a i = some s) : strOf b i = some s :=
  strOf_some.2 (h i _ (strOf_some.1 hs) (by simp))

theorem mapO_mono {α β : Type} {f g : α → Option β} : ∀ {l : List α} {r : List β} (_ : ∀ a ∈ l, ∀ b, f a = some b → g a = some b)
    (_ : mapO f l = some r), mapO g l = some r := by
  intro l
  induction l with
  | nil => intro r _ h; exact h
  | cons a l ih =>
    intro r hm h
    unfold mapO at h ⊢
    cases ha : f a with
    | none => rw [ha] at h; cases h
    | some b =>
      cases hl : mapO f l with
      | none => rw [ha, hl] at h; cases h
      | some r' =>
        rw [ha, hl] at h
        rw [hm a (by simp) b ha, ih (fun x hx => hm x (by simp [hx])) hl]
        exact h

theorem mapO_cons {α β : Type} {f : α → Option β} {a : α} {l : List α} {r : List β} (h : mapO f (a :: l) = some r) :
    ∃ b r', f a = some b ∧ mapO f l = some r' ∧ r = b :: r' := by
  unfold mapO at h
  cases ha : f a with
  | none => rw [ha] at h; cases h
  | some b =>
    cases hl : mapO f l with
    | none => rw [ha, hl] at h; cases h
    | some r' => rw [ha, hl] at h; cases h; exact ⟨b, r', rfl, rfl, rfl⟩

theorem mapO_cons_eq {α β : Type} {f : α → Option β} {a : α} {l : List α} {b : β} {r : List β} (ha : f a = some b) (hl : mapO f l = some r) :
    mapO f (a :: l) = some (b :: r) := by
  unfold mapO; rw [ha, hl]

theorem mapO_snoc {α β : Type} {f : α → Option β} : ∀ {l : List α} {r : List β} {a : α} {b : β}, mapO f l = some r → f a = some b →
    mapO f (l ++ [a]) = some (r ++ [b]) := by
  intro l
  induction l with
  | nil => intro r a b h ha; cases h; show mapO f [a] = some [b]; exact mapO_cons_eq ha rfl
  | cons x l ih =>
    intro r a b h ha
    obtain ⟨y, r', hy, hr, rfl⟩ := mapO_cons h
    exact mapO_cons_eq hy (ih hr ha)

theorem kidVal_strOpt (f : Nat → Option V) (a : List Obj) (i : Nat) :
    kidVal f a (.strOpt, i) = if i = 0 then some .null else (strOf a i).map .str := rfl

theorem kidVal_mono {a b : List Obj} (h : Le a b) {f g : Nat → Option V} (hf : ∀ i v, f i = some v → g i = some v) (x : Kid × Nat) (v : V)
    (hx : kidVal f a x = some v) : kidVal g b x = some v := by
  obtain ⟨k, i⟩ := x
  have hs : ∀ v, (strOf a i).map V.str = some v → (strOf b i).map V.str = some v := by
    intro v hv
    cases hi : strOf a i with
    | none => rw [hi] at hv; cases hv
    | some s => rw [hi] at hv; rw [strOf_mono h hi]; exact hv
  cases k with
  | any => exact hf i v hx
  | str => exact hs v hx
  | strOpt =>
    rw [kidVal_strOpt] at hx ⊢
    by_cases hi : i = 0
    · rw [if_pos hi] at hx ⊢; exact hx
    · rw [if_neg hi] at hx ⊢; exact hs v hx

theorem entryVal_some {den : Nat → Option V} {objs : List Obj} {e : Nat × Nat} {r : Bytes × V} :
    entryVal den objs e = some r ↔ strOf objs e.1 = some r.1 ∧ den e.2 = some r.2 := by
  unfold entryVal
  cases strOf objs e.1 with
  | none => simp
  | some k =>
    cases den e.2 with
    | none => simp
    | some v =>
      simp only [Option.some.injEq]
      constructor
      · rintro rfl; exact ⟨rfl, rfl⟩
      · rintro ⟨rfl, rfl⟩; rfl

theorem entryVal_mono {a b : List Obj} (h : Le a b) {f g : Nat → Option V} (hf : ∀ i v, f i = some v → g i = some v) (x : Nat × Nat) (v : Bytes × V)
    (hx : entryVal f a x = some v) : entryVal g b x = some v := by
  rw [entryVal_some] at hx ⊢
  exact ⟨strOf_mono h hx.1, hf _ _ hx.2⟩

theorem val_mono {a b : List Obj} (h : Le a b) : ∀ (f : Nat) (i : Nat) (v : V), val a f i = some v → val b f i = some v := by
  intro f
  induction f with
  | zero => intro i v hv; cases hv
  | succ f ih =>
    intro i v hv
    unfold val at hv ⊢
    cases hi : a[i]? with
    | none => rw [hi] at hv; cases hv
    | some c =>
      rw [hi] at hv
      have hb : c ≠ .hole → b[i]? = some c := h i c hi
      cases c with
      | hole => cases hv
      | other t => cases hv
      | null => rw [hb (by simp)]; exact hv
      | bool x => rw [hb (by simp)]; exact hv
      | number x => rw [hb (by simp)]; exact hv
      | feature x => rw [hb (by simp)]; exact hv
      | str x => rw [hb (by simp)]; exact hv
      | file x =>
        rw [hb (by simp)]
        dsimp only at hv ⊢
        cases hs : strOf a x with
        | none => rw [hs] at hv; cases hv
        | some s => rw [hs] at hv; rw [strOf_mono h hs]; exact hv
      | array l =>
        rw [hb (by simp)]
        dsimp only at hv ⊢
        cases hm : mapO (val a f) l with
        | none => rw [hm] at hv; cases hv
        | some r => rw [hm] at hv; rw [mapO_mono (fun x _ y => ih x y) hm]; exact hv
      | dict l =>
        rw [hb (by simp)]
        dsimp only at hv ⊢
        cases hm : mapO (entryVal (val a f) a) l with
        | none => rw [hm] at hv; cases hv
        | some r => rw [hm] at hv; rw [mapO_mono (fun x _ y => entryVal_mono h ih x y) hm]; exact hv
      | struct t raw kids =>
        rw [hb (by simp)]
        dsimp only at hv ⊢
        cases hsh : fields t with
        | none => rw [hsh] at hv; cases hv
        | some sh =>
          rw [hsh] at hv
          dsimp only at hv ⊢
          split at hv
          · next hc =>
            rw [if_pos hc]
            cases hm : mapO (kidVal (val a f) a) (sh.2.zip kids) with
            | none => rw [hm] at hv; cases hv
            | some r => rw [hm] at hv; rw [mapO_mono (fun x _ y => kidVal_mono h ih x y) hm]; exact hv
          · cases hv

/-- A workspace that is being filled. -/
structure DOk (d : Ws) : Prop where
  null : d.objs[0]? = some .null
  intern : ∀ s i, d.intern s = some i → strOf d.objs i = some s
  plain : ∀ c ∈ d.objs, keptM none c = c

/-- Objects were only added. -/
def Ext (d d' : Ws) : Prop := ∃ n, d'.objs = d.objs ++ n

theorem Ext.refl (d : Ws) : Ext d d := ⟨[], by simp⟩
theorem Ext.trans {a b c : Ws} (h1 : Ext a b) (h2 : Ext b c) : Ext a c := by
  obtain ⟨n, h1⟩ := h1
  obtain ⟨m, h2⟩ := h2
  exact ⟨n ++ m, by rw [h2, h1, List.append_assoc]⟩
theorem Ext.le {a b : Ws} (h : Ext a b) : Le a.objs b.objs := by
  obtain ⟨n, h⟩ := h
  rw [h]; exact Le.append _ _

theorem DOk.push {d : Ws} (h : DOk d) (c : Obj) (hc : keptM none c = c) : DOk (d.push c).1 ∧ Ext d (d.push c).1 := by
  have hext : Ext d (d.push c).1 := ⟨[c], rfl⟩
  refine ⟨⟨?_, ?_, ?_⟩, hext⟩
  · exact hext.le 0 _ h.null (by simp)
  · intro s i hi; exact strOf_mono hext.le (h.intern s i hi)
  · intro x hx
    rcases List.mem_append.1 (show x ∈ d.objs ++ [c] from hx) with hx | hx
    · exact h.plain x hx
    · rw [List.mem_singleton] at hx; rw [hx]; exact hc

theorem push_get (d : Ws) (c : Obj) : (d.push c).1.objs[(d.push c).2]? = some c := by
  show (d.objs ++ [c])[d.objs.length]? = some c
  simp

theorem makeStr_ok {d : Ws} (h : DOk d) (s : Bytes) : DOk (makeStr d s).1 ∧ Ext d (makeStr d s).1 ∧ strOf (makeStr d s).1.objs (makeStr d s).2 = some s := by
  unfold makeStr
  split
  · cases hi : d.intern s with
    | some i => exact ⟨h, .refl d, h.intern s i hi⟩
    | none =>
      dsimp only
      obtain ⟨p1, p2⟩ := h.push (.str s) rfl
      have hlast : strOf (d.objs ++ [.str s]) d.objs.length = some s := strOf_some.2 (by simp)
      refine ⟨⟨p1.null, ?_, p1.plain⟩, p2, hlast⟩
      intro t i ht
      dsimp only at ht
      split at ht
      · next e => cases ht; rw [e]; exact hlast
      · exact p1.intern t i ht
  · obtain ⟨p1, p2⟩ := h.push (.str s) rfl
    exact ⟨p1, p2, strOf_some.2 (push_get d _)⟩

/-- Filling the hole made first. -/
theorem fill {d d' : Ws} (h : DOk d') (he : Ext (d.push .hole).1 d') (c : Obj) (hc : keptM none c = c) :
    DOk (d'.set d.objs.length c) ∧ Ext d (d'.set d.objs.length c) ∧ Le d'.objs (d'.set d.objs.length c).objs ∧ (d'.set d.objs.length c).objs[d.objs.length]? = some c := by
  obtain ⟨n, hn⟩ := he
  change d'.objs = d.objs ++ [.hole] ++ n at hn
  have hhole : d'.objs[d.objs.length]? = some .hole := by rw [hn]; simp
  have hle : Le d'.objs (d'.set d.objs.length c).objs := Le.set hhole c
  have hset : (d'.set d.objs.length c).objs = d.objs ++ (c :: n) := by
    show d'.objs.set d.objs.length c = _
    rw [hn]; simp
  refine ⟨⟨?_, ?_, ?_⟩, ⟨c :: n, hset⟩, hle, by rw [hset]; simp⟩
  · exact hle 0 _ h.null (by simp)
  · intro s i hi; exact strOf_mono hle (h.intern s i hi)
  · intro x hx
    rcases List.mem_or_eq_of_mem_set hx with hx | rfl
    · exact h.plain x hx
    · exact hc

theorem getFeature_none (n : Nat) : getFeature none n = n := by
  unfold getFeature
  by_cases h : n = 0
  · rw [if_pos h, h]; rfl
  · rw [if_neg h]

theorem maskRaw_length (bs : List Bool) : ∀ (xs : List Nat), xs.length = bs.length → (maskRaw bs xs).length = bs.length := by
  induction bs with
  | nil => intro xs h; cases xs <;> simp [maskRaw]
  | cons b bs ih =>
    intro xs h
    cases xs with
    | nil => cases h
    | cons x xs =>
      simp only [maskRaw, List.length_cons] at h ⊢
      rw [ih xs (by omega)]

theorem maskRaw_idem (bs : List Bool) : ∀ (xs : List Nat), maskRaw bs (maskRaw bs xs) = maskRaw bs xs := by
  induction bs with
  | nil => intro xs; cases xs <;> rfl
  | cons b bs ih =>
    intro xs
    cases xs with
    | nil => rfl
    | cons x xs => simp only [maskRaw, ih]; cases b <;> rfl

section
variable (auto : Option Nat) (src : List Obj)

theorem kept_get (i : Nat) : (src.map (keptM auto))[i]? = (src[i]?).map (keptM auto) := List.getElem?_map

theorem kept_str {c : Obj} {s : Bytes} (h : keptM auto c = .str s) : c = .str s := by
  cases c with
  | struct t raw kids => unfold keptM at h; dsimp only at h; split at h <;> cases h
  | str s' => exact h
  | _ => cases h

theorem strOf_kept {i : Nat} {s : Bytes} (h : strOf (src.map (keptM auto)) i = some s) : strOf src i = some s := by
  rw [strOf_some, kept_get] at h
  cases hi : src[i]? with
  | none => rw [hi] at h; cases h
  | some c =>
    rw [hi] at h
    have h' : keptM auto c = .str s := by simpa using h
    rw [strOf_some, hi, kept_str auto h']

/-- What copying an object must do. -/
def Copies (f : Nat) : Prop := ∀ (d : Ws) (i : Nat) (v : V), DOk d → val (src.map (keptM auto)) f i = some v →
  ∃ d' i', clone auto src f d i = .ok (d', i') ∧ DOk d' ∧ Ext d d' ∧ val d'.objs f i' = some v

theorem cloneList_ok {f : Nat} (ih : Copies auto src f) (l : List Nat) : ∀ (d : Ws) (vs : List V), DOk d → mapO (val (src.map (keptM auto)) f) l = some vs →
    ∃ d' l', cloneList (clone auto src f) d l = .ok (d', l') ∧ DOk d' ∧ Ext d d' ∧ mapO (val d'.objs f) l' = some vs := by
  induction l with
  | nil => intro d vs h hv; cases hv; exact ⟨d, [], rfl, h, .refl d, rfl⟩
  | cons i l ihl =>
    intro d vs h hv
    obtain ⟨v, vs', hi, hl, rfl⟩ := mapO_cons hv
    obtain ⟨d1, i1, c1, o1, e1, v1⟩ := ih d i v h hi
    obtain ⟨d2, l2, c2, o2, e2, v2⟩ := ihl d1 vs' o1 hl
    refine ⟨d2, i1 :: l2, ?_, o2, e1.trans e2, mapO_cons_eq (val_mono e2.le _ _ _ v1) v2⟩
    unfold cloneList
    rw [c1, Res.ok_bind]; dsimp only; rw [c2, Res.ok_bind]

theorem strClone_ok {d : Ws} (h : DOk d) {i : Nat} {s : Bytes} (hs : strOf (src.map (keptM auto)) i = some s) :
    ∃ d' i', strClone src d i = .ok (d', i') ∧ DOk d' ∧ Ext d d' ∧ strOf d'.objs i' = some s := by
  obtain ⟨a, b, c⟩ := makeStr_ok h s
  refine ⟨_, _, ?_, a, b, c⟩
  unfold strClone
  rw [strOf_kept auto src hs]

theorem cloneKid_ok {f : Nat} (ih : Copies auto src f) {d : Ws} (h : DOk d) (k : Kid) (i : Nat) {v : V}
    (hv : kidVal (val (src.map (keptM auto)) f) (src.map (keptM auto)) (k, i) = some v) :
    ∃ d' i', cloneKid src (clone auto src f) d k i = .ok (d', i') ∧ DOk d' ∧ Ext d d' ∧ kidVal (val d'.objs f) d'.objs (k, i') = some v := by
  have hstr : ∀ v, (strOf (src.map (keptM auto)) i).map V.str = some v →
      ∃ d' i', strClone src d i = .ok (d', i') ∧ DOk d' ∧ Ext d d' ∧ (strOf d'.objs i').map V.str = some v ∧ i' ≠ 0 := by
    intro v hv
    cases hs : strOf (src.map (keptM auto)) i with
    | none => rw [hs] at hv; cases hv
    | some s =>
      rw [hs] at hv
      obtain ⟨d', i', a, b, c, e⟩ := strClone_ok auto src h hs
      refine ⟨d', i', a, b, c, by rw [e]; exact hv, ?_⟩
      rintro rfl
      rw [strOf_some, b.null] at e
      cases e
  cases k with
  | any => exact ih d i v h hv
  | str =>
    obtain ⟨d', i', a, b, c, e, _⟩ := hstr v hv
    exact ⟨d', i', a, b, c, e⟩
  | strOpt =>
    rw [kidVal_strOpt] at hv
    unfold cloneKid
    dsimp only
    by_cases hi : i = 0
    · rw [if_pos hi] at hv ⊢
      exact ⟨d, 0, rfl, h, .refl d, by rw [kidVal_strOpt, if_pos rfl]; exact hv⟩
    · rw [if_neg hi] at hv ⊢
      obtain ⟨d', i', a, b, c, e, hne⟩ := hstr v hv
      exact ⟨d', i', a, b, c, by rw [kidVal_strOpt, if_neg hne]; exact e⟩

theorem cloneKids_ok {f : Nat} (ih : Copies auto src f) (ks : List Kid) : ∀ (is : List Nat) (d : Ws) (vs : List V), is.length = ks.length → DOk d →
    mapO (kidVal (val (src.map (keptM auto)) f) (src.map (keptM auto))) (ks.zip is) = some vs →
    ∃ d' is', cloneKids src (clone auto src f) d ks is = .ok (d', is') ∧ DOk d' ∧ Ext d d' ∧ is'.length = ks.length ∧
      mapO (kidVal (val d'.objs f) d'.objs) (ks.zip is') = some vs := by
  induction ks with
  | nil =>
    intro is d vs hl h hv
    cases is with
    | nil => cases hv; exact ⟨d, [], rfl, h, .refl d, rfl, rfl⟩
    | cons i is => cases hl
  | cons k ks ihl =>
    intro is d vs hl h hv
    cases is with
    | nil => cases hl
    | cons i is =>
      rw [List.zip_cons_cons] at hv
      obtain ⟨v, vs', hi, hvs, rfl⟩ := mapO_cons hv
      obtain ⟨d1, i1, c1, o1, e1, v1⟩ := cloneKid_ok auto src ih h k i hi
      obtain ⟨d2, l2, c2, o2, e2, n2, v2⟩ := ihl is d1 vs' (by simpa using hl) o1 hvs
      refine ⟨d2, i1 :: l2, ?_, o2, e1.trans e2, by simp [n2], ?_⟩
      · unfold cloneKids
        rw [c1, Res.ok_bind]; dsimp only; rw [c2, Res.ok_bind]
      · rw [List.zip_cons_cons]
        exact mapO_cons_eq (kidVal_mono e2.le (val_mono e2.le _) _ _ v1) v2

theorem cloneEntries_ok {f : Nat} (ih : Copies auto src f) (l : List (Nat × Nat)) : ∀ (d : Ws) (acc : List (Nat × Nat)) (done vs : List (Bytes × V)), DOk d →
    mapO (entryVal (val d.objs f) d.objs) acc = some done → ((done ++ vs).map (·.1)).Nodup →
    mapO (entryVal (val (src.map (keptM auto)) f) (src.map (keptM auto))) l = some vs →
    ∃ d' l', cloneEntries (clone auto src f) d acc l = .ok (d', l') ∧ DOk d' ∧ Ext d d' ∧ mapO (entryVal (val d'.objs f) d'.objs) l' = some (done ++ vs) := by
  induction l with
  | nil => intro d acc done vs h ha hn hv; cases hv; exact ⟨d, acc, rfl, h, .refl d, by rw [List.append_nil]; exact ha⟩
  | cons e l ihl =>
    intro d acc done vs h ha hn hv
    obtain ⟨x, vs', hx, hvs, rfl⟩ := mapO_cons hv
    rw [entryVal_some] at hx
    -- the key
    have hfpos : ∃ g, f = g + 1 := by
      cases f with
      | zero => cases hx.2
      | succ g => exact ⟨g, rfl⟩
    obtain ⟨g, rfl⟩ := hfpos
    have hkval : val (src.map (keptM auto)) (g + 1) e.1 = some (.str x.1) := by
      unfold val
      rw [strOf_some.1 hx.1]
    obtain ⟨d1, k1, c1, o1, e1, v1⟩ := ih d e.1 _ h hkval
    have hk1 : strOf d1.objs k1 = some x.1 := by
      unfold val at v1
      rw [strOf_some]
      cases hc : d1.objs[k1]? with
      | none => rw [hc] at v1; cases v1
      | some c =>
        rw [hc] at v1
        cases c with
        | str s => dsimp only at v1; cases v1; rfl
        | file s => dsimp only at v1; cases hs : strOf d1.objs s <;> rw [hs] at v1 <;> cases v1
        | array s => dsimp only at v1; cases hs : mapO (val d1.objs g) s <;> rw [hs] at v1 <;> cases v1
        | dict s => dsimp only at v1; split at v1 <;> (try split at v1) <;> cases v1
        | struct t r k =>
          dsimp only at v1
          split at v1
          · split at v1
            · next sh _ _ => cases hs : mapO (kidVal (val d1.objs g) d1.objs) (sh.2.zip k) <;> rw [hs] at v1 <;> cases v1
            · cases v1
          · cases v1
        | _ => cases v1
    obtain ⟨d2, i2, c2, o2, e2, v2⟩ := ih d1 e.2 _ o1 hx.2
    have hk2 := strOf_mono e2.le hk1
    have hacc : mapO (entryVal (val d2.objs (g + 1)) d2.objs) acc = some done :=
      mapO_mono (fun a _ b => entryVal_mono (e1.trans e2).le (val_mono (e1.trans e2).le _) a b) ha
    have hfresh : acc.any (fun e => strOf d2.objs e.1 == strOf d2.objs k1) = false := by
      have hmem : ∀ (acc : List (Nat × Nat)) (done : List (Bytes × V)), mapO (entryVal (val d2.objs (g + 1)) d2.objs) acc = some done →
          ∀ a ∈ acc, ∃ b ∈ done, strOf d2.objs a.1 = some b.1 := by
        intro acc
        induction acc with
        | nil => intro done _ a ha; cases ha
        | cons y acc ih2 =>
          intro done hd a ha
          obtain ⟨b, r, hb, hr, rfl⟩ := mapO_cons hd
          rcases List.mem_cons.1 ha with rfl | ha
          · exact ⟨b, by simp, (entryVal_some.1 hb).1⟩
          · obtain ⟨b', hb', he⟩ := ih2 r hr a ha
            exact ⟨b', by simp [hb'], he⟩
      rw [Bool.eq_false_iff]
      intro hany
      rw [List.any_eq_true] at hany
      obtain ⟨a, ham, hae⟩ := hany
      obtain ⟨b, hb, he⟩ := hmem acc done hacc a ham
      rw [he, hk2] at hae
      have hbx : b.1 = x.1 := by simpa using hae
      rw [List.map_append, List.nodup_append] at hn
      exact hn.2.2 b.1 (List.mem_map.2 ⟨b, hb, rfl⟩) x.1 (by simp) hbx
    have hset : dictSet d2.objs acc k1 i2 = acc ++ [(k1, i2)] := by
      unfold dictSet; rw [hfresh]; rfl
    obtain ⟨d3, l3, c3, o3, e3, v3⟩ := ihl d2 (acc ++ [(k1, i2)]) (done ++ [x]) vs' o2
      (mapO_snoc hacc (entryVal_some.2 ⟨hk2, v2⟩)) (by rw [List.append_assoc]; exact hn) hvs
    refine ⟨d3, l3, ?_, o3, (e1.trans e2).trans e3, by rw [v3, List.append_assoc]; rfl⟩
    unfold cloneEntries
    rw [c1, Res.ok_bind]; dsimp only; rw [c2, Res.ok_bind]; dsimp only; rw [hset, c3]

/-- Copying an object. -/
theorem clone_ok (f : Nat) : Copies auto src f := by
  induction f with
  | zero => intro d i v _ hv; cases hv
  | succ f ih =>
    intro d i v h hv
    unfold val at hv
    rw [kept_get] at hv
    unfold clone
    cases hi : src[i]? with
    | none => rw [hi] at hv; cases hv
    | some c =>
      rw [hi] at hv
      simp only [Option.map_some] at hv
      have hpush : ∀ c, keptM none c = c → val [c] 1 0 = some v → (∀ objs j, objs[j]? = some c → val objs (f + 1) j = some v) →
          ∃ d' i', Res.ok (d.push c) = .ok (d', i') ∧ DOk d' ∧ Ext d d' ∧ val d'.objs (f + 1) i' = some v := by
        intro c hc _ hval
        obtain ⟨a, b⟩ := h.push c hc
        exact ⟨_, _, rfl, a, b, hval _ _ (push_get d c)⟩
      obtain ⟨ph1, ph2⟩ := h.push .hole rfl
      cases c with
      | hole => cases hv
      | other t => cases hv
      | null =>
        cases hv
        refine ⟨d, 0, rfl, h, .refl d, ?_⟩
        unfold val; rw [h.null]
      | bool b =>
        cases hv
        exact hpush _ rfl rfl (fun objs j hj => by unfold val; rw [hj])
      | number b =>
        cases hv
        exact hpush _ rfl rfl (fun objs j hj => by unfold val; rw [hj])
      | feature s =>
        cases hv
        refine hpush _ ?_ rfl (fun objs j hj => by unfold val; rw [hj])
        show Obj.feature (getFeature none (getFeature auto s)) = Obj.feature (getFeature auto s)
        rw [getFeature_none]
      | str s =>
        cases hv
        have hs : strOf (src.map (keptM auto)) i = some s := by rw [strOf_some, kept_get, hi]; rfl
        obtain ⟨d', i', a, b, c, e⟩ := strClone_ok auto src h hs
        exact ⟨d', i', a, b, c, by unfold val; rw [strOf_some.1 e]⟩
      | file s =>
        change (strOf (src.map (keptM auto)) s).map V.file = some v at hv
        cases hs : strOf (src.map (keptM auto)) s with
        | none => rw [hs] at hv; cases hv
        | some t =>
          rw [hs] at hv
          obtain ⟨d', i', a, b, c, e⟩ := strClone_ok auto src ph1 hs
          obtain ⟨f1, f2, f3, f4⟩ := fill b c (.file i') rfl
          refine ⟨_, _, by dsimp only; rw [a]; rfl, f1, f2, ?_⟩
          unfold val
          rw [f4]
          dsimp only
          rw [strOf_mono f3 e]; exact hv
      | array l =>
        change (mapO (val (src.map (keptM auto)) f) l).map V.array = some v at hv
        cases hm : mapO (val (src.map (keptM auto)) f) l with
        | none => rw [hm] at hv; cases hv
        | some vs =>
          rw [hm] at hv
          obtain ⟨d', l', a, b, c, e⟩ := cloneList_ok auto src ih l _ vs ph1 hm
          obtain ⟨f1, f2, f3, f4⟩ := fill b c (.array l') rfl
          refine ⟨_, _, by dsimp only; rw [a]; rfl, f1, f2, ?_⟩
          unfold val
          rw [f4]
          dsimp only
          rw [mapO_mono (fun x _ y => val_mono f3 f x y) e]; exact hv
      | dict l =>
        change (match mapO (entryVal (val (src.map (keptM auto)) f) (src.map (keptM auto))) l with
          | some l => if (l.map (·.1)).Nodup then some (V.dict l) else none
          | none => none) = some v at hv
        cases hm : mapO (entryVal (val (src.map (keptM auto)) f) (src.map (keptM auto))) l with
        | none => rw [hm] at hv; cases hv
        | some vs =>
          rw [hm] at hv
          dsimp only at hv
          split at hv
          · next hn =>
            obtain ⟨d', l', a, b, c, e⟩ := cloneEntries_ok auto src ih l _ [] [] vs ph1 rfl (by simpa using hn) hm
            obtain ⟨f1, f2, f3, f4⟩ := fill b c (.dict l') rfl
            refine ⟨_, _, by dsimp only; rw [a]; rfl, f1, f2, ?_⟩
            unfold val
            rw [f4]
            dsimp only
            rw [mapO_mono (fun x _ y => entryVal_mono f3 (val_mono f3 f) x y) e]
            dsimp only
            rw [List.nil_append, if_pos hn]; exact hv
          · cases hv
      | struct t raw kids =>
        have hkeq : keptM auto (.struct t raw kids) = match shape t with
          | some sh => .struct t (if raw.length = sh.raw.length then maskRaw sh.raw raw else raw) kids
          | none => .struct t raw kids := rfl
        rw [hkeq] at hv
        cases hsh : shape t with
        | none =>
          rw [hsh] at hv
          dsimp only at hv
          rw [fields_shape, hsh] at hv
          cases hv
        | some sh =>
          rw [hsh] at hv
          dsimp only at hv
          rw [fields_shape, hsh] at hv
          simp only [Option.map_some] at hv
          have hraw : raw.length = sh.raw.length := by
            by_cases he : raw.length = sh.raw.length
            · exact he
            · rw [if_neg he, if_neg (fun x => he x.1)] at hv
              cases hv
          rw [if_pos hraw] at hv
          split at hv
          · next hc =>
            cases hm : mapO (kidVal (val (src.map (keptM auto)) f) (src.map (keptM auto))) (sh.kids.zip kids) with
            | none => rw [hm] at hv; cases hv
            | some vs =>
              rw [hm] at hv
              obtain ⟨d', l', a, b, c, n, e⟩ := cloneKids_ok auto src ih sh.kids kids _ vs hc.2 ph1 hm
              have hplain : keptM none (.struct t (maskRaw sh.raw raw) l') = .struct t (maskRaw sh.raw raw) l' := by
                unfold keptM
                dsimp only
                rw [hsh]
                dsimp only
                rw [if_pos (maskRaw_length _ _ hraw), maskRaw_idem]
              obtain ⟨f1, f2, f3, f4⟩ := fill b c (.struct t (maskRaw sh.raw raw) l') hplain
              refine ⟨_, _, by dsimp only; rw [hsh]; dsimp only; rw [a]; rfl, f1, f2, ?_⟩
              unfold val
              rw [f4]
              dsimp only
              rw [fields_shape, hsh]
              simp only [Option.map_some]
              rw [if_pos ⟨maskRaw_length _ _ hraw, n⟩, mapO_mono (fun x _ y => kidVal_mono f3 (val_mono f3 f) x y) e]
              exact hv
          · cases hv

end

end Muon.Serial
