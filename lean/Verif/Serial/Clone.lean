import Verif.Serial.Model
/-
Copying an object from one workspace to another: `obj_clone`, src/lang/object.c.

Arrays are the list of their elements and dicts the list of their entries in the order `obj_array_foreach` and
`obj_dict_foreach` visit them; keys are strings. `hole` is an object that was made but whose fields are not set yet.
-/
namespace Muon.Serial
open Muon

/-- An object, include/lang/object.h:76-465. A structure has fields that are not objects (`raw`), in the order of its
declaration, and fields that are objects (`kids`). `other`: all types `obj_clone` does not know. -/
inductive Obj
  | hole
  | null
  | bool (b : Bool)
  | number (v : Int)
  | feature (state : Nat)
  | str (s : Bytes)
  | file (s : Nat)
  | array (l : List Nat)
  | dict (l : List (Nat × Nat))
  | struct (tag : Nat) (raw : List Nat) (kids : List Nat)
  | other (tag : Nat)
deriving DecidableEq, Repr

/-- How a field is copied: by `str_clone`, by `str_clone` unless it is 0, or by `obj_clone`. -/
inductive Kid
  | str | strOpt | any
deriving DecidableEq, Repr

/-- Which of the fields `raw` are copied (the others are 0), and how each of `kids` is. -/
structure Shape where
  raw : List Bool
  kids : List Kid
deriving DecidableEq, Repr

/-- The structures `obj_clone` knows, lang/object.c:1556-1692. -/
def shape : Nat → Option Shape
  /- obj_run_result, lang/object.c:1679-1692: status flags; out err -/
  | 18 => some ⟨[true, true], [.any, .any]⟩
  /- obj_configuration_data, lang/object.c:1669-1678: dict -/
  | 19 => some ⟨[], [.any]⟩
  /- obj_test, lang/object.c:1556-1592: should_fail is_parallel verbose category protocol;
     name exe args env suites workdir depends timeout priority -/
  | 20 => some ⟨[true, true, true, true, true], [.str, .str, .any, .any, .any, .strOpt, .any, .any, .any]⟩
  /- obj_install_target, lang/object.c:1593-1613: has_perm perm type build_target; src dest exclude_directories
     exclude_files -/
  | 22 => some ⟨[true, true, true, true], [.str, .str, .any, .any]⟩
  /- obj_environment, lang/object.c:1614-1623: actions -/
  | 23 => some ⟨[], [.any]⟩
  /- obj_option, lang/object.c:1624-1662: source type kind yield builtin; name val choices max min deprecated
     description. `kind` is not copied. -/
  | 25 => some ⟨[true, true, false, true, true], [.any, .any, .any, .any, .any, .any, .any]⟩
  | _ => none

/-- The workspace copied to: the objects, and the strings found by `hash_get_strn(&wk->str_hash, …)`. -/
structure Ws where
  objs : List Obj
  intern : Bytes → Option Nat

/-- `workspace_init_bare`, lang/workspace.c:62-139: there is only the null object. -/
def Ws.init : Ws := ⟨[.null], fun _ => none⟩

/-- `make_obj`, lang/object.c:200-270. -/
def Ws.push (d : Ws) (c : Obj) : Ws × Nat := (⟨d.objs ++ [c], d.intern⟩, d.objs.length)

/-- Setting the fields of an object. -/
def Ws.set (d : Ws) (i : Nat) (c : Obj) : Ws := ⟨d.objs.set i c, d.intern⟩

/-- `_make_str` for a string that is not mutable, lang/string.c:140-164. -/
def makeStr (d : Ws) (s : Bytes) : Ws × Nat :=
  if s.length ≤ 64 then
    match d.intern s with
    | some i => (d, i)
    | none => (⟨d.objs ++ [.str s], fun t => if t = s then some d.objs.length else d.intern t⟩, d.objs.length)
  else d.push (.str s)

/-- `get_str`: the text of a string. -/
def strOf (objs : List Obj) (i : Nat) : Option Bytes :=
  match objs[i]? with
  | some (.str s) => some s
  | _ => none

/-- `str_clone`, lang/string.c:245-250. -/
def strClone (src : List Obj) (d : Ws) (i : Nat) : Res (Ws × Nat) :=
  match strOf src i with
  | some s => .ok (makeStr d s)
  | none => .bad

/-- Copying one object after another. -/
def cloneList (f : Ws → Nat → Res (Ws × Nat)) : Ws → List Nat → Res (Ws × List Nat)
  | d, [] => .ok (d, [])
  | d, i :: is => f d i >>= fun r => cloneList f r.1 is >>= fun r' => .ok (r'.1, r.2 :: r'.2)

/-- Copying a field. -/
def cloneKid (src : List Obj) (f : Ws → Nat → Res (Ws × Nat)) (d : Ws) (k : Kid) (i : Nat) : Res (Ws × Nat) :=
  match k with
  | .any => f d i
  | .str => strClone src d i
  | .strOpt => if i = 0 then .ok (d, 0) else strClone src d i

/-- Copying the fields of a structure. -/
def cloneKids (src : List Obj) (f : Ws → Nat → Res (Ws × Nat)) : Ws → List Kid → List Nat → Res (Ws × List Nat)
  | d, k :: ks, i :: is => cloneKid src f d k i >>= fun r => cloneKids src f r.1 ks is >>= fun r' => .ok (r'.1, r.2 :: r'.2)
  | d, [], [] => .ok (d, [])
  | _, _, _ => .bad

/-- `obj_dict_set` on the entries of a dict in the workspace. -/
def dictSet (objs : List Obj) (l : List (Nat × Nat)) (k v : Nat) : List (Nat × Nat) :=
  if l.any (fun e => strOf objs e.1 == strOf objs k) then l.map fun e => if strOf objs e.1 = strOf objs k then (e.1, v) else e
  else l ++ [(k, v)]

/-- `obj_clone_dict_iter`, lang/object.c:1494-1509, for the entries of a dict. -/
def cloneEntries (f : Ws → Nat → Res (Ws × Nat)) : Ws → List (Nat × Nat) → List (Nat × Nat) → Res (Ws × List (Nat × Nat))
  | d, acc, [] => .ok (d, acc)
  | d, acc, e :: es => f d e.1 >>= fun k => f k.1 e.2 >>= fun v => cloneEntries f v.1 (dictSet v.1.objs acc k.2 v.2) es

/-- The fields of a structure that are copied. -/
def maskRaw : List Bool → List Nat → List Nat
  | b :: bs, x :: xs => (if b then x else 0) :: maskRaw bs xs
  | _, _ => []

/-- `get_obj_feature_opt`, lang/object.c:136-156; `auto` is the option `auto_features`, if the workspace has options. -/
def getFeature (auto : Option Nat) (state : Nat) : Nat := if state = 0 then auto.getD 0 else state

/-- `obj_clone`, lang/object.c:1511-1697, from the objects `src` to a workspace. `fuel` bounds the depth of the
recursion. -/
def clone (auto : Option Nat) (src : List Obj) : Nat → Ws → Nat → Res (Ws × Nat)
  | 0, _, _ => .bad
  | f + 1, d, i =>
    match src[i]? with
    | none => .error
    | some .null => .ok (d, 0)
    | some (.bool b) => .ok (d.push (.bool b))
    | some (.number v) => .ok (d.push (.number v))
    | some (.feature s) => .ok (d.push (.feature (getFeature auto s)))
    | some (.str _) => strClone src d i
    | some (.file s) => strClone src (d.push .hole).1 s >>= fun r => .ok (r.1.set d.objs.length (.file r.2), d.objs.length)
    | some (.array l) => cloneList (clone auto src f) (d.push .hole).1 l >>= fun r => .ok (r.1.set d.objs.length (.array r.2), d.objs.length)
    | some (.dict l) => cloneEntries (clone auto src f) (d.push .hole).1 [] l >>= fun r => .ok (r.1.set d.objs.length (.dict r.2), d.objs.length)
    | some (.struct t raw kids) =>
      match shape t with
      | none => .error
      | some sh => cloneKids src (clone auto src f) (d.push .hole).1 sh.kids kids >>= fun r =>
        .ok (r.1.set d.objs.length (.struct t (maskRaw sh.raw raw) r.2), d.objs.length)
    | some .hole => .error
    | some (.other _) => .error

/-- The bytes of the structures in memory, and what they mean. -/
structure Layout where
  sizes : Sizes
  img : List Obj → Img
  objs : Img → List Obj

/-- `serial_dump`, lang/serial.c:402-433: the file. -/
def serialDump (L : Layout) (pad : Nat) (fuel : Nat) (auto : Option Nat) (src : List Obj) (o : Nat) : Res Bytes :=
  clone auto src fuel Ws.init o >>= fun r => .ok (dump pad r.2 (L.img r.1.objs))

/-- `serial_load`, lang/serial.c:435-469: the workspace and the object. -/
def serialLoad (L : Layout) (fuel : Nat) (d : Ws) (file : Bytes) : Res (Ws × Nat) :=
  load L.sizes file >>= fun r => clone none (L.objs r.2) fuel d r.1

end Muon.Serial
