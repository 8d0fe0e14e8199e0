import Verif.Serial.Clone
/-
What an object in a workspace means: a value, without references.
-/
namespace Muon.Serial.Spec
open Muon Muon.Serial

/-- A value. -/
inductive V
  | null
  | bool (b : Bool)
  | number (v : Int)
  | feature (state : Nat)
  | str (s : Bytes)
  | file (s : Bytes)
  | array (l : List V)
  | dict (l : List (Bytes × V))
  | struct (tag : Nat) (raw : List Nat) (kids : List V)

/-- The results for all elements of a list, if there are results for all. -/
def mapO {α β : Type} (f : α → Option β) : List α → Option (List β)
  | [] => some []
  | a :: l => match f a, mapO f l with
    | some b, some l => some (b :: l)
    | _, _ => none

/-- The structures that can be copied: the number of their fields that are not objects, and those which are. The working
directory of a test may be missing. -/
def fields : Nat → Option (Nat × List Kid)
  | 18 => some (2, [.any, .any])
  | 19 => some (0, [.any])
  | 20 => some (5, [.str, .str, .any, .any, .any, .strOpt, .any, .any, .any])
  | 22 => some (4, [.str, .str, .any, .any])
  | 23 => some (0, [.any])
  | 25 => some (5, [.any, .any, .any, .any, .any, .any, .any])
  | _ => none

/-- The value of a field: a field that must be a string can not be anything else. -/
def kidVal (den : Nat → Option V) (objs : List Obj) : Kid × Nat → Option V
  | (.any, i) => den i
  | (.str, i) => (strOf objs i).map .str
  | (.strOpt, i) => if i = 0 then some .null else (strOf objs i).map .str

/-- The value of an entry. -/
def entryVal (den : Nat → Option V) (objs : List Obj) (e : Nat × Nat) : Option (Bytes × V) :=
  match strOf objs e.1, den e.2 with
  | some k, some v => some (k, v)
  | _, _ => none

/-- The value of object `i`, nested at most `depth` deep. `none`: it has no value, or nothing `obj_clone` can copy. The keys of
a dict are distinct. -/
def val (objs : List Obj) : Nat → Nat → Option V
  | 0, _ => none
  | f + 1, i =>
    match objs[i]? with
    | some .null => some .null
    | some (.bool b) => some (.bool b)
    | some (.number v) => some (.number v)
    | some (.feature s) => some (.feature s)
    | some (.str s) => some (.str s)
    | some (.file s) => (strOf objs s).map .file
    | some (.array l) => (mapO (val objs f) l).map .array
    | some (.dict l) => match mapO (entryVal (val objs f) objs) l with
      | some l => if (l.map (·.1)).Nodup then some (.dict l) else none
      | none => none
    | some (.struct t raw kids) =>
      match fields t with
      | some fs => if raw.length = fs.1 ∧ kids.length = fs.2.length then
          (mapO (kidVal (val objs f) objs) (fs.2.zip kids)).map (.struct t raw)
        else none
      | none => none
    | _ => none

/-- What is lost of an object when it is copied: whether a feature is automatic, if `auto_features` is set, and the kind
of an option. -/
def kept (auto : Option Nat) : Obj → Obj
  | .feature 0 => .feature (auto.getD 0)
  | .struct 25 [source, type, _, yield, builtin] kids => .struct 25 [source, type, 0, yield, builtin] kids
  | c => c

/-- Nothing is lost: no feature is automatic, or `auto_features` is not set, and no option has a special kind. -/
def Plain (auto : Option Nat) (c : Obj) : Prop := kept auto c = c

instance (auto : Option Nat) (c : Obj) : Decidable (Plain auto c) := inferInstanceAs (Decidable (kept auto c = c))

end Muon.Serial.Spec
