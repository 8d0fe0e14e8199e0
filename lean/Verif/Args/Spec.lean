import Verif.Args.Model
/-
Which calls are accepted.
-/
namespace Muon.Args.Spec
open Muon Muon.Tc Muon.Args

/-- Parameters of a function: the types of the required ones, of a last one that takes all further values, of the optional
ones, and the keyword parameters. -/
structure Decl where
  required : List Tag
  rest : Option Tag
  optional : List Tag
  kws : Option (List Kw)

/-- How the parameters are written in the code. -/
def Decl.params (d : Decl) : Params :=
  ⟨d.required ++ (match d.rest with | none => [] | some t => [t ||| glob]), d.optional, d.kws⟩

/-- Rules for declarations: types do not have the mark of the last parameter; there are no optional parameters after it;
keyword parameters have different names, which are C strings. -/
structure Decl.Wf (d : Decl) : Prop where
  required : ∀ t ∈ d.required, t.getLsbD 61 = false
  rest : ∀ t, d.rest = some t → t.getLsbD 61 = false ∧ t.getLsbD 62 = false ∧ d.optional = []
  names : ∀ l, d.kws = some l → (l.map (·.key)).Nodup ∧ ∀ e ∈ l, 0 ∉ e.key

section
variable (chk : V → Tag → Out V)

/-- Values fit types one by one, and become what the function gets. -/
inductive Fits : List Tag → List V → List V → Prop
  | nil : Fits [] [] []
  | cons {t : Tag} {v w : V} {ts : List Tag} {vs ws : List V} : chk v t = .ok w → Fits ts vs ws → Fits (t :: ts) (v :: vs) (w :: ws)

/-- Values for the last parameter: each fits its type; an array whose elements are meant contributes its elements. -/
inductive FitsRest (t : Tag) : List V → List V → Prop
  | nil : FitsRest t [] []
  | one {v w : V} {vs ws : List V} : (v.type ≠ 9 ∨ takesArrays t = true) → chk v t = .ok w → FitsRest t vs ws →
      FitsRest t (v :: vs) (w :: ws)
  | many {v : V} {l vs ws : List V} : v.type = 9 → takesArrays t = false → chk v (listify ||| t) = .ok (.arr l) → FitsRest t vs ws →
      FitsRest t (v :: vs) (l ++ ws)

/-- The positional values fit the parameters. -/
def FitsPos (d : Decl) (pos : List V) (r : Bound) : Prop :=
  match d.rest with
  | none => ∃ a b k, pos = a ++ b ∧ Fits chk d.required a r.pos ∧ Fits chk (d.optional.take k) b r.opt
  | some t => ∃ a b ws c, pos = a ++ b ∧ Fits chk d.required a ws ∧ FitsRest chk t b c ∧ r.pos = ws ++ [.arr c] ∧ r.opt = []

/-- The entries of a dictionary. -/
def entries : V → List (Bytes × V)
  | .dict l => l
  | _ => []

/-- The keyword arguments given: those in the call, and in place of `kwargs: {...}` the entries of the dictionary. -/
def given : List (Bytes × V) → List (Bytes × V)
  | [] => []
  | (k, v) :: l => (if k = kwargs then entries v else [(k, v)]) ++ given l

/-- The keyword arguments fit: what is passed as `kwargs` are dictionaries, each keyword is given once and declared,
required ones are given, and the function gets for each parameter the value given for it. -/
def FitsKw (kws : List Kw) (named : List (Bytes × V)) (st : Kws) : Prop :=
  (∀ v, (kwargs, v) ∈ named → ∃ l, v = .dict l) ∧
  ((given named).map (·.1)).Nodup ∧
  (∀ e ∈ given named, ∃ d ∈ kws, d.key = e.1) ∧
  st.map (·.1) = kws ∧
  ∀ d o, (d, o) ∈ st → match o with
    | none => d.required = false ∧ ∀ v, (d.key, v) ∉ given named
    | some w => ∃ v, (d.key, v) ∈ given named ∧ chk v d.type = .ok w

/-- A call is accepted, and the function gets `r`. -/
def Accepts (d : Decl) (args : List Arg) (r : Bound) : Prop :=
  ∃ (pos : List V) (named : List (Bytes × V)),
    args = pos.map (fun v => (none, v)) ++ named.map (fun e => (some e.1, e.2)) ∧
    FitsPos chk d pos r ∧
    match d.kws with
    | none => named = [] ∧ r.kws = []
    | some kws => FitsKw chk kws named r.kws

end

end Muon.Args.Spec
