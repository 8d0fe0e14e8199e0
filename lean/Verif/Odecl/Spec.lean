import Verif.Odecl.Model
/-
What a declaration of an option means, which option a name stands for, and what options given in build files do.
-/
namespace Muon.Odecl.Spec
open Muon Muon.Opt Muon.Opt.Spec

/-- The names of the types. -/
def types : List (Bytes × Ty) :=
  [(ascii "string", .string), (ascii "boolean", .boolean), (ascii "combo", .combo), (ascii "integer", .integer), (ascii "array", .array), (ascii "feature", .feature)]

/-- Bounds are for integers, which need a value; choices are for arrays and needed by combos. -/
def Allowed (ty : Ty) (d : Decl) : Prop :=
  (ty ≠ .integer → d.max = none ∧ d.min = none) ∧ (ty = .integer → d.value ≠ none) ∧
  (ty ≠ .combo → ty ≠ .array → d.choices = none) ∧ (ty = .combo → d.choices ≠ none)

/-- The value of an option declared without one: the first choice of a combo, all choices of an array. -/
def Default (ty : Ty) (choices : Option (List El)) (v : OV) : Prop :=
  match ty with
  | .string => v = .str []
  | .boolean => v = .bool true
  | .combo => ∃ s l, choices = some (El.s s :: l) ∧ v = .str s
  | .integer => False
  | .array => (∃ l, choices = some l ∧ v = .arr l) ∨ choices = none ∧ v = .arr []
  | .feature => v = .feature 0

/-- A value is taken as it is; only features may be written as strings. -/
def Reads (ty : Ty) (v v' : OV) : Prop :=
  v' = v ∨ ty = .feature ∧ ((v = .str (ascii "auto") ∧ v' = .feature 0) ∨ (v = .str (ascii "enabled") ∧ v' = .feature 1) ∨
    (v = .str (ascii "disabled") ∧ v' = .feature 2))

/-- The characters of names. -/
def nameChars : Bytes := ascii "abcdefghijklmnopqrstuvwxyzABCDEFGHIJKLMNOPQRSTUVWXYZ0123456789-_"

/-- With the options `opts` there already, this declaration is correct and makes the option `o`. -/
def Declares (inProject : Bool) (opts : List Opt) (name : Bytes) (d : Decl) (o : Opt) : Prop :=
  ∃ t ty v v', d.type = some t ∧ (t, ty) ∈ types ∧ Allowed ty d ∧ (d.value = some v ∨ d.value = none ∧ Default ty d.choices v) ∧
    Reads ty v v' ∧ o = ⟨name, ty, v', d.choices, d.min, d.max, srcDefault, d.dep⟩ ∧ Valid o v' ∧
    (inProject = true → ∀ c ∈ name, c ∈ nameChars) ∧ 0 ∉ name ∧ 58 ∉ name ∧ ∀ x ∈ opts, x.name ≠ name

/-- No two options of the same name. -/
def Distinct (l : List Opt) : Prop := (l.map (·.name)).Nodup

/-- The option a name stands for: one of the target, or else of the project, or else one of every build. -/
def StandsFor (ov pr : Option (List Opt)) (gl : List Opt) (name : Bytes) (o : Opt) : Prop :=
  o.name = name ∧
  ((∃ l, ov = some l ∧ o ∈ l) ∨
    (∀ l, ov = some l → ∀ x ∈ l, x.name ≠ name) ∧
      ((∃ l, pr = some l ∧ o ∈ l) ∨ (∀ l, pr = some l → ∀ x ∈ l, x.name ≠ name) ∧ o ∈ gl))

/-- The option of the subproject takes its value from `po`. -/
def YieldsTo (yields : List Bytes) (mproj glob : List Opt) (o po : Opt) : Prop :=
  o.name ∈ yields ∧ StandsFor none (some mproj) glob o.name po ∧ po.ty = o.ty

/-- No replaced names or values. -/
def Plain (o : Opt) : Prop := o.dep = none ∨ o.dep = some .flag

/-- What assigning the text `s` with precedence `src` makes of an option. -/
def Becomes (ev : Bytes → Option OV) (s : Bytes) (src : Nat) (o o' : Opt) : Prop :=
  (o.source > src ∧ o' = o) ∨ (o.source ≤ src ∧ ∃ v, Text ev o.ty s v ∧ Valid o v ∧ o' = { o with val := v, source := src })

/-- An assignment in a build file: subproject, name and value. -/
abbrev Entry := Option Bytes × Bytes × Bytes

/-- It is written with proper names. -/
def GoodEntry (e : Entry) : Prop := Name e.2.1 ∧ (∀ p, e.1 = some p → Name p) ∧ 0 ∉ written e.1 e.2.1 e.2.2

/-- Its text. -/
def text (e : Entry) : Bytes := written e.1 e.2.1 e.2.2

/-- The text `s` can be given to the option with precedence `src`: it is ignored, or stands for an allowed value. -/
def Fits (ev : Bytes → Option OV) (s : Bytes) (src : Nat) (o : Opt) : Prop := o.source > src ∨ ∃ v, Text ev o.ty s v ∧ Valid o v

/-- The options of a target: for every assignment the option of the project of that name, with the new value. -/
def Overridden (ev : Bytes → Option OV) (opts : List Opt) : List Entry → List Opt → Prop
  | [], l => l = []
  | e :: es, l => ∃ o o' l', o ∈ opts ∧ o.name = e.2.1 ∧ Becomes ev e.2.2 srcOverrideOptions o o' ∧ l = o' :: l' ∧ Overridden ev opts es l'

/-- The same place, for absolute paths. -/
def SamePlace (p q : Bytes) : Prop := Path.Spec.isAbs p = true ∧ Path.Spec.isAbs q = true ∧ Path.Spec.walk [] (Path.Spec.comps p) = Path.Spec.walk [] (Path.Spec.comps q)

end Muon.Odecl.Spec
