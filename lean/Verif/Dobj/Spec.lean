import Verif.Dobj.Model
/-
C114: which value a dependency has for a variable.
-/
namespace Muon.Dobj.Spec
open Muon

/-- The variable that is asked for: the one of the keyword, else the one that is given without a keyword. -/
def Asked (kw pos : Option Bytes) (x : Bytes) : Prop := kw = some x ∨ kw = none ∧ pos = some x

/-- `['a', 'b', 'c', 'd']` defines `a` as `b` and `c` as `d`. -/
inductive Pairs : List Bytes → List (Bytes × Bytes) → Prop
  | nil : Pairs [] []
  | cons {l : List Bytes} {ps : List (Bytes × Bytes)} (k v : Bytes) (r : Pairs l ps) : Pairs (k :: v :: l) ((k, v) :: ps)

/-- The dependency has this value: from the package, read with the definitions of the call; or, for one that is no package, from its own variables. -/
inductive Has (pkg : Pkg) (d : Dep) (a : Args) : Bytes → Prop
  | package {n x v : Bytes} {ps : List (Bytes × Bytes)} (k : d.kind = .pkgconf) (hn : d.name = some n) (q : Asked a.pkgconfig a.pos x) (hp : Pairs (a.defines.getD []) ps)
      (h : pkg ps n x = some v) : Has pkg d a v
  | own {x v : Bytes} {vs : List (Bytes × Bytes)} (k : d.kind ≠ .pkgconf) (hv : d.vars = some vs) (q : Asked a.inside a.pos x) (h : (x, v) ∈ vs) : Has pkg d a v

/-- What `get_variable()` is to give: the value, or the default if there is none. -/
def Gives (pkg : Pkg) (d : Dep) (a : Args) (v : Bytes) : Prop := Has pkg d a v ∨ (∀ w, ¬ Has pkg d a w) ∧ a.dflt = some v

/-- Several calls. -/
inductive AllGive (pkg : Pkg) : List (Dep × Args) → List Bytes → Prop
  | nil : AllGive pkg [] []
  | cons {c : Dep × Args} {cs : List (Dep × Args)} {v : Bytes} {vs : List Bytes} (h : Gives pkg c.1 c.2 v) (r : AllGive pkg cs vs) : AllGive pkg (c :: cs) (v :: vs)

/-- No NUL bytes; packages have names; the variables of a dictionary are different; definitions are pairs. -/
structure Proper (d : Dep) (a : Args) : Prop where
  named : d.kind = .pkgconf → ∃ n, d.name = some n ∧ 0 ∉ n
  keys : ∀ vs, d.vars = some vs → (vs.map (·.1)).Nodup
  clean : ∀ x, a.pkgconfig = some x ∨ a.pos = some x → 0 ∉ x
  defs : ∀ l, a.defines = some l → (∀ x ∈ l, 0 ∉ x) ∧ ∃ ps, Pairs l ps

end Muon.Dobj.Spec
