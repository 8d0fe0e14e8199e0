import Verif.Deps.Model
/-
What targets are built with, and what dependencies carry: said of the calls that make them, not of the merging. `P` is
the program: the list of calls. A number is the place of a call in it.
-/
namespace Muon.Deps.Spec
open Muon

/-- `j` stands in `link_with` (`whole = false`) or `link_whole` (`whole = true`) of a call. -/
def Links : Cmd → Bool → Nat → Prop
  | .target _ _ lw lh .., whole, j => ∃ l, (if whole then lh else lw) = some l ∧ j ∈ l
  | .declare lw lh .., whole, j => ∃ l, (if whole then lh else lw) = some l ∧ j ∈ l
  | _, _, _ => False

/-- `j` stands in `dependencies` of a call. -/
def Uses : Cmd → Nat → Prop
  | .target _ _ _ _ ds .., j => ∃ l, ds = some l ∧ j ∈ l
  | .declare _ _ ds .., j => ∃ l, ds = some l ∧ j ∈ l
  | _, _ => False

/-- What a call states itself, and hands on. The `link_args` of a target are not handed on. -/
def own : Cmd → Field → List Item
  | .target _ _ _ _ _ _ incs .., .includes => incs
  | .target _ _ _ _ _ _ _ order .., .orderDeps => order
  | .target _ _ _ _ _ _ _ _ rpaths .., .rpath => rpaths
  | .declare _ _ _ la .., .linkArgs => la
  | .declare _ _ _ _ ca .., .compileArgs => ca
  | .declare _ _ _ _ _ incs .., .includes => incs
  | .declare _ _ _ _ _ _ src _, .sources => src
  | .declare _ _ _ _ _ _ _ os, .objects => os
  | .external _ d, f => d.lists f
  | _, _ => []

/-- The `link_args` of a target. -/
def ownLinkArgs : Cmd → List Item
  | .target _ _ _ _ _ la .. => la
  | _ => []

/-- The call `j` makes a library or program `t`, or two libraries of which `t` is the shared one. `k` is its kind and
`p` its path. -/
inductive Makes (P : List Cmd) : Nat → Nat → Kind → Bytes → Prop
  | target {t k p lw lh ds la inc od rp ss os} : P[t]? = some (.target k p lw lh ds la inc od rp ss os) → Makes P t t k p
  | both {j s t k p lw lh ds la inc od rp ss os} : P[j]? = some (.both s t) →
      P[t]? = some (.target k p lw lh ds la inc od rp ss os) → Makes P j t k p

/-- The call `j` makes the file `p`, or a custom target of which `p` is an output. -/
inductive Makesfile (P : List Cmd) : Nat → Bytes → Prop
  | file {j p} : P[j]? = some (.file p) → Makesfile P j p
  | custom {j outs o p} : P[j]? = some (.custom outs) → o ∈ outs → P[o]? = some (.file p) → Makesfile P j p

/-- The dependency `i` is found. -/
inductive Found (P : List Cmd) : Nat → Prop
  | declared {i lw lh ds la ca inc src os} : P[i]? = some (.declare lw lh ds la ca inc src os) → Found P i
  | external {i d} : P[i]? = some (.external true d) → Found P i
  | partialDep {i j ca inc la links src} : P[i]? = some (.partialDep j ca inc la links src) → Found P j → Found P i
  | asSystem {i j t} : P[i]? = some (.asSystem j t) → Found P j → Found P i

/-- What a library of kind `k` hands on to those that link with it: run paths and the generated files to wait for in any
case; what it is linked with only if it is a static library, because it is not linked itself. -/
def Handed : Kind → Field → Prop
  | _, .rpath => True
  | _, .orderDeps => True
  | k, .linkWith => k = .static
  | k, .linkWhole => k = .static
  | k, .notFound => k = .static
  | k, .linkArgs => k = .static
  | _, _ => False

/-- What a `partial_dependency` with the given keywords is to keep. -/
def Kept (ca inc la links src : Bool) : Field → Prop
  | .compileArgs => ca = true
  | .includes => inc = true
  | .linkArgs => la = true
  | .linkWith => links = true
  | .linkWhole => links = true
  | .notFound => links = true
  | .sources => src = true
  | _ => False

/-- Whether an include directory is one of the system after `as_system`. -/
def marked : IncType → Bool → Bool
  | .preserve, b => b
  | .system, _ => true
  | .nonSystem, _ => false

/-- The directory of a library: below the build root unless it is absolute. -/
def directory (root p : Bytes) : Bytes :=
  if (Path.dirname p).head? = some 47 then Path.dirname p else Path.join root (Path.dirname p)

/-- `Brings root P i f v`: the call `i` has `v` of sort `f`, by itself or by something that it links with or depends on,
directly or indirectly. -/
inductive Brings (root : Bytes) (P : List Cmd) : Nat → Field → Item → Prop
  /-- it is stated in the call -/
  | own {i c f v} : P[i]? = some c → v ∈ own c f → Brings root P i f v
  /-- a library that is linked with -/
  | library {i c j t k p} : P[i]? = some c → Links c false j → Makes P j t k p → k ≠ .exe → Brings root P i .linkWith ⟨p, false⟩
  | wholeLibrary {i c j t k p} : P[i]? = some c → Links c true j → Makes P j t k p → k ≠ .exe → Brings root P i .linkWhole ⟨p, false⟩
  /-- a file that is linked with -/
  | file {i c j p} : P[i]? = some c → Links c false j → Makesfile P j p → Brings root P i .linkWith ⟨p, false⟩
  | wholeFile {i c j p} : P[i]? = some c → Links c true j → Makesfile P j p → Brings root P i .linkWhole ⟨p, false⟩
  /-- the directory in which a shared library is found when the program runs -/
  | directory {i c whole j t k p} : P[i]? = some c → Links c whole j → Makes P j t k p → k ≠ .static →
      Brings root P i .rpath ⟨directory root p, false⟩
  /-- what a library hands on -/
  | through {i c whole j t k p f v} : P[i]? = some c → Links c whole j → Makes P j t k p → Handed k f → Brings root P t f v →
      Brings root P i f v
  /-- all that a dependency has, if it is found -/
  | uses {i c j f v} : P[i]? = some c → Uses c j → Found P j → Brings root P j f v → Brings root P i f v
  | partialDep {i j ca inc la links src f v} : P[i]? = some (.partialDep j ca inc la links src) → Kept ca inc la links src f →
      Brings root P j f v → Brings root P i f v
  | asSystem {i j t f v} : P[i]? = some (.asSystem j t) → f ≠ .includes → Brings root P j f v → Brings root P i f v
  | asSystemInc {i j t v} : P[i]? = some (.asSystem j t) → Brings root P j .includes v →
      Brings root P i .includes ⟨v.text, marked t v.system⟩

/-- The name of an object file tells that it was made from a C++ source: `x.cpp.o`. -/
def CppObject (e : Env) (p : Bytes) : Prop :=
  ∃ a b, Path.basename p = a ++ 46 :: b ∧ 46 ∉ b ∧ 46 ∈ a ∧ e.langOf a = some .cpp

/-- `Cpp e P i`: there is C++ in what the call `i` makes or in something that it links with or depends on. -/
inductive Cpp (e : Env) (P : List Cmd) : Nat → Prop
  | source {i k p lw lh ds la inc od rp ss os s} : P[i]? = some (.target k p lw lh ds la inc od rp ss os) → s ∈ ss →
      e.langOf s = some .cpp → Cpp e P i
  | object {i k p lw lh ds la inc od rp ss os s} : P[i]? = some (.target k p lw lh ds la inc od rp ss os) → s ∈ os →
      CppObject e s → Cpp e P i
  | depSource {i k p lw lh ds la inc od rp ss os v} : P[i]? = some (.target k p lw lh ds la inc od rp ss os) →
      Brings e.root P i .sources v → e.langOf v.text = some .cpp → Cpp e P i
  | depObject {i k p lw lh ds la inc od rp ss os v} : P[i]? = some (.target k p lw lh ds la inc od rp ss os) →
      Brings e.root P i .objects v → CppObject e v.text → Cpp e P i
  | external {i found d} : P[i]? = some (.external found d) → d.lang = .cpp → Cpp e P i
  | links {i c whole j t k p} : P[i]? = some c → Links c whole j → Makes P j t k p → Cpp e P t → Cpp e P i
  | uses {i c j} : P[i]? = some c → Uses c j → Found P j → Cpp e P j → Cpp e P i
  | asSystem {i j t} : P[i]? = some (.asSystem j t) → Cpp e P j → Cpp e P i

end Muon.Deps.Spec
