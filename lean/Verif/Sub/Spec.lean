import Verif.Sub.Model
/-
What subprojects may do to each other.
-/
namespace Muon.Sub.Spec
open Muon Sub

/-- What a program may do to a workspace: the current project is the same afterwards, other projects are as before, of the current one the
place and the mark are, projects are only added, subprojects that were known stay what
they were, and those that become known are new projects of that name that did not fail. -/
structure Extends {σ : Type} (st st' : St σ) : Prop where
  cur : st'.cur = st.cur
  length : st.projects.length ≤ st'.projects.length
  others : ∀ i, i < st.projects.length → i ≠ st.cur → st'.projects[i]? = st.projects[i]?
  own : ∀ p, st.projects[st.cur]? = some p → ∃ p', st'.projects[st.cur]? = some p' ∧ p'.name = p.name ∧ p'.cwd = p.cwd ∧ p'.build = p.build ∧ p'.notOk = p.notOk
  known : ∀ n id, st.cache n = some id → st'.cache n = some id
  fresh : ∀ n id, st.cache n = none → st'.cache n = some id →
    st.projects.length ≤ id ∧ ∃ p, st'.projects[id]? = some p ∧ p.name = n ∧ p.notOk = false

/-- A workspace in order: known subprojects are projects of that name that are not marked as failed. -/
structure Ordered {σ : Type} (st : St σ) : Prop where
  cur : st.cur < st.projects.length
  cache : ∀ n id, st.cache n = some id → ∃ p, st.projects[id]? = some p ∧ p.name = n ∧ p.notOk = false

/-- The workspace in which the main project starts. -/
def start {σ : Type} (files : σ) (cwd build : Bytes) : St σ := ⟨files, [{ name := [], cwd := cwd, build := build }], fun _ => none, 0⟩

/-- Where a subproject is: in its directory if there is one, otherwise where its wrap file fetched it to. -/
inductive Located {σ : Type} (H : Wrap.Host σ) (download : Bool) (s : σ) (cwd build : Bytes) : σ → Bytes → Bytes → Prop
  | dir : H.isDir s cwd = true → H.isFile s (Path.join cwd (ascii "meson.build")) = true → Located H download s cwd build s cwd build
  | wrap (w : Wrap.Wrap) (s' : σ) : H.isDir s cwd = false → H.isFile s (cwd ++ ascii ".wrap") = true →
      Wrap.wrapHandle H s (cwd ++ ascii ".wrap") (Path.dirname cwd) download = .ok (s', some w) → w.fields .directory = none →
      H.isFile s' (Path.join cwd (ascii "meson.build")) = true → Located H download s cwd build s' cwd build
  | named (w : Wrap.Wrap) (d : Bytes) (s' : σ) : H.isDir s cwd = false → H.isFile s (cwd ++ ascii ".wrap") = true →
      Wrap.wrapHandle H s (cwd ++ ascii ".wrap") (Path.dirname cwd) download = .ok (s', some w) → w.fields .directory = some d →
      H.isFile s' (Path.join (Path.join (Path.dirname cwd) d) (ascii "meson.build")) = true →
      Located H download s cwd build s' (Path.join (Path.dirname cwd) d) (Path.join (Path.dirname build) d)

/-- A subproject was evaluated: it is there, its options and its file could be read, all of its program ran without error, a required version
is right, and the build directory was made if there is one. -/
structure Evaluated {σ : Type} (E : Env σ) (n : Nat) (st : St σ) (caller : Proj) (c : Call) (st' : St σ) : Prop where
  steps : ∃ s cwd build content st2 s2,
    Located E.host E.download st.files (Path.push (Path.join caller.cwd caller.subprojects) c.name) (Path.push (Path.join caller.build caller.subprojects) c.name) s cwd build ∧
    c.defaultsOk = true ∧ E.options s cwd = true ∧ E.host.read s (Path.join cwd (ascii "meson.build")) = some content ∧
    eval E n (E.prog content) ⟨s, st.projects ++ [{ name := c.name, cwd := cwd, build := build }], st.cache, st.projects.length⟩ = .ret st2 (some ()) ∧
    (c.req = .required → ∀ vs, c.version = some vs → ∀ p, st2.projects[st.projects.length]? = some p →
      vs ≠ [] ∧ ∀ v ∈ vs, Version.versionCompare1 p.version v = true) ∧
    (E.buildRoot st2.files = true ∧ E.host.mkdir st2.files (Path.push (Path.join caller.build caller.subprojects) c.name) = (s2, true) ∨
      E.buildRoot st2.files = false ∧ s2 = st2.files) ∧
    st' = ⟨s2, st2.projects, fun x => if x = c.name then some st.projects.length else st2.cache x, st.cur⟩

end Muon.Sub.Spec
