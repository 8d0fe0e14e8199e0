import Verif.Pc.Generate
/-
C98: where the files that `pkgconfig.generate()` writes are not what was asked for.
-/
namespace Muon.Pc
open Muon
open Spec

/-- Options of an installation in `/usr`; the directory for configuration is outside. -/
def usrOpt : Bytes → Bytes := fun d =>
  if d = ascii "prefix" then ascii "/usr" else if d = ascii "libdir" then ascii "lib"
  else if d = ascii "includedir" then ascii "include" else if d = ascii "sysconfdir" then ascii "/etc"
  else if d = ascii "bindir" then ascii "bin" else ascii "share"

/-- A file with a description. -/
def bare : Call where
  project := ascii "p"
  projectVersion := ascii "1"
  name := some (ascii "n")
  description := some (ascii "d")

/-- The text of a file, and the flags after it. -/
def textOf (r : Res Made) : Bytes := match r with | .ok m => m.text | _ => []
def addedOf (r : Res Made) : List Bytes := match r with | .ok m => m.added | _ => []

/-- **A file depends on those before it**: that a variable `bindir` was given to one call is remembered, so that in the next
file `${bindir}` is used and not defined. -/
theorem history_counterexample :
    value (textOf (generate exRoots usrOpt [] { bare with variables := some (.strs [ascii "b=${bindir}/t"]) })) (ascii "b") =
      ascii "/usr/bin/t" ∧
    value (textOf (generate exRoots usrOpt
      (addedOf (generate exRoots usrOpt [] { bare with variables := some (.strs [ascii "bindir=/x"]) }))
      { bare with variables := some (.strs [ascii "b=${bindir}/t"]) })) (ascii "b") = ascii "/t" := by
  decide +kernel

/-- **`dataonly` files do not define the directories they use**: a variable that begins with the prefix does not get it. -/
theorem dataonly_counterexample :
    value (textOf (generate exRoots usrOpt [] { bare with dataonly := true, variables := some (.strs [ascii "s=${prefix}/x"]) }))
      (ascii "s") = ascii "/x" ∧
    fieldOf (textOf (generate exRoots usrOpt []
      { bare with dataonly := true, libraries := [.target (ascii "a") .shared true none [] [] []] })) (ascii "Libs") =
      some (ascii "-L -la") := by
  decide +kernel

/-- **A directory outside the prefix** is described as one below it. -/
theorem outside_counterexample :
    value (textOf (generate exRoots usrOpt [] { bare with variables := some (.strs [ascii "s=${sysconfdir}/x"]) })) (ascii "s") =
      ascii "/usr//etc/x" := by
  decide +kernel

/-- **The directory the file is installed in** is given as the one the libraries are in. -/
theorem installDir_counterexample :
    fieldOf (textOf (generate exRoots usrOpt [] { bare with
      installDir := some (ascii "/usr/share/pkgconfig"), libraries := [.target (ascii "a") .shared true none [] [] []] }))
      (ascii "Libs") = some (ascii "-L/usr/share/pkgconfig -la") := by
  decide +kernel

/-- **A library named `libfoo`**, whose file is `liblibfoo.so`, is given as `-lfoo`. -/
theorem libname_counterexample :
    fieldOf (textOf (generate exRoots usrOpt [] { bare with
      libraries := [.target (ascii "libfoo") .shared true none [] [] []] })) (ascii "Libs") =
      some (ascii "-L/usr/lib -lfoo") := by
  decide +kernel

/-- **Without a description** a null pointer is printed, if no library is given first. -/
theorem description_counterexample : generate exRoots usrOpt [] { bare with description := none } = .bad := by decide +kernel

/-- **A newline in the description** adds fields of its own. -/
theorem injected_counterexample :
    fieldOf (textOf (generate exRoots usrOpt [] { bare with description := some (ascii "d\nLibs: -levil") })) (ascii "Libs") =
      some (ascii "-levil") := by
  decide +kernel

/-- **A space in a library** makes two arguments. -/
theorem space_counterexample :
    args ((fieldOf (textOf (generate exRoots usrOpt [] { bare with libraries := [.str (ascii "-L/my dir")] }))
      (ascii "Libs")).getD []) = [ascii "-L/my", ascii "dir"] := by
  decide +kernel

/-- **A directory of headers that is absolute** is a flag without `-I`. -/
theorem subdir_counterexample :
    fieldOf (textOf (generate exRoots usrOpt [] { bare with subdirs := some [ascii "/opt/x"] })) (ascii "Cflags") =
      some (ascii "/opt/x") := by
  decide +kernel

/-- **A newline in a variable** ends the program. -/
theorem newline_counterexample :
    generate exRoots usrOpt [] { bare with variables := some (.strs [ascii "a=b\nc"]) } = .bad := by decide +kernel

/-- **What the package conflicts with** is accepted, and written nowhere. -/
theorem conflicts_counterexample (R : Roots) (opt : Bytes → Bytes) (added : List Bytes) (c : Call) (l : List Bytes) :
    generate R opt added { c with conflicts := l } = generate R opt added c := rfl

end Muon.Pc
