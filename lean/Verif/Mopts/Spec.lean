import Verif.Base
/-
Specification of command lines of meson: how options are written, and what they mean.
-/
namespace Muon.Mopts
open Muon

/-- What someone writes: an operand, an option with a value, an option without. -/
inductive Wish
  | operand (a : Bytes)
  | value (name v : Bytes)
  | flag (name : Bytes)

/-- The ways to write it: `--name=value`, `--name value`, `-nvalue`, `-n value`, `--name`, `-n`. -/
inductive Spelled : List Wish → List Bytes → Prop
  | nil : Spelled [] []
  | operand {ws : List Wish} {as : List Bytes} (a : Bytes) (h : a.head? ≠ some 45 ∨ a = ascii "-") (r : Spelled ws as) : Spelled (.operand a :: ws) (a :: as)
  | longJoined {ws : List Wish} {as : List Bytes} (n v : Bytes) (h : n ≠ [] ∧ 61 ∉ n) (r : Spelled ws as) :
      Spelled (.value n v :: ws) ((ascii "--" ++ n ++ ascii "=" ++ v) :: as)
  | longApart {ws : List Wish} {as : List Bytes} (n v : Bytes) (h : n ≠ [] ∧ 61 ∉ n) (r : Spelled ws as) :
      Spelled (.value n v :: ws) ((ascii "--" ++ n) :: v :: as)
  | shortJoined {ws : List Wish} {as : List Bytes} (c : UInt8) (v : Bytes) (h : c ≠ 45) (hv : v ≠ []) (r : Spelled ws as) :
      Spelled (.value [c] v :: ws) ((ascii "-" ++ [c] ++ v) :: as)
  | shortApart {ws : List Wish} {as : List Bytes} (c : UInt8) (v : Bytes) (h : c ≠ 45) (r : Spelled ws as) :
      Spelled (.value [c] v :: ws) ((ascii "-" ++ [c]) :: v :: as)
  | long {ws : List Wish} {as : List Bytes} (n : Bytes) (h : n ≠ [] ∧ 61 ∉ n) (r : Spelled ws as) : Spelled (.flag n :: ws) ((ascii "--" ++ n) :: as)
  | short {ws : List Wish} {as : List Bytes} (c : UInt8) (h : c ≠ 45) (r : Spelled ws as) : Spelled (.flag [c] :: ws) ((ascii "-" ++ [c]) :: as)

/-- The operands. -/
def operands : List Wish → List Bytes
  | [] => []
  | .operand a :: ws => a :: operands ws
  | _ :: ws => operands ws

/-- The values given to an option, in their order. -/
def values (name : String) : List Wish → List Bytes
  | [] => []
  | .value n v :: ws => if n = ascii name then v :: values name ws else values name ws
  | _ :: ws => values name ws

/-- How often an option without value is given, by one of several names. -/
def times (names : List String) : List Wish → Nat
  | [] => 0
  | .flag n :: ws => (if n ∈ names.map ascii then 1 else 0) + times names ws
  | _ :: ws => times names ws

/-! ### setup -/

/-- Options that have the same name with underscores. -/
def sameName : List String := ["prefix", "bindir", "datadir", "includedir", "infodir", "libdir", "libexecdir", "localedir", "localstatedir", "mandir", "sbindir",
  "sharedstatedir", "sysconfdir", "auto-features", "backend", "buildtype", "cmake-prefix-path", "default-library", "force-fallback-for", "layout", "optimization",
  "install-umask", "pkg-config-path", "unity", "unity-size", "wrap-mode"]
/-- Those with another name. -/
def otherName : List (String × String) :=
  [("build.cmake-prefix-path", "cmake_prefix_path"), ("build.pkg-config-path", "pkg_config_path"), ("warnlevel", "warning_level")]
/-- Those that are set to true. -/
def setTrue : List String := ["debug", "prefer-static", "stdsplit", "strip", "werror"]
/-- Those that mean nothing to muon: with a value, and without. -/
def nothingValue : List String := ["cross-file", "native-file", "python.install-env", "python.platlibdir", "python.purelibdir"]
def nothingFlag : List String := ["errorlogs", "fatal-meson-warnings", "pkgconfig.relocatable", "reconfigure", "vsenv", "wipe"]

/-- `-` becomes `_`. -/
def underscores (n : Bytes) : Bytes := n.map fun c => if c = 45 then 95 else c

/-- Is it understood by `meson setup`, other than help and version? `-D` needs something to set. -/
def setupKnown : Wish → Bool
  | .operand _ => true
  | .value n v => decide (n = ascii "D" ∧ v ≠ []) || decide (n ∈ sameName.map ascii) || decide (n ∈ otherName.map (ascii ·.1)) || decide (n ∈ nothingValue.map ascii)
  | .flag n => decide (n ∈ setTrue.map ascii) || decide (n ∈ nothingFlag.map ascii)

/-- What it sets, as `option=value`. -/
def sets : Wish → List Bytes
  | .operand _ => []
  | .value n v =>
    if n = ascii "D" then [v]
    else if n ∈ sameName.map ascii then [underscores n ++ ascii "=" ++ v]
    else (otherName.filter fun e => ascii e.1 == n).map fun e => ascii e.2 ++ ascii "=" ++ v
  | .flag n => if n ∈ setTrue.map ascii then [underscores n ++ ascii "=true"] else []

/-! ### install -/

/-- Is it understood by `meson install`? Directories are not empty. -/
def installKnown : Wish → Bool
  | .operand _ => false
  | .value n v => decide ((n = ascii "C" ∨ n = ascii "destdir") ∧ v ≠ []) || decide (n ∈ ["skip-subprojects", "tags"].map ascii)
  | .flag n => decide (n ∈ ["n", "dryrun", "no-rebuild", "only-changed", "quiet", "strip"].map ascii)

/-! ### test -/

/-- Is it understood by `meson test`? -/
def testKnown : Wish → Bool
  | .operand _ => true
  | .value n v => decide (n ∈ ["C", "suite", "num-processes", "setup"].map ascii ∧ v ≠ []) || decide (n = ascii "maxfail" ∧ v = ascii "1") ||
      decide (n ∈ ["t", "timeout-multiplier", "gdb-path", "repeat", "wrapper", "logbase", "test-args"].map ascii)
  | .flag n => decide (n ∈ ["v", "no-rebuild", "list", "benchmark", "q", "quiet", "gdb", "no-stdsplit", "print-errorlogs"].map ascii)

end Muon.Mopts
