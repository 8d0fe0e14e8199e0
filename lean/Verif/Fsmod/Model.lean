import Verif.Path.Model
/-
Model of the module `fs`, src/functions/modules/fs.c (`fs.hash()` is in Verif/Sha, `fs.copyfile()` and the functions that change
directories are left out). Buffers are taken to be zero behind the terminator, as in Verif/Path.
-/
namespace Muon.Fsmod
open Muon

/-- An argument of type string or file. -/
inductive Arg
  | str (s : Bytes)
  | file (s : Bytes)
  deriving DecidableEq, Repr

/-- `enum fix_file_path_opts`, src/functions/modules/fs.c:22-26. -/
structure Opts where
  allowFile : Bool := false
  expand : Bool := false
  noabs : Bool := false

/-- The directory of the current project file, and `$HOME`. -/
structure Env where
  cwd : Bytes
  home : Option Bytes

/-- A string up to the first NUL (`get_cstr` and a use as a C string). -/
def cstr (s : Bytes) : Bytes := s.takeWhile (· ≠ 0)

/-- The text of the argument, src/functions/modules/fs.c:31-48. -/
def text (o : Opts) : Arg → Res Bytes
  | .str s => .ok s
  | .file s => if o.allowFile then .ok s else .error

/-- The path before it is normalised, src/functions/modules/fs.c:58-74. -/
def place (E : Env) (o : Opts) (s : Bytes) : Res Bytes :=
  if Path.isAbsolute s then .ok (Path.copy s)
  else if o.expand && Path.byteAt s 0 == 126 then
    match E.home with
    | none => .error
    | some h => .ok (Path.join h (s.drop 1))
  else if o.noabs then .ok (Path.copy s)
  else .ok (Path.join E.cwd s)

/-- `fix_file_path`, src/functions/modules/fs.c:28-78. -/
def fixPath (E : Env) (o : Opts) (a : Arg) : Res Bytes :=
  text o a >>= fun s =>
    if s.contains 0 || s.isEmpty then .error else place E o s >>= fun p => .ok (Path.normalize true p)

/-- `func_module_fs_lookup_common`, src/functions/modules/fs.c:82-98: `fs.exists()`, `fs.is_file()`, `fs.is_dir()`, :100-116. -/
def lookup (E : Env) (probe : Bytes → Bool) (a : Arg) : Res Bool :=
  fixPath E { expand := true } a >>= fun p => .ok (probe p)

/-- `func_module_fs_is_symlink`, src/functions/modules/fs.c:118-123. -/
def isSymlink (E : Env) (probe : Bytes → Bool) (a : Arg) : Res Bool :=
  fixPath E { allowFile := true, expand := true } a >>= fun p => .ok (probe p)

/-- `func_module_fs_parent`, src/functions/modules/fs.c:125-143. -/
def parent (E : Env) (a : Arg) : Res Bytes :=
  fixPath E { allowFile := true, expand := true, noabs := true } a >>= fun p => .ok (Path.dirname p)

/-- `func_module_fs_read`, src/functions/modules/fs.c:145-181. For an encoding other than utf-8 an error is printed and nothing else
happens. -/
def read' (E : Env) (files : Bytes → Option Bytes) (a : Arg) (_encoding : Option Bytes) : Res Bytes :=
  fixPath E { allowFile := true, expand := true } a >>= fun p =>
    match files p with
    | none => .error
    | some content => .ok content

/-- `func_module_fs_is_absolute`, src/functions/modules/fs.c:183-194. -/
def isAbsolute (s : Bytes) : Bool := Path.isAbsolute (cstr s)

/-- `func_module_fs_expanduser`, src/functions/modules/fs.c:196-211. -/
def expanduser (E : Env) (s : Bytes) : Res Bytes := fixPath E { expand := true } (.str s)

/-- `func_module_fs_name`, src/functions/modules/fs.c:213-230. -/
def name (E : Env) (a : Arg) : Res Bytes :=
  fixPath E { allowFile := true } a >>= fun p => .ok (Path.basename p)

/-- Cutting at the last dot (`strrchr`). -/
def cutDot (s : Bytes) : Bytes :=
  match s.reverse.dropWhile (· ≠ 46) with
  | [] => s
  | _ :: t => t.reverse

/-- `func_module_fs_stem`, src/functions/modules/fs.c:232-256. -/
def stem (E : Env) (a : Arg) : Res Bytes :=
  fixPath E { allowFile := true } a >>= fun p => .ok (cutDot (Path.basename p))

/-- The loop of `func_module_as_posix`, src/functions/modules/fs.c:269-278. -/
def posixLoop : Bytes → Bytes
  | [] => []
  | 92 :: 92 :: s => 47 :: posixLoop s
  | c :: s => (if c = 92 then 47 else c) :: posixLoop s

/-- `func_module_as_posix`, src/functions/modules/fs.c:258-282. -/
def asPosix (s : Bytes) : Bytes := posixLoop (cstr s)

/-- `func_module_replace_suffix`, src/functions/modules/fs.c:284-306. -/
def replaceSuffix (E : Env) (a : Arg) (suffix : Bytes) : Res Bytes :=
  fixPath E { allowFile := true, noabs := true } a >>= fun p => .ok (cutDot p ++ cstr suffix)

/-- `func_module_fs_size`, src/functions/modules/fs.c:347-374. -/
def size (E : Env) (files : Bytes → Option Bytes) (a : Arg) : Res Nat :=
  fixPath E { allowFile := true } a >>= fun p =>
    match files p with
    | none => .error
    | some content => if content.length < 2 ^ 63 - 1 then .ok content.length else .bad

/-- `func_module_fs_is_samepath`, src/functions/modules/fs.c:376-399. -/
def isSamepath (E : Env) (a b : Arg) : Res Bool :=
  fixPath E { allowFile := true } a >>= fun p =>
    fixPath E { allowFile := true } b >>= fun q => .ok (decide (p = q))

/-- `func_module_fs_write`, src/functions/modules/fs.c:491-510; `ok`: whether a path can be written to. -/
def write (E : Env) (ok : Bytes → Bool) (files : Bytes → Option Bytes) (a : Arg) (data : Bytes) : Res (Bytes → Option Bytes) :=
  fixPath E { allowFile := true, expand := true } a >>= fun p =>
    if ok p then .ok (fun q => if q = p then some data else files q) else .error

/-- `func_module_fs_relative_to`, src/functions/modules/fs.c:570-593. -/
def relativeTo (base path : Bytes) : Res Bytes :=
  if !Path.isAbsolute (cstr base) then .error
  else if !Path.isAbsolute (cstr path) then .error
  else Path.relativeTo (cstr base) (cstr path)

/-- `func_module_fs_add_suffix`, src/functions/modules/fs.c:636-649. -/
def addSuffix (path suffix : Bytes) : Bytes := Path.copy (cstr path) ++ cstr suffix

end Muon.Fsmod
