import Verif.Path.Model
/-
Directories given to `include_directories()`: src/coerce.c.
-/
namespace Muon.Incdir
open Muon

/-- An argument: a directory made before, with `is_system`, a string, or something else. -/
inductive Item
  | made (path : Bytes) (sys : Bool)
  | str (s : Bytes)
  | other
  deriving DecidableEq

/-- `wk->source_root`, `wk->build_root`, the directory of the build file, and `fs_dir_exists`. -/
structure World where
  source : Bytes
  build : Bytes
  cwd : Bytes
  ex : Bytes → Bool

/-- The path of a string, src/coerce.c:552-562. -/
def place (E : World) (s : Bytes) : Bytes := if Path.isAbsolute s then s else Path.join E.cwd s

/-- `include_directories_iter`, src/coerce.c:540-594; `get_cstr` ends muon if there is a NUL byte. -/
def item (E : World) (sys : Bool) : Item → Res (List (Bytes × Bool))
  | .made p b => .ok [(p, b)]
  | .other => .error
  | .str s =>
    if 0 ∈ s then .error
    else if !E.ex (place E s) then .error
    else Path.isSubpath E.source (place E s) >>= fun sub =>
      if sub then Path.relativeTo E.source (place E s) >>= fun r => .ok [(Path.join E.build r, sys), (place E s, sys)]
      else .ok [(place E s, sys)]

/-- `coerce_include_dirs`, src/coerce.c:596-611, for the flat arguments. -/
def items (E : World) (sys : Bool) : List Item → Res (List (Bytes × Bool))
  | [] => .ok []
  | i :: is => item E sys i >>= fun a => items E sys is >>= fun b => .ok (a ++ b)

/-- `func_include_directories`, src/functions/kernel.c:815-839; `sys` is `is_system:`. -/
def includeDirectories (E : World) (sys : Option Bool) (is : List Item) : Res (List (Bytes × Bool)) := items E (sys.getD false) is

end Muon.Incdir
