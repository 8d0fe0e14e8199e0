import Verif.Install.Dest
import Verif.Path.Spec
/-
C90: installing the planned targets. Model of src/cmd_install.c, and of the functions of src/platform/filesystem.c and src/platform/posix/filesystem.c that it uses, on a file system with files,
directories and symbolic links.

The system calls are part of the trusted base. Simplifications: all permissions are granted, there is space enough, nobody else changes the files, all paths are absolute (`install_iter` asserts this
for sources, C89 shows it for destinations), `.` and slashes at the end of a path are ignored, and the set-user-id bit is not cleared by writing.
-/
namespace Muon.Install
open Muon Path Path.Spec

/-- What a path can name. Modes are the lower twelve bits. -/
inductive Node
  | file (content : Bytes) (mode : Nat)
  | dir (mode : Nat)
  | link (target : Bytes)
  | other
  deriving DecidableEq

/-- The locations (components from the root) and what is there. -/
abbrev FS := List (List Bytes × Node)

def FS.get (fs : FS) (l : List Bytes) : Option Node := List.lookup l fs

/-- Replaces what is at a location, or adds it. -/
def FS.set : FS → List Bytes → Node → FS
  | [], l, n => [(l, n)]
  | (k, m) :: fs, l, n => if k = l then (l, n) :: fs else (k, m) :: FS.set fs l n

def FS.erase (fs : FS) (l : List Bytes) : FS := fs.filter fun e => e.1 ≠ l

def isDir : Option Node → Bool
  | some (.dir _) => true
  | _ => false

def isFile : Option Node → Bool
  | some (.file _ _) => true
  | _ => false

def isLink : Option Node → Bool
  | some (.link _) => true
  | _ => false

/-- The names in a directory. -/
def FS.names (fs : FS) (l : List Bytes) : List Bytes :=
  fs.filterMap fun e => match e.1.getLast? with
    | some c => if e.1.dropLast = l then some c else none
    | none => none

/-! ### System calls -/

/-- How far a path is followed: to its location, or to a link. -/
inductive Walk
  | done (l : Option (List Bytes))
  | again (at_ : List Bytes) (todo : List Bytes)

/-- Following a path up to the first link. `follow`: a link at the end, too. -/
def scan (fs : FS) (follow : Bool) : List Bytes → List Bytes → Walk
  | cur, [] => .done (some cur)
  | cur, c :: rest =>
    if !isDir (fs.get cur) then .done none
    else if c = dotdot then scan fs follow cur.dropLast rest
    else match fs.get (cur ++ [c]) with
      | some (.link t) =>
        if rest = [] ∧ !follow then .done (some (cur ++ [c]))
        else .again (if isAbs t then [] else cur) (comps t ++ rest)
      | _ => scan fs follow (cur ++ [c]) rest

/-- The location of a path, following at most so many links. -/
def namei (fs : FS) (follow : Bool) : Nat → List Bytes → List Bytes → Option (List Bytes)
  | 0, cur, todo => match scan fs follow cur todo with
    | .done l => l
    | .again _ _ => none
  | n + 1, cur, todo => match scan fs follow cur todo with
    | .done l => l
    | .again c t => namei fs follow n c t

/-- The location of an absolute path: at most 40 links (ELOOP), and less than 4096 characters (ENAMETOOLONG). -/
def resolve (fs : FS) (follow : Bool) (p : Bytes) : Option (List Bytes) :=
  if !isAbs p ∨ 4096 ≤ p.length then none else namei fs follow 40 [] (comps p)

def stat (fs : FS) (p : Bytes) : Option Node := (resolve fs true p).bind fs.get
def lstat (fs : FS) (p : Bytes) : Option Node := (resolve fs false p).bind fs.get

/-- `m & ~um`. -/
def masked (um m : Nat) : Nat := m ^^^ (m &&& um)

/-- What is the same for all functions: the umask, and what `fix_rpaths` (C87) does with the content of a file: whether it succeeds, and what the content is afterwards. -/
structure Sys where
  umask : Nat
  fix : Bytes → Bool × Bytes

/-- Something that may fail, and changes files. -/
abbrev Act := FS → Bool × FS

def Act.pass : Act := fun fs => (true, fs)
def Act.fail : Act := fun fs => (false, fs)

/-- `b` after `a`, unless it fails. -/
def Act.seq (a b : Act) : Act := fun fs => let r := a fs; if r.1 then b r.2 else r

/-- `fs_exists`, src/platform/posix/filesystem.c:62-66. -/
def fsExists (fs : FS) (p : Bytes) : Bool := (stat fs p).isSome
/-- `fs_symlink_exists`, src/platform/posix/filesystem.c:68-75. -/
def fsSymlinkExists (fs : FS) (p : Bytes) : Bool := isLink (lstat fs p)
/-- `fs_lexists`, src/platform/posix/filesystem.c:77-81. -/
def fsLexists (fs : FS) (p : Bytes) : Bool := fsExists fs p || fsSymlinkExists fs p
/-- `fs_file_exists`, src/platform/posix/filesystem.c:83-96. -/
def fsFileExists (fs : FS) (p : Bytes) : Bool := isFile (stat fs p)
/-- `fs_dir_exists`, src/platform/posix/filesystem.c:113-126. -/
def fsDirExists (fs : FS) (p : Bytes) : Bool := isDir (stat fs p)

/-- `fs_mkdir`, src/platform/posix/filesystem.c:128-137. -/
def fsMkdir (S : Sys) (p : Bytes) : Act := fun fs =>
  match resolve fs false p with
  | none => (false, fs)
  | some l => if (fs.get l).isSome then (false, fs) else (true, fs.set l (.dir (masked S.umask 0o755)))

/-- `remove`: what is at the location and no directory, or an empty directory. -/
def sysRemove (p : Bytes) : Act := fun fs =>
  match resolve fs false p with
  | none => (false, fs)
  | some l => match fs.get l with
    | none => (false, fs)
    | some (.dir _) => if l = [] ∨ fs.names l ≠ [] then (false, fs) else (true, fs.erase l)
    | some _ => (true, fs.erase l)

/-- `symlinkat`. -/
def sysSymlink (target p : Bytes) : Act := fun fs =>
  if target = [] then (false, fs)
  else match resolve fs false p with
    | none => (false, fs)
    | some l => if (fs.get l).isSome then (false, fs) else (true, fs.set l (.link target))

/-- `fs_make_symlink` (forced), src/platform/posix/filesystem.c:294-309, 283-292. -/
def fsMakeSymlink (target p : Bytes) : Act := fun fs => ((if fsLexists fs p then sysRemove p else Act.pass).seq (sysSymlink target p)) fs

/-- `open` with `O_CREAT | O_WRONLY | O_TRUNC`: the location of the file. -/
def sysCreate (S : Sys) (p : Bytes) (mode : Nat) (fs : FS) : Option (List Bytes) × FS :=
  match resolve fs true p with
  | none => (none, fs)
  | some l => match fs.get l with
    | none => (some l, fs.set l (.file [] (masked S.umask mode)))
    | some (.file _ m) => (some l, fs.set l (.file [] m))
    | some _ => (none, fs)

def contentAt (fs : FS) (l : List Bytes) : Bytes := match fs.get l with
  | some (.file c _) => c
  | _ => []

def writeAll (fs : FS) (l : List Bytes) (c : Bytes) : FS := match fs.get l with
  | some (.file _ m) => fs.set l (.file c m)
  | _ => fs

/-- `fs_copy_file`, src/platform/posix/filesystem.c:172-243, with `fs_copy_link`, 139-170: the destination is emptied before the source is read. Reading and writing succeed. -/
def fsCopyFile (S : Sys) (src dest : Bytes) : Act := fun fs =>
  match resolve fs false src with
  | none => (false, fs)
  | some ls => match fs.get ls with
    | some (.link t) => fsMakeSymlink t dest fs
    | some (.file _ m) =>
      match sysCreate S dest m fs with
      | (none, fs) => (false, fs)
      | (some ld, fs) => (true, writeAll fs ld (contentAt fs ls))
    | _ => (false, fs)

/-- `fs_chmod`, src/platform/posix/filesystem.c:331-361; the permissions of a link cannot be changed, which is a warning only. -/
def fsChmod (p : Bytes) (mode : Nat) : Act := fun fs =>
  if mode &&& 0o1000 ≠ 0 ∧ !isDir (stat fs p) then (false, fs)
  else if fsSymlinkExists fs p then (true, fs)
  else match resolve fs true p with
    | none => (false, fs)
    | some l => match fs.get l with
      | some (.file c _) => (true, fs.set l (.file c mode))
      | some (.dir _) => (true, fs.set l (.dir mode))
      | some _ => (true, fs)
      | none => (false, fs)

/-- The loop of `fs_dir_foreach`, src/platform/posix/filesystem.c:257-273. -/
def eachName (cb : Bytes → Act) : List Bytes → Act
  | [] => Act.pass
  | c :: l => (cb c).seq (eachName cb l)

/-- `fs_dir_foreach`, src/platform/posix/filesystem.c:245-281. The entries are those at the beginning: what is added or removed meanwhile is not seen. -/
def dirForeach (p : Bytes) (cb : Bytes → Act) : Act := fun fs =>
  match resolve fs true p with
  | none => (false, fs)
  | some l => if isDir (fs.get l) then eachName cb (fs.names l) fs else (false, fs)

/-! ### Functions on paths -/

def ensureDir (S : Sys) (p : Bytes) : Act := fun fs => if fsDirExists fs p then (true, fs) else fsMkdir S p fs

/-- The loop of `fs_mkdir_p`, src/platform/filesystem.c:58-68, from position `i`. -/
def mkdirLoop (S : Sys) (buf : Bytes) : Nat → Nat → Act
  | 0, _ => Act.pass
  | n + 1, i => (if byteAt buf i = 47 then ensureDir S (buf.take i) else Act.pass).seq (mkdirLoop S buf n (i + 1))

/-- `fs_mkdir_p`, src/platform/filesystem.c:48-80. If the copy is shorter than the path, what follows its end is not looked at (in the code a stale slash there only leads to the whole path being made
earlier). -/
def mkdirP (S : Sys) (p : Bytes) : Act :=
  let buf := copy p
  (mkdirLoop S buf (buf.length - 1) 1).seq (ensureDir S p)

/-- `fs_copy_dir` and `fs_copy_dir_iter`, src/platform/filesystem.c:374-431. The number bounds the depth: every level makes the path longer, and longer paths than 4096 characters do not exist. -/
def copyDir (S : Sys) : Nat → Bytes → Bytes → Act
  | 0, _, _ => Act.fail
  | n + 1, src, dest => (ensureDir S dest).seq (dirForeach src fun c => fun fs =>
      let s := join src c
      let d := join dest c
      match stat fs s with
      | some (.dir _) => ((ensureDir S d).seq (copyDir S n s d)) fs
      | some (.file _ _) => fsCopyFile S s d fs
      | _ => (false, fs))

/-- What is the same for all entries of a directory that is installed, `struct copy_subdir_ctx`, src/cmd_install.c:24-32. -/
structure Sub where
  root : Bytes
  perm : Option Nat
  excludeDirs : List Bytes
  excludeFiles : List Bytes

def chmodOpt (p : Bytes) : Option Nat → Act
  | none => Act.pass
  | some m => fsChmod p m

/-- `copy_subdir_iter`, src/cmd_install.c:34-99, for an entry `src` that is to become `dest`. The name relative to the source is taken from `path_relative_to`; that it fails is excluded in the code by an
assertion, here it is a failure. -/
def copySub (S : Sys) (X : Sub) : Nat → Bytes → Bytes → Act
  | 0, _, _ => Act.fail
  | n + 1, src, dest => fun fs =>
    match relativeTo X.root src with
    | .ok rel =>
      if fsDirExists fs src then
        if rel ∈ X.excludeDirs then (true, fs)
        else (((ensureDir S dest).seq (dirForeach src fun c => copySub S X n (join src c) (join dest c))).seq (chmodOpt dest X.perm)) fs
      else if fsSymlinkExists fs src || fsFileExists fs src then
        if rel ∈ X.excludeFiles then (true, fs)
        else ((fsCopyFile S src dest).seq (chmodOpt dest X.perm)) fs
      else (false, fs)
    | _ => (false, fs)

/-- `fix_rpaths` on a file, src/platform/posix/rpath_fixer.c:309-362. -/
def fixFile (S : Sys) (p : Bytes) : Act := fun fs =>
  match resolve fs true p with
  | none => (false, fs)
  | some l => match fs.get l with
    | some (.file c m) => ((S.fix c).1, fs.set l (.file (S.fix c).2 m))
    | _ => (false, fs)

/-- The destination with DESTDIR, src/cmd_install.c:121-125. -/
def fullDest (destdir : Option Bytes) (dest : Bytes) : Bytes := match destdir with
  | none => dest
  | some d => joinAbsolute d dest

/-- The depth of directories that can be copied. -/
def maxDepth : Nat := 4096

/-- The copy of a target, src/cmd_install.c:162-170. -/
def copyAny (S : Sys) (src dest : Bytes) : Act := fun fs => if fsDirExists fs src then copyDir S maxDepth src dest fs else fsCopyFile S src dest fs

/-- The part of `install_iter` that is common to files and links, src/cmd_install.c:148-159: the directory is made, then `act` is done. -/
def inParent (S : Sys) (dest : Bytes) (act : Act) : Act := fun fs =>
  if fsExists fs (dirname dest) && !fsDirExists fs (dirname dest) then (false, fs) else ((mkdirP S (dirname dest)).seq act) fs

/-- `install_iter`, src/cmd_install.c:108-217, lines 147-210 for the full destination. -/
def installBody (S : Sys) (t : Target) (dest : Bytes) : Act := match t.kind with
  | .default => inParent S dest ((copyAny S t.src dest).seq (if t.build then fixFile S dest else Act.pass))
  | .symlink => inParent S dest (fsMakeSymlink t.src dest)
  | .subdir => (mkdirP S dest).seq (dirForeach t.src fun c => copySub S ⟨t.src, t.perm, t.excludeDirs, t.excludeFiles⟩ maxDepth (join t.src c) (join dest c))
  | .emptydir => mkdirP S dest

/-- `install_iter`, src/cmd_install.c:108-217, from line 147 on, for the full destination. -/
def installTarget (S : Sys) (t : Target) (dest : Bytes) : Act := (installBody S t dest).seq (chmodOpt dest t.perm)

/-- `install_iter`, src/cmd_install.c:108-217. -/
def installIter (S : Sys) (destdir : Option Bytes) (dry : Bool) (t : Target) : Act :=
  if dry then Act.pass else installTarget S t (fullDest destdir t.dest)

/-- The loop over the targets, src/cmd_install.c:326: it ends with the first that fails. -/
def installAll (S : Sys) (destdir : Option Bytes) (dry : Bool) : List Target → Act
  | [] => Act.pass
  | t :: ts => (installIter S destdir dry t).seq (installAll S destdir dry ts)

/-- A script: whether it can be run for a dry run, and what it does (given whether it is one): arbitrary changes, and its success. -/
structure Script where
  dryRun : Bool
  run : Bool → Act

/-- `install_scripts_iter` for all scripts, src/cmd_install.c:219-271, 327. -/
def installScripts (dry : Bool) : List Script → Act
  | [] => Act.pass
  | s :: l => (if dry && !s.dryRun then Act.pass else s.run dry).seq (installScripts dry l)

/-- `install_run`, src/cmd_install.c:273-333, for a plan that could be read (C36): the result is not that of the targets and scripts. -/
def installRun (S : Sys) (cwd : Bytes) (destdir : Option Bytes) (dry : Bool) (ts : List Target) (ss : List Script) : Act := fun fs =>
  let r := installAll S (destdir.map (makeAbsolute cwd)) dry ts fs
  let r := installScripts dry ss r.2
  (true, r.2)

end Muon.Install
