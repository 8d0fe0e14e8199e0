import Verif.Path.Model
import Verif.Opt.Model
/-
The command lines of compilers and linkers: src/backend/common_args.c and the tables of arguments, src/compilers.c:596-1593.

The functions of the tables return a pointer to a static `struct args`; three of them set its length to 0 and never back.
These lengths are the state that is threaded through the calls. What is not modelled: the joining of the arguments to one
text (`join_args_shell_ninja`, modelled in Verif/Esc), the private directory that `build_target_args` creates,
`MUON_BOOTSTRAPPED` is defined.
-/
namespace Muon.Cmdline
open Muon

/-- `enum compiler_type`, include/compilers.h:18-29. -/
inductive Cc
  | posix | gcc | clang | appleClang | clangIr | clangCl | msvc | nasm | yasm
deriving DecidableEq, Repr

/-- `enum linker_type`, include/compilers.h:31-39. -/
inductive Ld
  | posix | gcc | clang | apple | lldLink | msvc
deriving DecidableEq, Repr

/-- `enum compiler_language`, include/compilers.h:48-60: the two languages that have options of their own, and the others. -/
inductive Lang
  | c | cpp | other (n : Nat)
deriving DecidableEq, Repr

/-- `enum compiler_optimization_lvl`, include/compilers.h:68-76. -/
inductive Lvl
  | none | o0 | o1 | o2 | o3 | og | os
deriving DecidableEq, Repr

/-- `enum compiler_visibility_type`, include/compilers.h:91-97. -/
inductive Vis
  | default | hidden | internal | prot | inlineshidden
deriving DecidableEq, Repr

/-- The lengths of the static arrays of arguments that are changed and not set back: whether `args.len` is still 1 in
`compiler_posix_args_optimization`, `compiler_gcc_args_optimization` and `compiler_cl_args_warning_lvl`,
compilers.c:632-654, 715-745 and 1043-1069. -/
structure Statics where
  posixOpt : Bool
  gccOpt : Bool
  clWarn : Bool
deriving DecidableEq, Repr

/-- The state when the program starts: `COMPILER_ARGS`, compilers.c:597-602. -/
def Statics.start : Statics := ⟨true, true, true⟩

/-- `snprintf(buf, BUF_SIZE_S, ...)`: at most 254 bytes, include/buf_size.h:9: `BUF_SIZE_S` is 255. -/
def clip (s : Bytes) : Bytes := s.take 254

/-- An argument that is there on a condition. -/
def opt (b : Bool) (a : List Bytes) : List Bytes := if b then a else []

/-- Whether the table of the compiler is made from that of gcc: `gcc`, `clang`, `apple_clang`, compilers.c:1238-1265. -/
def gccLike : Cc → Bool
  | .gcc | .clang | .appleClang => true
  | _ => false

/-- Whether the table is made from that of msvc, compilers.c:1267-1290. -/
def clLike : Cc → Bool
  | .msvc | .clangCl => true
  | _ => false

/-- Whether the arguments for optimisation, debugging and directories are those of a posix compiler,
compilers.c:1226-1236 and 1300-1311. -/
def posixLike : Cc → Bool
  | .posix | .nasm | .yasm => true
  | _ => false

/-- `compiler_posix_args_optimization`, compilers.c:632-654. -/
def posixOptimization (l : Lvl) (s : Statics) : List Bytes × Statics :=
  match l with
  | .o0 => (opt s.posixOpt [ascii "-O0"], s)
  | .o1 | .o2 | .o3 => (opt s.posixOpt [ascii "-O1"], s)
  | .none | .og | .os => ([], { s with posixOpt := false })

/-- `compiler_gcc_args_optimization`, compilers.c:715-745. -/
def gccOptimization (l : Lvl) (s : Statics) : List Bytes × Statics :=
  match l with
  | .none => ([], { s with gccOpt := false })
  | .o0 => (opt s.gccOpt [ascii "-O0"], s)
  | .o1 => (opt s.gccOpt [ascii "-O1"], s)
  | .o2 => (opt s.gccOpt [ascii "-O2"], s)
  | .o3 => (opt s.gccOpt [ascii "-O3"], s)
  | .og => (opt s.gccOpt [ascii "-Og"], s)
  | .os => (opt s.gccOpt [ascii "-Os"], s)

/-- `compiler_cl_args_optimization`, compilers.c:999-1033: here the length is set in every case. -/
def clOptimization : Lvl → List Bytes
  | .none | .og => []
  | .o0 => [ascii "/Od"]
  | .o1 => [ascii "/O1"]
  | .o2 => [ascii "/O2"]
  | .o3 => [ascii "/O2", ascii "/Gw"]
  | .os => [ascii "/O1", ascii "/Gw"]

/-- `compilers[t].args.optimization`. -/
def optimization (t : Cc) (l : Lvl) (s : Statics) : List Bytes × Statics :=
  if gccLike t then gccOptimization l s
  else if clLike t then (clOptimization l, s)
  else if posixLike t then posixOptimization l s
  else ([], s)

/-- `compilers[t].args.debug`, compilers.c:656-662 and 1035-1041. -/
def debugArgs (t : Cc) : List Bytes :=
  if gccLike t || posixLike t then [ascii "-g"] else if clLike t then [ascii "/Zi"] else []

/-- `compiler_gcc_args_warning_lvl`, compilers.c:747-775; the length is set in every case. -/
def gccWarning : Nat → List Bytes
  | 3 => [ascii "-Wpedantic", ascii "-Wextra", ascii "-Wall"]
  | 2 => [ascii "-Wextra", ascii "-Wall"]
  | 1 => [ascii "-Wall"]
  | _ => []

/-- `compiler_cl_args_warning_lvl`, compilers.c:1043-1069. -/
def clWarning (lvl : Nat) (s : Statics) : List Bytes × Statics :=
  match lvl with
  | 0 => ([], { s with clWarn := false })
  | 1 => (opt s.clWarn [ascii "/W2"], s)
  | 2 => (opt s.clWarn [ascii "/W3"], s)
  | _ => (opt s.clWarn [ascii "/W4"], s)

/-- `compilers[t].args.warning_lvl`. -/
def warning (t : Cc) (lvl : Nat) (s : Statics) : List Bytes × Statics :=
  if gccLike t then (gccWarning lvl, s)
  else if clLike t then clWarning lvl s
  else ([], s)

/-- `compiler_gcc_args_warn_everything`, compilers.c:784-819. -/
def gccEverything : List Bytes :=
  ["-Wall", "-Winvalid-pch", "-Wextra", "-Wpedantic", "-Wcast-qual", "-Wconversion", "-Wfloat-equal", "-Wformat=2",
    "-Winline", "-Wmissing-declarations", "-Wredundant-decls", "-Wshadow", "-Wundef", "-Wuninitialized",
    "-Wwrite-strings", "-Wdisabled-optimization", "-Wpacked", "-Wpadded", "-Wmultichar", "-Wswitch-default",
    "-Wswitch-enum", "-Wunused-macros", "-Wmissing-include-dirs", "-Wunsafe-loop-optimizations", "-Wstack-protector",
    "-Wstrict-overflow=5", "-Warray-bounds=2", "-Wlogical-op", "-Wstrict-aliasing=3", "-Wvla", "-Wdouble-promotion",
    "-Wsuggest-attribute=const", "-Wsuggest-attribute=noreturn", "-Wsuggest-attribute=pure", "-Wtrampolines",
    "-Wvector-operation-performance", "-Wsuggest-attribute=format", "-Wdate-time", "-Wformat-signedness",
    "-Wnormalized=nfc", "-Wduplicated-cond", "-Wnull-dereference", "-Wshift-negative-value", "-Wshift-overflow=2",
    "-Wunused-const-variable=2", "-Walloca", "-Walloc-zero", "-Wformat-overflow=2", "-Wformat-truncation=2",
    "-Wstringop-overflow=3", "-Wduplicated-branches", "-Wattribute-alias=2", "-Wcast-align=strict",
    "-Wsuggest-attribute=cold", "-Wsuggest-attribute=malloc", "-Wanalyzer-too-complex", "-Warith-conversion",
    "-Wbidi-chars=ucn", "-Wopenacc-parallelism", "-Wtrivial-auto-var-init", "-Wbad-function-cast",
    "-Wmissing-prototypes", "-Wnested-externs", "-Wstrict-prototypes", "-Wold-style-definition", "-Winit-self",
    "-Wc++-compat", "-Wunsuffixed-float-constants"].map ascii

/-- `compilers[t].args.warn_everything`, compilers.c:784-826 and 1071-1076. -/
def everything : Cc → List Bytes
  | .gcc => gccEverything
  | .clang | .appleClang => [ascii "-Weverything"]
  | .msvc | .clangCl => [ascii "/Wall"]
  | _ => []

/-- `compilers[t].args.werror`, compilers.c:777-782 and 1078-1083. -/
def werrorArgs (t : Cc) : List Bytes :=
  if gccLike t then [ascii "-Werror"] else if clLike t then [ascii "/WX"] else []

/-- `compilers[t].args.set_std`, compilers.c:828-837 and 1085-1093. -/
def stdArgs (t : Cc) (s : Bytes) : List Bytes :=
  if gccLike t then [clip (ascii "-std=" ++ s)] else if clLike t then [clip (ascii "/std:" ++ s)] else []

/-- `compiler_gcc_args_pgo`, compilers.c:839-858; `use`: the second stage. -/
def gccPgo (use : Bool) : List Bytes :=
  if use then [ascii "-fprofile-use", ascii "-fprofile-correction"] else [ascii "-fprofile-generate"]

/-- `compilers[t].args.pgo`. -/
def pgoArgs (t : Cc) (use : Bool) : List Bytes := if gccLike t then gccPgo use else []

/-- `compiler_gcc_args_sanitize`, compilers.c:874-883. -/
def gccSanitize (s : Bytes) : List Bytes := [clip (ascii "-fsanitize=" ++ s)]

/-- `compilers[t].args.sanitize`, compilers.c:874-883 and 1105-1113. -/
def sanitizeArgs (t : Cc) (s : Bytes) : List Bytes := if gccLike t || clLike t then gccSanitize s else []

/-- `compilers[t].args.define`, compilers.c:674-682 and 1115-1123. -/
def defineArgs (t : Cc) (s : Bytes) : List Bytes :=
  if gccLike t || posixLike t then [ascii "-D", s] else if clLike t then [ascii "/D", s] else []

/-- `compilers[t].args.color_output`, compilers.c:926-935 and 1125-1132. -/
def colorArgs (t : Cc) (s : Bytes) : List Bytes :=
  if gccLike t then [clip (ascii "-fdiagnostics-color=" ++ s)]
  else if t = .clangCl then [ascii "-fcolor-diagnostics"] else []

/-- `compilers[t].args.enable_lto`, compilers.c:937-943 and 1134-1140. -/
def ltoArgs (t : Cc) : List Bytes := if gccLike t || t = .clangCl then [ascii "-flto"] else []

/-- `compilers[t].args.include`, compilers.c:664-672 and 1095-1103. -/
def includeArgs (t : Cc) (d : Bytes) : List Bytes :=
  if gccLike t || posixLike t then [ascii "-I", d] else if clLike t then [ascii "/I", d] else []

/-- `compilers[t].args.include_system`, compilers.c:664-672 and 694-702; the compilers made from msvc have none. -/
def systemArgs (t : Cc) (d : Bytes) : List Bytes :=
  if gccLike t then [ascii "-isystem", d] else if posixLike t then [ascii "-I", d] else []

/-- `compilers[t].args.pic`, compilers.c:860-865. -/
def picArgs (t : Cc) : List Bytes := if gccLike t then [ascii "-fpic"] else []

/-- `compilers[t].args.pie`, compilers.c:867-872. -/
def pieArgs (t : Cc) : List Bytes := if gccLike t then [ascii "-fpie"] else []

/-- `compilers[t].args.visibility`, compilers.c:885-914. -/
def visArgs (t : Cc) (v : Vis) : List Bytes :=
  if gccLike t then
    match v with
    | .default => [ascii "-fvisibility=default"]
    | .internal => [ascii "-fvisibility=internal"]
    | .prot => [ascii "-fvisibility=protected"]
    | .inlineshidden => [ascii "-fvisibility=hidden", ascii "-fvisibility-inlines-hidden"]
    | .hidden => [ascii "-fvisibility=hidden"]
  else []

/-- `compilers[t].args.always`, compilers.c:949-955. -/
def alwaysArgs (t : Cc) : List Bytes := if clLike t then [ascii "/nologo"] else []

/-! ### Options -/

/-- The value of an option and where it comes from (`enum option_value_source`). -/
structure O where
  val : Opt.OV
  src : Nat
deriving DecidableEq, Repr

/-- A dictionary of options. -/
abbrev Dict := List (Bytes × O)

/-- `obj_dict_index_strn`. -/
def Dict.get (d : Dict) (n : Bytes) : Option O := (d.find? (fun p => p.1 = n)).map Prod.snd

/-- Where the options of a target are looked up. -/
structure Where where
  overrides : Option Dict
  proj : Dict
  glob : Dict
deriving DecidableEq, Repr

/-- `get_option_overridable`, options.c:585-598. -/
def lookup (w : Where) (n : Bytes) : Option O :=
  match w.overrides.bind (fun d => d.get n) with
  | some o => some o
  | none =>
    match w.proj.get n with
    | some o => some o
    | none => w.glob.get n

/-- `get_option_value_overridable`, options.c:607-618; an unknown option is the end of the program. -/
def value (w : Where) (n : Bytes) : Res Opt.OV :=
  match lookup w n with
  | some o => .ok o.val
  | none => .bad

/-- `get_str`, `get_cstr`: an assertion on the type. -/
def asStr : Opt.OV → Res Bytes
  | .str s => .ok s
  | _ => .bad

/-- `get_obj_bool`. -/
def asBool : Opt.OV → Res Bool
  | .bool b => .ok b
  | _ => .bad

/-- The elements of an array of strings. -/
def elems : List Opt.El → Res (List Bytes)
  | [] => .ok []
  | .s b :: r => elems r >>= fun l => .ok (b :: l)
  | .o _ :: _ => .bad

/-- `get_obj_array`. -/
def asArr : Opt.OV → Res (List Bytes)
  | .arr l => elems l
  | _ => .bad

def strOf (w : Where) (n : Bytes) : Res Bytes := value w n >>= asStr
def boolOf (w : Where) (n : Bytes) : Res Bool := value w n >>= asBool
def arrOf (w : Where) (n : Bytes) : Res (List Bytes) := value w n >>= asArr

/-- The switch of `get_buildtype_args`, common_args.c:66-87. "plain" sets the level and then runs into the switch, whose
default is an assertion. -/
def lvlOf (s : Bytes) : Res Lvl :=
  if s = [48] then .ok .o0
  else if s = [49] then .ok .o1
  else if s = [50] then .ok .o2
  else if s = [51] then .ok .o3
  else if s = [103] then .ok .og
  else if s = [115] then .ok .os
  else .bad

/-- The table of `get_buildtype_args`, common_args.c:37-48. -/
def buildtypes : List (Bytes × Lvl × Bool) :=
  [(ascii "plain", .none, false), (ascii "debug", .o0, true), (ascii "debugoptimized", .og, true),
    (ascii "release", .o3, false), (ascii "minsize", .os, false)]

/-- `use_custom`, common_args.c:50-58. -/
def custom (o : O) (bt : Bytes) : Bool := bt = ascii "custom" || o.src ≤ Opt.srcDefault

/-- `get_buildtype_args`, common_args.c:29-102: the level and whether there is debugging information. -/
def buildtype (w : Where) : Res (Lvl × Bool) :=
  match lookup w (ascii "buildtype") with
  | none => .bad
  | some o => asStr o.val >>= fun bt =>
    if custom o bt then
      strOf w (ascii "optimization") >>= fun s =>
      value w (ascii "debug") >>= fun d =>
      lvlOf s >>= fun l => asBool d >>= fun b => .ok (l, b)
    else match buildtypes.find? (fun e => e.1 = bt) with
      | some e => .ok e.2
      | none => .error

/-- `get_buildtype_args`, common_args.c:103-108. -/
def buildtypeArgs (t : Cc) (lb : Lvl × Bool) (s : Statics) : List Bytes × Statics :=
  (opt lb.2 (debugArgs t) ++ (optimization t lb.1 s).1, (optimization t lb.1 s).2)

/-- The switch of `get_warning_args`, common_args.c:125-142. -/
def warnOf (s : Bytes) : Res Nat :=
  if s = [48] then .ok 0 else if s = [49] then .ok 1 else if s = [50] then .ok 2 else if s = [51] then .ok 3 else .bad

/-- `get_warning_args`, common_args.c:111-145. -/
def warningArgs (t : Cc) (w : Where) (s : Statics) : Res (List Bytes × Statics) :=
  strOf w (ascii "warning_level") >>= fun l =>
  if l = ascii "everything" then .ok (everything t, s)
  else warnOf l >>= fun n => .ok (warning t n s)

/-- `get_werror_args`, common_args.c:147-157. -/
def werror (t : Cc) (w : Where) : Res (List Bytes) :=
  boolOf w (ascii "werror") >>= fun b => .ok (opt b (werrorArgs t))

/-- The option of a language, `c_std` and so on, common_args.c:159-201 and 477-494. -/
def optName (l : Lang) (c cpp : String) : Option Bytes :=
  match l with
  | .c => some (ascii c)
  | .cpp => some (ascii cpp)
  | .other _ => none

/-- `get_std_args`, common_args.c:159-182. -/
def std (t : Cc) (l : Lang) (w : Where) : Res (List Bytes) :=
  match optName l "c_std" "cpp_std" with
  | none => .ok []
  | some n => strOf w n >>= fun s => .ok (opt (s ≠ ascii "none") (stdArgs t s))

/-- `get_option_compile_args`, common_args.c:184-201. -/
def optionArgs (l : Lang) (w : Where) : Res (List Bytes) :=
  match optName l "c_args" "cpp_args" with
  | none => .ok []
  | some n => arrOf w n

/-- `get_option_link_args`, common_args.c:477-494. -/
def optionLinkArgs (l : Lang) (w : Where) : Res (List Bytes) :=
  match optName l "c_link_args" "cpp_link_args" with
  | none => .ok []
  | some n => arrOf w n

/-- The stage of `b_pgo`, common_args.c:272-285 and 519-532: nothing, or whether it is the second one. -/
def pgo (w : Where) : Res (Option Bool) :=
  strOf w (ascii "b_pgo") >>= fun s =>
  if s = ascii "off" then .ok none
  else if s = ascii "generate" then .ok (some false)
  else if s = ascii "use" then .ok (some true)
  else .bad

/-- Whether `NDEBUG` is defined, common_args.c:292-299. -/
def ndebug (w : Where) : Res Bool :=
  strOf w (ascii "buildtype") >>= fun bt =>
  strOf w (ascii "b_ndebug") >>= fun v =>
  .ok (v = ascii "true" || (v = ascii "if-release" && bt = ascii "release"))

def pgoPart (t : Cc) : Option Bool → List Bytes
  | none => []
  | some b => pgoArgs t b

/-- `setup_optional_b_args_compiler`, common_args.c:263-311. -/
def bArgs (t : Cc) (w : Where) : Res (List Bytes) :=
  pgo w >>= fun p =>
  strOf w (ascii "b_sanitize") >>= fun sa =>
  ndebug w >>= fun nd =>
  strOf w (ascii "b_colorout") >>= fun co =>
  boolOf w (ascii "b_lto") >>= fun lto =>
  .ok (pgoPart t p ++ opt (sa ≠ ascii "none") (sanitizeArgs t sa) ++ opt nd (defineArgs t (ascii "NDEBUG")) ++
    opt (co ≠ ascii "never") (colorArgs t co) ++ opt lto (ltoArgs t))

/-- `get_base_compiler_args`, common_args.c:313-355. `glob`, `proj`: the arguments that `add_global_arguments` and
`add_project_arguments` gave for the language. -/
def baseArgs (t : Cc) (l : Lang) (w : Where) (glob proj : List Bytes) (s : Statics) : Res (List Bytes × Statics) :=
  std t l w >>= fun a1 =>
  buildtype w >>= fun lb =>
  warningArgs t w (buildtypeArgs t lb s).2 >>= fun a3 =>
  werror t w >>= fun a4 =>
  bArgs t w >>= fun a5 =>
  optionArgs l w >>= fun a6 =>
  .ok (alwaysArgs t ++ a1 ++ (buildtypeArgs t lb s).1 ++ a3.1 ++ a4 ++ a5 ++ a6 ++ glob ++ proj, a3.2)

/-! ### Directories for headers -/

/-- An element of `include_directories`: an object made by `include_directories()`, or a string. -/
inductive Inc
  | dir (path : Bytes) (sys : Bool)
  | str (path : Bytes)
deriving DecidableEq, Repr

def Inc.path : Inc → Bytes
  | .dir p _ => p
  | .str p => p

def Inc.sys : Inc → Bool
  | .dir _ b => b
  | .str _ => false

/-- `obj_array_dedup`, object.c:898-905 (modelled with the hash table in Verif/Val): the first occurrences. -/
def dedup (l : List Inc) : List Inc := l.foldl (fun r x => if x ∈ r then r else r ++ [x]) []

/-- What stands on the command line for a directory, common_args.c:233-243. -/
def incText (build d : Bytes) : Res Bytes := if Path.isAbsolute d then Path.relativeTo build d else .ok d

/-- `setup_compiler_args_includes_iter`, common_args.c:209-252, for each element, with `dont_relativize` false. `ex`:
`fs_dir_exists`. -/
def incArgs (t : Cc) (ex : Bytes → Bool) (build : Bytes) : List Inc → Res (List Bytes)
  | [] => .ok []
  | i :: r =>
    if ex i.path then
      incText build i.path >>= fun d => incArgs t ex build r >>= fun l =>
      .ok ((if i.sys then systemArgs t d else includeArgs t d) ++ l)
    else incArgs t ex build r

/-- The directories, common_args.c:381-392: those of the target, then those of the project (`none`: the project has none
for this language). -/
def incDirs (own : List Inc) : Option (List Inc) → List Inc
  | none => dedup own
  | some p => dedup (dedup own ++ p)

/-! ### The compile command -/

/-- What a target and its project contribute for one language. -/
structure Tgt where
  where_ : Where
  globArgs : List Bytes
  projArgs : List Bytes
  projIncs : Option (List Inc)
  incs : List Inc
  priv : Option Bytes
  depArgs : List Bytes
  args : List Bytes
  pic : Bool
  pie : Bool
  vis : Option Vis
deriving DecidableEq, Repr

/-- `build_target_args`, common_args.c:448-475: a target whose sources are made in the build directory looks there first. -/
def ownIncs (g : Tgt) : List Inc :=
  match g.priv with
  | some p => .str p :: g.incs
  | none => g.incs

def visPart (t : Cc) : Option Vis → List Bytes
  | none => []
  | some v => visArgs t v

/-- `setup_compiler_args_iter`, common_args.c:367-424. -/
def compileArgs (ex : Bytes → Bool) (build : Bytes) (t : Cc) (l : Lang) (g : Tgt) (s : Statics) : Res (List Bytes × Statics) :=
  baseArgs t l g.where_ g.globArgs g.projArgs s >>= fun b =>
  incArgs t ex build (incDirs (ownIncs g) g.projIncs) >>= fun i =>
  .ok (b.1 ++ i ++ g.depArgs ++ g.args ++ opt g.pic (picArgs t) ++ opt g.pie (pieArgs t) ++ visPart t g.vis, b.2)

/-- One call of `setup_compiler_args_iter`. -/
structure Call where
  cc : Cc
  lang : Lang
  tgt : Tgt
deriving DecidableEq, Repr

/-- The calls of one run: `setup_compiler_args`, common_args.c:426-446, for each target and each language. -/
def calls (ex : Bytes → Bool) (build : Bytes) : List Call → Statics → Res (List (List Bytes) × Statics)
  | [], s => .ok ([], s)
  | c :: r, s =>
    compileArgs ex build c.cc c.lang c.tgt s >>= fun a =>
    calls ex build r a.2 >>= fun l => .ok (a.1 :: l.1, l.2)

/-! ### The link command -/

/-- Whether the table of the linker is made from that of gcc, compilers.c:1507-1523. -/
def ldGcc : Ld → Bool
  | .gcc | .clang => true
  | _ => false

/-- `linkers[t].args.pgo`. -/
def ldPgo (t : Ld) : Option Bool → List Bytes
  | none => []
  | some b => if ldGcc t then gccPgo b else []

/-- `linkers[t].args.sanitize`, compilers.c:1515 and 1526. -/
def ldSanitize (t : Ld) (s : Bytes) : List Bytes := if ldGcc t || t = .apple then gccSanitize s else []

/-- `linkers[t].args.enable_lto`, compilers.c:1521 and 1527. -/
def ldLto (t : Ld) : List Bytes := if ldGcc t || t = .apple then [ascii "-flto"] else []

/-- `linkers[t].args.rpath`, compilers.c:1382-1391. -/
def ldRpath (t : Ld) (p : Bytes) : List Bytes := if ldGcc t then [clip (ascii "-Wl,-rpath," ++ p)] else []

/-- `linkers[t].args.soname`, compilers.c:1371-1380 and 1445-1454. -/
def ldSoname (t : Ld) (p : Bytes) : List Bytes :=
  if ldGcc t then [clip (ascii "-Wl,-soname," ++ p)]
  else if t = .msvc || t = .lldLink then [clip (ascii "/OUT:" ++ p)] else []

/-- `linkers[t].args.as_needed`, `no_undefined`, `export_dynamic`, compilers.c:1343-1355 and 1400-1405. -/
def ldFlag (t : Ld) (s : String) : List Bytes := if ldGcc t then [ascii s] else []

/-- `setup_optional_b_args_linker`, common_args.c:510-545. -/
def bLink (t : Ld) (w : Where) : Res (List Bytes) :=
  pgo w >>= fun p =>
  strOf w (ascii "b_sanitize") >>= fun sa =>
  boolOf w (ascii "b_lto") >>= fun lto =>
  .ok (ldPgo t p ++ opt (sa ≠ ascii "none") (ldSanitize t sa) ++ opt lto (ldLto t))

/-- What a target and its project contribute to the link command. -/
structure LTgt where
  where_ : Where
  globArgs : List Bytes
  projArgs : List Bytes
  args : List Bytes
  isModule : Bool
  exportDynamic : Bool
  rpaths : List Bytes
deriving DecidableEq, Repr

/-- `setup_linker_args`, common_args.c:572-606, for a target; the libraries that follow are modelled in Verif/Deps. -/
def linkArgs (t : Ld) (l : Lang) (g : LTgt) : Res (List Bytes) :=
  bLink t g.where_ >>= fun b =>
  optionLinkArgs l g.where_ >>= fun o =>
  .ok (g.args ++ ldFlag t "-Wl,--as-needed" ++ opt (!g.isModule) (ldFlag t "-Wl,--no-undefined") ++
    opt g.exportDynamic (ldFlag t "-Wl,-export-dynamic") ++ b ++ o ++ g.globArgs ++ g.projArgs ++
    (g.rpaths.filter (fun p => p ≠ [])).flatMap (ldRpath t))

/-! ### The command that configures again -/

/-- `obj_array_join` with a comma. -/
def joinComma : List Bytes → Bytes
  | [] => []
  | [a] => a
  | a :: b :: r => a ++ 44 :: joinComma (b :: r)

/-- `add_global_opts_set_from_env_iter`, common_args.c:706-740: the argument for one option, if it was set from the
environment. -/
def envArg (p : Bytes × O) : Res (List Bytes) :=
  if p.2.src ≠ 2 then .ok []
  else match p.2.val with
    | .str s => .ok [ascii "-D" ++ p.1 ++ 61 :: s]
    | .arr l => elems l >>= fun e => .ok [ascii "-D" ++ p.1 ++ 61 :: joinComma e]
    | _ => .bad

def envArgs : Dict → Res (List Bytes)
  | [] => .ok []
  | p :: r => envArg p >>= fun a => envArgs r >>= fun l => .ok (a ++ l)

/-- What the run that configures knows. -/
structure Run where
  argv0 : Bytes
  source : Bytes
  cache : Bytes
  glob : Dict
  argv : List Bytes
deriving DecidableEq, Repr

/-- `regenerate_build_command`, common_args.c:742-771, with `opts_only` false. -/
def regenerate (r : Run) : Res (List Bytes) :=
  envArgs r.glob >>= fun e =>
  .ok ([r.argv0, ascii "-C", r.source, ascii "setup", ascii "-c", r.cache] ++ e ++ r.argv)

end Muon.Cmdline
