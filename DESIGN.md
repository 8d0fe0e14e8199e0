# Design of the formal model of muon

## 1. What this is

`/verif/lean` contains a Lean 4 model of selected parts of muon (a C implementation of the Meson build
system with an embedded copy of the samurai ninja implementation) and theorems about that model.
Properties are listed in `properties.jsonl`, their status in `MANIFEST.json`, mutation experiments in
`seeded/LOG.jsonl`.

Layout, per component `X`:

* `Verif/X/Model.lean` (or `Verif/X.lean` for small ones): the model. Every definition cites file and lines in `/repo`.
* `Verif/X/Spec.lean`: the small independent specification, when the property needs one.
* `Verif/X/Lemmas.lean`: helper lemmas, not to be read by someone checking the claims.
* `Verif/X/Props.lean`: the property theorems, each followed by an `example` showing that its hypotheses are met
  by a concrete non-trivial case.

## 2. Modelling conventions

* Bytes are `UInt8`, byte strings are `List UInt8` (`Bytes`). C strings carry a NUL at index `len`: reads at `len`
  give 0, reads past it are undefined behaviour and get a distinct outcome wherever the property is about memory safety.
* Mutable structs become records, functions become state transformers. Pointers into an array/heap become indices.
* Loops become structural or well-founded recursion. Where termination of the C loop is itself in question
  the model uses fuel and the theorem says how much fuel suffices (or that none does).
* `int64_t` arithmetic is `Int` with an explicit overflow outcome (signed overflow is undefined in C);
  `uint32_t` loop counters that can wrap are modelled with wrap-around.
* External calls (stat, getenv, fread, process exit codes, ...) are parameters, universally quantified in theorems.
* Allocation never fails (the code aborts on failure).

If the code violates a property, the negation is proved with a concrete witness (name ends in `_counterexample`),
and the strongest true restriction is proved as `..._partial`.

## 3. Trusted base

* Lean 4.33.0 kernel. No axioms of our own; theorems depend at most on `propext`, `Classical.choice`, `Quot.sound`
  (checked with `#print axioms`, see section 6).
* The hand translation from C to Lean (cited line by line), and the conventions above.
* The specifications, which are small and meant to be read.

## 4. Plan per property

| id | model | proof method |
|----|-------|--------------|
| C01 | `rpmvercmp` as recursion on both strings | show comparison = lexicographic comparison of a canonical key; order laws from key order |
| C02 | operator table scan of `version_compare_iter` | case analysis on operator prefix, spec = relation on C01 order |
| C03 | hash table with meta bytes, probe, resize, tombstones; hash function a parameter | invariant by induction over operations, refinement to a function `key → Option value` |
| C04 | same model, probe as fuel-free loop via invariant | counting argument: at least one empty slot |
| C05 | `str_split`, `str_join` loops | induction on remaining input; pieces contain no separator |
| C06 | `replace` loop with fuel | spec = join of split; empty needle: no fuel suffices (negation) |
| C07 | `str_strip` index loops | equals dropWhile from both ends |
| C08 | comparison loops | iff with `<:+:`, `<+:`, `<:+`; `contains` of empty string in empty string is a witnessed exception |
| C09 | `substring` index arithmetic with an over-read outcome | witness of over-read; exact slice under in-range hypotheses |
| C10 | `bounds_adjust` + array index | witness for very negative index; correctness for i ≥ -len |
| C11 | `string_format` scanner | refinement to grammar-like spec |
| C12 | per-byte maps | map lemmas |
| C13 | decimal printing and strtol | induction on digits |
| C14 | `_path_normalize` | refinement to component-list semantics, idempotence |
| C15 | `path_push`, `path_join` | components of the result |
| C16 | `path_relative_to` | component-list reasoning |
| C17 | `path_is_subpath` | iff prefix of component lists |
| C18 | `path_dirname`, `path_basename` | induction on last separator |
| C19 | `shell_escape` + small POSIX shell word reader | witness for unescaped metacharacters, partial round trip |
| C20 | `ninja_escape` + samurai `scanstring` | round trip by induction, witnesses for `|` and newline |
| C21 | `samu_nodepath` + shell reader | full round trip by induction |
| C22-C25 | lexer model | progress measure, buffer accounting invariant, string literal round trip, UTF-8 encoding |
| C26 | expression parser on token lists | completeness for the Meson grammar if operators of one level are not mixed; counterexamples for `%` `*`, `*` `/`, `+` `-` |
| C27-C29, C58 | interpreter core on an object heap, in `Out` with fuel | simulation with a semantics on values (ownership of the objects of `+=` variables, frame conditions), witnesses of aliasing, of an endless loop and of aborts on disablers |
| C30 | `interp_arithmetic` on Int with UB outcome | case analysis; witnesses of overflow |
| C31 | `func_range` with 32-bit counter | induction, witness of wrap |
| C32 | linked-list arrays in a heap | refinement to `List` |
| C33 | dict list/hash representation | refinement to association list; witnesses for deletion in big dicts |
| C34 | `obj_equal` on values | induction on values |
| C35 | `obj_array_dedup` | refinement to a spec of first occurrences |
| C36 | file format (Serial.Model: dump and load of header, characters, big strings, objects, dict elements) and `obj_clone` (Serial.Clone) | reader takes exactly what the writer wrote and fails on every strict prefix; `obj_clone` keeps the value of an object, by induction on its depth; witnesses for the crash while the big strings are written, the fields not copied and corrupted files |
| C37 | `set_option`, `create_option` and the loop of `setup_project_options` on a list of options; the evaluation of text in brackets is a parameter | invariants over sequences; counterexamples for the disabler, options deprecated to themselves and errors that depend on the order |
| C38 | `parse_config_string` scan | round trip + rejection |
| C39 | environment objects: recorded calls, `environment_to_dict`; `getenv` is a parameter, dictionaries are lists of entries (Verif/Dict) | every variable is the fold of the calls that name it over the inherited value |
| C40 | the loop of `substitute_config` on the text with its NUL byte; the dictionary is a function; files under 4 GiB | accepted exactly if the relation `Subst` (tokens of a template) holds, induction on the length and on the derivation |
| C41 | `file_exists_with_content`, the writing of templates, copies and headers, `generate_config`; file system results are parameters | case analysis on file state; header = relation on entries |
| C42 | source sets as numbered mutable objects, their operations, and `source_set_collect` with bounded stack | invariant: nested sets are frozen, so the sets are acyclic; result = relation that expands sets into their chosen rules; witnesses for the swallowed strict error, self-inclusion, other configuration values, `all_sources` |
| C43 | values as trees, type tags as 64-bit words with the table of complex types, `typecheck`, `typecheck_function_arg`; the analyzer's typeinfo values are not modelled | tags stand for types (relation); induction on the type, any value; witnesses for disablers against element types and for complex tags mistaken for `file` |
| C44 | `calc_sha_256` | equality with FIPS-style spec |
| C45 | `Memmem/Model.lean`: all of `memmem.c`: `memchr`, the shift registers for 2, 3, 4 bytes, the two-way algorithm (last-byte table, both maximal suffix loops, the period, the search loop with what it remembers). Offsets for pointers, a read or a place outside is `bad` | `memmem_first`: for every haystack and needle (of a length that fits in 64 bits) the search ends without a bad read with the first place, or with none if there is none. Invariant of the maximal suffix loop (`Suffix.lean`), critical factorisation theorem (`Crit.lean`), invariant of the search loop (`Search.lean`) |
| C46 | `each_line` on a buffer with its bounds (Lines.Mem), `ini_parse_line_cb`, `ini_parse`, `keyval_parse`; the callback is a parameter | what each line is (relation `Is`, shown total and determined); the callback gets the events of the file in order; witnesses for reads outside the buffer |
| C47 | `tap_parse` with `strstr`, `strtol` and the line splitter on a bounded buffer (Verif/Tap); formatting of reports not modelled | every line is classified by a relation; fold over the lines; verdict as an equation on counts; witnesses |
| C48-C50 | samurai scheduler as a transition system; not modelled: the first pass that rebuilds the manifest, the early exit if only phony edges have work (build.c:444-446) | inductive invariants over all schedules; a decreasing measure for termination; witnesses: pool slots lost by jobs that cannot be started and by dry runs |
| C51 | `samu_isdirty`, `samu_buildadd` | equivalence with an inductive definition of out-of-date edges; witness: a newer file behind a phony target is not noticed |
| C52 | the build log as a byte stream, writer and line reader | prefix induction over every crash point; witnesses of a torn record being believed |
| C53 | the dependency log as a byte stream, writer, reader and the rewriting on start | prefix induction over every crash point; witnesses |
| C54 | `samu_canonpath` in place, in a byte memory with checked accesses | refinement to the component stack; witnesses for the root and the 60 name limit; combined with C56 |
| C55 | `treeinsert`, `balance`, `rot`, `treefind` with the fixed path stack | search order and balance invariants, Fibonacci height bound |
| C56 | open addressing table with growth, `mknode` | refinement to a map, for every hash function |
| C57 | `arr_*`, `bucket_arr_*`, `sbuf_*` on memory as lists of cells, writes outside are a bad outcome (Verif/Buf); allocation always succeeds; the write-to-file mode of string buffers and `bucket_arr_lookup_pointer` not modelled | representation invariants, induction over operations; the overflow of `sbuf_pushf` proved for every buffer and text that meet the condition |
| C59 | `str_eql_glob` | iff with spec of wildcard matching |
| C60 | `path_without_ext` | position of the last dot in the canonical text |
| C61 | `path_executable` | from the normal form |
| C62 | `number`, `strtol` | value of digit strings in all bases; counterexamples for signs and blanks |
| C63 | interpolation in `lex_string_char` | induction over the parts of a format string; counterexample for an unclosed `@` |
| C64 | expression and statement parser on token lists, recursion with fuel | measure 20·length + rank: the fuel is never used up |
| C65 | the same, against an inductive grammar | completeness and soundness by induction on derivations and on fuel; counterexample for a stray `not` and the abort on `a[]` |
| C66 | lexer and parser together | composition with the lexer's round trip; brackets of derivable texts are balanced |
| C67 | the same, `Gap` texts before each token | fuel-independence of one lexer step, induction over gaps and tokens |
| C68 | `interp_index`, `boundscheck` | case analysis; counterexample: `[1][-2]` |
| C69 | the loop of `fs.hash()` that prints the hash | exact characterisation; counterexample |
| C70 | `checksum` of wrap.c, with `strtol` | exact for hexadecimal digits; counterexample |
| C71 | `interp_args`, `process_kwarg` over argument lists of values; the analyzer's modes and the interleaving with evaluation are not modelled | loops = decompositions of the argument list; keyword state as an invariant; iff with a declarative relation; witness `kwargs: disabler()` |
| C72 | `check_test_result_*`, the result part of `collect_tests` and of `tests_run` (Verif/Tap) | case analysis; induction over the results |
| C73 | `push_test`, `collect_tests`, `run_test`, `run_project_tests` as a transition relation, the environment deciding which programs have ended at each poll (Verif/Run); time, output and killing not modelled | inductive invariant over reachable states; decreasing weight for termination |
| C74 | samurai's scan.c and the reading half of parse.c as functions from bytes to statements (Verif/Manifest); running out of a loop bound or of the file inside a comment is `bad` | a grammar with all layouts (Manifest/Spec), induction over its texts; suffix invariants for termination |
| C75 | parse.c and env.c: environments, rules, edges, pools, `samu_edgevar` with its cycle marks; files by name are a parameter | equivalence with a big-step relation; equivalence of the evaluation with an inductive definition, cycles as paths of the reference relation |
| C76 | the same | invariant over all statements, by induction on the depth of inclusion |
| C77 | src/backend/ninja.c, ninja/{rules,custom_target,alias_target,build_target}.c: the text of build.ninja as a function of the targets (Verif/Ninja/Model.lean), with args.c's quoting | the text is shown to be in the grammar of C74 and its statements to have the meaning of C75; the graph that the reader's model returns is computed exactly (`run_build`), for all targets |
| C78 | the same, and the shell's splitting into words (C13) | the graph's edge and the value of its `command`, by induction over the parts of the text |
| C79 | the same, rules of compilers for the options of gcc | the same |
| C80 | escape_rule, uniqify_name, names of rules of compilers and linkers | induction over the list of rules; length of names for the end of the loop |
| C81 | options of `muon internal exe`, cmd_exe, command lines of custom targets and archives | composition: options written by the back end are read by getopt, arguments through argstr and files |
| C82 | getopt (the port for Windows), the option loops of main.c | soundness and completeness with respect to the syntax in Exec/Spec.lean |
| C83 | join_args_argstr, argstr_to_argv, env_to_envstr, the interpreter line, the search in PATH, build_argv | induction over the lists; the syntax of first lines in Exec/Spec.lean |
| C84 | copy_pipe, copy_pipes, run_cmd_collect as a transition system beside the writers | invariant over all runs; a measure for the end |
| C85 | samu_depsparse on characters, src_getc | induction over names with the number of pending backslashes, over lists of dependencies and rules; length of the rest for termination |
| C86 | the printer of fmt.c on trees with parentheses, empty lines and comments between statements; the modelled lexer and parser read the result | induction over trees: what a node prints has, wherever lines are broken, exactly its tokens; newlines are only outside of brackets between statements, or in brackets, since what is assumed to fit has been measured by a dry run of the same width |
| C87 | rpath_fixer.c on the bytes of the file, with a failed read or a write outside of a buffer as their own outcomes | a specification of ELF files as bytes at offsets; the reader finds the table that is there (induction over sections and entries); the loop over the run path by induction over its directories |
| C88 | rwx_to_perm and the part of push_install_target for modes | the text that ls shows for three classes of permissions as specification; both directions by cases on the characters |
| C89 | install.c and functions/kernel/install.c, and the parts of build_target.c and configure_file.c that plan installation: lists of targets | places as lists of components (C15/C16 for path functions), relation between files and targets by induction over the files |
| C90 | cmd_install.c and the functions of platform/filesystem.c and platform/posix/filesystem.c it uses, on a file system of files, directories and links with path resolution | every operation changes only the location of its path, unless a link is on the way (invariants over the operations); effects by induction over the path (fs_mkdir_p) and over the depth of directories |
| C91 | cmd_test.c (setups, suites, names, the loop over the projects), ninja_write_tests and the option -s (Verif/Select); the sort and the running itself are in C73 | the tests gathered are a filter; induction over the projects with the context `proj_i`, `proj_name` left by the previous ones; counterexamples |
| C92 | dependency.c (merging of link_with, link_whole, dependencies, declare_dependency), functions/dependency.c (partial_dependency, as_system), the parts of create_target that use them, coalesce_link_languages, setup_linker_args (Verif/Deps) | a program is a list of calls that refer to earlier ones; an inductive specification over the calls; strong induction over the place in the program with an invariant for the objects already seen; counterexamples |
| C93 | functions/build_target.c (tgt_src_to_object_path), kernel/build_target.c (determine_target_build_name, setup_soname, setup_shared_object_symlinks, build and private path; not on Windows) (Verif/Names) | components of paths, with the lemmas on joining, relative paths and subpaths of C14 to C18; injectivity; following links as an inductive relation; counterexamples |
| C94 | feature_opt.c, get_obj_feature_opt, coerce_requirement (Verif/Feature) | a specification by demands; induction over the chain of calls; counterexample |
| C95 | kernel/build_target.c (tgt_common, type_from_kw, flags, sources and objects in create_target), functions/build_target.c (extraction of objects) (Verif/Kinds) | case analysis of the calls, membership in the lists of objects, with C93 for the rules that make them; counterexamples |
| C96 | kernel/dependency.c (dependency()), kernel/subproject.c (subproject), meson.c (override_dependency) (Verif/Lookup); pkg-config and the evaluation of a subproject are parameters that may do anything | a trace lemma gives the origin of every hit; invariants of caches and heap over histories of lookups; independence of parameters as equality of the outcomes; counterexamples |
| C97 | samurai/tool.c (clean, commands, compdb) (Verif/Tool); graph, query and targets left out | removal as a relation that composes; depth-first search: marked and not printed steps are above in height; a relation between JSON texts and values, independent of the code; counterexamples |
| C98 | functions/modules/pkgconfig.c (Verif/Pc), `joinArgsPkgconf` of Verif/Esc; uninstalled files and the writing itself left out | mutual induction over nested libraries against a reachability relation; a reader of pkg-config files in the specification, and round trips through it; an invariant over histories of calls; counterexamples |
| C99 | functions/compiler.c checks and cache (Verif/Probe); the compiler is a function from command lines and texts to results; logs, preprocess() and the keywords of find_library for headers without has_headers left out | functions as trees of checks; invariant of the cache over histories against a semantics without cache; per function the text and what is made of the answer; a scanner of adjacent literals by induction; counterexamples `Result.lean`: the methods of the results of `run()` (src/functions/run_result.c). |
| C100 | wrap.c and `muon subprojects download` (Verif/Wrap); files, network, archives and commands are parameters; messages left out | reading by induction over the events of C15 against a description of the file; what is provided as a list in which the last entry counts; success iff a chain of steps; invariant of all permitted actions; counterexamples |
| C101 | kernel/subproject.c, eval_project and subproject objects (Verif/Sub); project files are programs of the actions that concern projects; default options, messages left out | a relation that all programs keep, by induction over programs and depth; found iff a chain of steps; counterexamples |
| C102 | modules/fs.c without copyfile, copy, mkdir (Verif/Fsmod); files and `$HOME` are parameters | the normalisation of C14 and the functions of C15-C18 composed; lists of components; runs of backslashes by strong induction; counterexamples |
| C103 | backend/common_args.c without the libraries (C92) and the argument tables of compilers.c (Verif/Cmdline); the static lengths of argument arrays are a state; existence of directories is a parameter | what the options say is a structure related to the dictionaries; induction over the directories, the sequence of targets and the dictionary; counterexamples |
| C104 | `configuration_data` objects over a heap of dictionaries (statements `dict`, `new`, `newFrom`, `set`, `set10`, `setQuoted`, `mergeFrom`), reads, quoting, decisions of `configure_file`, `keyval.load` (Verif/Cdata) | Invariant over programs against a value defined on histories (latest statement first); literals of C and directives as inductive relations with uniqueness; acceptance and action of a call as an iff; `load` through the theorem on key/value files (C46). Counterexamples where dictionaries are shared and escapes are missing. |
| C105 | `string_format` as a function on the rest of the text (proved equal to the loop with positions of Verif/Str), the keys of commands and outputs, `custom_target_cmd_fmt_iter` with its counter, `make_custom_target`, generators (Verif/Ctgt). Not modelled: the flags, installation and dependencies given by keyword arguments | Commands as an inductive relation between elements and words, strings as pieces; soundness and completeness of the command by induction on the elements; words lead to their files by C16; directories of generators by components. Counterexamples for unknown keys, `@` in directories, missing inputs. |
| C106 | `find_program` and its helpers, `func_find_program`, `meson.override_find_program`, `guess_version`, the methods of programs, `run_command` with the words of its arguments (Verif/Prog). Parameters: files, output of programs, effect of `subproject()` on the overrides. Not modelled: the environment of commands (C39), messages | The place of a file as an inductive relation, overrides as a relation between the entry and the program; origin of every result; history of overrides by induction on steps; `guess_version` by induction on the division of the text into stretches. Counterexamples for aborts, unchecked versions, ended searches. |
| C107 | Verif/Odecl: option(), get_option(), yielding options, default_options, override_options, check of subprojects of -D, prefixed directories; the options and set_option are those of Verif/Opt | declaration accepted iff it meets `Spec.Declares`; lookups and assignments by induction over the lists, with the exact result of every assignment; places of paths by the theorems of C16 |
| C108 | Verif/Edcfg: patterns of sections and their matching, byte by byte with the buffer after the section, the callback, the search for files, the text to indent by; parsing of INI files is that of C42 and files are given as lists of pairs | exact result of matching for sections of bytes, `?`, `{a,b}` and a star at the start, by induction over path and section; settings by induction over files; places by the theorems of C18 |
| C109 | `Verif/Scope`: scope stacks, assignment, `+=`, `unset_variable()`, function definitions, the static argument arrays, calls and `return`, as an interpreter with fuel. One induction over the interpreter for any invariant and pair of relations that the primitive steps respect (`all`), used three times (balance, scopes of others, programs without `+=`); a second induction shows that replacing the scopes of the caller commutes with running (`sameAll`). |
| C110 | `Verif/Proj`: `project()`, `add_*_arguments()`, `add_project_dependencies()`, `add_languages()`, `files()`, `subdir()`, `subdir_done()`, `subproject()` and evaluation of files, over any file system and any compiler detection, with fuel for nesting and a log of the calls made. One invariant (`Inv`) ties tables, directories and compilers of every project to the log; `Keep` says what evaluation leaves alone in the projects around. |
| C111 | `Verif/Mopts`: the translation of meson's command lines (src/meson_opts.c) and the command lines of muon it leads to (`cmd_main`, `cmd_setup`, `cmd_install`, `cmd_test` of src/main.c), up to the command that is run and its arguments. The specification is a relation between what someone wants and the words it is spelled with; induction over that relation gives what the parser collects, and the theorems on getopt of `Verif/Exec` give what muon reads back. |
| C112 | `Verif/Tdecl`: `add_test_common`, `add_test_depends_iter`, `coerce_executable`, `coerce_environment_from_kwarg`, `set_default_environment_vars`; dictionaries and environment objects are numbered, so that sharing is modelled. Proof: decomposition of the call; an invariant over all statements (a dictionary no variable refers to never changes; one a variable refers to only gains the variables every command gets). Paths: C16, C61. |
| C113 | `Verif/Script`: `process_script_commandline_iter` and the three functions that use it, and the loop that runs scripts after configuring; the scripts themselves are a function that says whether a command succeeds. Proof: induction over the arguments with the state "the program was seen"; paths by `Cmdline.relative_leads` and `Ctgt.word_leads`. The running of install scripts is not part of this model: `installScripts` in `Verif/Install/Run` (C90) takes them as arbitrary actions, and no theorem connects its scripts to the words proved here. |
| C114 | `Verif/Dobj`: the methods of dependencies that read from them (`partial_dependency` and `as_system` are in `Verif/Deps`), and the fields set by six of the places where dependencies are made. pkg-config is an arbitrary function of the definitions made so far, the package and the variable. Proof: cases on the kind and the keywords; induction over sequences of calls. |
| C115 | `Verif/Incdir`: `include_directories_iter`, `coerce_include_dirs`, `func_include_directories`; which directories exist is a function of the path's text. Proof: induction over the arguments; `Path.isSubpath_iff_partial` (C17) and `Install.relative_below` for the place in the build directory. |
| C116 | `Verif/Import`: `func_import`, `module_import`, `module_lookup_builtin`, `module_func_lookup` and the part of `builtin_run` for modules; the embedded scripts and the functions of each module are parameters, the requirement is `Feature.requirement`. Proof: cases of whether the module is usable, and of the requirement. |
| C117 | `Verif/Python`: `func_module_python_find_installation`, `introspect_python_interpreter` and its queries, `python_module_present`, `func_module_python3_find_python`, the methods for paths and variables; `fs_find_cmd`, `run_cmd_argv` and `muon_json_to_dict` are parameters. Proof: induction over the output for the version; cases of the requirement. |
| C118 | `Verif/Machine`: `machine_cpu_normalize_base`, `machine_cpu_family`, `machine_cpu_address_bits`, `func_machine_cpu`, `machine_system`; the names that `uname` gives are parameters. Proof: cases of the tests in order against a separate table of families. |
| C119 | `Verif/Ccdetect`: `compiler_detect_c_or_cpp`, `compiler_get_libdirs`; what the command prints is a parameter. Proof: induction over the output for the first line; `Str.split_join` for the directories; `Machine.hasInfix_iff` for the words. |
| C120 | `Verif/Ccdetect/Chain.lean`: `toolchain_detect`, `toolchain_exe_detect`, `linker_detect`, `static_linker_detect`; what commands do is a parameter. Proof: `List.findSome?` against the first name that works; `Ccdetect.says_iff` for the static linker. |

## 5. What is modelled and what is not

The functions of which at least the greater part is cited by a definition of the model, by file. "In part" means that only some lines are
modelled; each definition says what it leaves out. Functions that are not named here are not modelled: in particular the compiler, linker
and dependency detection (in `compilers.c` all but the tables of arguments, of `functions/compiler.c` what is not a check, and in `kernel/dependency.c` the lookup, `external/libpkgconf.c`), downloads and archives
(`external/libcurl.c`, `external/libarchive.c`), introspection and analysis
(`analyze.c`, but for the copying of its stack), logging and error messages (only whether there is an error is modelled, and not its text),
the embedded bestline, tinyjson, and the platform layer for Windows except its getopt.

* `src/args.c`: simple_escape, ninja_escape, shell_ninja_escape, pkgconf_escape, join_args_iter, join_args, join_args_plain, join_args_shell, join_args_ninja, join_args_shell_ninja, join_args_pkgconf, arr_to_args_iter, arr_to_args, join_args_argstr_iter, join_args_argstr, env_to_envstr_dict_iter, env_to_envstr
* `src/backend/backend.c`: run_postconf_script_iter
* `src/backend/common_args.c`: get_buildtype_args, get_warning_args, get_werror_args, get_std_args, get_option_compile_args, setup_compiler_args_includes_iter, setup_optional_b_args_compiler, get_base_compiler_args, setup_compiler_args_iter, setup_compiler_args, build_target_args, get_option_link_args, setup_optional_b_args_linker, setup_linker_args, add_global_opts_set_from_env_iter, regenerate_build_command
* `src/backend/ninja.c`: check_tgt_iter, write_tgt_iter, ninja_write_build, ninja_write_tests
* `src/backend/ninja/alias_target.c`: ninja_write_alias_tgt
* `src/backend/ninja/build_target.c`: write_tgt_sources_iter, ninja_write_build_tgt
* `src/backend/ninja/custom_target.c`: ninja_args_are_escapable_iter, ninja_args_are_escapable, ninja_write_custom_tgt
* `src/backend/ninja/rules.c`: uniqify_name, escape_rule, ninja_write_rules; in part: write_linker_rule_iter, write_compiler_rule, name_compiler_rule_iter
* `src/cmd_install.c`: copy_subdir_iter, install_iter, install_scripts_iter, install_run
* `src/cmd_test.c`: project_namespaced_name_matches, test_in_suite_iter, test_in_exclude_suites_exclude_suites_iter, test_in_exclude_suites_iter, test_in_suite, find_test_setup_iter, find_test_setup_project_iter, load_test_setup, check_test_result_tap, check_test_result_exitcode, collect_tests, push_test, run_test, test_matches_cmdline_tests, gather_project_tests_iter, test_compare, list_tests_iter, run_project_tests; in part: print_test_progress, tests_run
* `src/coerce.c`: coerce_environment_from_kwarg, coerce_environment_iter, typecheck_environment_dict_iter, coerce_key_value_dict, coerce_string, coerce_executable, coerce_requirement, coerce_string_to_file, coerce_into_file, coerce_into_files_iter, _coerce_files, coerce_files, coerce_file, include_directories_iter, coerce_include_dirs
* `src/compilers.c`: s_to_compiler_language, filename_to_compiler_language, coalesce_link_languages, guess_version_arg, compiler_detect_c_or_cpp, compiler_get_libdirs, static_linker_detect, linker_detect, toolchain_exe_detect, toolchain_detect, compiler_posix_args_compile_only, compiler_posix_args_preprocess_only, compiler_posix_args_output, compiler_posix_args_optimization, compiler_posix_args_debug, compiler_posix_args_include, compiler_posix_args_define, compiler_gcc_args_preprocess_only, compiler_gcc_args_include_system, compiler_gcc_args_deps, compiler_gcc_args_optimization, compiler_gcc_args_warning_lvl, compiler_gcc_args_werror, compiler_gcc_args_warn_everything, compiler_clang_args_warn_everything, compiler_gcc_args_set_std, compiler_gcc_args_pgo, compiler_gcc_args_pic, compiler_gcc_args_pie, compiler_gcc_args_sanitize, compiler_gcc_args_visibility, compiler_gcc_args_specify_lang, compiler_gcc_args_color_output, compiler_gcc_args_lto, compiler_cl_args_always, compiler_cl_args_deps, compiler_cl_args_compile_only, compiler_cl_args_preprocess_only, compiler_cl_args_output, compiler_cl_args_optimization, compiler_cl_args_debug, compiler_cl_args_warning_lvl, compiler_cl_args_warn_everything, compiler_cl_args_werror, compiler_cl_args_set_std, compiler_cl_args_include, compiler_cl_args_sanitize, compiler_cl_args_define, compiler_clang_cl_args_color_output, compiler_clang_cl_args_lto, compiler_arg_empty_0, compiler_arg_empty_1i, compiler_arg_empty_1s, compiler_arg_empty_2s, build_compilers, linker_posix_args_lib, linker_posix_args_input_output, linker_posix_args_shared, linker_gcc_args_as_needed, linker_gcc_args_no_undefined, linker_gcc_args_start_group, linker_gcc_args_end_group, linker_gcc_args_soname, linker_gcc_args_rpath, linker_gcc_args_allow_shlib_undefined, linker_gcc_args_export_dynamic, linker_gcc_args_fatal_warnings, linker_gcc_args_whole_archive, linker_gcc_args_no_whole_archive, linker_link_args_lib, linker_link_args_shared, linker_link_args_soname, linker_lld_link_args_whole_archive, linker_msvc_args_input_output, build_linkers, static_linker_ar_posix_args_base, static_linker_ar_gcc_args_base, build_static_linkers, compilers_init; in part: toolchain_compiler_detect
* `src/datastructures/arr.c`: arr_init, arr_clear, arr_get_mem, arr_grow_by, arr_push, arr_get, arr_del
* `src/datastructures/bucket_arr.c`: init_bucket, bucket_arr_init, bucket_arr_clear, bucket_arr_save, bucket_arr_restore, bucket_arr_pushn, bucket_arr_get
* `src/external/libpkgconf.c`: muon_pkgconf_define, muon_pkgconf_get_variable
* `src/external/samurai/build.c`: samu_isnewer, samu_isdirty, samu_queue, samu_buildadd, samu_nodedone, samu_edgedone, samu_jobdone, samu_build
* `src/external/samurai/deps.c`: samu_recordid, samu_recorddeps, src_getc, samu_depsinit, samu_depsparse; in part: samu_depsload, samu_depsrecord
* `src/external/samurai/env.c`: samu_envinit, samu_envvar, samu_merge, samu_enveval, samu_envrule, samu_pathlist, samu_edgevar
* `src/external/samurai/graph.c`: samu_graphinit, samu_mknode, samu_nodeget, samu_nodepath, samu_edgeadddeps; in part: samu_nodestat
* `src/external/samurai/htab.c`: samu_mkhtab, samu_keyequal, samu_keyindex, samu_htabput, samu_htabget, samu_murmurhash64a
* `src/external/samurai/log.c`: samu_log_parse_cb, samu_log_open_and_write, samu_loginit, samu_logrecord
* `src/external/samurai/parse.c`: samu_parselet, samu_parserule, samu_parseedge, samu_parseinclude, samu_parsepool, samu_checkversion, samu_parse
* `src/external/samurai/samu.c`: in part: samu_main
* `src/external/samurai/scan.c`: samu_scaninit, samu_issimplevar, samu_isvar, samu_newline, samu_singlespace, samu_space, samu_comment, samu_name, samu_scankeyword, samu_escape, samu_scanstring, samu_scanpaths, samu_scanchar, samu_scanpipe, samu_scanindent, samu_scannewline
* `src/external/samurai/tool.c`: samu_cleanpath, samu_cleanedge, samu_cleantarget, samu_clean, samu_targetcommands, samu_commands, samu_printjson, samu_compdb
* `src/external/samurai/tree.c`: samu_height, samu_rot, samu_balance, samu_treefind, samu_treeinsert
* `src/external/samurai/util.c`: samu_canonpath
* `src/formats/editorconfig.c`: editorconfig_parse_pat, strnchr, editorconfig_pat_match, editorconfig_cfg_parse_cb, try_parse_editorconfig
* `src/formats/ini.c`: ini_parse_line_cb, ini_reparse, ini_parse, keyval_parse
* `src/formats/lines.c`: each_line
* `src/formats/tap.c`: tap_parse_line_cb, tap_parse
* `src/functions/array.c`: func_array_get
* `src/functions/build_target.c`: tgt_src_to_object_path, build_target_extract_objects_iter, build_target_extract_all_objects
* `src/functions/common.c`: interp_args_interp_node, next_arg, typecheck_function_arg_check_disabler_iter, typecheck_function_arg, process_kwarg, process_kwarg_dict_iter, interp_args, func_obj_call, func_obj_eval, builtin_run; in part: obj_tainted_by_typeinfo
* `src/functions/compiler.c`: bool_to_yn, compiler_log, compiler_check_log, add_extra_compiler_check_args, add_include_directory_args, compiler_check_cache, set_compiler_cache, compiler_check, compiler_check_parse_output_int, compiler_opts_init, func_compiler_check_args_common, compiler_check_prefix, func_compiler_sizeof, func_compiler_alignment, func_compiler_compute_int, get_has_function_attribute_test, compiler_has_function_attribute, func_compiler_has_function_attribute, func_compiler_get_supported_function_attributes_iter, func_compiler_get_supported_function_attributes, func_compiler_has_function, compiler_has_header_symbol_c, compiler_has_header_symbol_cpp, func_compiler_has_header_symbol, compiler_get_define, func_compiler_get_define, func_compiler_symbols_have_underscore_prefix, func_compiler_check_common, func_compiler_compiles, func_compiler_links, compiler_check_header, compiler_check_header_common, func_compiler_has_header, func_compiler_check_header, func_compiler_has_type, compiler_has_member, func_compiler_has_member, compiler_has_members_iter, func_compiler_has_members, func_compiler_run, compiler_has_argument, func_compiler_get_supported_arguments_iter, compiler_has_argument_common, func_compiler_has_argument, func_compiler_has_link_argument, func_compiler_has_multi_arguments, func_compiler_has_multi_link_arguments, compiler_get_supported_arguments, func_compiler_get_supported_arguments, func_compiler_get_supported_link_arguments, func_compiler_first_supported_argument_iter, compiler_first_supported_argument, func_compiler_first_supported_argument, func_compiler_first_supported_link_argument, func_compiler_get_id, func_compiler_get_linker_id, func_compiler_get_argument_syntax, compiler_find_library_iter, compiler_find_library_check_headers_iter, func_compiler_find_library
* `src/functions/configuration_data.c`: func_configuration_data_set_quoted, func_configuration_data_set, func_configuration_data_set10, configuration_data_get, func_configuration_data_get, func_configuration_data_get_unquoted, obj_dict_keys_iter, func_configuration_data_keys, func_configuration_data_has, func_configuration_data_merge_from
* `src/functions/dependency.c`: func_dependency_found, dep_get_pkgconfig_variable, func_dependency_get_pkgconfig_variable, dep_pkgconfig_define, func_dependency_get_variable, func_dependency_version, func_dependency_type_name, func_dependency_name, func_dependency_partial_dependency, func_dependency_as_system; in part: func_dependency_include_type
* `src/functions/environment.c`: evironment_to_dict_iter, environment_to_dict, environment_or_dict_set, set_default_environment_vars, environment_set, func_environment_set_common
* `src/functions/external_program.c`: find_program_guess_version, func_external_program_found, func_external_program_path, func_external_program_version
* `src/functions/feature_opt.c`: feature_opt_common, func_feature_opt_auto, func_feature_opt_disabled, func_feature_opt_enabled, func_feature_opt_allowed, func_feature_opt_disable_auto_if, func_feature_opt_enable_auto_if, func_feature_opt_enable_if, func_feature_opt_disable_if, func_feature_opt_require
* `src/functions/file.c`: file_is_linkable
* `src/functions/generator.c`: generated_list_process_for_target_iter, generated_list_process_for_target, check_preserve_path_from_iter; in part: func_generator_process
* `src/functions/kernel.c`: project_add_language, project_add_language_iter, func_project, get_project_argument_array, add_arguments_iter, add_arguments_common, func_add_project_arguments, func_add_global_arguments, func_add_project_link_arguments, func_add_global_link_arguments, add_project_dependencies_iter, find_program_custom_dir_iter, find_program_check_override, find_program_check_fallback, find_program, find_program_iter, func_find_program, func_include_directories, func_message, func_run_command, func_subdir, func_configuration_data, add_test_depends_iter, add_test_common, environment_set_initial_iter, func_environment, func_import, func_is_disabler, func_disabler, func_set_variable, func_unset_variable, func_get_variable, func_is_variable, func_range_common, func_range; in part: func_add_project_dependencies, func_run_target, func_add_test_setup
* `src/functions/kernel/build_target.c`: build_tgt_push_source_files_iter, type_from_kw, setup_soname, setup_shared_object_symlinks, determine_target_build_name, create_target, tgt_common, func_executable, func_static_library, func_shared_library, func_both_libraries, func_library, func_shared_module, func_build_target
* `src/functions/kernel/configure_file.c`: file_exists_with_content, configure_file_skip_whitespace, configure_var_len, substitute_config, generate_config_iter, generate_config, array_to_elem_or_err, perform_output_string_substitutions, exclusive_or, func_configure_file; in part: configure_file_with_command
* `src/functions/kernel/custom_target.c`: prefix_plus_index, str_relative_to_build_root, format_cmd_arg_cb, custom_target_cmd_fmt_iter, process_custom_target_commandline, format_cmd_output_cb, custom_command_output_format_iter, make_custom_target
* `src/functions/kernel/dependency.c`: check_dependency_override_iter, check_dependency_override, check_dependency_cache, check_dependency_version, handle_dependency_fallback, get_dependency_pkgconfig, get_dependency, handle_appleframeworks_modules_iter, handle_special_dependency, dependency_iter, set_dependency_cache_iter, func_dependency; in part: func_declare_dependency
* `src/functions/kernel/install.c`: func_install_subdir, install_man_iter, func_install_man, func_install_symlink, install_emptydir_iter, func_install_emptydir, install_data_rename_iter, func_install_data, func_install_headers
* `src/functions/kernel/options.c`: build_option_type_from_s, validate_option_name, func_option, func_get_option
* `src/functions/kernel/subproject.c`: subproject_prepare, subproject
* `src/functions/machine.c`: machine_system_to_s, machine_system, machine_cpu_normalize_base, machine_cpu_family, machine_cpu_address_bits, func_machine_cpu
* `src/functions/meson.c`: func_meson_override_dependency, func_meson_override_find_program, process_script_commandline_iter, func_meson_add_install_script, func_meson_add_postconf_script, func_meson_add_dist_script
* `src/functions/modules.c`: module_lookup_builtin, module_import, func_module_found, module_func_lookup
* `src/functions/modules/fs.c`: fix_file_path, func_module_fs_lookup_common, func_module_fs_is_symlink, func_module_fs_parent, func_module_fs_read, func_module_fs_is_absolute, func_module_fs_expanduser, func_module_fs_name, func_module_fs_stem, func_module_as_posix, func_module_replace_suffix, func_module_fs_hash, func_module_fs_size, func_module_fs_is_samepath, func_module_fs_write, func_module_fs_relative_to, func_module_fs_add_suffix
* `src/functions/modules/keyval.c`: keyval_parse_cb, func_module_keyval_load
* `src/functions/modules/pkgconfig.c`: add_subdirs_includes_iter, module_pkgconf_lib_to_lname, module_pkgconf_process_reqs_iter, module_pkgconf_process_reqs, module_pkgconf_process_libs_iter, module_pkgconf_process_libs, module_pkgconf_declare_var, module_pkgconf_declare_builtin_dir_var, module_pkgconf_process_vars_array_iter, module_pkgconf_process_vars_dict_iter, module_pkgconf_process_vars, module_pkgconf_prepend_libdir, module_pkgconf_remove_dups_iter, module_pkgconf_remove_dups, module_pkgconf_write, func_module_pkgconfig_generate
* `src/functions/modules/python.c`: query_version, introspect_python_interpreter, python_module_present, func_module_python_find_installation, func_module_python3_find_python, func_python_installation_get_path, func_python_installation_get_var, func_python_installation_has_path, func_python_installation_has_var
* `src/functions/modules/sourceset.c`: func_module_sourceset_source_set
* `src/functions/number.c`: func_number_to_string
* `src/functions/run_result.c`: ensure_valid_run_result, func_run_result_returncode, func_run_result_stdout, func_run_result_stderr, func_run_result_compiled
* `src/functions/source_set.c`: source_set_freeze_nested_iter, source_set_add_rule, source_set_check_not_frozen, func_source_set_add, func_source_set_add_all, source_set_collect_iter, source_set_rule_match_iter, source_set_collect_when_deps_iter, source_set_collect_rules_iter, source_set_collect, func_source_set_apply
* `src/functions/string.c`: func_to_upper, func_to_lower, string_format, func_format_cb, func_format, func_underscorify, func_join, version_compare_iter, version_compare, func_string_to_int, func_string_substring, func_string_replace, func_string_contains; in part: func_split
* `src/functions/subproject.c`: subproject_get_variable
* `src/guess.c`: guess_version
* `src/install.c`: rwx_to_perm, push_install_target, push_install_target_install_dir, push_install_targets_iter, push_install_targets
* `src/lang/analyze.c`: copy_analyze_entrypoint_stack
* `src/lang/eval.c`: eval_project, ensure_project_is_first_statement, eval, eval_project_file
* `src/lang/fmt.c`: fmt_str_startwith, fmt_id_eql, fmt_setup_fst, fmt_check, fmt_write, fmt_writeml, fmt_writes, fmt_newline, fmt_newline_force, fmt_newline_or_space, fmt_breaking_space, fmt_begin_block, fmt_end_block, fmt_writef, fmt_comments, fmt_check_trailing_comment_or_space, fmt_tail, fmt_files_args_sort_cmp, fmt_args, fmt_arg_container, fmt_function_common, fmt_function, fmt_method, fmt_node_wrapped, fmt_parens, fmt_if, fmt_chain, fmt_and_or, fmt_node, fmt
* `src/lang/interpreter.c`: bounds_adjust, boundscheck, rangecheck, check_scope, get_local_variable, assign_variable, unassign_variable, interp_func, interp_index, interp_u_minus, interp_arithmetic, interp_assign, interp_plusassign, interp_array, interp_dict, interp_not, interp_andor, interp_comparison, interp_ternary, interp_if, interp_foreach_dict_iter, interp_foreach_arr_iter, interp_foreach, interp_func_def, interp_node; in part: interp_foreach_common
* `src/lang/lexer.c`: is_valid_start_of_identifier, is_hex_digit, is_valid_inside_of_identifier, copy_into_sdata, keyword, number, lex_identifier, write_utf8, lex_string_char, lex_string, lexer_tokenize_one, tokenize, lexer_lex
* `src/lang/object.c`: get_obj_feature_opt, OBJ_GETTER, obj_equal_array_iter, obj_equal_dict_iter, obj_equal, obj_array_foreach, obj_array_foreach_flat_iter, obj_array_foreach_flat, obj_array_push, obj_array_prepend, obj_array_index_of_iter, obj_array_index_of, obj_array_in, obj_array_index_iter, obj_array_index, obj_array_get_tail, obj_array_dup_iter, obj_array_dup, obj_array_extend_nodup, obj_array_extend, obj_array_join_iter, obj_array_flat_len_iter, obj_array_flat_len, obj_array_join, obj_array_tail, obj_array_set, obj_array_del, obj_array_pop, obj_array_dedup_iter, obj_array_dedup, obj_array_dedup_in_place, obj_array_flatten_one, obj_array_sort_by_str, obj_array_sort_push_to_da_iter, obj_array_sort_wrapper, obj_array_sort, obj_array_slice_iter, obj_array_slice, obj_dict_foreach, obj_dict_dup_iter, obj_dict_dup, obj_dict_merge_iter, obj_dict_merge_nodup, obj_dict_merge, obj_dict_key_comparison_func_string, obj_dict_key_comparison_func_int, _obj_dict_index, obj_dict_index_strn, obj_dict_index_str, obj_dict_index, obj_dict_in, _obj_dict_set, obj_dict_set, _obj_dict_del, obj_dict_del_strn, obj_dict_del_str, obj_dict_del, obj_clone_dict_iter, obj_clone; in part: get_obj_internal
* `src/lang/parser.c`: accept, expect, check_binary_operands, parse_list_recurse, parse_index_call, parse_e9, parse_method_call, parse_e8, parse_chained, parse_e7, parse_e6, parse_arith_upper, parse_arith, parse_e5, make_comparison_node, parse_e4, parse_e3, parse_e2, parse_expr, parse_assignment, parse_if, parse_foreach_args, parse_foreach, parse_line, parse_block, parser_parse
* `src/lang/serial.c`: dump_bucket_arr, load_bucket_arr, dump_serial_header, load_serial_header, dump_big_strings, load_big_strings, get_big_string, dump_objs, load_objs, serial_dump, serial_load
* `src/lang/string.c`: get_cstr, reserve_str, grow_str, _make_str, str_clone, str_eql_glob_impl, str_eql_glob, str_char_to_lower, str_startswith, str_startswithi, str_endswith, str_endswithi, is_whitespace, str_to_i, str_split, str_strip, str_split_strip_iter, str_split_strip, sbuf_init, sbuf_destroy, sbuf_clear, sbuf_grow, sbuf_push, sbuf_pushn, sbuf_pushs, sbuf_pushf, sbuf_into_str
* `src/lang/typecheck.c`: obj_type_to_tc_type, make_complex_type, typecheck_complex_type, typecheck_custom, typecheck
* `src/lang/workspace.c`: make_project, current_project, workspace_init_bare
* `src/main.c`: load_obj_from_serial_dump, cmd_exe, cmd_subprojects_download_iter, cmd_subprojects_download, cmd_internal, cmd_test, cmd_install, cmd_setup, cmd_meson, cmd_main, main
* `src/memmem.c`: twobyte_memmem, threebyte_memmem, fourbyte_memmem, twoway_memmem, memmem
* `src/meson_opts.c`: translate_meson_opts_parser, translate_meson_opts_test_callback, translate_meson_opts_test, translate_meson_opts_setup, translate_meson_opts; in part: translate_meson_opts_install
* `src/options.c`: parse_config_string, check_invalid_subproject_option, coerce_feature_opt, check_deprecated_option_iter, check_deprecated_option, coerce_option_override, typecheck_opt, prefix_dir_opts_iter, prefix_dir_opts, extend_array_option, set_option, create_option, get_option_overridable, get_option, get_option_value_overridable, set_yielding_project_options_iter, setup_project_options, parse_and_set_default_options_iter, parse_and_set_default_options, parse_and_set_override_options_iter, parse_and_set_override_options, get_option_wrap_mode, get_option_default_library
* `src/opts.c`: find_cmd
* `src/platform/filesystem.c`: fs_mkdir_p, fs_fseek, fs_read_entire_file, fs_fwrite, fs_fread, fs_copy_dir_iter, fs_copy_dir
* `src/platform/mem.c`: z_malloc, z_realloc
* `src/platform/path.c`: _path_normalize, path_copy, path_join_absolute, path_push, path_join, path_make_absolute, path_relative_to, path_without_ext, path_basename, path_dirname, path_is_subpath, path_executable
* `src/platform/posix/filesystem.c`: fs_exists, fs_symlink_exists, fs_lexists, fs_file_exists, fs_dir_exists, fs_mkdir, fs_copy_file, fs_dir_foreach, fs_remove, fs_make_symlink, fs_chmod, fs_find_cmd
* `src/platform/posix/os.c`: os_getopt
* `src/platform/posix/path.c`: path_is_absolute, path_is_basename, path_to_posix, shell_escape
* `src/platform/posix/rpath_fixer.c`: parse_elf, parse_elf_sections, parse_elf_dynamic, remove_paths, remove_path_entry, fix_rpaths
* `src/platform/posix/run_cmd.c`: copy_pipe, copy_pipes, run_cmd_ctx_close_fds, run_cmd_collect, build_argv, run_cmd_argv; in part: run_cmd_internal
* `src/platform/run_cmd.c`: push_argv_single, argstr_pushall, argstr_to_argv, run_cmd_determine_interpreter_skip_chars, run_cmd_determine_interpreter
* `src/platform/windows/os.c`: os_getopt
* `src/rpmvercmp.c`: rpmvercmp
* `src/sha_256.c`: right_rot, init_buf_state, calc_chunk, calc_sha_256
* `src/wrap.c`: lookup_wrap_str, wrap_parse_cb, wrap_parse_provides_cb_add_provides_iter, wrap_parse_provides_cb, checksum, checksum_extract, fetch_checksum_extract, wrap_download_or_check_packagefiles, validate_wrap, wrap_parse, wrap_apply_diff_files, wrap_apply_patch, wrap_handle_git, wrap_handle_file, wrap_handle, wrap_load_all_iter, wrap_load_all_provides

Taken as given (parameters or conventions of the model): the C library and the kernel (files, processes, pipes, clocks, `qsort`, `strtol`,
`vsnprintf` for `%s`, `%d`), the hash functions of hash tables (any function), allocation (never fails), and the shell and ninja where
their behaviour is specified in a `Spec.lean` (POSIX quoting, the ninja manual).

## 6. Axioms

`#print axioms` was run for each of the 989 theorems named in `MANIFEST.json`. No theorem depends on anything but Lean's three standard axioms:

* 779 theorems: `propext`, `Classical.choice`, `Quot.sound`
* 143 theorems: `propext`, `Quot.sound`
* 62 theorems: `propext`
* 5 theorems: none

To repeat this: `import Verif` and `#print axioms <name>` for the names in `MANIFEST.json`. There is no `sorry`, `admit`, `native_decide`,
`bv_decide` or axiom in the sources; `decide +kernel` is evaluated by the kernel.

## 7. Where the code does not have the property

Each of these theorems shows, with a concrete input, that the property as stated does not hold of the (modelled) code; the partial theorems
next to them say under which conditions it does.

* C03: `Hash.strKeyEq_nul_counterexample`. The table is a map up to its key comparison; string keys compare like strings only when they contain no NUL byte (strKeyEq_nul_counterexample).
* C08: `Str.contains_empty_counterexample`. contains is wrong for exactly one pair: the empty string in the empty string.
* C09: `Str.substring_past_end_counterexample`, `Str.substring_overread_counterexample`, `Str.substring_before_start_counterexample`. The code over-reads for an end past the end of the string and does not clamp a start before the beginning.
* C10: `Str.index_below_counterexample`. False for every index below -len.
* C11: `Str.format_negative_counterexample`, `Str.format_duplicates_counterexample`. Signed or blank-prefixed numbers are taken as references, and an escaped @ inside an opened reference duplicates text; proved for all other templates.
* C13: `Str.toInt_counterexample`. The round trip is proved for all 64-bit integers; blank strings are accepted as 0 and out-of-range numbers are clamped by the code.
* C14: `Path.normalize_stale_counterexample`, `Path.normalize_overread_counterexample`. All clauses are proved for the resulting text; in memory the code can read two bytes past the terminator and can leave a stale byte after a result of '.'.
* C16: `Path.relativeTo_above_root_counterexample`
* C17: `Path.isSubpath_dot_counterexample`. The relative base without components ('.') has nothing but itself under it.
* C19: `Esc.shellEscape_counterexample`. Exact characterisation: the shell reads the escaped argument as the argument unless it is unquoted and contains ; | ( ) * ? [ ` or a tab, or starts with ~.
* C20: `Esc.ninjaEscape_pipe_counterexample`, `Esc.ninjaEscape_eof_counterexample`, `Esc.shellNinjaEscape_newline_counterexample`. False for | (paths), newlines, carriage returns and byte 0xff; proved for all other text, up to the words the shell sees.
* C21: `Esc.nodePath_empty_counterexample`. Proved for every non-empty path, any bytes; the empty path (canonical form of /) disappears.
* C23: `Lex.lex_in_buffer_counterexample`. Proved for all texts except in the formatter's mode, where the code overflows the buffer (1a, 'a''b').
* C25: `Lex.utf8_escape_counterexample`. Surrogates are accepted and stored as invalid UTF-8; proved for every code point that is a character and every value that is no code point.
* C26: `Parse.expr_documented_counterexample`, `Parse.expr_documented_counterexample_2`. Proved for all expressions with at most one of + - and at most one of * / %. With several the code groups differently from the documented grammar: each operator has its own level.
* C28: `Interp.nested_alias_counterexample`, `Interp.loop_alias_counterexample`, `Interp.set_variable_alias_counterexample`, `Interp.shallow_copy_counterexample`. Refinement to a semantics in which variables have values, for every program that does not alias the objects of the variables it extends with += (elements of literals, set_variable, loop variables); the counterexamples show that += changes other variables otherwise.
* C29: `Interp.foreach_endless_counterexample`, `Interp.empty_body_counterexample`. Proved for all bodies that do not extend the array that is iterated over; such a body can make the loop endless. An empty body ends the loop after the first element.
* C30: `Interp.overflow_counterexample`. Exact for all operands if the result fits into 64 bits; overflow is undefined behaviour instead of a reported error.
* C31: `Range.range_endless_counterexample`, `Range.range_wrap_counterexample`. Exact if and only if the 32-bit counter does not wrap around after the last number.
* C32: `Arr.arrays_del_counterexample`, `Arr.arrays_tail_counterexample`, `Arr.arrays_extend_nodup_counterexample`. Refinement to lists for every sequence of operations that does not delete the first of exactly two elements; that deletion, obj_array_tail and obj_array_extend_nodup misbehave as the counterexamples show.
* C33: `Dict.dicts_del_counterexample`. Refinement to insertion-ordered maps for every sequence of operations that does not delete a key from a dictionary that has had fifteen keys; such a deletion leaves a dictionary that cannot be iterated.
* C34: `Val.equal_cyclic_counterexample`. Proved for all objects that hold a (finite) value. Programs can build an array that contains itself (Interp); comparing two of these never ends.
* C36: `Serial.serial_crash_counterexample`, `Serial.serial_option_kind_counterexample`, `Serial.serial_feature_counterexample`, `Serial.serial_big_counterexample`, `Serial.serial_small_counterexample`. Round trip for all object graphs but for two fields which are not copied (kind of an option; an automatic feature is resolved); every strict prefix is rejected. But while big strings are written the file says there are none, and a crash then can go unnoticed; some corrupted files are read out of bounds.
* C37: `Opt.opt_disabler_counterexample`, `Opt.opt_disabler_choices_counterexample`, `Opt.opt_rename_cycle_counterexample`, `Opt.opt_error_order_counterexample`, `Opt.opt_invalid_hides_counterexample`. Precedence for all sequences of assignments to options that are not deprecated to another name. Validity for all sequences, if text in brackets does not evaluate to the disabler. Whether an invalid assignment is reported, and what value is left after it, depends on the order; an option deprecated to itself makes muon recurse without end.
* C40: `Conf.substitute_nul_counterexample`, `Conf.substitute_crlf_counterexample`. The accepted templates and their result are exact for every template shorter than 4 GiB, configuration and syntax, never reading outside the text. A string value with a NUL byte aborts in a #mesondefine line; definitions on lines ending in CR LF are rejected; a #cmakedefine line with other text is accepted without a name.
* C41: `Conf.generate_partial_counterexample`, `Conf.configure_unreadable_counterexample`. For all prior states, templates, and write failures (a failure halfway through a write is not modelled). A header generated from invalid data is written in part although the call fails; a template that cannot be read leads to freeing an uninitialised buffer.
* C42: `Sset.apply_nested_strict_counterexample`, `Sset.apply_self_counterexample`, `Sset.apply_value_counterexample`, `Sset.all_sources_counterexample`. For all programs in which no set is put into itself (then apply() recurses without end). With strict, a missing key in a nested set is not an error but silently drops sources; a configuration value of another type aborts; all_sources() leaves out rules with dependencies that were not found and does not freeze the set.
* C43: `Tc.typecheck_disabler_counterexample`, `Tc.arg_file_counterexample`. Sound and complete for every type and value; total for values without disablers. A disabler checked against a list or dict type with an element type aborts. The 16th complex type is taken for `file`, so an array of one file is unpacked and rejected.
* C46: `Ini.parse_key_counterexample`, `Ini.parse_end_counterexample`, `Ini.parse_start_counterexample`, `Ini.parse_nul_counterexample`. For all files without NUL bytes whose last line has its line end and whose first line does not begin with an empty key. Without the last line end (or for an empty file) the parser reads beyond its buffer; `= value` in the first line reads before it; after a NUL byte nothing is read; blanks before a key are kept.
* C47: `Tap.tap_extra_counterexample`, `Tap.tap_bail_counterexample`, `Tap.tap_plan_counterexample`, `Tap.tap_nul_counterexample`. What is counted and the verdict are exact for every output; good streams always succeed. The converse holds if there are no more tests than planned: a failed test beyond the plan, a program that gives up with `Bail out!`, a plan above 2^32 and a NUL byte in the output can hide a failure.
* C50: `Sched.pool_slot_counterexample`, `Sched.dry_run_counterexample`. The depth is respected in all schedules, and without failures to start a job every queued job gets a slot. The slot of a job that cannot be started, or is only listed by a dry run, is never given back.
* C51: `Sched.phony_counterexample`. Exact characterisation of clean edges. Generator rules do not compare commands, as documented by ninja. A file behind a phony target is not compared with the output.
* C52: `Nlog.log_other_counterexample`, `Nlog.log_hash_counterexample`, `Nlog.log_rewrite_counterexample`. All complete records are recovered at every crash point; but a torn record is parsed: it can change its own output and the time stamp of an output whose path is a prefix of its path; and the log is truncated and rewritten at every start. Paths with tab or line end are excluded.
* C53: `Dlog.deps_empty_counterexample`, `Dlog.deps_stale_counterexample`, `Dlog.deps_first_counterexample`, `Dlog.deps_rewrite_counterexample`, `Dlog.deps_invalid_counterexample`, `Dlog.deps_nul_counterexample`. Reading a log cut at any byte finds exactly the last complete record of every output; starting on it succeeds and writes an equivalent log. But a record without dependencies is dropped when the log is read again, numbers given out again can point at another node's record, the log is truncated and rewritten at every start, and some corrupt records are undefined behaviour.
* C54: `Canon.canon_root_counterexample`, `Canon.canon_deep_counterexample`. The root and paths that cancel to it become the empty string, whose canonicalisation is a fatal error; a path with more than 60 names at one point is a fatal error. Everything else is proved.
* C57: `Buf.sbuf_pushf_counterexample`, `Buf.into_str_nul_counterexample`, `Buf.make_str_counterexample`, `Buf.clear_counterexample`. For all sequences of operations below 2^30 bytes (64-bit sizes for arrays). Formatted output that makes the text exactly as long as the new capacity writes one byte beyond the heap block; a text with a NUL byte that outgrew its buffer, and any string of exactly 4095 bytes, fail an assertion; clearing a bucket array with several buckets breaks it (not reached in muon).
* C58: `Interp.disabler_index_counterexample`. All operators, message(), is_disabler() and if; other functions and methods are not modelled. A disabler as index or dictionary key ends muon.
* C59: `Str.glob_misses_counterexample`, `Str.glob_accepts_counterexample`. Proved for patterns with at most one star; the code is wrong otherwise, with witnesses.
* C60: `Path.withoutExt_dotfile_counterexample`. A last component beginning with the dot of the extension is lost entirely.
* C61: `Path.executable_dot_counterexample`. A path such as ./x is normalised to x, which is searched for in PATH.
* C62: `Lex.lex_number_counterexample`. Values are proved for all digit strings; the code also accepts blanks, signs and a second prefix after the prefix.
* C63: `Lex.lex_fstring_counterexample`. Proved for all texts and variables when each @ in the text is escaped; an unclosed @ swallows a character and interpolates.
* C65: `Parse.stray_not_counterexample`, `Parse.parse_abort_counterexample`. Exact characterisation for the grammar with the code's operator levels, extended by one production: a meaningless `not` after a comparison operand is accepted, so the property as stated is false. a[] aborts instead of being rejected with an error.
* C66: `Parse.fstring_method_counterexample`. Proved for all programs without format strings; the pieces of a format string are not grouped, so a method call binds to the last piece only.
* C68: `Interp.negative_index_counterexample`. An index below minus the length is not reported: an assertion fails or memory before the string is read.
* C69: `Sha.fs_hash_counterexample`. A byte of the hash less than 16 is printed as one digit and ends the string: fs.hash() is right only for hashes without such bytes (one in eight files).
* C70: `Sha.checksum_counterexample`. Exact for checksums of hexadecimal digits; other characters are accepted (blanks, signs, or anything for 00), but a checksum never accepts two files with different hashes.
* C71: `Args.bind_disabler_counterexample`. Accepted calls and bound values are exact for all declarations and arguments. A disabler passed as kwargs aborts instead of giving a disabler.
* C72: `Tap.should_fail_counterexample`, `Tap.tap_exit_counterexample`, `Tap.tap_empty_counterexample`. For all exit codes, outputs and lists of results. A test that should fail but does not is reported as a success; the exit code of a TAP test is not looked at; a TAP test without captured output is undefined behaviour.
* C73: `Run.fail_fast_counterexample`, `Run.serial_counterexample`, `Run.compare_counterexample`. For all numbers of jobs and tests, all schedules and all results. With fail_fast, running tests are left without result; after a test that is not parallel could not be started, the others run one at a time; the order used for sorting is inconsistent for two tests that are not parallel.
* C74: `Manifest.read_ends_counterexample`, `Manifest.read_ff_counterexample`, `Manifest.read_empty_counterexample`. Exact for every file of the grammar in every layout. Reading ends for every file with a line end at its end; a comment in the last line without line end is read forever, a byte 0xff silently ends the file, and an empty file is refused.
* C76: `Manifest.pool_empty_counterexample`. For all manifests. An empty `pool =` is refused (pool_empty_counterexample), which does not contradict the claim.
* C77: `Ninja.project_name_counterexample`, `Ninja.regenerate_counterexample`, `Ninja.return_counterexample`. For all build files whose paths and arguments have no NUL, newline, carriage return or byte 255, whose paths have no |, and whose outputs are different (Spec.Good). What is missing is false: the name of the project and the command of regeneration are not escaped, and a carriage return in an argument makes the file unreadable.
* C78: `Ninja.depfile_counterexample`. Under the same conditions, and for arguments that shell_escape quotes (C19). The name of the depfile is not escaped.
* C79: `Ninja.compiler_path_counterexample`. Under the same conditions, for compilers with the options of gcc and compilers' commands that need no quoting (they get none).
* C80: `Ninja.rule_names_counterexample`. For all names except those of targets that end in `_LANG_linker`: names of linkers' rules are not made unique.
* C81: `Exec.custom_nul_counterexample`. For all custom targets with arguments without NUL. Arguments with NUL change on their way (custom_nul_counterexample). The files with arguments and environment are those that muon has written (C36).
* C82: `Exec.getopt_windows_counterexample`, `Exec.meson_counterexample`. For all option strings and command lines; the C library's getopt on POSIX systems is taken to behave like the ported one. The port for Windows reads behind the option string for unknown options, and `meson` without arguments reads a null pointer.
* C83: `Exec.argv_nul_counterexample`, `Exec.argv_empty_counterexample`, `Exec.env_empty_counterexample`, `Exec.env_nul_counterexample`, `Exec.interpreter_counterexample`. For non-empty lists of arguments and variables without NUL, and first lines without a blank at the end.
* C85: `Depfile.depfile_hang_counterexample`, `Depfile.depfile_ff_counterexample`, `Depfile.depfile_first_counterexample`, `Depfile.depfile_char_counterexample`, `Depfile.depfile_phony_counterexample`, `Depfile.depfile_cut_counterexample`, `Depfile.depfile_canon_counterexample`. For names of letters, digits, +,-./@_ and the escaped characters, dependencies not beginning with an escaped one. Ninja hangs on a form feed, takes the byte 255 for the end of the file, refuses other characters, and does not bring names into canonical form.
* C86: `Fmt.bare_expression_counterexample`, `Fmt.space_array_counterexample`, `Fmt.indent_by_counterexample`. For trees of accepted programs nested less than 4096 deep, with comments on lines of their own, without space_array and without statements that are bare arithmetic. In these two cases, and with an indentation that is not blank, the result can be another program or no program. Comments are cut after 4094 characters.
* C87: `Rpath.two_kept_counterexample`, `Rpath.long_path_counterexample`, `Rpath.static_counterexample`, `Rpath.both_counterexample`, `Rpath.section_counterexample`. For little-endian files with one run path and at most one directory that stays. If two or more stay the path is cut, with a directory of 4096 characters the buffer overflows, files without a dynamic section are an error, with RPATH and RUNPATH a wrong entry may be removed.
* C88: `Install.perm_nul_counterexample`, `Install.install_mode_empty_counterexample`. For all strings without NUL: what follows a NUL is ignored. An empty array as install_mode is read outside of its elements.
* C89: `Install.rename_mode_counterexample`, `Install.configured_mode_counterexample`, `Install.subdir_counterexample`, `Install.preserve_absolute_counterexample`, `Install.rename_absolute_counterexample`, `Install.man_locale_counterexample`. For all strings without NUL, relative new names and relative paths to be preserved, and names of directories of one or two components. Absolute ones ignore install_dir; of longer names of directories only the first component is left out; malformed permissions make renamed and configured files silently uninstalled; a locale is compared as a beginning only.
* C90: `Install.failure_counterexample`, `Install.dotdot_counterexample`, `Install.link_counterexample`, `Install.mode_counterexample`, `Install.itself_counterexample`, `Install.built_link_counterexample`, `Install.sticky_counterexample`, `Install.link_to_dir_counterexample`. Without .. in destinations, links on the way to or in destinations, built files that are links, and links made by the installation in what is installed later. Contents and permissions are for destinations that are new or files (directories: new or empty, sources without links). Failures are not reported; links are followed out of DESTDIR; a file that is replaced keeps its permissions; one installed onto itself is emptied; links to directories become directories.
* C91: `Select.qualified_counterexample`, `Select.main_counterexample`, `Select.list_counterexample`, `Select.exclude_counterexample`, `Select.setup_counterexample`, `Select.suites_counterexample`. Exactly the selected tests are run if only the main project has tests; for several projects, if the names are unqualified and there are no suites, or if the suites are unqualified and the main project has a selected test. False in general: names and suites are compared with the name of the project visited before, so lib:foo runs foo of another project; a subproject passes for the main project if nothing was selected there; -l prints wrong project names; a setup with exclude_suites aborts on a test without suite; setups of projects without tests are not found; the 65th -s overruns the array.
* C92: `Deps.partial_links_counterexample`, `Deps.as_system_counterexample`, `Deps.object_name_counterexample`, `Deps.objc_counterexample`. The contents of targets and dependencies are characterised exactly for every program; the C++ linker is chosen exactly where it is needed if no library was found by the compiler of a further language. False in general: partial_dependency(links: true) loses the run paths and the language, so a C program that gets a C++ library this way is linked by the C compiler; as_system() on a dependency that was not found, or on a partial one without includes, loops over the null object and aborts; an object whose name has no dot makes a wild write; a library found by the Objective-C compiler makes a C++ program be linked as Objective-C.
* C93: `Names.darwin_links_counterexample`, `Names.objects_counterexample`, `Names.outside_counterexample`, `Names.private_counterexample`. Objects lie in the private directory, relative and absolute names agree, sources in the same place have different objects, targets of one directory share no object, and on systems other than Windows, Cygwin and darwin the links to a shared library lead to the built file. False in general: x.c and ../x.c of one target have the same object, so have /o/a_b.c and /o/a/b.c; an executable t.p is built at the private directory of t; on darwin a library with a version gets a link at the path of the file to be built. Names on Windows and Cygwin are not modelled.
* C94: `Feature.error_message_counterexample`. Proved for all chains; a failure is an error if no error_message is given. False with error_message: the flag that tells whether the keyword is set is used as the number of the message, so muon aborts when the requirement is not met.
* C95: `Kinds.pie_counterexample`, `Kinds.both_library_counterexample`. Proved except for the keyword pie, which aborts muon whatever its value is, and except that a library given as a source of both_libraries is linked with the static library only.
* C96: `Lookup.required_counterexample`, `Lookup.version_counterexample`, `Lookup.fallback_version_counterexample`, `Lookup.empty_version_counterexample`, `Lookup.empty_fallback_counterexample`, `Lookup.fallback_disallowed_counterexample`, `Lookup.static_counterexample`, `Lookup.names_counterexample`, `Lookup.kind_counterexample`, `Lookup.include_counterexample`. Proved for lookups of any history under the conditions in the partial theorems. False: versions of overrides are not compared (the same lookup again then fails or aborts), a subproject refused for its version is accepted in the second pass, overrides that are not found satisfy required, version: [] is never met, fallback: [] fails an assertion, allow_fallback: false does not stop wraps, static: true can give the non-static dependency from the cache, a lookup of several names is remembered under all of them, include_type changes dependencies of other projects.
* C97: `Tool.clean_phony_counterexample`, `Tool.clean_cycle_counterexample`, `Tool.compdb_control_counterexample`, `Tool.compdb_first_counterexample`, `Tool.compdb_null_counterexample`. Proved for all graphs (cleaning of targets ends on graphs without cycles). False: cleaning a phony target removes nothing, cleaning a target on a cycle never ends, a control character in a command makes the database no JSON, and with -x a response file is not put in if its name stands in the command before, or is a null pointer if its contents are not bound.
* C98: `Pc.cflags_args_counterexample`, `Pc.history_counterexample`, `Pc.dataonly_counterexample`, `Pc.outside_counterexample`, `Pc.installDir_counterexample`, `Pc.libname_counterexample`, `Pc.description_counterexample`, `Pc.injected_counterexample`, `Pc.space_counterexample`, `Pc.subdir_counterexample`, `Pc.newline_counterexample`, `Pc.conflicts_counterexample`. Proved for all calls that are not dataonly, after any history, if the texts can stand on a line, flags have no quotes or backslashes and install_dir is not given. False: a variable given to one call is taken as defined in later files, dataonly files do not define the directories they use, directories outside the prefix are put below it, install_dir of the file is used as directory of the libraries, a library named libfoo is given as -lfoo, without description a null pointer is printed, a newline in a text adds fields, spaces in libraries and backslashes are not escaped, absolute directories of headers lose -I, a newline in a variable aborts, conflicts are not written.
* C99: `Probe.define_end_counterexample`, `Probe.required_cached_counterexample`, `Probe.symbol_required_counterexample`, `Probe.header_required_counterexample`, `Probe.long_prefix_counterexample`, `Probe.changed_file_counterexample`, `Probe.run_then_int_counterexample`, `Probe.define_counterexample`. The cache makes no difference in any history without collisions of the hash, without required checks, and in which the same program and command line are used by one function only. Proved of programs below 4096 bytes. False: a required check whose failure is cached is no error; has_header_symbol with required is an error for C++ after the first of two programs; a missing required header is ignored by find_library; programs are cut off after 4095 bytes; changed files are not noticed; run() and compute_int() of the same program abort; adjacent literals are not always joined.
* C100: `Wrap.fallback_counterexample`, `Wrap.unpatched_counterexample`, `Wrap.revision_counterexample`, `Wrap.lead_counterexample`, `Wrap.no_source_counterexample`, `Wrap.diff_empty_counterexample`, `Wrap.diff_short_counterexample`, `Wrap.diff_merged_counterexample`, `Wrap.directory_counterexample`, `Wrap.download_counterexample`. Proved of wrap files that end in a line end, have no NUL bytes and do not begin with a pair without key, and of diff_files with names of at least two bytes. False: fallback URLs are never used, after a failed patch or checkout a second attempt succeeds with what is there, lead_directory_missing = false counts as true, a wrap without source_filename is accepted and then passes a null pointer, an empty diff_files or a last name of one byte is read behind its end, directory can be any path, muon subprojects download succeeds although fetching failed.
* C101: `Sub.version_auto_counterexample`, `Sub.version_again_counterexample`, `Sub.disabled_counterexample`, `Sub.failed_again_counterexample`, `Sub.failed_nested_counterexample`, `Sub.same_name_counterexample`, `Sub.build_dir_counterexample`, `Sub.empty_dir_counterexample`. Proved of programs made of the actions that concern projects, for every nesting that ends (a subproject that uses itself under another name without end has no outcome). False: the version of a subproject that is not required is ignored, as is the version in a second call; a disabled one that was evaluated before is found; one that failed is evaluated again on each call and what it used is built; a subproject in one of the same name is evaluated too; with `directory` in a wrap another build directory is made; an empty directory is not fetched.
* C102: `Fsmod.expanduser_counterexample`, `Fsmod.expanduser_slash_counterexample`, `Fsmod.replaceSuffix_counterexample`, `Fsmod.stem_counterexample`, `Fsmod.samepath_counterexample`, `Fsmod.encoding_counterexample`. Proved of paths that do not begin with a tilde (and of the tilde alone), of names that are not `..`, and of suffixes in the last component. False: ~/x is taken to be /x, ~other/x to be in the own home directory; replace_suffix('a.d/b', '.c') is 'a.c'; .bashrc has an empty stem; /../a and /a are not the same path; an unsupported encoding does not stop fs.read.
* C103: `Cmdline.optimisation_lost_counterexample`, `Cmdline.warnings_lost_counterexample`, `Cmdline.optimization_ignored_counterexample`, `Cmdline.optimization_plain_counterexample`, `Cmdline.system_dirs_counterexample`, `Cmdline.rpath_cut_counterexample`, `Cmdline.regenerate_counterexample`, `Cmdline.posix_optimisation_lost_counterexample`. Proved of texts that fit into the buffers, of runs in which no target is compiled without optimisation (gcc, clang), and of options from the environment without commas. False: after one target with buildtype=plain no later target is optimised, after one with warning_level=0 cl gives no warnings; -Doptimization is ignored if a build type is set anywhere and the choice 'plain' ends the program; system directories are missing for cl; rpaths of more than 243 bytes are cut; CFLAGS with a comma becomes several arguments when ninja configures again.
* C104: `Cdata.dict_shared_counterexample`, `Cdata.data_shared_counterexample`, `Cdata.quoted_literal_counterexample`, `Cdata.get_unquoted_back_counterexample`, `Cdata.get_unquoted_number_counterexample`, `Cdata.header_counterexample`, `Cdata.copy_false_counterexample`, `Cdata.output_place_counterexample`, `Cdata.load_counterexample`. The dictionary given to configuration_data() is shared with the object (counterexamples): the theorems on objects and dictionaries hold for programs that give no dictionary twice, and for dictionaries that are not given. set_quoted does not escape backslashes and get_unquoted does not undo escapes and aborts on numbers; copy: false copies; the output .. is outside of the build directory; keyval.load reads beyond files without a final newline.
* C105: `Ctgt.generate_same_counterexample`, `Ctgt.output_directory_counterexample`, `Ctgt.no_input_counterexample`, `Ctgt.key_counterexample`, `Ctgt.dot_counterexample`. Proved of strings whose keys are all known and of directories without @. False: keys that are not known stay as they are without an error; in a build directory with two @ in its path every custom target with outputs fails; @INPUT0@ and @BASENAME@ without an input abort; without preserve_path_from sources with the same name in different directories have the same output.
* C106: `Prog.empty_name_counterexample`, `Prog.python_override_counterexample`, `Prog.not_found_counterexample`, `Prog.version_counterexample`, `Prog.version_ends_counterexample`, `Prog.failed_subproject_counterexample`, `Prog.guess_counterexample`. Versions are proved of files and of overrides whose version is known, the absence of aborts of names that are not empty and without python installations as overrides. False: find_program('') aborts; a name overridden with a python installation aborts; path() and version() of a program that was not found abort; an override whose version is unknown and the built-in samurai are taken whatever version is wanted; a file of another version ends the search although there is another further on; overrides of a subproject that failed are taken; dots alone are guessed as a version. The evaluation of subprojects and the output of programs are parameters.
* C107: `Odecl.empty_name_counterexample`, `Odecl.subproject_global_counterexample`, `Odecl.override_commandline_counterexample`. Proved of options that are not deprecated with other names or values (those are C37 and C38). Three parts fail: the empty name is accepted, a subproject can change options of the whole build with its own default_options, and override_options has no effect on an option given on the command line.
* C108: `Edcfg.longer_name_counterexample`, `Edcfg.end_of_name_counterexample`, `Edcfg.crlf_counterexample`, `Edcfg.alternatives_counterexample`, `Edcfg.brackets_counterexample`, `Edcfg.wild_counterexample`, `Edcfg.broken_counterexample`, `Edcfg.negative_counterexample`, `Edcfg.large_counterexample`, `Edcfg.unset_counterexample`, `Edcfg.numbers_counterexample`, `Edcfg.unclosed_counterexample`. Sections without brackets, ranges, and stars other than one at the start; what is missing are sections with stars in other places. Ten parts fail: a section applies to files whose path lacks its last byte; names fit the ends of other names; with CRLF line ends a name does not fit; of alternatives only the first that fits is tried; in brackets only the first byte counts; a comma after alternatives gives a wild pointer; if a file cannot be parsed a pointer that was never set is read; indent_size = -1 writes after the end of the buffer; 2000 fails an assertion; a size that is not a number removes all indentation.
* C109: `Scope.nested_arguments_counterexample`, `Scope.no_parameters_counterexample`, `Scope.counter_counterexample`, `Scope.caller_locals_counterexample`, `Scope.recursion_counterexample`, `Scope.break_counterexample`. Scoping is proved for all programs. Arguments are bound correctly if they contain no calls of such functions themselves: the argument arrays are static, so add(1, add(2, 3)) adds 2 and 5, and f(g()) ends muon if g has no parameters. A function that is called again while it runs sees the variables of the outer call; += on a captured variable lasts until the next call; a function does not know its own name; break in a function defined in a loop skips the rest of the file.
* C110: `Proj.twice_counterexample`, `Proj.outside_counterexample`, `Proj.dependencies_counterexample`, `Proj.first_call_counterexample`, `Proj.order_counterexample`, `Proj.nasm_counterexample`, `Proj.assembler_counterexample`. Proved for all build files and all nestings. Mirroring holds for relative names (absolute names and .. give directories outside of the build directory). Seven parts fail: a directory can be entered twice; directories outside of the build tree; add_project_dependencies() with an unknown language works and skips the rest; an optional subproject that does not begin with project() leaves its syntax tree in use; whether a language is missing depends on the order of names; nasm without C; add_languages('cpp') changes the assembly compiler. Targets, options and evaluation of expressions are not in this model.
* C111: `Mopts.flag_value_counterexample`, `Mopts.empty_value_counterexample`, `Mopts.no_suite_counterexample`, `Mopts.suites_counterexample`, `Mopts.options_exist_counterexample`. Proved for all command lines in all spellings and orders, with the exceptions named: --werror=false sets it to true; an empty value swallows the next option, so that install --destdir '' -n is no dry run; --no-suite slow runs only tests called slow; a 65th suite is written behind an array; --install-umask and --prefer-static set options muon does not have.
* C112: `Tdecl.bench_verbose_counterexample`, `Tdecl.program_argument_counterexample`, `Tdecl.run_target_depends_counterexample`, `Tdecl.gtest_counterexample`, `Tdecl.dict_grows_counterexample`, `Tdecl.shared_dictionary_counterexample`, `Tdecl.later_call_counterexample`, `Tdecl.empty_name_counterexample`. Proved for all calls, build files and worlds: what a test is declared with, which program it runs, what is built before it, and the variables it and run targets are run with, whatever else the build file does. Fails for: verbose: of benchmarks, programs among the arguments, run targets as dependencies (abort), gtest and rust protocols, dictionaries and environment objects that are shared (they are not copied), names that are empty.
* C113: `Script.interpreter_counterexample`, `Script.both_counterexample`, `Script.run_target_counterexample`, `Script.dist_counterexample`. Proved for all arguments, directories and build files: the words a script is run with, that the targets among them are built by default, order and failure of scripts after configuring. Fails for programs that have arguments of their own (the next string becomes a path), both_libraries() (error), run targets (abort) and dist scripts (dropped).
* C114: `Dobj.define_counterexample`, `Dobj.library_name_counterexample`, `Dobj.skipped_name_counterexample`. Proved for every behaviour of pkg-config (a parameter: libpkgconf is not modelled), all dependencies and all sequences of calls without pkgconfig_define. Fails after a call with pkgconfig_define: its definitions hold for all later calls. The names of libraries and of dependencies of disabled features are wrong.
* C115: `Incdir.up_counterexample`. Proved for all argument lists, source, build and current directories without '..' and a source directory that is not the root. Fails for strings that leave the source directory with '..': a directory outside of the build directory is searched too.
* C116: `Import.required_counterexample`, `Import.script_found_counterexample`. Proved for all names without NUL, requirements, disabler values, scripts and method names. Fails for required modules that muon knows only by name: they are imported with a warning, and found() is false. found() of a script is an error unless the script gives that function. Not modelled: the analyzer, how scripts are evaluated (a parameter), and which functions each module has (a parameter).
* C117: `Python.absent_counterexample`, `Python.skip_counterexample`. Proved for every behaviour of the commands (a parameter; each prints the same every time), if a command that is there answers the three questions. Fails for a command that is not there, not required and without disabler: it is an error, because muon asks it for its version. Fails for disabled features: Python is searched for and found. Not modelled: tinyjson and how the commands are run (C83 and C84 are about that).
* C118: `Machine.arm64_counterexample`, `Machine.sgi_counterexample`. Proved for all names but three. Fails for arm64, which gets the family arm with 32 bits because names that begin with arm are tested first, and for ip30 and ip35, whose family is misspelt (mpis64). Not modelled: uname itself, endian().
