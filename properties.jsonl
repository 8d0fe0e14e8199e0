{"id": "C01", "title": "Version comparison is a total preorder", "statement": "The version ordering used by version_compare() and by dependency version checks is reflexive, antisymmetric up to equivalence (cmp(a,b) = -cmp(b,a)), transitive and total, so 'a >= b' and 'a < b' are always complementary and chains of comparisons are consistent.", "quantifier": "all byte strings a, b, c", "why_tests_cant": "Transitivity and antisymmetry range over all pairs/triples of strings of any length; tests only sample them.", "anchors": ["src/rpmvercmp.c:rpmvercmp", "src/functions/string.c:version_compare_iter"]}
{"id": "C02", "title": "version_compare operators mean what they say", "statement": "For every version string v and constraint c, v.version_compare(op + c) is true exactly when the version order between v and c satisfies op, for each of the six operators (plus '=' and none meaning equality), operators being recognised by longest match.", "quantifier": "all version strings, all operator/operand strings", "why_tests_cant": "The operator prefix parse interacts with arbitrary operand text.", "anchors": ["src/functions/string.c:version_compare_iter", "src/functions/string.c:version_compare"]}
{"id": "C03", "title": "Hash table behaves as a finite map", "statement": "After any sequence of set, unset, clear and get operations, a get returns exactly the value of the latest set for that key not followed by an unset/clear, and reports absence otherwise; growing the table never loses or resurrects an entry.", "quantifier": "all hash functions, all finite sequences of operations, all keys and values", "why_tests_cant": "Needs every interleaving of insertions, deletions (tombstones) and resizes, and every collision pattern.", "anchors": ["src/datastructures/hash.c:hash_set", "src/datastructures/hash.c:hash_get", "src/datastructures/hash.c:hash_unset", "src/datastructures/hash.c:resize", "src/datastructures/hash.c:probe"]}
{"id": "C04", "title": "Hash table lookups terminate", "statement": "In every state reachable by table operations, a lookup/insert probe finishes: there is always an empty slot on the probe path.", "quantifier": "all reachable table states, all keys", "why_tests_cant": "Non-termination only appears for particular tombstone/load histories.", "anchors": ["src/datastructures/hash.c:probe", "src/datastructures/hash.c:hash_set", "src/datastructures/hash.c:resize"]}
{"id": "C05", "title": "Split then join is the identity", "statement": "For every string s and non-empty separator sep, sep.join(s.split(sep)) == s, and no piece returned by split contains sep; split always returns at least one piece.", "quantifier": "all strings, all non-empty separators", "why_tests_cant": "All overlaps of separator and string of any length.", "anchors": ["src/lang/string.c:str_split", "src/functions/string.c:func_split", "src/functions/string.c:func_join"]}
{"id": "C06", "title": "String replace substitutes every non-overlapping occurrence", "statement": "For non-empty `find`, s.replace(find, repl) equals joining the left-to-right non-overlapping pieces with repl; it terminates and leaves strings without the needle unchanged. For an empty `find` the call should also terminate.", "quantifier": "all strings, all needles and replacements", "why_tests_cant": "Termination and exactness quantify over all inputs.", "anchors": ["src/functions/string.c:func_string_replace"]}
{"id": "C07", "title": "strip removes exactly the leading and trailing pad characters", "statement": "s.strip(chars) returns the longest middle part that neither begins nor ends with a character in chars (default whitespace); it is idempotent and never drops an inner character.", "quantifier": "all strings and pad sets", "why_tests_cant": "All strings including all-pad strings.", "anchors": ["src/lang/string.c:str_strip", "src/functions/string.c:func_strip"]}
{"id": "C08", "title": "contains / startswith / endswith decide the substring relations", "statement": "s.contains(t), s.startswith(t), s.endswith(t) are true exactly when t is an infix, prefix, suffix of s.", "quantifier": "all pairs of strings", "why_tests_cant": "Biconditional over all pairs.", "anchors": ["src/functions/string.c:func_string_contains", "src/functions/string.c:func_string_startswith", "src/lang/string.c:str_startswith", "src/lang/string.c:str_endswith"]}
{"id": "C09", "title": "substring stays in bounds and returns the requested slice", "statement": "s.substring(a, b) returns the characters from a up to b, with negative positions counted from the end and out-of-range positions clamped, and never reads outside the string.", "quantifier": "all strings and all 64-bit integers a, b", "why_tests_cant": "Boundary arithmetic over all integer pairs.", "anchors": ["src/functions/string.c:func_string_substring"]}
{"id": "C10", "title": "Indexing never goes out of bounds", "statement": "For every array or string x and every integer i, x[i] and array.get(i) either return the element at i (or at len+i for negative i) or fail with 'index out of bounds'; no other outcome is possible.", "quantifier": "all lengths, all 64-bit integers", "why_tests_cant": "All index values including very negative ones.", "anchors": ["src/lang/interpreter.c:bounds_adjust", "src/lang/interpreter.c:boundscheck", "src/lang/interpreter.c:interp_index", "src/functions/array.c:func_array_get"]}
{"id": "C11", "title": "String formatting substitutes only @N@ references", "statement": "'...'.format(args): every @N@ (and only those) is replaced by the N-th argument, all other text is copied unchanged, an out-of-range N is an error, and substituted text is never re-scanned.", "quantifier": "all template strings, all argument lists", "why_tests_cant": "All texts and all placements of '@'.", "anchors": ["src/functions/string.c:string_format", "src/functions/string.c:func_format_cb"]}
{"id": "C12", "title": "underscorify, to_upper, to_lower act bytewise", "statement": "These methods preserve length, change only the documented characters, and are idempotent.", "quantifier": "all strings", "why_tests_cant": "All byte values at all positions.", "anchors": ["src/functions/string.c:func_underscorify", "src/functions/string.c:func_to_upper", "src/functions/string.c:func_to_lower"]}
{"id": "C13", "title": "to_int inverts number formatting", "statement": "For every 64-bit integer n, n.to_string().to_int() == n; and to_int fails on every string that is not an optionally signed decimal number.", "quantifier": "all 64-bit integers, all strings", "why_tests_cant": "2^64 values.", "anchors": ["src/lang/string.c:str_to_i", "src/functions/string.c:func_string_to_int", "src/functions/number.c:func_number_to_string"]}
{"id": "C14", "title": "Path normalisation is canonical", "statement": "path normalisation is idempotent, leaves no '.' component and no repeated separators, with optimisation removes every 'x/..' pair, keeps absolute paths absolute and relative paths relative, and denotes the same location lexically.", "quantifier": "all path strings", "why_tests_cant": "All component sequences of any length.", "anchors": ["src/platform/path.c:_path_normalize"]}
{"id": "C15", "title": "Path joining respects absolute right operands", "statement": "a / b is b (normalised) when b is absolute, and otherwise resolves to b inside a: its components are a's components followed by b's.", "quantifier": "all pairs of paths", "why_tests_cant": "All path pairs.", "anchors": ["src/platform/path.c:path_join", "src/platform/path.c:path_push"]}
{"id": "C16", "title": "Relative path computation is inverse to joining", "statement": "For absolute paths base and p, joining base with path_relative_to(base, p) leads lexically to the same place as p, and if the normalised base does not lead above the root the normalised text of p is recovered exactly.", "quantifier": "all pairs of normalised absolute paths", "why_tests_cant": "All common-prefix shapes.", "anchors": ["src/platform/path.c:path_relative_to", "src/platform/path.c:path_join"]}
{"id": "C17", "title": "Sub-path test is component-wise", "statement": "path_is_subpath(base, sub) holds exactly when the components of base are a prefix of those of sub, so '/a/bc' is not under '/a/b'.", "quantifier": "all pairs of normalised paths", "why_tests_cant": "All pairs of paths.", "anchors": ["src/platform/path.c:path_is_subpath"]}
{"id": "C18", "title": "dirname and basename partition a path", "statement": "For every normalised path with a directory part, joining dirname(p) and basename(p) gives p back; basename contains no separator.", "quantifier": "all normalised paths", "why_tests_cant": "All paths.", "anchors": ["src/platform/path.c:path_dirname", "src/platform/path.c:path_basename"]}
{"id": "C19", "title": "Shell quoting of arguments is reversible", "statement": "An argument escaped for the shell and then read by a POSIX shell yields exactly one word equal to the original argument.", "quantifier": "all argument byte strings without NUL", "why_tests_cant": "Any unescaped metacharacter anywhere breaks it.", "anchors": ["src/platform/posix/path.c:shell_escape"]}
{"id": "C20", "title": "Ninja escaping is undone by the ninja reader", "statement": "A path or argument escaped for build.ninja and read back by the embedded ninja implementation (samurai) yields the original text, with no variable expansion or path splitting.", "quantifier": "all byte strings", "why_tests_cant": "All placements of special characters.", "anchors": ["src/args.c:ninja_escape", "src/args.c:simple_escape", "src/external/samurai/scan.c:samu_scanstring", "src/external/samurai/scan.c:samu_escape"]}
{"id": "C21", "title": "$in/$out paths survive the shell", "statement": "When the embedded ninja expands $in or $out, each path is quoted so that the shell sees exactly that path as one word.", "quantifier": "all node paths without NUL", "why_tests_cant": "All byte strings.", "anchors": ["src/external/samurai/graph.c:samu_nodepath", "src/external/samurai/env.c:samu_pathlist"]}
{"id": "C22", "title": "The lexer always terminates and makes progress", "statement": "Tokenising any source text finishes, and the token stream ends with an end-of-file token exactly when lexing completes; every token consumes input.", "quantifier": "all byte strings", "why_tests_cant": "All inputs; a hang only shows on particular inputs.", "anchors": ["src/lang/lexer.c:tokenize", "src/lang/lexer.c:lexer_tokenize_one"]}
{"id": "C23", "title": "The lexer never writes outside its literal buffer", "statement": "For every source text, the total size of identifier and string payloads stored by the lexer is within the buffer of source-length + 1 bytes allocated up front.", "quantifier": "all byte strings", "why_tests_cant": "Needs every input.", "anchors": ["src/lang/lexer.c:lexer_lex", "src/lang/lexer.c:lex_string", "src/lang/lexer.c:lex_string_char"]}
{"id": "C24", "title": "String literals denote their source text", "statement": "Lexing the quoted rendering of any byte string (escaping quote, backslash and control characters) yields a string token with exactly that content; triple-quoted strings are taken verbatim.", "quantifier": "all byte strings", "why_tests_cant": "All contents.", "anchors": ["src/lang/lexer.c:lex_string", "src/lang/lexer.c:lex_string_char", "src/lang/lexer.c:write_utf8"]}
{"id": "C25", "title": "Unicode escapes are encoded as valid UTF-8", "statement": "A \\u/\\U/\\x escape for any code point below 0x110000 is stored as the standard UTF-8 encoding of it, and larger values are rejected.", "quantifier": "all 32-bit values", "why_tests_cant": "2^32 values.", "anchors": ["src/lang/lexer.c:write_utf8"]}
{"id": "C26", "title": "Operator precedence and associativity", "statement": "Expressions are parsed with the documented Meson precedences, and binary arithmetic operators of equal precedence associate to the left: printing any expression tree with minimal parentheses and parsing it gives the same tree.", "quantifier": "all expression trees", "why_tests_cant": "Infinitely many nestings.", "anchors": ["src/lang/parser.c:parse_expr", "src/lang/parser.c:parse_arith", "src/lang/parser.c:parse_e4"]}
{"id": "C27", "title": "and/or/ternary/if short-circuit", "statement": "The right operand of and/or, the untaken branch of a ternary or if, are not evaluated: they have no effect on variables or output and cannot fail.", "quantifier": "all programs, all states", "why_tests_cant": "All subprograms in the unevaluated position.", "anchors": ["src/lang/interpreter.c:interp_andor", "src/lang/interpreter.c:interp_ternary", "src/lang/interpreter.c:interp_if"]}
{"id": "C28", "title": "Value semantics of assignment", "statement": "After b = a, modifying b with += (or modifying a) does not change the value observed through the other variable, for arrays and dictionaries at any nesting.", "quantifier": "all programs and all values", "why_tests_cant": "Aliasing depends on the full history.", "anchors": ["src/lang/interpreter.c:interp_assign", "src/lang/interpreter.c:interp_plusassign", "src/lang/object.c:obj_array_dup", "src/lang/object.c:obj_array_extend"]}
{"id": "C29", "title": "foreach visits each element once in order, with break/continue", "statement": "foreach runs its body once per element of the array (key/value of the dictionary) in order, break ends the innermost loop, continue skips to the next element, and the loop terminates.", "quantifier": "all arrays, all bodies", "why_tests_cant": "All bodies, including ones that modify the iterated array.", "anchors": ["src/lang/interpreter.c:interp_foreach", "src/lang/interpreter.c:interp_foreach_arr_iter"]}
{"id": "C30", "title": "Integer arithmetic is exact or reported", "statement": "+, -, *, / and % on numbers give the mathematical result (truncated division) or a reported error; no input triggers undefined behaviour.", "quantifier": "all pairs of 64-bit integers", "why_tests_cant": "2^128 pairs.", "anchors": ["src/lang/interpreter.c:interp_arithmetic"]}
{"id": "C31", "title": "range() produces the documented sequence and terminates", "statement": "range(a, b, s) is exactly a, a+s, ... below b.", "quantifier": "all accepted a, b, s", "why_tests_cant": "All 96-bit parameter combinations, incl. wrap-around.", "anchors": ["src/functions/kernel.c:func_range", "src/functions/kernel.c:func_range_common"]}
{"id": "C32", "title": "Arrays implement sequences", "statement": "Pushing, prepending, extending, indexing, setting, deleting, slicing, duplicating and comparing arrays agree with the corresponding operations on mathematical sequences, and mutation of one array never disturbs another array that does not share storage.", "quantifier": "all sequences of array operations", "why_tests_cant": "All histories of linked-list surgery.", "anchors": ["src/lang/object.c:obj_array_push", "src/lang/object.c:obj_array_extend_nodup", "src/lang/object.c:obj_array_dup", "src/lang/object.c:obj_array_del", "src/lang/object.c:obj_array_index", "src/lang/object.c:obj_array_prepend"]}
{"id": "C33", "title": "Dictionaries implement finite maps in insertion order", "statement": "Setting, deleting, looking up, iterating and merging dictionaries agrees with an insertion-ordered finite map, independent of whether the dictionary is stored as a list or as a hash table.", "quantifier": "all sequences of dictionary operations of any length", "why_tests_cant": "The representation switch and deletion interact with the whole history.", "anchors": ["src/lang/object.c:obj_dict_set", "src/lang/object.c:obj_dict_index", "src/lang/object.c:obj_dict_del", "src/lang/object.c:obj_dict_merge", "src/lang/object.c:obj_dict_foreach"]}
{"id": "C34", "title": "Equality is an equivalence relation", "statement": "obj equality (== and 'in') is reflexive, symmetric and transitive on values, structural on arrays and key-order independent on dictionaries.", "quantifier": "all values of any depth", "why_tests_cant": "All nested values.", "anchors": ["src/lang/object.c:obj_equal", "src/lang/object.c:obj_array_in"]}
{"id": "C35", "title": "Dedup keeps first occurrences", "statement": "De-duplicating an array keeps exactly the first occurrence of every value in order.", "quantifier": "all arrays", "why_tests_cant": "All arrays.", "anchors": ["src/lang/object.c:obj_array_dedup"]}
{"id": "C36", "title": "Serialisation round-trips and rejects truncation", "statement": "Loading a workspace dump written by the same version yields an equal object graph; loading any strict prefix of a dump (a crash while writing) is reported as failure rather than accepted.", "quantifier": "all object graphs, all crash points", "why_tests_cant": "Every truncation point of every dump.", "anchors": ["src/lang/serial.c:serial_dump", "src/lang/serial.c:serial_load"]}
{"id": "C37", "title": "Option values come from the highest-precedence source regardless of order", "statement": "The final value of a build option is the one set by the source of highest precedence (last one among equals), independent of the order in which sources are applied; a value violating the option's type, choices or range is never stored.", "quantifier": "all sequences of option assignments", "why_tests_cant": "All orders of sources.", "anchors": ["src/options.c:set_option", "src/options.c:coerce_option_override"]}
{"id": "C38", "title": "-D option strings parse uniquely", "statement": "Parsing '-D[subproject:]key=value' recovers exactly subproject, key and value for all well-formed triples and rejects malformed ones.", "quantifier": "all strings", "why_tests_cant": "All strings with ':' and '=' anywhere.", "anchors": ["src/options.c:parse_config_string"]}
{"id": "C39", "title": "Environment objects apply operations in order", "statement": "The variables produced by an environment() object are those of applying set/append/prepend operations in order on top of the inherited value with the given separators.", "quantifier": "all operation sequences", "why_tests_cant": "All histories.", "anchors": ["src/functions/environment.c:evironment_to_dict_iter", "src/functions/environment.c:environment_set"]}
{"id": "C40", "title": "configure_file substitution is exact and single pass", "statement": "Substitution replaces every @key@ by its value and #mesondefine lines by the documented define, copies everything else unchanged, honours backslash escaping and never re-expands substituted text.", "quantifier": "all templates, all configuration data", "why_tests_cant": "All texts.", "anchors": ["src/functions/kernel/configure_file.c:substitute_config"]}
{"id": "C41", "title": "Regenerating a configuration file does not touch unchanged outputs", "statement": "configure_file rewrites the output iff its content would change.", "quantifier": "all prior file states and contents", "why_tests_cant": "All file states.", "anchors": ["src/functions/kernel/configure_file.c:file_exists_with_content", "src/functions/kernel/configure_file.c:func_configure_file"]}
{"id": "C42", "title": "Source sets select by configuration", "statement": "Applying a source set to a configuration yields exactly the sources of rules whose conditions hold plus if_false sources of those whose conditions fail, recursively for nested sets, each once, in rule order; a missing key in strict mode is an error; and a set already added to another set or used can no longer change.", "quantifier": "all source sets of any nesting, all configurations", "why_tests_cant": "All nestings.", "anchors": ["src/functions/source_set.c:source_set_collect", "src/functions/source_set.c:source_set_collect_rules_iter", "src/functions/source_set.c:source_set_rule_match_iter"]}
{"id": "C43", "title": "Type checking is sound", "statement": "If a value passes a type check against a (possibly nested or union) type, the value has that type, recursively; a union accepts exactly what one of its members accepts; disablers are always accepted.", "quantifier": "all values, all type expressions", "why_tests_cant": "All nested values and types.", "anchors": ["src/lang/typecheck.c:typecheck_complex_type", "src/lang/typecheck.c:typecheck_custom"]}
{"id": "C44", "title": "SHA-256 is computed per FIPS 180-4", "statement": "fs.hash_file / wrap checksum use calc_sha_256, which equals the standard function for every input length.", "quantifier": "all byte strings", "why_tests_cant": "All lengths, in particular padding boundaries.", "anchors": ["src/sha_256.c:calc_sha_256", "src/sha_256.c:calc_chunk"]}
{"id": "C45", "title": "memmem finds the first occurrence", "statement": "The substring search returns the position of the first occurrence of the needle or none.", "quantifier": "all haystacks and needles", "why_tests_cant": "All overlaps; two-way algorithm subtle for periodic needles.", "anchors": ["src/memmem.c:memmem"]}
{"id": "C46", "title": "INI parsing reads every line", "statement": "Parsing an INI file reports each section's key/value pairs in order with surrounding blanks trimmed, and never reads outside the buffer.", "quantifier": "all files", "why_tests_cant": "All texts.", "anchors": ["src/formats/ini.c:ini_parse_line_cb", "src/formats/lines.c:each_line"]}
{"id": "C47", "title": "TAP parsing counts tests correctly", "statement": "The verdict for a TAP stream is success exactly when the plan is satisfied and every line is ok or skipped.", "quantifier": "all streams", "why_tests_cant": "All sequences of lines.", "anchors": ["src/formats/tap.c:tap_parse_line_cb", "src/formats/tap.c:tap_parse"]}
{"id": "C48", "title": "Build scheduling: a job starts only after its inputs are ready", "statement": "For every acyclic build graph, number of parallel jobs, and order of job completions and failures, the embedded ninja starts a job only when all jobs producing its inputs have finished successfully (or were pruned), starts each job at most once, and without failures runs all required jobs.", "quantifier": "all build graphs, all schedules", "why_tests_cant": "All schedules of all graphs.", "anchors": ["src/external/samurai/build.c:samu_buildadd", "src/external/samurai/build.c:samu_nodedone", "src/external/samurai/build.c:samu_build", "src/external/samurai/build.c:samu_queue"]}
{"id": "C49", "title": "Dependency cycles are detected", "statement": "Scheduling a target terminates for every build graph and reports an error exactly when a dependency cycle is reachable from the target.", "quantifier": "all build graphs", "why_tests_cant": "All graphs.", "anchors": ["src/external/samurai/build.c:samu_buildadd"]}
{"id": "C50", "title": "Pool depth is respected", "statement": "At no time do more than `depth` jobs of one pool run or wait in the main queue, and every queued job of the pool eventually gets a slot.", "quantifier": "all schedules", "why_tests_cant": "All schedules.", "anchors": ["src/external/samurai/build.c:samu_queue", "src/external/samurai/build.c:samu_jobdone"]}
{"id": "C51", "title": "Up-to-date check is conservative", "statement": "An output is considered clean only if it exists, its command is unchanged and it is not older than any of its inputs (respectively was recorded as such for restat rules).", "quantifier": "all mtimes, logs and rule flags", "why_tests_cant": "All combinations of mtimes.", "anchors": ["src/external/samurai/build.c:samu_isdirty", "src/external/samurai/build.c:samu_buildadd"]}
{"id": "C52", "title": "Build log survives crashes", "statement": "Reloading .ninja_log after a crash at any byte recovers every complete record written before the crash (the latest per output) and no other output's record is altered.", "quantifier": "all logs, all truncation points", "why_tests_cant": "Every crash point.", "anchors": ["src/external/samurai/log.c:samu_log_parse_cb", "src/external/samurai/log.c:samu_logrecord", "src/external/samurai/log.c:samu_loginit"]}
{"id": "C53", "title": "Dependency log survives crashes", "statement": "Reloading .ninja_deps after a crash at any byte recovers exactly the dependency records completely written before the crash.", "quantifier": "all logs, all truncation points", "why_tests_cant": "Every crash point.", "anchors": ["src/external/samurai/deps.c:samu_depsinit", "src/external/samurai/deps.c:samu_recordid", "src/external/samurai/deps.c:samu_recorddeps"]}
{"id": "C54", "title": "Ninja path canonicalisation identifies equal paths", "statement": "Canonicalising build-file paths is idempotent, removes '.', duplicate '/', and resolves 'x/..', and never writes outside the string; two spellings of one lexical path map to one node.", "quantifier": "all paths", "why_tests_cant": "All component sequences.", "anchors": ["src/external/samurai/util.c:samu_canonpath"]}
{"id": "C55", "title": "Ninja variable tables are balanced search trees", "statement": "Insertion into the variable/rule/pool table keeps all previous bindings, replaces the value of an existing key, lookups return the last inserted value, and the tree height stays logarithmic so the fixed-size path stack cannot overflow.", "quantifier": "all insertion sequences", "why_tests_cant": "All insertion orders.", "anchors": ["src/external/samurai/tree.c:samu_treeinsert", "src/external/samurai/tree.c:samu_treefind", "src/external/samurai/tree.c:samu_balance", "src/external/samurai/tree.c:samu_rot"]}
{"id": "C56", "title": "Ninja node table is a map", "statement": "Looking up a path returns the node created for it and distinct paths never share a node, through all table growth.", "quantifier": "all insertion sequences, all hash values", "why_tests_cant": "All collision patterns.", "anchors": ["src/external/samurai/htab.c:samu_htabput", "src/external/samurai/htab.c:samu_keyindex", "src/external/samurai/graph.c:samu_mknode"]}
{"id": "C57", "title": "Growable buffers never overflow", "statement": "Every append to a string buffer or dynamic array stays inside its allocation and preserves the previous contents, for all append sequences and sizes.", "quantifier": "all sequences of appends", "why_tests_cant": "All size sequences around growth boundaries.", "anchors": ["src/lang/string.c:sbuf_grow", "src/lang/string.c:sbuf_push", "src/lang/string.c:sbuf_pushf", "src/datastructures/arr.c:arr_push", "src/datastructures/bucket_arr.c:bucket_arr_push"]}
{"id": "C58", "title": "Disablers propagate", "statement": "A disabler operand or argument makes any operation or method call evaluate to a disabler, and an if with a disabler condition runs no branch; only is_disabler observes it.", "quantifier": "all expressions", "why_tests_cant": "All expression shapes.", "anchors": ["src/lang/interpreter.c:interp_arithmetic", "src/lang/interpreter.c:interp_comparison", "src/functions/common.c:typecheck_function_arg"]}
{"id": "C59", "title": "Glob matching", "statement": "Wildcard matching used by name patterns accepts a string exactly when it can be split along '*' into the literal pieces in order.", "quantifier": "all patterns and strings", "why_tests_cant": "All patterns.", "anchors": ["src/lang/string.c:str_eql_glob"]}
{"id": "C60", "title": "Extension removal only touches the extension", "statement": "Removing the extension of a path removes the last '.' of the last component and what follows it, leaves a path whose last component has no '.' alone, and never loses a component.", "quantifier": "all paths", "why_tests_cant": "All component and dot arrangements.", "anchors": ["src/platform/path.c:path_without_ext"]}
{"id": "C61", "title": "Commands in the build directory are not looked up in PATH", "statement": "The path made for running a program (fs.executable, custom target commands, coercion of targets to programs) denotes the same file as the path given and always contains a separator.", "quantifier": "all paths", "why_tests_cant": "All paths.", "anchors": ["src/platform/path.c:path_executable", "src/functions/modules/fs.c:func_module_fs_executable"]}
{"id": "C62", "title": "Number literals denote their value", "statement": "A number literal with or without base prefix denotes the value of its digits, literals that do not fit a 64-bit integer are rejected, and nothing but digits is part of a number.", "quantifier": "all digit strings in all bases", "why_tests_cant": "All digit strings.", "anchors": ["src/lang/lexer.c:number"]}
{"id": "C63", "title": "Format strings interpolate variables only", "statement": "A format string denotes the concatenation of its literal text and of the variables written between two @; an @ that does not enclose a variable is literal text.", "quantifier": "all texts and variable names", "why_tests_cant": "All contents.", "anchors": ["src/lang/lexer.c:lex_string_char", "src/lang/lexer.c:lex_string"]}
{"id": "C64", "title": "The parser always terminates", "statement": "Parsing any token sequence or text ends with a tree, an error or an abort; it never loops.", "quantifier": "all token lists, all texts", "why_tests_cant": "A hang only shows on particular inputs.", "anchors": ["src/lang/parser.c:parser_parse", "src/lang/parser.c:parse_block", "src/lang/parser.c:parse_expr"]}
{"id": "C65", "title": "The parser accepts exactly the grammar", "statement": "A token sequence is accepted if and only if it is a text of the language's grammar - expressions, assignments, if/elif/else, foreach, continue and break inside loops, every statement having an effect - and the result is its one tree; the grammar is unambiguous. Nothing that could continue or that is left over is dropped.", "quantifier": "all token lists and trees", "why_tests_cant": "Infinitely many accepted and rejected texts.", "anchors": ["src/lang/parser.c:parser_parse", "src/lang/parser.c:parse_line", "src/lang/parser.c:parse_if", "src/lang/parser.c:parse_foreach", "src/lang/parser.c:parse_assignment", "src/lang/parser.c:parse_list_recurse", "src/lang/parser.c:parse_chained"]}
{"id": "C66", "title": "Written programs are read back", "statement": "Writing the tokens of any program as text and parsing the text gives the tree of the program.", "quantifier": "all programs with valid names and numbers in range", "why_tests_cant": "Infinitely many programs.", "anchors": ["src/lang/parser.c:parser_parse", "src/lang/lexer.c:lexer_lex"]}
{"id": "C67", "title": "Layout does not change the meaning", "statement": "Blanks, tabs, continued lines, comments at the ends of lines, and line ends and comments inside of brackets can be inserted between the tokens of a program without changing its tokens.", "quantifier": "all token lists and all such texts between them", "why_tests_cant": "Infinitely many programs and layouts.", "anchors": ["src/lang/lexer.c:lexer_tokenize_one"]}
{"id": "C68", "title": "Indexing is bounds-checked", "statement": "Indexing an array or string with an integer gives the element at that position, counted from the end if negative, and any other integer is a reported error.", "quantifier": "all arrays and strings, all integers", "why_tests_cant": "All integers, including ones below minus the length.", "anchors": ["src/lang/interpreter.c:interp_index", "src/lang/interpreter.c:boundscheck"]}
{"id": "C69", "title": "fs.hash() returns the SHA-256 of the file in hexadecimal", "statement": "fs.hash(file, 'sha256') returns the 64 hexadecimal digits of the SHA-256 of the content of the file.", "quantifier": "all file contents", "why_tests_cant": "Depends on the values of the bytes of the hash.", "anchors": ["src/functions/modules/fs.c:func_module_fs_hash", "src/sha_256.c:calc_sha_256"]}
{"id": "C70", "title": "Downloads are accepted only with the right checksum", "statement": "The archive of a wrap with a checksum is accepted if and only if the checksum is the SHA-256 of the archive in hexadecimal.", "quantifier": "all archives and all checksum strings", "why_tests_cant": "All archives and all strings of 64 characters.", "anchors": ["src/wrap.c:checksum"]}
{"id": "C71", "title": "Arguments of a call are bound to the parameters they are meant for", "statement": "A call of a built-in function is accepted exactly if positional arguments come before keyword arguments, there are as many as the function requires and takes, each fits the declared type, every keyword (given directly or in a dictionary passed as kwargs) is declared and given once, and required keywords are given. The function then gets for each parameter the value given for it; a last parameter that takes all further values gets them in order, with arrays replaced by their elements unless it takes arrays. A call gives a disabler only if there is one among the arguments, and never aborts.", "quantifier": "all parameter declarations and all lists of arguments with values of any nesting", "why_tests_cant": "Tests call each function with a few argument lists; the combinations of missing, repeated, misplaced and nested arguments and of declarations are unbounded.", "anchors": ["src/functions/common.c:interp_args", "src/functions/common.c:process_kwarg", "src/functions/common.c:next_arg"]}
{"id": "C72", "title": "A test is reported as what its program did", "statement": "A test whose protocol is exitcode succeeds if its program exits with 0, is skipped for 77, and fails otherwise; a TAP test succeeds exactly if its stream does and its program exits with 0; a test marked should_fail succeeds exactly if it would fail otherwise. A test ended by a signal or out of time never succeeds. `muon test` succeeds exactly if no test failed or timed out.", "quantifier": "all exit codes, outputs, kinds of tests and lists of results", "why_tests_cant": "The verdict combines several independent inputs, and the overall result ranges over lists of any length.", "anchors": ["src/cmd_test.c:check_test_result_tap", "src/cmd_test.c:check_test_result_exitcode", "src/cmd_test.c:collect_tests", "src/cmd_test.c:tests_run"]}
{"id": "C73", "title": "Tests run in parallel as allowed, each once", "statement": "`muon test` never runs more tests at once than there are jobs, runs a test that is not parallel alone, starts tests in the order of their priority, and records exactly one result for each, whatever the order in which their programs end. It ends once the programs end; with fail-fast no further test is started after a failure, and the run is a failure.", "quantifier": "all numbers of jobs, all lists of tests, all schedules and results", "why_tests_cant": "Interleavings of programs that end at any time cannot be enumerated by tests.", "anchors": ["src/cmd_test.c:push_test", "src/cmd_test.c:collect_tests", "src/cmd_test.c:run_test", "src/cmd_test.c:run_project_tests", "src/cmd_test.c:test_compare"]}
{"id": "C74", "title": "Ninja files are read as what they say", "statement": "Every build file written according to ninja's grammar - rules, edges with implicit and order-only paths, pools, variables, default targets, included files, in whatever layout of spaces, continued lines, comments, empty lines and both kinds of line ends - is read by the built-in ninja as exactly the statements it contains, with their strings, escapes and variables. Reading any file comes to an end.", "quantifier": "all files in the grammar, all layouts; for termination all texts", "why_tests_cant": "Infinitely many files and layouts.", "anchors": ["src/external/samurai/scan.c:samu_scankeyword", "src/external/samurai/scan.c:samu_scanstring", "src/external/samurai/scan.c:samu_scanpaths", "src/external/samurai/scan.c:samu_scanindent", "src/external/samurai/scan.c:samu_comment", "src/external/samurai/parse.c:samu_parseedge", "src/external/samurai/parse.c:samu_parserule"]}
{"id": "C75", "title": "Statements of ninja files have their meaning; scopes and variables", "statement": "A manifest is accepted exactly if its statements can be run in their order: paths are replaced and brought into canonical form, bindings of an edge are evaluated in the scope of the file, variables of a rule in that of the edge, a later binding hides earlier ones, an included file shares the scope and a subninja file gets its own, which leaves the scopes around it unchanged. The value of a variable of an edge is the one this defines, and a variable that needs itself is a reported error.", "quantifier": "all manifests, included files, edges and variables", "why_tests_cant": "Nesting of scopes, files and references between variables is unbounded.", "anchors": ["src/external/samurai/parse.c:samu_parse", "src/external/samurai/parse.c:samu_parseinclude", "src/external/samurai/env.c:samu_edgevar", "src/external/samurai/env.c:samu_enveval", "src/external/samurai/env.c:samu_envvar", "src/external/samurai/env.c:samu_envrule"]}
{"id": "C76", "title": "Accepted build graphs are well-formed", "statement": "In every manifest that is accepted no path is an output of two edges or twice of one, explicit inputs and outputs are among all of them, the pools of edges exist and have a depth, default targets are known paths, and scopes are nested without cycles.", "quantifier": "all manifests and included files", "why_tests_cant": "All combinations of statements.", "anchors": ["src/external/samurai/parse.c:samu_parseedge", "src/external/samurai/parse.c:samu_parsepool", "src/external/samurai/parse.c:samu_parsedefault"]}
{"id": "C77", "title": "build.ninja is accepted and says what can be built", "statement": "The build.ninja that muon writes is accepted by ninja. What can be built is what the targets make, and build.ninja itself, whose command is the one muon gave and which depends on the files muon gave. What is built by default is what the targets build by default, or nothing. An alias depends on what it was declared for.", "quantifier": "all lists of targets with any names, paths and arguments", "why_tests_cant": "Names, paths and arguments are arbitrary strings, and go through two levels of quoting and a parser.", "anchors": ["src/backend/ninja.c:ninja_write_build", "src/backend/ninja/alias_target.c:ninja_write_alias_tgt", "src/backend/ninja/rules.c:ninja_write_rules", "src/external/samurai/parse.c:samu_parse"]}
{"id": "C78", "title": "A custom target runs its command line", "statement": "For a custom target ninja has an edge with its outputs, inputs and dependencies, and the shell splits the edge's command into exactly the target's command line. If the target has a depfile, this is the edge's depfile. A target that is always out of date depends on a path that nothing makes; a console target gets the console.", "quantifier": "all custom targets with any arguments and paths, among any other targets", "why_tests_cant": "Arguments are arbitrary strings; quoting for ninja and for the shell is composed.", "anchors": ["src/backend/ninja/custom_target.c:ninja_write_custom_tgt", "src/args.c:join_args_shell_ninja", "src/external/samurai/env.c:samu_edgevar"]}
{"id": "C79", "title": "Build targets are compiled and linked with their arguments", "statement": "For every source of a build target ninja has an edge that makes the object file from the source, whose command is split by the shell into the compiler's command, the arguments, and the options for the dependency file, the output and the source; the edge's depfile is the file named there. The target is made from its objects by the linker's command with the link arguments, after its dependencies. All are made only after the order-only dependencies.", "quantifier": "all build targets with any sources, arguments and dependencies, among any other targets", "why_tests_cant": "Sources, arguments and dependencies are lists of arbitrary strings.", "anchors": ["src/backend/ninja/build_target.c:ninja_write_build_tgt", "src/backend/ninja/build_target.c:write_tgt_sources_iter", "src/backend/ninja/rules.c:write_compiler_rule", "src/backend/ninja/rules.c:write_linker_rule_iter"]}
{"id": "C80", "title": "Rules of ninja get different names", "statement": "Naming the rules of compilers and linkers ends, and gives names in ninja's syntax which are all different, whatever the projects and targets are called.", "quantifier": "all lists of names of projects and targets", "why_tests_cant": "Names that become equal when escaped or numbered are rare combinations.", "anchors": ["src/backend/ninja/rules.c:uniqify_name", "src/backend/ninja/rules.c:escape_rule", "src/backend/ninja/rules.c:write_compiler_rule"]}
{"id": "C81", "title": "A custom target's command line starts the target's program", "statement": "The command line muon writes for a custom target, when it is run, starts exactly the program of the target with its arguments, with the environment, the input file and the captured output that were asked for, also if the arguments go through a file. The command line of a static library removes the old archive and runs the archiver with its arguments.", "quantifier": "all custom targets with any arguments, environments, input and output files", "why_tests_cant": "Arguments are arbitrary strings, may look like options of muon, and the program is started through several encodings.", "anchors": ["src/backend/ninja/custom_target.c:ninja_write_custom_tgt", "src/main.c:cmd_exe", "src/main.c:main", "src/platform/run_cmd.c:argstr_to_argv"]}
{"id": "C82", "title": "Options are read as POSIX describes them", "statement": "Every command line that consists of known options - grouped or not, with arguments attached or as the next word - followed by operands or by -- and operands is read as exactly these options and operands, and others are reported as wrong.", "quantifier": "all option strings and command lines", "why_tests_cant": "Infinitely many ways of grouping options and arguments.", "anchors": ["src/platform/windows/os.c:os_getopt", "src/main.c:main", "src/opts.c:find_cmd"]}
{"id": "C83", "title": "Programs get exactly the given arguments, environment and interpreter", "statement": "A program that muon starts gets exactly the arguments and the variables of the environment that were given. A name without a slash is the first executable of this name in the directories of PATH. A script that is not executable is run by the interpreter of its first line with the argument given there, followed by the script and its arguments.", "quantifier": "all lists of arguments, environments, first lines of scripts, search paths", "why_tests_cant": "Arguments, lines and paths are arbitrary strings, packed into one string and taken apart again.", "anchors": ["src/args.c:join_args_argstr", "src/args.c:env_to_envstr", "src/platform/run_cmd.c:argstr_to_argv", "src/platform/run_cmd.c:run_cmd_determine_interpreter", "src/platform/posix/run_cmd.c:build_argv", "src/platform/posix/run_cmd.c:run_cmd_internal"]}
{"id": "C84", "title": "The output of a program is collected completely", "statement": "When muon reports that a program has ended, it has collected everything that was written to its standard output and standard error, in order, nobody can write any more, and the status is the program's exit code, or an error if the program was ended by a signal. Muon is never stuck before, and finishes once the program has ended and the pipes are closed.", "quantifier": "all interleavings of writes, closes and exits of the program and its children with muon's reads, and all sizes of reads", "why_tests_cant": "Schedules of several processes cannot be enumerated by tests.", "anchors": ["src/platform/posix/run_cmd.c:copy_pipe", "src/platform/posix/run_cmd.c:copy_pipes", "src/platform/posix/run_cmd.c:run_cmd_collect"]}
{"id": "C85", "title": "Dependency files are read as what compilers write", "statement": "From a dependency file as GCC and clang write it, with escaped blanks, #, $ and backslashes in names, lines wrapped and ended in any way, ninja reads exactly the dependencies that were written. Reading any file comes to an end.", "quantifier": "all names of outputs and dependencies, all layouts of lines; for termination all files", "why_tests_cant": "Names are arbitrary strings with several kinds of quoting that depend on the characters after them.", "anchors": ["src/external/samurai/deps.c:samu_depsparse", "src/external/samurai/deps.c:src_getc"]}
{"id": "C86", "title": "A formatted program is the same program", "statement": "What muon fmt writes for a build file that is accepted is accepted again, and is the same program: the same statements with the same expressions and the same values of literals. Only the arguments of files() may be sorted, and an array that is its only argument replaced by its elements. This holds for every combination of the options of the formatter, and comments are kept.", "quantifier": "all programs, all layouts of their text, all options of the formatter", "why_tests_cant": "Line breaking depends on the lengths of all parts of an expression, on nesting and on options, and every break must be where the grammar allows it.", "anchors": ["src/lang/fmt.c:fmt", "src/lang/fmt.c:fmt_node", "src/lang/fmt.c:fmt_check", "src/lang/fmt.c:fmt_args", "src/lang/fmt.c:fmt_parens", "src/lang/fmt.c:fmt_node_wrapped"]}
{"id": "C87", "title": "Installed programs lose exactly the run paths of the build", "statement": "From the run path of an installed ELF file muon removes the directories that are in the build directory, and only these: the others stay, in order, a run path that becomes empty is removed from the dynamic section, and nothing else in the file changes. Files that are not ELF files, and those without a run path, are not changed.", "quantifier": "all ELF files of both classes with any sections, all run paths and build directories", "why_tests_cant": "Files and run paths are arbitrary, and every offset is computed from values in the file.", "anchors": ["src/platform/posix/rpath_fixer.c:fix_rpaths", "src/platform/posix/rpath_fixer.c:remove_paths", "src/platform/posix/rpath_fixer.c:parse_elf", "src/platform/posix/rpath_fixer.c:parse_elf_sections", "src/platform/posix/rpath_fixer.c:parse_elf_dynamic", "src/platform/posix/rpath_fixer.c:remove_path_entry"]}
{"id": "C88", "title": "Permissions of installed files are read as ls writes them", "statement": "A string given as install_mode is accepted exactly if it is the nine characters that ls shows for some permissions, and stands for exactly these, including the bits for set-user-id, set-group-id and sticky. Different strings stand for different permissions. A number stands for itself, and false for the default.", "quantifier": "all strings and values given as install_mode", "why_tests_cant": "There are infinitely many strings to be refused, and 4096 to be told apart.", "anchors": ["src/install.c:rwx_to_perm", "src/install.c:push_install_target"]}
{"id": "C89", "title": "Files are installed where they are asked for", "statement": "install_data, install_headers, install_man, install_subdir, install_symlink, install_emptydir, and install: true for programs, libraries, custom targets and configured files plan exactly one target per file that is given, in order, with that file as its source, the permissions that were given, and as destination the name of the file (or the new name, or with preserve_path its relative path) in the directory that was given or is the default, which is in the prefix unless it is absolute.", "quantifier": "all names, directories, prefixes and combinations of keywords", "why_tests_cant": "Paths are arbitrary strings with any number of components, slashes and dots.", "anchors": ["src/install.c:push_install_target", "src/install.c:push_install_target_install_dir", "src/install.c:push_install_targets", "src/install.c:push_install_targets_iter"]}
{"id": "C90", "title": "An installation changes its destinations only", "statement": "Installing changes files at the destinations of the targets and below, and makes the directories on the way to them; everything else stays as it is, also if the installation fails, and with DESTDIR nothing outside of it changes. Afterwards a file that was installed has the content of its source (built files without the run paths of the build) and the permissions that were given, or those of its source as far as the umask allows, a link has its target, and a directory has exactly those files and directories of its source that are not excluded. A dry run changes nothing. If a target cannot be installed, this is reported.", "quantifier": "all file systems with files, directories and links, all plans, umasks, and values of DESTDIR", "why_tests_cant": "The outcome depends on everything that is in the source directories, at the destinations and on the way to them, in particular links.", "anchors": ["src/cmd_install.c:install_iter", "src/cmd_install.c:copy_subdir_iter", "src/cmd_install.c:install_run", "src/platform/filesystem.c:fs_mkdir_p", "src/platform/filesystem.c:fs_copy_dir", "src/platform/posix/filesystem.c:fs_copy_file", "src/platform/posix/filesystem.c:fs_make_symlink", "src/platform/posix/filesystem.c:fs_chmod"]}
{"id": "C91", "title": "muon test runs exactly the tests asked for", "statement": "Given suites (-s), a setup (-e or the default one), test names with wildcards and a category (test or benchmark), muon test runs in each project exactly the tests of the category that are in one of the suites given (or, if none is given, in no suite excluded by the setup) and that match one of the names given; an item qualified as project:name applies to that project, an unqualified suite or setup to the main project; -l lists the same tests under the names of their projects; too many -s options are reported.", "quantifier": "every set of projects, tests, setups and suites, and every command line", "why_tests_cant": "what is selected depends on the combination of the projects that have tests or setups, the order in which they are visited and what was selected before; unit tests try a few combinations", "anchors": ["src/cmd_test.c:run_project_tests", "src/cmd_test.c:load_test_setup", "src/cmd_test.c:test_in_suite", "src/cmd_test.c:test_matches_cmdline_tests", "src/backend/ninja.c:ninja_write_tests", "src/main.c:cmd_test"]}
{"id": "C92", "title": "What a target is linked and compiled with", "statement": "A target is compiled and linked with exactly what it states itself and what the things it links with or depends on bring: of a library in link_with or link_whole the library itself, the directory of a shared library as run path, and, if it is a static library, all that it is linked with itself, over any number of static libraries in between; of a dependency that was found everything it carries; of a partial_dependency the parts asked for; after as_system the same include directories, marked as those of the system. Nothing is linked twice; libraries named in link_with come before those of dependencies; all stand in one group on the command line, those of link_whole between the arguments for whole archives. A target that contains C++, or links with or depends on something that does, is linked by the C++ compiler. partial_dependency(links: true) suffices to link, and as_system() works on every dependency.", "quantifier": "every program of calls that make targets, libraries, custom targets, files and dependencies, of any length and depth", "why_tests_cant": "the contents of a target depend on the whole graph of libraries and dependencies below it; tests link a few small graphs", "anchors": ["src/functions/kernel/dependency.c:dep_process_link_with_iter", "src/functions/kernel/dependency.c:merge_build_deps", "src/functions/kernel/dependency.c:dedup_build_dep", "src/functions/kernel/dependency.c:dep_process_deps", "src/functions/kernel/dependency.c:func_declare_dependency", "src/functions/kernel/build_target.c:create_target", "src/functions/kernel/build_target.c:build_tgt_determine_linker", "src/functions/dependency.c:func_dependency_partial_dependency", "src/functions/dependency.c:func_dependency_as_system", "src/compilers.c:coalesce_link_languages", "src/backend/common_args.c:setup_linker_args"]}
{"id": "C93", "title": "Names of built files", "statement": "The object of every source of a target lies in the private directory of the target, the name written to the build file denotes that same object, and different sources, of one target or of different targets, have different objects. A shared library with versions gets links such that from the plain name and from the soname, following links ends at the built file, and no link takes the place of the built file.", "quantifier": "every project layout, every source path (below the private directory, the build directory, the source directory, the source root or outside), every name, prefix, suffix, version and soversion", "why_tests_cant": "two sources whose objects coincide silently overwrite each other's object; whether that can happen depends on all pairs of paths", "anchors": ["src/functions/build_target.c:tgt_src_to_object_path", "src/functions/kernel/build_target.c:setup_soname", "src/functions/kernel/build_target.c:setup_shared_object_symlinks", "src/functions/kernel/build_target.c:determine_target_build_name", "src/functions/kernel/build_target.c:create_target"]}
{"id": "C94", "title": "Feature options", "statement": "A chain of methods on a feature option (disable_auto_if, enable_auto_if, enable_if, disable_if, require) never overrules the choice of the user or of auto_features: it fails exactly if a method that insists is against the outcome, and otherwise the outcome is the choice, or the first demand if there is no choice. The queries and the keyword required agree with that outcome.", "quantifier": "every value of the option and of auto_features, and every chain of method calls of any length, with any conditions", "why_tests_cant": "chains of calls of any length and order; the option is also read through auto_features", "anchors": ["src/functions/feature_opt.c:func_feature_opt_require", "src/functions/feature_opt.c:func_feature_opt_enable_if", "src/functions/feature_opt.c:func_feature_opt_disable_if", "src/functions/feature_opt.c:func_feature_opt_disable_auto_if", "src/functions/feature_opt.c:func_feature_opt_enable_auto_if", "src/lang/object.c:get_obj_feature_opt", "src/coerce.c:coerce_requirement"]}
{"id": "C95", "title": "Kinds of targets and position independence", "statement": "Each function makes the targets of the kinds it is for. Everything that goes into a shared library or module is compiled as position independent code, also the static library of which both_libraries shares the objects. The shared library of both_libraries consists of exactly the given objects and the objects of the sources, each of which a rule of the static library makes. extract_objects gives the objects of sources of the target only. pic, pie and the options b_staticpic and b_pie are respected.", "quantifier": "every function, every combination of keywords and options, every list of sources", "why_tests_cant": "the combination of function, default_library, keywords and options is large; whether objects of one target exist in another depends on the naming of objects for all paths", "anchors": ["src/functions/kernel/build_target.c:tgt_common", "src/functions/kernel/build_target.c:create_target", "src/functions/kernel/build_target.c:type_from_kw", "src/functions/build_target.c:build_target_extract_objects_iter", "src/functions/build_target.c:build_target_extract_all_objects", "src/options.c:get_option_default_library"]}
{"id": "C96", "title": "Looking up dependencies", "statement": "dependency() returns a required dependency only if it was found, and otherwise fails; what it finds meets the version asked for and the kind of library asked for; pkg-config is asked before a fallback unless that is forced; a subproject is evaluated only if the wrap mode and allow_fallback permit it; with required disabled nothing is looked up; a lookup that found something gives the same again in the same project, whatever else has been looked up or overridden since, and whatever pkg-config would now say.", "quantifier": "every set of packages, overrides, caches, wraps and subprojects, whatever the evaluation of a subproject does, every combination of keywords, every history of lookups and overrides", "why_tests_cant": "the outcome depends on the history of the whole configuration: caches, overrides and subprojects evaluated before; histories cannot be enumerated", "anchors": ["src/functions/kernel/dependency.c:func_dependency", "src/functions/kernel/dependency.c:get_dependency", "src/functions/kernel/dependency.c:check_dependency_override", "src/functions/kernel/dependency.c:check_dependency_cache", "src/functions/kernel/dependency.c:check_dependency_version", "src/functions/kernel/dependency.c:handle_dependency_fallback", "src/functions/kernel/dependency.c:get_dependency_pkgconfig", "src/functions/kernel/dependency.c:handle_special_dependency", "src/functions/kernel/dependency.c:set_dependency_cache_iter", "src/functions/kernel/subproject.c:subproject", "src/functions/meson.c:func_meson_override_dependency"]}
{"id": "C97", "title": "The tools of the built-in ninja", "statement": "clean removes exactly the files that the steps it is told of make (outputs, response files, files of dependencies), if they can be removed, reports failure exactly if one could not, and never removes a source; cleaning of targets ends. commands prints the commands needed for the targets, each once, in an order in which they can be run, and ends. compdb (which muon uses to write compile_commands.json) writes JSON with one object for each step of the rules asked for, which says the directory, the command, the input and the output.", "quantifier": "every graph of steps, every state of the file system, every choice of targets, rules and options, every name and command", "why_tests_cant": "graphs are unbounded; files are removed for good; JSON must be right for every character of every command", "anchors": ["src/external/samurai/tool.c:samu_cleanpath", "src/external/samurai/tool.c:samu_cleanedge", "src/external/samurai/tool.c:samu_cleantarget", "src/external/samurai/tool.c:samu_clean", "src/external/samurai/tool.c:samu_targetcommands", "src/external/samurai/tool.c:samu_commands", "src/external/samurai/tool.c:samu_printjson", "src/external/samurai/tool.c:samu_compdb"]}
{"id": "C98", "title": "Generated pkg-config files", "statement": "pkg-config reads the file that pkgconfig.generate() writes as what was asked for: the prefix and the directories have the values of the options, whatever files were generated before; Cflags are the directories of headers, the arguments of declared dependencies and the extra flags, argument by argument; Libs and Libs.private are the libraries that those given stand for, directly or through others, each once and not if it is contained in another, after the directory of libraries if one is the project's; Requires and Requires.private are the packages; name, description, URL and version are as given or their defaults.", "quantifier": "every list of libraries, dependencies and requirements of any depth, all texts, variables and options, every history of earlier calls", "why_tests_cant": "the lists come from a walk over a graph of targets and dependencies of any depth, and what is written is read by another program, with its own quoting and variables; the variables depend on earlier calls", "anchors": ["src/functions/modules/pkgconfig.c:func_module_pkgconfig_generate", "src/functions/modules/pkgconfig.c:module_pkgconf_process_libs_iter", "src/functions/modules/pkgconfig.c:module_pkgconf_lib_to_lname", "src/functions/modules/pkgconfig.c:module_pkgconf_process_reqs_iter", "src/functions/modules/pkgconfig.c:module_pkgconf_declare_var", "src/functions/modules/pkgconfig.c:module_pkgconf_declare_builtin_dir_var", "src/functions/modules/pkgconfig.c:module_pkgconf_prepend_libdir", "src/functions/modules/pkgconfig.c:module_pkgconf_remove_dups", "src/functions/modules/pkgconfig.c:module_pkgconf_write", "src/args.c:pkgconf_escape"]}
{"id": "C99", "title": "Checks of the compiler and their cache", "statement": "What the checks of a compiler object say depends on the compiler alone: true exactly if it accepts the program the function is documented to try, with a command line made of the options, the keywords and the dependencies; numbers, values of definitions and results of run() are those the program prints; of a list of arguments, members, attributes or libraries the right ones are picked in order. A check that was made before, in this run or an earlier one, gives the same result again, and required: true makes a failure an error.", "quantifier": "every compiler, taken as a function from command lines and texts to results; all keywords, texts and prefixes; every history of calls with a cache that is kept between runs", "why_tests_cant": "a wrong entry of the cache shows only for particular histories of calls, and the compiler can answer in any way", "anchors": ["src/functions/compiler.c:compiler_check_cache", "src/functions/compiler.c:set_compiler_cache", "src/functions/compiler.c:compiler_check", "src/functions/compiler.c:compiler_get_define", "src/functions/compiler.c:func_compiler_find_library", "src/functions/compiler.c:compiler_has_argument", "src/functions/compiler.c:compiler_check_header", "src/functions/compiler.c:func_compiler_sizeof", "src/functions/compiler.c:func_compiler_has_function", "src/functions/compiler.c:func_compiler_run"]}
{"id": "C100", "title": "Wrap files and fetching subprojects", "statement": "A wrap file is accepted exactly if its sections are known, it has one type, its keys are known, different and make sense together, and then it has the values in the file. All wrap files of the directory together provide the dependencies and programs they list, the last entry for a name counting. Fetching a subproject leaves one that is there as it is; otherwise it succeeds exactly if source, patch and all differences could be obtained and applied, data that is extracted has the given hash, nothing but the documented actions is done even if it fails, and without permission the network is not used.", "quantifier": "every wrap file and directory of wrap files, every machine (files, network and commands taken as parameters), every state of the files", "why_tests_cant": "the result depends on files, downloads and commands that can each fail, and on what an earlier attempt left; that nothing else is done holds of all failures", "anchors": ["src/wrap.c:wrap_parse", "src/wrap.c:wrap_parse_cb", "src/wrap.c:validate_wrap", "src/wrap.c:wrap_parse_provides_cb", "src/wrap.c:wrap_load_all_provides", "src/wrap.c:wrap_download_or_check_packagefiles", "src/wrap.c:wrap_apply_diff_files", "src/wrap.c:wrap_apply_patch", "src/wrap.c:wrap_handle_git", "src/wrap.c:wrap_handle_file", "src/wrap.c:wrap_handle", "src/main.c:cmd_subprojects_download"]}
{"id": "C101", "title": "Subprojects", "statement": "A call of subproject() changes no project that was there, the calling one included, whatever the subproject does and whether it fails or not, and the caller is the current project again. A subproject that is not known yet is found exactly if it is in its directory or its wrap file fetches it, its options and file can be read, all of its file is evaluated without error, a required version is right and its build directory can be made. Once found it is found again, the same, with the same variables, without being evaluated, whatever happens in between. A required one is found or there is an error; one that is not required is no error; one that is not found is not built, and a disabled one is not looked for.", "quantifier": "all project files, taken as programs that branch on what they read, subprojects in subprojects of any depth, every machine, every workspace that is in order", "why_tests_cant": "what subprojects do to each other depends on the order and nesting of their evaluation; unbounded nesting and all programs cannot be tried", "anchors": ["src/functions/kernel/subproject.c:subproject", "src/functions/kernel/subproject.c:subproject_prepare", "src/lang/eval.c:eval_project", "src/functions/subproject.c:subproject_get_variable", "src/lang/workspace.c:current_project", "src/lang/workspace.c:make_project"]}
{"id": "C102", "title": "Paths of the module fs", "statement": "The functions of the module fs work on the canonical form of a path, relative paths being taken in the directory of the project file and ~ being the home directory: exists, is_file, is_dir and is_symlink look at it, read gives the content of the file there and size its length, and what fs.write wrote is read again under every name of the file. name is the last component and stem is it without its suffix, whatever the directory; parent and name together are the path; replace_suffix replaces the suffix of the last component only; is_samepath is true exactly of paths that lead to the same place; as_posix leaves no backslash and keeps the rest; relative_to leads from the base to the path. Empty paths, paths with NULs and files where only strings are allowed are refused.", "quantifier": "all paths, directories, home directories, files and contents", "why_tests_cant": "paths have many spellings (dots, double slashes, parents, tildes, dots in directories); tests try a few", "anchors": ["src/functions/modules/fs.c:fix_file_path", "src/functions/modules/fs.c:func_module_fs_lookup_common", "src/functions/modules/fs.c:func_module_fs_parent", "src/functions/modules/fs.c:func_module_fs_read", "src/functions/modules/fs.c:func_module_fs_expanduser", "src/functions/modules/fs.c:func_module_fs_name", "src/functions/modules/fs.c:func_module_fs_stem", "src/functions/modules/fs.c:func_module_as_posix", "src/functions/modules/fs.c:func_module_replace_suffix", "src/functions/modules/fs.c:func_module_fs_size", "src/functions/modules/fs.c:func_module_fs_is_samepath", "src/functions/modules/fs.c:func_module_fs_write", "src/functions/modules/fs.c:func_module_fs_relative_to"]}
{"id": "C103", "title": "Command lines of compilers and linkers", "statement": "The command line with which a file of a target is compiled is what the options that apply to the target say (its override_options before those of its project before the global ones: standard, debugging information, optimisation, warnings, profiling, sanitizers, NDEBUG, colours, lto), followed by the arguments of the option, those of add_global_arguments, those of add_project_arguments, the directories for headers, those of its dependencies and its own, in this order; each directory that exists is there once, in order, as a path that leads there from the build directory. It depends on nothing else, in particular not on the targets before it. The link command is made in the same way. The command that configures again gives every option that came from the environment the value it had.", "quantifier": "all options and values, overrides, compilers, linkers, languages, directories, arguments and sequences of targets", "why_tests_cant": "an argument that depends on which target was configured before it is only seen with the right sequence of targets and options", "anchors": ["src/backend/common_args.c:setup_compiler_args_iter", "src/backend/common_args.c:get_base_compiler_args", "src/backend/common_args.c:get_buildtype_args", "src/backend/common_args.c:setup_linker_args", "src/backend/common_args.c:regenerate_build_command", "src/compilers.c:compiler_gcc_args_optimization", "src/compilers.c:build_compilers", "src/options.c:get_option_overridable"]}
{"id": "C104", "title": "Configuration data", "statement": "A configuration_data object keeps, for each key, the value given to it last by set, set10, set_quoted or merge_from, independently of every other object and of the dictionaries of the program; get, get_unquoted, has and keys report it; a header made from it says exactly this to a preprocessor; set_quoted makes C literals of its text; configure_file puts its output, named as asked, directly into the build directory, does exactly one of running a command, copying, filling a template and making a header, and installs it where asked; keyval.load reads the last value of each key.", "quantifier": "all programs of such statements over any objects, keys and values; all texts; all calls", "why_tests_cant": "The number of objects, statements and texts is unbounded; sharing between objects only shows up in particular histories.", "anchors": ["src/functions/configuration_data.c:func_configuration_data_set", "src/functions/configuration_data.c:func_configuration_data_set_quoted", "src/functions/configuration_data.c:func_configuration_data_get_unquoted", "src/functions/kernel.c:func_configuration_data", "src/functions/kernel/configure_file.c:func_configure_file", "src/functions/kernel/configure_file.c:perform_output_string_substitutions", "src/functions/modules/keyval.c:func_module_keyval_load"]}
{"id": "C105", "title": "Command lines of custom targets and generators", "statement": "The command line of a custom target consists of the words its elements stand for, in their order: the keys in a string are replaced by the files, names and directories they stand for, a string that is only @INPUT@, @OUTPUT@ or @EXTRA_ARGS@ is one word for each file or argument, programs, files and targets are paths that lead from the build directory to the file and that are never searched for in PATH if they come first, and the target depends on them. The outputs are files in the build directory of the target with the names given, with @PLAINNAME@ and @BASENAME@ filled in. A generator makes one such target for each of its sources, whose outputs are in the private directory of the target that uses it, or with preserve_path_from below it as the source is below that path, so that different sources do not have the same output. A key that cannot be filled in is reported.", "quantifier": "all command lines, keys, texts, inputs, outputs, directories and sources", "why_tests_cant": "Texts, numbers of inputs and directories are unbounded; the words depend on the position in the command and on the characters of directories.", "anchors": ["src/functions/kernel/custom_target.c:make_custom_target", "src/functions/kernel/custom_target.c:format_cmd_arg_cb", "src/functions/kernel/custom_target.c:custom_target_cmd_fmt_iter", "src/functions/kernel/custom_target.c:str_relative_to_build_root", "src/functions/kernel/custom_target.c:format_cmd_output_cb", "src/functions/generator.c:generated_list_process_for_target", "src/functions/string.c:string_format"]}
{"id": "C106", "title": "Finding and running programs", "statement": "find_program() tries its arguments in order and gives the first that is found. A name that was overridden with meson.override_find_program() is the program it was last overridden with, in every project, until it is overridden again, and then no file is looked at and no subproject evaluated. Otherwise it is the file in the first of the directories of dirs: that has one, else in the directory of the build definition, else what PATH gives; if subprojects come first, or the program is required and is nowhere, it is what the subproject overrides whose wrap file provides it; ninja and samu may be built in. A program that says its version has one that version: wants. The version in a text is the first of the stretches of digits and dots that have the most dots. If nothing is found the call fails if the program is required, and gives a disabler or a program that is not found if not; nothing is looked for if the feature is disabled. run_command() runs the words of the program found for its first argument, then those of the other arguments in order, and gives the status and output of the command; a failure is an error only with check: true. No call aborts muon.", "quantifier": "every list of arguments and keywords, every set of files, value of PATH and of wrap_mode, every history of overrides, lookups and commands of any number of projects, every effect of subprojects, every output of programs", "why_tests_cant": "the order of places and the effect of earlier overrides range over all combinations of files, overrides and subprojects and all histories", "anchors": ["src/functions/kernel.c:find_program", "src/functions/kernel.c:func_find_program", "src/functions/kernel.c:find_program_check_override", "src/functions/kernel.c:find_program_check_fallback", "src/functions/kernel.c:func_run_command", "src/functions/meson.c:func_meson_override_find_program", "src/functions/external_program.c:find_program_guess_version", "src/guess.c:guess_version", "src/args.c:arr_to_args"]}
{"id": "C107", "title": "Declared options", "statement": "option() in an option file makes an option exactly if its type is one of the six, the keywords fit the type (choices for arrays and combos, bounds and a required value for integers), the name has only letters, digits, - and _ and is new, and the value, or else the default of the type, is allowed; get_option gives the value of the option of the project or else of the build; an option that yields has the value of the option of the same name and type of the main project; default_options of project() set the options they name and no others, those of subproject() and those with a subproject are kept for it; override_options give a target its own values and leave the options of the project alone, and the name of an unknown or misspelt option is an error; options for a subproject that does not exist are an error; directories given as absolute paths stand for the same place after they were made relative to the prefix.", "quantifier": "every declaration, name and value, every list of assignments in a build file, every set of options of a project, of the main project and of the build, every prefix and directory", "why_tests_cant": "The combinations of types, keywords, values and other options are not finite, and what one assignment leaves alone cannot be sampled.", "anchors": ["src/functions/kernel/options.c:build_option_type_from_s", "src/functions/kernel/options.c:validate_option_name", "src/functions/kernel/options.c:func_option", "src/functions/kernel/options.c:func_get_option", "src/options.c:create_option", "src/options.c:get_option_overridable", "src/options.c:set_yielding_project_options_iter", "src/options.c:setup_project_options", "src/options.c:parse_and_set_default_options", "src/options.c:parse_and_set_override_options", "src/options.c:check_invalid_subproject_option", "src/options.c:prefix_dir_opts"]}
{"id": "C108", "title": "Indentation from .editorconfig", "statement": "muon fmt looks for .editorconfig in the directory of the file and in all directories above it, the nearest first, up to one that says root = true before its first section. A section applies to a file if its pattern fits the path of the file: a name fits the files whose path ends with it, *.x the files whose name ends with .x, {a,b} the files of either name, [*] every file. Of several values of a setting in sections that apply the last one in the nearest file counts. The code is then indented by as many tabs or spaces as indent_size, or tab_width if that is tab, says, and by four spaces if nothing is said; what is indented by is always blank and fits its buffer.", "quantifier": "every path of a file, every section, every set of .editorconfig files and every list of settings in them", "why_tests_cant": "Patterns, paths and files are not bounded, and whether a pattern fits depends on the whole of both.", "anchors": ["src/formats/editorconfig.c:editorconfig_parse_pat", "src/formats/editorconfig.c:editorconfig_pat_match", "src/formats/editorconfig.c:strnchr", "src/formats/editorconfig.c:editorconfig_cfg_parse_cb", "src/formats/editorconfig.c:try_parse_editorconfig", "src/lang/fmt.c:fmt"]}
{"id": "C109", "title": "Calling a function of a script changes none of the caller's variables", "statement": "In muon's script language a name means what the innermost scope that has it says; assignments change only the innermost scope, += and unset_variable() the innermost scope that has the name. Whatever functions an expression calls, afterwards the variables of the file it is in are unchanged, as many scopes are in use as before, and what a function does and returns depends on its arguments and the variables at its definition, not on variables of its caller or on later assignments. Each parameter has the value of its argument, keywords that are not given have their defaults, nothing after return is run, break and continue end with their loop, whose variable has the values of the range one after another, and a call with a wrong number of arguments, an unknown keyword or a keyword given twice is an error.", "quantifier": "All programs of the language (expressions, assignments, conditions, loops, function definitions, calls, return), all states they lead to, all functions and arguments, any depth of calls.", "why_tests_cant": "Calls nest without bound and functions may define and return further functions, so the scopes that exist and who shares them depend on the whole history of the program.", "anchors": ["src/lang/interpreter.c:get_local_variable", "src/lang/interpreter.c:assign_variable", "src/lang/interpreter.c:unassign_variable", "src/lang/interpreter.c:interp_func_def", "src/functions/common.c:func_obj_call", "src/functions/common.c:func_obj_eval", "src/functions/kernel.c:func_unset_variable"]}
{"id": "C110", "title": "Languages, arguments and directories of projects", "statement": "The arguments a project's targets of a language are compiled or linked with are those that the calls of add_project_arguments, add_project_link_arguments and add_project_dependencies made by that project named that language in, in the order of the calls; those of add_global_arguments and add_global_link_arguments go to all projects, and only the main project can give them. A call that adds arguments is accepted exactly if all its languages are known. A file named with files() is taken in the directory of the build file that names it, however many directories deep, also after subdir() or subproject() came back; all directories entered are left at the end; directories below the source and build root mirror each other. The languages given to project() have compilers when configuring is done; add_languages() says true only if all have one; having C or C++ means having assembly; languages never disappear. project() can be called once. A subproject is looked for in the directory of subprojects at the top of the project that asks for it and built at the same place of the build tree; it is evaluated once; if it is required and missing or fails, so does the call, if not, the build goes on, in the project and directory where it was; a disabled one is not evaluated.", "quantifier": "All sets of build files, directories and detectable compilers, any nesting of subdir() and subproject(), required, optional and disabled.", "why_tests_cant": "What a call adds depends on which project and directory the stack of files being evaluated has made current, and projects nest without limit: tests see a few arrangements.", "anchors": ["src/functions/kernel.c:func_project", "src/functions/kernel.c:add_arguments_common", "src/functions/kernel.c:func_add_project_dependencies", "src/functions/kernel.c:func_add_languages", "src/functions/kernel.c:func_subdir", "src/functions/kernel/subproject.c:subproject", "src/lang/eval.c:eval_project_file", "src/lang/eval.c:eval_project"]}
{"id": "C111", "title": "Command lines of meson do what they say", "statement": "muon meson setup, configure, install and test accept the command lines of meson: however an option is written (--name=value, --name value, -nvalue, -n value) and wherever operands stand between options, setup sets each option that is given to its value, in their order, in the build directory that is given, for the project in the source directory, if one is given; install enters the directories of -C, takes the last destination and only says what it would do if a dry run is asked for; test enters the directories of -C and runs the tests that are named, of the suites that are named, with the last setup and number of jobs, and benchmarks if these are asked for. Options that are set exist in muon. An option or command that is not known is an error and nothing is done; if help is asked for, it is printed and nothing else is done.", "quantifier": "All lists of options and operands, in all spellings and orders, with all values, and all current directories.", "why_tests_cant": "Command lines have no bound, options can be given any number of times in several spellings, and they are translated twice before they take effect.", "anchors": ["src/meson_opts.c:translate_meson_opts", "src/meson_opts.c:translate_meson_opts_parser", "src/meson_opts.c:translate_meson_opts_setup", "src/meson_opts.c:translate_meson_opts_install", "src/meson_opts.c:translate_meson_opts_test", "src/main.c:cmd_meson", "src/main.c:cmd_test", "src/main.c:cmd_install", "src/main.c:cmd_setup"]}
{"id": "C112", "title": "Declared tests and the environments of commands", "statement": "A test or benchmark is declared with exactly what the call says: the program (for a target, a path that leads from the build directory to its file and is not looked for in PATH), the arguments the program comes with followed by the words of args:, suites, working directory, timeout, priority, protocol, with defaults for what is not said; benchmarks are never run in parallel. Before it is run exactly these files are built: the target it runs, those of depends:, and those among its arguments. It is run with MUON_PATH, MESON_BUILD_ROOT and MESON_SOURCE_ROOT and the variables of env:, the last value of each; run targets also with MESON_SUBDIR, the directory of their declaration; nothing that the build file does before or afterwards changes that.", "quantifier": "all calls of test() and benchmark() with any programs, targets, arguments and keywords, all build files before and after them that make and share dictionaries and environment objects, declare tests and run targets, all build and source directories", "why_tests_cant": "Tests declare a few tests with literal arguments; that no later statement changes the environment of an earlier test is a statement about all histories, and sharing shows only when several declarations use one object", "anchors": ["src/functions/kernel.c:add_test_common", "src/functions/kernel.c:add_test_depends_iter", "src/functions/kernel.c:func_run_target", "src/functions/kernel.c:func_environment", "src/coerce.c:coerce_environment_from_kwarg", "src/coerce.c:coerce_key_value_dict", "src/coerce.c:coerce_executable", "src/functions/environment.c:set_default_environment_vars", "src/functions/environment.c:environment_or_dict_set", "src/args.c:arr_to_args"]}
{"id": "C113", "title": "Scripts that are run when configuring and installing", "statement": "A script given to meson.add_install_script(), add_postconf_script() or add_dist_script() is run with the words its arguments stand for: the program, a path from the directory of the build file if it is a relative string, then strings as they are, files, the commands of programs, the outputs of custom targets, and for targets paths that lead to their files from the build directory. The targets among the arguments of an install script are built by default, so they exist when it is run; scripts that are run after configuring cannot have any. Scripts are kept in the order of the calls; after configuring they are run in that order, nothing is run after one that fails, and configuring succeeds exactly if each does.", "quantifier": "all argument lists of strings, files, programs, targets and custom targets, all directories, all sequences of calls, all outcomes of the scripts", "why_tests_cant": "Tests use a few literal command lines; which argument counts as the program depends on everything before it, and the order and the failures range over all sequences", "anchors": ["src/functions/meson.c:process_script_commandline_iter", "src/functions/meson.c:func_meson_add_install_script", "src/functions/meson.c:func_meson_add_postconf_script", "src/functions/meson.c:func_meson_add_dist_script", "src/backend/backend.c:run_postconf_script_iter", "src/backend/backend.c:backend_output", "src/coerce.c:coerce_executable"]}
{"id": "C114", "title": "Reading variables and descriptions of dependencies", "statement": "get_variable() of a dependency gives the value that the dependency has for the variable asked for: of the package, read with the definitions of this call, if it comes from pkg-config, and of its own variables otherwise; the keyword for the kind of dependency comes before the name given without a keyword. The default is given exactly if there is no such value, and without a default that is an error. What a call gives does not depend on earlier calls. found(), type_name(), version() and name() describe the dependency as it was made.", "quantifier": "all dependencies, all argument combinations, all package databases, all sequences of calls", "why_tests_cant": "Tests read a few variables of packages that happen to be installed; that calls do not influence each other ranges over all sequences and all packages", "anchors": ["src/functions/dependency.c:func_dependency_get_variable", "src/functions/dependency.c:func_dependency_get_pkgconfig_variable", "src/functions/dependency.c:dep_pkgconfig_define", "src/functions/dependency.c:func_dependency_type_name", "src/functions/dependency.c:func_dependency_name", "src/functions/dependency.c:func_dependency_version", "src/external/libpkgconf.c:muon_pkgconf_define"]}
{"id": "C115", "title": "Directories given to include_directories()", "statement": "Each string given to include_directories() stands for a directory, from the directory of the build file unless it is absolute, that has to exist. If it is in the source directory the directory at the same place in the build directory is searched just before it; otherwise it is searched alone. The order is that of the arguments, is_system applies to the strings of the call, and directories made by earlier calls keep theirs. It is an error exactly if a directory does not exist or an argument is no directory.", "quantifier": "all lists of strings and earlier directories, all source, build and current directories, all sets of existing directories", "why_tests_cant": "Tests use a few fixed layouts; whether a path is inside of the source directory depends on its text in unboundedly many ways", "anchors": ["src/coerce.c:include_directories_iter", "src/coerce.c:coerce_include_dirs", "src/functions/kernel.c:func_include_directories"]}
{"id": "C116", "title": "Importing modules", "statement": "import(name) gives a usable module exactly if the module is wanted (required: is not a disabled feature) and is part of muon or a script in it that evaluates. Otherwise it is an error if the module is required, and else it gives a disabler if disabler: true and a module whose found() is false if not. Every method but found() of a module that is not found is an error; of a found one exactly its own functions can be called.", "quantifier": "all names, values of required and disabler, sets of scripts, and method names", "why_tests_cant": "names are unbounded, and the cases multiply (requirement, disabler, script, implemented or known only by name)", "anchors": ["src/functions/kernel.c:func_import", "src/functions/modules.c:module_import", "src/functions/modules.c:module_lookup_builtin", "src/functions/modules.c:module_func_lookup", "src/functions/common.c:builtin_run"]}
{"id": "C117", "title": "Finding an installation of Python", "statement": "find_installation(name, modules:) gives an installation that is found exactly if it is wanted, the command is there and it can import every module asked for; its language_version() is the first line the command prints, its paths and variables are those the command prints. Otherwise it is an error if it is required, and else it gives a disabler if disabler: true and an installation that is not found if not. find_python() gives the command or is an error; get_path() and get_variable() give what there is, else the default, else an error.", "quantifier": "all commands, behaviours of the commands, lists of modules, values of required and disabler, names and defaults", "why_tests_cant": "the commands' behaviour and output are arbitrary and the lists of modules unbounded", "anchors": ["src/functions/modules/python.c:func_module_python_find_installation", "src/functions/modules/python.c:query_version", "src/functions/modules/python.c:introspect_python_interpreter", "src/functions/modules/python.c:func_module_python3_find_python", "src/functions/modules/python.c:func_python_installation_get_path"]}
{"id": "C118", "title": "Names of machines", "statement": "cpu_family() gives the family of the machine's name as Meson's tables have it, or the name itself if it is in no family; cpu() names a machine of the same family; the width of addresses is that of the family; system() gives the system's name, one of the known ones or 'unknown'.", "quantifier": "all names that uname gives", "why_tests_cant": "names are arbitrary texts, with families given by beginnings, endings and parts of them", "anchors": ["src/functions/machine.c:machine_cpu_family", "src/functions/machine.c:machine_cpu_normalize_base", "src/functions/machine.c:machine_cpu_address_bits", "src/functions/machine.c:func_machine_cpu", "src/functions/machine.c:machine_system"]}
{"id": "C119", "title": "What a compiler says about itself", "statement": "A command that can be run is taken for a compiler of the kind that the text it prints for --version says (Apple's clang, clang, clang-cl, gcc, Microsoft's), with the version in that text, and for a POSIX compiler of unknown version if it fails or does not say it. Libraries are searched for in the directories, with colons between them, of the first line that begins with 'libraries: ', and in the usual ones if the command fails or prints no such line.", "quantifier": "all commands and everything they can print", "why_tests_cant": "the output of compilers is arbitrary text", "anchors": ["src/compilers.c:compiler_detect_c_or_cpp", "src/compilers.c:compiler_get_libdirs"]}
{"id": "C120", "title": "Which commands are the compiler and the linkers", "statement": "For C, C++ and Objective C a toolchain is found exactly if a compiler, a linker and a static linker are. Each is the command that was set (CC, CXX, OBJC, LD, AR), which is used or nothing is, and if none was set the first of the usual names that can be run. The kind and version are those of that compiler; the static linker is GNU's if it says so, else Microsoft's with Microsoft's compiler, else that of POSIX.", "quantifier": "all behaviours of the commands, all settings, languages, Windows or not", "why_tests_cant": "which commands there are and what they print is arbitrary", "anchors": ["src/compilers.c:toolchain_detect", "src/compilers.c:toolchain_exe_detect", "src/compilers.c:toolchain_compiler_detect", "src/compilers.c:static_linker_detect", "src/compilers.c:linker_detect"]}
