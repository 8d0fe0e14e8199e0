{
 "claims": [
  {
   "property": "C01",
   "status": "proved",
   "theorems": [
    "Muon.Version.rpmvercmp_eq_spec",
    "Muon.Version.rpmvercmp_range",
    "Muon.Version.rpmvercmp_refl",
    "Muon.Version.rpmvercmp_antisymm",
    "Muon.Version.rpmvercmp_trans",
    "Muon.Version.rpmvercmp_lt_trans",
    "Muon.Version.rpmvercmp_congr"
   ],
   "note": ""
  },
  {
   "property": "C02",
   "status": "proved",
   "theorems": [
    "Muon.Version.version_compare_op",
    "Muon.Version.version_compare_longest_match",
    "Muon.Version.version_compare_single_eq",
    "Muon.Version.version_compare_no_op",
    "Muon.Version.version_compare_all"
   ],
   "note": ""
  },
  {
   "property": "C03",
   "status": "partial",
   "theorems": [
    "Muon.Hash.hash_refines_map",
    "Muon.Hash.hash_forEach",
    "Muon.Hash.strKeyEq_iff_partial",
    "Muon.Hash.strKeyEq_nul_counterexample"
   ],
   "note": "The table is a map up to its key comparison; string keys compare like strings only when they contain no NUL byte (strKeyEq_nul_counterexample)."
  },
  {
   "property": "C04",
   "status": "partial",
   "theorems": [
    "Muon.Hash.hash_probe_terminates",
    "Muon.Hash.fnv_terminates_partial",
    "Muon.Hash.fnv_diverges"
   ],
   "note": "Probing always terminates; hashing a string key of 65536 bytes or more never terminates in the code (fnv_diverges), so the property holds only for shorter keys."
  },
  {
   "property": "C05",
   "status": "proved",
   "theorems": [
    "Muon.Str.split_join",
    "Muon.Str.split_unique",
    "Muon.Str.join_spec",
    "Muon.Str.split_empty_separator_diverges",
    "Muon.Str.split_whitespace"
   ],
   "note": ""
  },
  {
   "property": "C06",
   "status": "partial",
   "theorems": [
    "Muon.Str.replace_partial",
    "Muon.Str.replace_absent",
    "Muon.Str.replace_empty_needle_diverges"
   ],
   "note": "Fully proved for non-empty needles; with an empty needle the code loops forever on every non-empty string (replace_empty_needle_diverges)."
  },
  {
   "property": "C07",
   "status": "proved",
   "theorems": [
    "Muon.Str.strip_spec",
    "Muon.Str.strip_idempotent"
   ],
   "note": ""
  },
  {
   "property": "C08",
   "status": "partial",
   "theorems": [
    "Muon.Str.startswith_iff",
    "Muon.Str.endswith_iff",
    "Muon.Str.startswithi_iff",
    "Muon.Str.endswithi_iff",
    "Muon.Str.contains_iff_partial",
    "Muon.Str.contains_empty_counterexample"
   ],
   "note": "contains is wrong for exactly one pair: the empty string in the empty string."
  },
  {
   "property": "C09",
   "status": "partial",
   "theorems": [
    "Muon.Str.substring_partial",
    "Muon.Str.substring_past_end_counterexample",
    "Muon.Str.substring_overread_counterexample",
    "Muon.Str.substring_before_start_counterexample"
   ],
   "note": "The code over-reads for an end past the end of the string and does not clamp a start before the beginning."
  },
  {
   "property": "C10",
   "status": "partial",
   "theorems": [
    "Muon.Str.indexArray_partial",
    "Muon.Str.indexString_partial",
    "Muon.Str.index_below_counterexample"
   ],
   "note": "False for every index below -len."
  },
  {
   "property": "C11",
   "status": "partial",
   "theorems": [
    "Muon.Str.format_terminates",
    "Muon.Str.format_partial",
    "Muon.Str.format_negative_counterexample",
    "Muon.Str.format_duplicates_counterexample"
   ],
   "note": "Signed or blank-prefixed numbers are taken as references, and an escaped @ inside an opened reference duplicates text; proved for all other templates."
  },
  {
   "property": "C12",
   "status": "proved",
   "theorems": [
    "Muon.Str.bytewise",
    "Muon.Str.bytewise_idempotent"
   ],
   "note": ""
  },
  {
   "property": "C13",
   "status": "partial",
   "theorems": [
    "Muon.Str.toInt_toString",
    "Muon.Str.toInt_partial",
    "Muon.Str.toInt_counterexample"
   ],
   "note": "The round trip is proved for all 64-bit integers; blank strings are accepted as 0 and out-of-range numbers are clamped by the code."
  },
  {
   "property": "C14",
   "status": "partial",
   "theorems": [
    "Muon.Path.normalize_spec_partial",
    "Muon.Path.normalize_eq_canon",
    "Muon.Path.normalize_idempotent",
    "Muon.Path.normalize_shape",
    "Muon.Path.normalize_isAbs",
    "Muon.Path.normalize_comps",
    "Muon.Path.normalize_no_pair",
    "Muon.Path.normalize_walk",
    "Muon.Path.normalize_stale_counterexample",
    "Muon.Path.normalize_overread_counterexample"
   ],
   "note": "All clauses are proved for the resulting text; in memory the code can read two bytes past the terminator and can leave a stale byte after a result of '.'."
  },
  {
   "property": "C15",
   "status": "proved",
   "theorems": [
    "Muon.Path.join_absolute",
    "Muon.Path.join_relative",
    "Muon.Path.join_text",
    "Muon.Path.join_empty",
    "Muon.Path.joinAbsolute_comps",
    "Muon.Path.makeAbsolute_spec"
   ],
   "note": ""
  },
  {
   "property": "C16",
   "status": "proved",
   "theorems": [
    "Muon.Path.relativeTo_walk",
    "Muon.Path.relativeTo_text",
    "Muon.Path.relativeTo_above_root_counterexample"
   ],
   "note": ""
  },
  {
   "property": "C17",
   "status": "partial",
   "theorems": [
    "Muon.Path.isSubpath_iff_partial",
    "Muon.Path.isSubpath_dot_counterexample"
   ],
   "note": "The relative base without components ('.') has nothing but itself under it."
  },
  {
   "property": "C18",
   "status": "proved",
   "theorems": [
    "Muon.Path.dirname_spec",
    "Muon.Path.basename_spec",
    "Muon.Path.basename_no_sep",
    "Muon.Path.dirname_basename"
   ],
   "note": ""
  },
  {
   "property": "C19",
   "status": "partial",
   "theorems": [
    "Muon.Esc.shellEscape_iff_partial",
    "Muon.Esc.joinArgsShell_words_partial",
    "Muon.Esc.shellEscape_counterexample"
   ],
   "note": "Exact characterisation: the shell reads the escaped argument as the argument unless it is unquoted and contains ; | ( ) * ? [ ` or a tab, or starts with ~."
  },
  {
   "property": "C20",
   "status": "partial",
   "theorems": [
    "Muon.Esc.ninjaEscape_path_partial",
    "Muon.Esc.joinArgsNinja_paths_partial",
    "Muon.Esc.ninjaEscape_value_partial",
    "Muon.Esc.joinArgsShellNinja_words_partial",
    "Muon.Esc.scanString_pieces_partial",
    "Muon.Esc.ninjaEscape_newline",
    "Muon.Esc.ninjaEscape_pipe_counterexample",
    "Muon.Esc.ninjaEscape_eof_counterexample",
    "Muon.Esc.shellNinjaEscape_newline_counterexample"
   ],
   "note": "False for | (paths), newlines, carriage returns and byte 0xff; proved for all other text, up to the words the shell sees."
  },
  {
   "property": "C21",
   "status": "partial",
   "theorems": [
    "Muon.Esc.nodePath_word_partial",
    "Muon.Esc.pathList_words_partial",
    "Muon.Esc.nodePath_size",
    "Muon.Esc.nodePath_empty_counterexample"
   ],
   "note": "Proved for every non-empty path, any bytes; the empty path (canonical form of /) disappears."
  },
  {
   "property": "C22",
   "status": "proved",
   "theorems": [
    "Muon.Lex.lex_terminates",
    "Muon.Lex.lex_progress",
    "Muon.Lex.lex_ok"
   ],
   "note": ""
  },
  {
   "property": "C23",
   "status": "partial",
   "theorems": [
    "Muon.Lex.lex_in_buffer_partial",
    "Muon.Lex.lex_in_buffer_counterexample"
   ],
   "note": "Proved for all texts except in the formatter's mode, where the code overflows the buffer (1a, 'a''b')."
  },
  {
   "property": "C24",
   "status": "proved",
   "theorems": [
    "Muon.Lex.lex_string",
    "Muon.Lex.lex_verbatim",
    "Muon.Lex.lex_render"
   ],
   "note": ""
  },
  {
   "property": "C25",
   "status": "partial",
   "theorems": [
    "Muon.Lex.utf8_escape_partial",
    "Muon.Lex.utf8_escape_invalid",
    "Muon.Lex.utf8_escape_counterexample"
   ],
   "note": "Surrogates are accepted and stored as invalid UTF-8; proved for every code point that is a character and every value that is no code point."
  },
  {
   "property": "C26",
   "status": "partial",
   "theorems": [
    "Muon.Parse.expr_documented_partial",
    "Muon.Parse.expr_documented_counterexample",
    "Muon.Parse.expr_documented_counterexample_2"
   ],
   "note": "Proved for all expressions with at most one of + - and at most one of * / %. With several the code groups differently from the documented grammar: each operator has its own level."
  },
  {
   "property": "C27",
   "status": "proved",
   "theorems": [
    "Muon.Interp.and_skips_right",
    "Muon.Interp.or_skips_right",
    "Muon.Interp.andor_takes_right",
    "Muon.Interp.ternary_skips_branch",
    "Muon.Interp.if_skips_branch"
   ],
   "note": ""
  },
  {
   "property": "C28",
   "status": "partial",
   "theorems": [
    "Muon.Interp.program_partial",
    "Muon.Interp.assign_copies_partial",
    "Muon.Interp.nested_alias_counterexample",
    "Muon.Interp.loop_alias_counterexample",
    "Muon.Interp.set_variable_alias_counterexample",
    "Muon.Interp.shallow_copy_counterexample"
   ],
   "note": "Refinement to a semantics in which variables have values, for every program that does not alias the objects of the variables it extends with += (elements of literals, set_variable, loop variables); the counterexamples show that += changes other variables otherwise."
  },
  {
   "property": "C29",
   "status": "partial",
   "theorems": [
    "Muon.Interp.program_partial",
    "Muon.Interp.foreach_visits_partial",
    "Muon.Interp.foreach_endless_counterexample",
    "Muon.Interp.empty_body_counterexample"
   ],
   "note": "Proved for all bodies that do not extend the array that is iterated over; such a body can make the loop endless. An empty body ends the loop after the first element."
  },
  {
   "property": "C30",
   "status": "partial",
   "theorems": [
    "Muon.Interp.arithmetic_exact_partial",
    "Muon.Interp.program_partial",
    "Muon.Interp.overflow_counterexample"
   ],
   "note": "Exact for all operands if the result fits into 64 bits; overflow is undefined behaviour instead of a reported error."
  },
  {
   "property": "C31",
   "status": "partial",
   "theorems": [
    "Muon.Range.range_exact_partial",
    "Muon.Range.range_small",
    "Muon.Range.params_accepted",
    "Muon.Range.params_meaning",
    "Muon.Range.foreach_range_visits",
    "Muon.Range.range_endless_counterexample",
    "Muon.Range.range_wrap_counterexample"
   ],
   "note": "Exact if and only if the 32-bit counter does not wrap around after the last number."
  },
  {
   "property": "C32",
   "status": "partial",
   "theorems": [
    "Muon.Arr.arrays_partial",
    "Muon.Arr.pop_last",
    "Muon.Arr.arrays_del_counterexample",
    "Muon.Arr.arrays_tail_counterexample",
    "Muon.Arr.arrays_extend_nodup_counterexample"
   ],
   "note": "Refinement to lists for every sequence of operations that does not delete the first of exactly two elements; that deletion, obj_array_tail and obj_array_extend_nodup misbehave as the counterexamples show."
  },
  {
   "property": "C33",
   "status": "partial",
   "theorems": [
    "Muon.Dict.dicts_partial",
    "Muon.Dict.dicts_del_counterexample"
   ],
   "note": "Refinement to insertion-ordered maps for every sequence of operations that does not delete a key from a dictionary that has had fifteen keys; such a deletion leaves a dictionary that cannot be iterated."
  },
  {
   "property": "C34",
   "status": "partial",
   "theorems": [
    "Muon.Val.equal_values",
    "Muon.Val.equal_equivalence",
    "Muon.Val.in_array",
    "Muon.Val.equal_cyclic_counterexample"
   ],
   "note": "Proved for all objects that hold a (finite) value. Programs can build an array that contains itself (Interp); comparing two of these never ends."
  },
  {
   "property": "C35",
   "status": "proved",
   "theorems": [
    "Muon.Val.dedup_firsts"
   ],
   "note": "For all arrays whose elements hold values, all hash functions and all earlier uses of the table."
  },
  {
   "property": "C36",
   "status": "partial",
   "theorems": [
    "Muon.Serial.serial_roundtrip",
    "Muon.Serial.serial_same",
    "Muon.Serial.serial_truncated",
    "Muon.Serial.serial_foreign",
    "Muon.Serial.serial_other",
    "Muon.Serial.serial_crash_partial",
    "Muon.Serial.serial_crash_counterexample",
    "Muon.Serial.serial_option_kind_counterexample",
    "Muon.Serial.serial_feature_counterexample",
    "Muon.Serial.serial_big_counterexample",
    "Muon.Serial.serial_small_counterexample"
   ],
   "note": "Round trip for all object graphs but for two fields which are not copied (kind of an option; an automatic feature is resolved); every strict prefix is rejected. But while big strings are written the file says there are none, and a crash then can go unnoticed; some corrupted files are read out of bounds."
  },
  {
   "property": "C37",
   "status": "partial",
   "theorems": [
    "Muon.Opt.opt_precedence",
    "Muon.Opt.opt_lower",
    "Muon.Opt.opt_order",
    "Muon.Opt.project_options",
    "Muon.Opt.opt_valid_partial",
    "Muon.Opt.opt_text",
    "Muon.Opt.opt_rename",
    "Muon.Opt.opt_rename_later",
    "Muon.Opt.deprecated_element",
    "Muon.Opt.deprecated_value",
    "Muon.Opt.extend_valid",
    "Muon.Opt.extend_appends",
    "Muon.Opt.opt_disabler_counterexample",
    "Muon.Opt.opt_disabler_choices_counterexample",
    "Muon.Opt.opt_rename_cycle_counterexample",
    "Muon.Opt.opt_error_order_counterexample",
    "Muon.Opt.opt_invalid_hides_counterexample"
   ],
   "note": "Precedence for all sequences of assignments to options that are not deprecated to another name. Validity for all sequences, if text in brackets does not evaluate to the disabler. Whether an invalid assignment is reported, and what value is left after it, depends on the order; an option deprecated to itself makes muon recurse without end."
  },
  {
   "property": "C38",
   "status": "proved",
   "theorems": [
    "Muon.Opt.config_roundtrip",
    "Muon.Opt.config_only",
    "Muon.Opt.config_unique"
   ],
   "note": ""
  },
  {
   "property": "C39",
   "status": "proved",
   "theorems": [
    "Muon.Env.env_value",
    "Muon.Env.env_total"
   ],
   "note": "For every sequence of calls and inherited environment. A NUL byte in an appended value ends the program (env_nul_counterexample)."
  },
  {
   "property": "C40",
   "status": "partial",
   "theorems": [
    "Muon.Conf.substitute_iff",
    "Muon.Conf.subst_unique",
    "Muon.Conf.substitute_total_partial",
    "Muon.Conf.substitute_plain",
    "Muon.Conf.substitute_nul_counterexample",
    "Muon.Conf.substitute_crlf_counterexample"
   ],
   "note": "The accepted templates and their result are exact for every template shorter than 4 GiB, configuration and syntax, never reading outside the text. A string value with a NUL byte aborts in a #mesondefine line; definitions on lines ending in CR LF are rejected; a #cmakedefine line with other text is accepted without a name."
  },
  {
   "property": "C41",
   "status": "partial",
   "theorems": [
    "Muon.Conf.configure_writes",
    "Muon.Conf.configure_error",
    "Muon.Conf.configure_again",
    "Muon.Conf.copy_writes",
    "Muon.Conf.generate_writes",
    "Muon.Conf.generate_invalid",
    "Muon.Conf.generate_partial_counterexample",
    "Muon.Conf.configure_unreadable_counterexample"
   ],
   "note": "For all prior states, templates, and write failures (a failure halfway through a write is not modelled). A header generated from invalid data is written in part although the call fails; a template that cannot be read leads to freeing an uninitialised buffer."
  },
  {
   "property": "C42",
   "status": "partial",
   "theorems": [
    "Muon.Sset.apply_selects_partial",
    "Muon.Sset.all_sources",
    "Muon.Sset.used_unchanged",
    "Muon.Sset.used_add_error",
    "Muon.Sset.apply_nested_strict_counterexample",
    "Muon.Sset.apply_self_counterexample",
    "Muon.Sset.apply_value_counterexample",
    "Muon.Sset.all_sources_counterexample"
   ],
   "note": "For all programs in which no set is put into itself (then apply() recurses without end). With strict, a missing key in a nested set is not an error but silently drops sources; a configuration value of another type aborts; all_sources() leaves out rules with dependencies that were not found and does not freeze the set."
  },
  {
   "property": "C43",
   "status": "partial",
   "theorems": [
    "Muon.Tc.typecheck_sound",
    "Muon.Tc.typecheck_complete",
    "Muon.Tc.typecheck_total_partial",
    "Muon.Tc.typecheck_disabler",
    "Muon.Tc.makeComplex_means",
    "Muon.Tc.arg_list",
    "Muon.Tc.arg_plain",
    "Muon.Tc.typecheck_disabler_counterexample",
    "Muon.Tc.arg_file_counterexample"
   ],
   "note": "Sound and complete for every type and value; total for values without disablers. A disabler checked against a list or dict type with an element type aborts. The 16th complex type is taken for `file`, so an array of one file is unpacked and rejected."
  },
  {
   "property": "C44",
   "status": "proved",
   "theorems": [
    "Muon.Sha.sha256_standard",
    "Muon.Sha.constants_roots"
   ],
   "note": "For every message and initial content of the buffer, against the standard with its constants computed from the primes."
  },
  {
   "property": "C45",
   "status": "proved",
   "theorems": [
    "Muon.Memmem.memmem_first",
    "Muon.Memmem.memmem_found"
   ],
   "note": "The whole of memmem.c: the byte searches with shift registers, the maximal suffixes and the search of the two-way algorithm, with the critical factorisation theorem (Memmem/Crit.lean) behind the shifts. Reads outside of the haystack or the needle are a distinct outcome that is shown not to happen. The length of the needle is a size_t."
  },
  {
   "property": "C46",
   "status": "partial",
   "theorems": [
    "Muon.Ini.parse_says_partial",
    "Muon.Ini.says_total",
    "Muon.Ini.says_unique",
    "Muon.Ini.parse_key_counterexample",
    "Muon.Ini.parse_end_counterexample",
    "Muon.Ini.parse_start_counterexample",
    "Muon.Ini.parse_nul_counterexample"
   ],
   "note": "For all files without NUL bytes whose last line has its line end and whose first line does not begin with an empty key. Without the last line end (or for an empty file) the parser reads beyond its buffer; `= value` in the first line reads before it; after a NUL byte nothing is read; blanks before a key are kept."
  },
  {
   "property": "C47",
   "status": "partial",
   "theorems": [
    "Muon.Tap.tap_parse",
    "Muon.Tap.tap_good",
    "Muon.Tap.tap_verdict_partial",
    "Muon.Tap.line_is",
    "Muon.Tap.is_total",
    "Muon.Tap.tap_extra_counterexample",
    "Muon.Tap.tap_bail_counterexample",
    "Muon.Tap.tap_plan_counterexample",
    "Muon.Tap.tap_nul_counterexample"
   ],
   "note": "What is counted and the verdict are exact for every output; good streams always succeed. The converse holds if there are no more tests than planned: a failed test beyond the plan, a program that gives up with `Bail out!`, a plan above 2^32 and a NUL byte in the output can hide a failure."
  },
  {
   "property": "C48",
   "status": "proved",
   "theorems": [
    "Muon.Sched.inputs_ready",
    "Muon.Sched.started_once",
    "Muon.Sched.pruned_unneeded",
    "Muon.Sched.build_complete",
    "Muon.Sched.build_stops"
   ],
   "note": "All schedules, results and restat outcomes. A dry run (which runs nothing) with a full pool lists only part of the jobs: dry_run_counterexample under C50."
  },
  {
   "property": "C49",
   "status": "proved",
   "theorems": [
    "Muon.Sched.scheduling_total"
   ],
   "note": "A missing source file is the other error; both are characterised exactly."
  },
  {
   "property": "C50",
   "status": "partial",
   "theorems": [
    "Muon.Sched.pool_depth",
    "Muon.Sched.build_stops",
    "Muon.Sched.build_complete",
    "Muon.Sched.pool_slot_counterexample",
    "Muon.Sched.dry_run_counterexample"
   ],
   "note": "The depth is respected in all schedules, and without failures to start a job every queued job gets a slot. The slot of a job that cannot be started, or is only listed by a dry run, is never given back."
  },
  {
   "property": "C51",
   "status": "partial",
   "theorems": [
    "Muon.Sched.up_to_date",
    "Muon.Sched.clean_outputs",
    "Muon.Sched.phony_counterexample"
   ],
   "note": "Exact characterisation of clean edges. Generator rules do not compare commands, as documented by ninja. A file behind a phony target is not compared with the output."
  },
  {
   "property": "C52",
   "status": "partial",
   "theorems": [
    "Muon.Nlog.log_latest",
    "Muon.Nlog.log_crash_partial",
    "Muon.Nlog.log_rewrite_partial",
    "Muon.Nlog.log_other_counterexample",
    "Muon.Nlog.log_hash_counterexample",
    "Muon.Nlog.log_rewrite_counterexample"
   ],
   "note": "All complete records are recovered at every crash point; but a torn record is parsed: it can change its own output and the time stamp of an output whose path is a prefix of its path; and the log is truncated and rewritten at every start. Paths with tab or line end are excluded."
  },
  {
   "property": "C53",
   "status": "partial",
   "theorems": [
    "Muon.Dlog.deps_crash",
    "Muon.Dlog.deps_all",
    "Muon.Dlog.deps_crash_header",
    "Muon.Dlog.deps_reload_partial",
    "Muon.Dlog.deps_recorded_partial",
    "Muon.Dlog.deps_cycle",
    "Muon.Dlog.deps_empty_counterexample",
    "Muon.Dlog.deps_stale_counterexample",
    "Muon.Dlog.deps_first_counterexample",
    "Muon.Dlog.deps_rewrite_counterexample",
    "Muon.Dlog.deps_invalid_counterexample",
    "Muon.Dlog.deps_nul_counterexample"
   ],
   "note": "Reading a log cut at any byte finds exactly the last complete record of every output; starting on it succeeds and writes an equivalent log. But a record without dependencies is dropped when the log is read again, numbers given out again can point at another node's record, the log is truncated and rewritten at every start, and some corrupt records are undefined behaviour."
  },
  {
   "property": "C54",
   "status": "partial",
   "theorems": [
    "Muon.Canon.canon_safe",
    "Muon.Canon.canon_partial",
    "Muon.Canon.canon_idempotent_partial",
    "Muon.Canon.canon_walk",
    "Muon.Canon.canon_same",
    "Muon.Canon.one_node_per_path",
    "Muon.Canon.canon_root_counterexample",
    "Muon.Canon.canon_deep_counterexample"
   ],
   "note": "The root and paths that cancel to it become the empty string, whose canonicalisation is a fatal error; a path with more than 60 names at one point is a fatal error. Everything else is proved."
  },
  {
   "property": "C55",
   "status": "proved",
   "theorems": [
    "Muon.Tree.find_last",
    "Muon.Tree.insert_returns_old",
    "Muon.Tree.depth_log",
    "Muon.Tree.no_overflow"
   ],
   "note": "The key order is strcmp on the names; fewer than 2^64 insertions."
  },
  {
   "property": "C56",
   "status": "proved",
   "theorems": [
    "Muon.Htab.same_node_iff_same_path",
    "Muon.Htab.lookup_finds",
    "Muon.Htab.nodes_stable"
   ],
   "note": "The hash function is arbitrary."
  },
  {
   "property": "C57",
   "status": "partial",
   "theorems": [
    "Muon.Buf.arr_holds",
    "Muon.Buf.regions_kept",
    "Muon.Buf.bucket_get",
    "Muon.Buf.mark_restored",
    "Muon.Buf.sbuf_text",
    "Muon.Buf.into_str_partial",
    "Muon.Buf.sbuf_pushf_partial",
    "Muon.Buf.sbuf_pushf_overflow",
    "Muon.Buf.sbuf_pushf_counterexample",
    "Muon.Buf.into_str_nul_counterexample",
    "Muon.Buf.make_str_counterexample",
    "Muon.Buf.make_str_pushn",
    "Muon.Buf.clear_counterexample"
   ],
   "note": "For all sequences of operations below 2^30 bytes (64-bit sizes for arrays). Formatted output that makes the text exactly as long as the new capacity writes one byte beyond the heap block; a text with a NUL byte that outgrew its buffer, and any string of exactly 4095 bytes, fail an assertion; clearing a bucket array with several buckets breaks it (not reached in muon)."
  },
  {
   "property": "C58",
   "status": "partial",
   "theorems": [
    "Muon.Interp.disabler_propagates_partial",
    "Muon.Interp.disabler_if",
    "Muon.Interp.is_disabler_observes",
    "Muon.Interp.program_partial",
    "Muon.Interp.disabler_index_counterexample"
   ],
   "note": "All operators, message(), is_disabler() and if; other functions and methods are not modelled. A disabler as index or dictionary key ends muon."
  },
  {
   "property": "C59",
   "status": "partial",
   "theorems": [
    "Muon.Str.glob_partial",
    "Muon.Str.glob_misses_counterexample",
    "Muon.Str.glob_accepts_counterexample"
   ],
   "note": "Proved for patterns with at most one star; the code is wrong otherwise, with witnesses."
  },
  {
   "property": "C60",
   "status": "partial",
   "theorems": [
    "Muon.Path.withoutExt_partial",
    "Muon.Path.withoutExt_none",
    "Muon.Path.withoutExt_dotfile_counterexample"
   ],
   "note": "A last component beginning with the dot of the extension is lost entirely."
  },
  {
   "property": "C61",
   "status": "partial",
   "theorems": [
    "Muon.Path.executable_comps",
    "Muon.Path.executable_sep_partial",
    "Muon.Path.executable_dot_counterexample"
   ],
   "note": "A path such as ./x is normalised to x, which is searched for in PATH."
  },
  {
   "property": "C62",
   "status": "partial",
   "theorems": [
    "Muon.Lex.lex_number_prefixed",
    "Muon.Lex.lex_number_prefixed_big",
    "Muon.Lex.lex_number_decimal",
    "Muon.Lex.lex_number_decimal_big",
    "Muon.Lex.lex_number_counterexample",
    "Muon.Lex.lex_render"
   ],
   "note": "Values are proved for all digit strings; the code also accepts blanks, signs and a second prefix after the prefix."
  },
  {
   "property": "C63",
   "status": "partial",
   "theorems": [
    "Muon.Lex.lex_fstring_partial",
    "Muon.Lex.lex_fstring_counterexample"
   ],
   "note": "Proved for all texts and variables when each @ in the text is escaped; an unclosed @ swallows a character and interpolates."
  },
  {
   "property": "C64",
   "status": "proved",
   "theorems": [
    "Muon.Parse.parse_terminates",
    "Muon.Parse.parseText_terminates"
   ],
   "note": ""
  },
  {
   "property": "C65",
   "status": "partial",
   "theorems": [
    "Muon.Parse.parse_iff",
    "Muon.Parse.program_unique",
    "Muon.Parse.stray_not_counterexample",
    "Muon.Parse.parse_abort_counterexample"
   ],
   "note": "Exact characterisation for the grammar with the code's operator levels, extended by one production: a meaningless `not` after a comparison operand is accepted, so the property as stated is false. a[] aborts instead of being rejected with an error."
  },
  {
   "property": "C66",
   "status": "partial",
   "theorems": [
    "Muon.Parse.parseText_program",
    "Muon.Parse.fstring_method_counterexample"
   ],
   "note": "Proved for all programs without format strings; the pieces of a format string are not grouped, so a method call binds to the last piece only."
  },
  {
   "property": "C67",
   "status": "proved",
   "theorems": [
    "Muon.Lex.lex_layout"
   ],
   "note": "Between any two tokens a blank is required by the specification's layout; further layout is arbitrary."
  },
  {
   "property": "C68",
   "status": "partial",
   "theorems": [
    "Muon.Interp.index_array_partial",
    "Muon.Interp.program_partial",
    "Muon.Interp.negative_index_counterexample"
   ],
   "note": "An index below minus the length is not reported: an assertion fails or memory before the string is read."
  },
  {
   "property": "C69",
   "status": "partial",
   "theorems": [
    "Muon.Sha.fs_hash_exact",
    "Muon.Sha.fs_hash_partial",
    "Muon.Sha.fs_hash_counterexample"
   ],
   "note": "A byte of the hash less than 16 is printed as one digit and ends the string: fs.hash() is right only for hashes without such bytes (one in eight files)."
  },
  {
   "property": "C70",
   "status": "partial",
   "theorems": [
    "Muon.Sha.checksum_exact_partial",
    "Muon.Sha.checksum_same",
    "Muon.Sha.checksum_counterexample"
   ],
   "note": "Exact for checksums of hexadecimal digits; other characters are accepted (blanks, signs, or anything for 00), but a checksum never accepts two files with different hashes."
  },
  {
   "property": "C71",
   "status": "partial",
   "theorems": [
    "Muon.Args.bind_iff",
    "Muon.Args.bind_disabled",
    "Muon.Args.bind_no_abort_partial",
    "Muon.Args.bind_disabler_counterexample"
   ],
   "note": "Accepted calls and bound values are exact for all declarations and arguments. A disabler passed as kwargs aborts instead of giving a disabler."
  },
  {
   "property": "C72",
   "status": "partial",
   "theorems": [
    "Muon.Tap.exit_verdict",
    "Muon.Tap.abnormal_verdict",
    "Muon.Tap.tap_test_verdict",
    "Muon.Tap.overall_iff",
    "Muon.Tap.should_fail_counterexample",
    "Muon.Tap.tap_exit_counterexample",
    "Muon.Tap.tap_empty_counterexample"
   ],
   "note": "For all exit codes, outputs and lists of results. A test that should fail but does not is reported as a success; the exit code of a TAP test is not looked at; a TAP test without captured output is undefined behaviour."
  },
  {
   "property": "C73",
   "status": "partial",
   "theorems": [
    "Muon.Run.at_most_jobs",
    "Muon.Run.serial_alone",
    "Muon.Run.each_once",
    "Muon.Run.all_results",
    "Muon.Run.success_all",
    "Muon.Run.no_stop",
    "Muon.Run.run_ends",
    "Muon.Run.no_deadlock",
    "Muon.Run.collect_productive",
    "Muon.Run.fail_fast_step",
    "Muon.Run.compare_order",
    "Muon.Run.fail_fast_counterexample",
    "Muon.Run.serial_counterexample",
    "Muon.Run.compare_counterexample"
   ],
   "note": "For all numbers of jobs and tests, all schedules and all results. With fail_fast, running tests are left without result; after a test that is not parallel could not be started, the others run one at a time; the order used for sorting is inconsistent for two tests that are not parallel."
  },
  {
   "property": "C74",
   "status": "partial",
   "theorems": [
    "Muon.Manifest.read_written",
    "Muon.Manifest.read_ends_partial",
    "Muon.Manifest.read_ends_counterexample",
    "Muon.Manifest.read_ff_counterexample",
    "Muon.Manifest.read_empty_counterexample"
   ],
   "note": "Exact for every file of the grammar in every layout. Reading ends for every file with a line end at its end; a comment in the last line without line end is read forever, a byte 0xff silently ends the file, and an empty file is refused."
  },
  {
   "property": "C75",
   "status": "proved",
   "theorems": [
    "Muon.Manifest.parse_does",
    "Muon.Manifest.parse_one",
    "Muon.Manifest.edge_variable",
    "Muon.Manifest.scope_variable",
    "Muon.Manifest.subninja_scope",
    "Muon.Manifest.does_extends"
   ],
   "note": "For all manifests and included files, for any contents of the files. The conversion of pool depths and the check of ninja_required_version are parameters."
  },
  {
   "property": "C76",
   "status": "proved",
   "theorems": [
    "Muon.Manifest.accepted_sound",
    "Muon.Manifest.builtin",
    "Muon.Manifest.pool_empty_counterexample"
   ],
   "note": "For all manifests. An empty `pool =` is refused (pool_empty_counterexample), which does not contradict the claim."
  },
  {
   "property": "C77",
   "status": "partial",
   "theorems": [
    "Muon.Ninja.build_accepted",
    "Muon.Ninja.build_outputs",
    "Muon.Ninja.build_regenerates",
    "Muon.Ninja.alias_target",
    "Muon.Ninja.project_name_counterexample",
    "Muon.Ninja.regenerate_counterexample",
    "Muon.Ninja.return_counterexample"
   ],
   "note": "For all build files whose paths and arguments have no NUL, newline, carriage return or byte 255, whose paths have no |, and whose outputs are different (Spec.Good). What is missing is false: the name of the project and the command of regeneration are not escaped, and a carriage return in an argument makes the file unreadable."
  },
  {
   "property": "C78",
   "status": "partial",
   "theorems": [
    "Muon.Ninja.custom_target",
    "Muon.Ninja.depfile_counterexample"
   ],
   "note": "Under the same conditions, and for arguments that shell_escape quotes (C19). The name of the depfile is not escaped."
  },
  {
   "property": "C79",
   "status": "partial",
   "theorems": [
    "Muon.Ninja.compile_target",
    "Muon.Ninja.link_target",
    "Muon.Ninja.static_target",
    "Muon.Ninja.compiler_path_counterexample"
   ],
   "note": "Under the same conditions, for compilers with the options of gcc and compilers' commands that need no quoting (they get none)."
  },
  {
   "property": "C80",
   "status": "partial",
   "theorems": [
    "Muon.Ninja.rule_names_partial",
    "Muon.Ninja.rule_names_counterexample",
    "Muon.Ninja.digits_ok"
   ],
   "note": "For all names except those of targets that end in `_LANG_linker`: names of linkers' rules are not made unique."
  },
  {
   "property": "C81",
   "status": "partial",
   "theorems": [
    "Muon.Exec.custom_runs_partial",
    "Muon.Exec.exe_options",
    "Muon.Exec.archive_runs",
    "Muon.Exec.custom_nul_counterexample"
   ],
   "note": "For all custom targets with arguments without NUL. Arguments with NUL change on their way (custom_nul_counterexample). The files with arguments and environment are those that muon has written (C36)."
  },
  {
   "property": "C82",
   "status": "partial",
   "theorems": [
    "Muon.Exec.options_read",
    "Muon.Exec.getopt_windows_counterexample",
    "Muon.Exec.meson_counterexample"
   ],
   "note": "For all option strings and command lines; the C library's getopt on POSIX systems is taken to behave like the ported one. The port for Windows reads behind the option string for unknown options, and `meson` without arguments reads a null pointer."
  },
  {
   "property": "C83",
   "status": "partial",
   "theorems": [
    "Muon.Exec.argv_same_partial",
    "Muon.Exec.argv_nul_counterexample",
    "Muon.Exec.argv_empty_counterexample",
    "Muon.Exec.env_same_partial",
    "Muon.Exec.env_empty_counterexample",
    "Muon.Exec.env_nul_counterexample",
    "Muon.Exec.interpreter_partial",
    "Muon.Exec.interpreter_counterexample",
    "Muon.Exec.path_first",
    "Muon.Exec.exec_argv"
   ],
   "note": "For non-empty lists of arguments and variables without NUL, and first lines without a blank at the end."
  },
  {
   "property": "C84",
   "status": "proved",
   "theorems": [
    "Muon.Exec.Collect.collected_all",
    "Muon.Exec.Collect.collected_prefix",
    "Muon.Exec.Collect.collect_progress",
    "Muon.Exec.Collect.collect_ends"
   ],
   "note": "For every schedule. Errors of read and waitpid are not modelled."
  },
  {
   "property": "C85",
   "status": "partial",
   "theorems": [
    "Muon.Depfile.depfile_read_partial",
    "Muon.Depfile.depfile_backslashes_partial",
    "Muon.Depfile.parses_det",
    "Muon.Depfile.depfile_ends_partial",
    "Muon.Depfile.depfile_hang_counterexample",
    "Muon.Depfile.depfile_ff_counterexample",
    "Muon.Depfile.depfile_first_counterexample",
    "Muon.Depfile.depfile_char_counterexample",
    "Muon.Depfile.depfile_phony_counterexample",
    "Muon.Depfile.depfile_cut_counterexample",
    "Muon.Depfile.depfile_canon_counterexample"
   ],
   "note": "For names of letters, digits, +,-./@_ and the escaped characters, dependencies not beginning with an escaped one. Ninja hangs on a form feed, takes the byte 255 for the end of the file, refuses other characters, and does not bring names into canonical form."
  },
  {
   "property": "C86",
   "status": "partial",
   "theorems": [
    "Muon.Fmt.fmt_same_program_partial",
    "Muon.Fmt.fmt_without_files_partial",
    "Muon.Fmt.comment_text",
    "Muon.Fmt.bare_expression_counterexample",
    "Muon.Fmt.space_array_counterexample",
    "Muon.Fmt.indent_by_counterexample"
   ],
   "note": "For trees of accepted programs nested less than 4096 deep, with comments on lines of their own, without space_array and without statements that are bare arithmetic. In these two cases, and with an indentation that is not blank, the result can be another program or no program. Comments are cut after 4094 characters."
  },
  {
   "property": "C87",
   "status": "partial",
   "theorems": [
    "Muon.Rpath.remove_paths_exact",
    "Muon.Rpath.fix_rpaths_partial",
    "Muon.Rpath.no_rpath",
    "Muon.Rpath.not_elf",
    "Muon.Rpath.image_read",
    "Muon.Rpath.two_kept_counterexample",
    "Muon.Rpath.long_path_counterexample",
    "Muon.Rpath.static_counterexample",
    "Muon.Rpath.both_counterexample",
    "Muon.Rpath.section_counterexample"
   ],
   "note": "For little-endian files with one run path and at most one directory that stays. If two or more stay the path is cut, with a directory of 4096 characters the buffer overflows, files without a dynamic section are an error, with RPATH and RUNPATH a wrong entry may be removed."
  },
  {
   "property": "C88",
   "status": "partial",
   "theorems": [
    "Muon.Install.perm_iff_partial",
    "Muon.Install.perm_inj",
    "Muon.Install.install_mode_spec",
    "Muon.Install.perm_nul_counterexample",
    "Muon.Install.install_mode_empty_counterexample"
   ],
   "note": "For all strings without NUL: what follows a NUL is ignored. An empty array as install_mode is read outside of its elements."
  },
  {
   "property": "C89",
   "status": "partial",
   "theorems": [
    "Muon.Install.install_data_partial",
    "Muon.Install.install_rename_partial",
    "Muon.Install.install_headers_partial",
    "Muon.Install.install_dirs_partial",
    "Muon.Install.install_man_partial",
    "Muon.Install.install_subdir_partial",
    "Muon.Install.install_symlink_partial",
    "Muon.Install.install_emptydir_place",
    "Muon.Install.install_build_partial",
    "Muon.Install.install_configured_partial",
    "Muon.Install.install_configured_asked",
    "Muon.Install.rename_mode_counterexample",
    "Muon.Install.configured_mode_counterexample",
    "Muon.Install.subdir_counterexample",
    "Muon.Install.preserve_absolute_counterexample",
    "Muon.Install.rename_absolute_counterexample",
    "Muon.Install.man_locale_counterexample"
   ],
   "note": "For all strings without NUL, relative new names and relative paths to be preserved, and names of directories of one or two components. Absolute ones ignore install_dir; of longer names of directories only the first component is left out; malformed permissions make renamed and configured files silently uninstalled; a locale is compared as a beginning only."
  },
  {
   "property": "C90",
   "status": "partial",
   "theorems": [
    "Muon.Install.install_frame_partial",
    "Muon.Install.installAll_frame_partial",
    "Muon.Install.destdir_frame_partial",
    "Muon.Install.dry_run",
    "Muon.Install.installed_file_partial",
    "Muon.Install.installed_link_partial",
    "Muon.Install.installed_emptydir_partial",
    "Muon.Install.installed_subdir_partial",
    "Muon.Install.umask_bits",
    "Muon.Install.failure_counterexample",
    "Muon.Install.dotdot_counterexample",
    "Muon.Install.link_counterexample",
    "Muon.Install.mode_counterexample",
    "Muon.Install.itself_counterexample",
    "Muon.Install.built_link_counterexample",
    "Muon.Install.sticky_counterexample",
    "Muon.Install.link_to_dir_counterexample"
   ],
   "note": "Without .. in destinations, links on the way to or in destinations, built files that are links, and links made by the installation in what is installed later. Contents and permissions are for destinations that are new or files (directories: new or empty, sources without links). Failures are not reported; links are followed out of DESTDIR; a file that is replaced keeps its permissions; one installed onto itself is emptied; links to directories become directories."
  },
  {
   "property": "C91",
   "status": "partial",
   "theorems": [
    "Muon.Select.designates",
    "Muon.Select.select_one_partial",
    "Muon.Select.select_names_partial",
    "Muon.Select.select_suites_partial",
    "Muon.Select.select_sound",
    "Muon.Select.suites_kept",
    "Muon.Select.qualified_counterexample",
    "Muon.Select.main_counterexample",
    "Muon.Select.list_counterexample",
    "Muon.Select.exclude_counterexample",
    "Muon.Select.setup_counterexample",
    "Muon.Select.suites_counterexample"
   ],
   "note": "Exactly the selected tests are run if only the main project has tests; for several projects, if the names are unqualified and there are no suites, or if the suites are unqualified and the main project has a selected test. False in general: names and suites are compared with the name of the project visited before, so lib:foo runs foo of another project; a subproject passes for the main project if nothing was selected there; -l prints wrong project names; a setup with exclude_suites aborts on a test without suite; setups of projects without tests are not found; the 65th -s overruns the array."
  },
  {
   "property": "C92",
   "status": "partial",
   "theorems": [
    "Muon.Deps.target_has",
    "Muon.Deps.dependency_has",
    "Muon.Deps.static_chain",
    "Muon.Deps.link_once",
    "Muon.Deps.own_first",
    "Muon.Deps.whole_static",
    "Muon.Deps.link_line",
    "Muon.Deps.cpp_linker_partial",
    "Muon.Deps.partial_links_counterexample",
    "Muon.Deps.as_system_counterexample",
    "Muon.Deps.object_name_counterexample",
    "Muon.Deps.objc_counterexample"
   ],
   "note": "The contents of targets and dependencies are characterised exactly for every program; the C++ linker is chosen exactly where it is needed if no library was found by the compiler of a further language. False in general: partial_dependency(links: true) loses the run paths and the language, so a C program that gets a C++ library this way is linked by the C compiler; as_system() on a dependency that was not found, or on a partial one without includes, loops over the null object and aborts; an object whose name has no dot makes a wild write; a library found by the Objective-C compiler makes a C++ program be linked as Objective-C."
  },
  {
   "property": "C93",
   "status": "partial",
   "theorems": [
    "Muon.Names.file_name",
    "Muon.Names.object_inside",
    "Muon.Names.objects_distinct_partial",
    "Muon.Names.outside_distinct_partial",
    "Muon.Names.object_relative",
    "Muon.Names.targets_apart",
    "Muon.Names.siblings_apart",
    "Muon.Names.links_lead",
    "Muon.Names.default_names",
    "Muon.Names.names_distinct",
    "Muon.Names.darwin_links_counterexample",
    "Muon.Names.objects_counterexample",
    "Muon.Names.outside_counterexample",
    "Muon.Names.private_counterexample"
   ],
   "note": "Objects lie in the private directory, relative and absolute names agree, sources in the same place have different objects, targets of one directory share no object, and on systems other than Windows, Cygwin and darwin the links to a shared library lead to the built file. False in general: x.c and ../x.c of one target have the same object, so have /o/a_b.c and /o/a/b.c; an executable t.p is built at the private directory of t; on darwin a library with a version gets a link at the path of the file to be built. Names on Windows and Cygwin are not modelled."
  },
  {
   "property": "C94",
   "status": "partial",
   "theorems": [
    "Muon.Feature.chain_outcome",
    "Muon.Feature.chain_error_partial",
    "Muon.Feature.choice_kept",
    "Muon.Feature.queries",
    "Muon.Feature.required",
    "Muon.Feature.error_message_counterexample"
   ],
   "note": "Proved for all chains; a failure is an error if no error_message is given. False with error_message: the flag that tells whether the keyword is set is used as the number of the message, so muon aborts when the requirement is not met."
  },
  {
   "property": "C95",
   "status": "partial",
   "theorems": [
    "Muon.Kinds.version_accepted",
    "Muon.Kinds.defs_accepted",
    "Muon.Kinds.sources_needed",
    "Muon.Kinds.kinds_made",
    "Muon.Kinds.shared_pic",
    "Muon.Kinds.pic_respected",
    "Muon.Kinds.pie_partial",
    "Muon.Kinds.extract_objects",
    "Muon.Kinds.both_objects",
    "Muon.Kinds.both_built",
    "Muon.Kinds.pie_counterexample",
    "Muon.Kinds.both_library_counterexample"
   ],
   "note": "Proved except for the keyword pie, which aborts muon whatever its value is, and except that a library given as a source of both_libraries is linked with the static library only."
  },
  {
   "property": "C96",
   "status": "partial",
   "theorems": [
    "Muon.Lookup.fallback_used",
    "Muon.Lookup.implicit_fallback",
    "Muon.Lookup.fallback_version_partial",
    "Muon.Lookup.override_used",
    "Muon.Lookup.override_others",
    "Muon.Lookup.required_found_partial",
    "Muon.Lookup.sound_kept",
    "Muon.Lookup.skip",
    "Muon.Lookup.not_found",
    "Muon.Lookup.origin",
    "Muon.Lookup.version_partial",
    "Muon.Lookup.static_partial",
    "Muon.Lookup.nofallback",
    "Muon.Lookup.fallback_disallowed_partial",
    "Muon.Lookup.forced_fallback",
    "Muon.Lookup.pkg_first",
    "Muon.Lookup.again_partial",
    "Muon.Lookup.required_counterexample",
    "Muon.Lookup.version_counterexample",
    "Muon.Lookup.fallback_version_counterexample",
    "Muon.Lookup.empty_version_counterexample",
    "Muon.Lookup.empty_fallback_counterexample",
    "Muon.Lookup.fallback_disallowed_counterexample",
    "Muon.Lookup.static_counterexample",
    "Muon.Lookup.names_counterexample",
    "Muon.Lookup.kind_counterexample",
    "Muon.Lookup.include_counterexample"
   ],
   "note": "Proved for lookups of any history under the conditions in the partial theorems. False: versions of overrides are not compared (the same lookup again then fails or aborts), a subproject refused for its version is accepted in the second pass, overrides that are not found satisfy required, version: [] is never met, fallback: [] fails an assertion, allow_fallback: false does not stop wraps, static: true can give the non-static dependency from the cache, a lookup of several names is remembered under all of them, include_type changes dependencies of other projects."
  },
  {
   "property": "C97",
   "status": "partial",
   "theorems": [
    "Muon.Tool.printJson_raw",
    "Muon.Tool.clean_all",
    "Muon.Tool.clean_rules",
    "Muon.Tool.clean_targets",
    "Muon.Tool.sources_kept",
    "Muon.Tool.clean_ends_partial",
    "Muon.Tool.commands_once",
    "Muon.Tool.commands_order",
    "Muon.Tool.printed_spec",
    "Muon.Tool.compdb_json_partial",
    "Muon.Tool.compdb_safe_partial",
    "Muon.Tool.clean_phony_counterexample",
    "Muon.Tool.clean_cycle_counterexample",
    "Muon.Tool.compdb_control_counterexample",
    "Muon.Tool.compdb_first_counterexample",
    "Muon.Tool.compdb_null_counterexample"
   ],
   "note": "Proved for all graphs (cleaning of targets ends on graphs without cycles). False: cleaning a phony target removes nothing, cleaning a target on a cycle never ends, a control character in a command makes the database no JSON, and with -x a response file is not put in if its name stands in the command before, or is a null pointer if its contents are not bound."
  },
  {
   "property": "C98",
   "status": "partial",
   "theorems": [
    "Muon.Pc.name_iff",
    "Muon.Pc.name_error_iff",
    "Muon.Pc.generate_place",
    "Muon.Pc.libdir_spec",
    "Muon.Pc.dirs_spec",
    "Muon.Pc.collect_exact",
    "Muon.Pc.dedup_exact",
    "Muon.Pc.contents_lists",
    "Muon.Pc.write_reads",
    "Muon.Pc.variables_exact",
    "Muon.Pc.generated_partial",
    "Muon.Pc.all_generated_partial",
    "Muon.Pc.reserved_refused",
    "Muon.Pc.cflags_args_partial",
    "Muon.Pc.cflags_args_counterexample",
    "Muon.Pc.history_counterexample",
    "Muon.Pc.dataonly_counterexample",
    "Muon.Pc.outside_counterexample",
    "Muon.Pc.installDir_counterexample",
    "Muon.Pc.libname_counterexample",
    "Muon.Pc.description_counterexample",
    "Muon.Pc.injected_counterexample",
    "Muon.Pc.space_counterexample",
    "Muon.Pc.subdir_counterexample",
    "Muon.Pc.newline_counterexample",
    "Muon.Pc.conflicts_counterexample"
   ],
   "note": "Proved for all calls that are not dataonly, after any history, if the texts can stand on a line, flags have no quotes or backslashes and install_dir is not given. False: a variable given to one call is taken as defined in later files, dataonly files do not define the directories they use, directories outside the prefix are put below it, install_dir of the file is used as directory of the libraries, a library named libfoo is given as -lfoo, without description a null pointer is printed, a newline in a text adds fields, spaces in libraries and backslashes are not escaped, absolute directories of headers lose -I, a newline in a variable aborts, conflicts are not written."
  },
  {
   "property": "C99",
   "status": "partial",
   "theorems": [
    "Muon.Probe.cache_transparent_partial",
    "Muon.Probe.required_partial",
    "Muon.Probe.compiles_text",
    "Muon.Probe.compiles_file",
    "Muon.Probe.has_header_partial",
    "Muon.Probe.check_header_partial",
    "Muon.Probe.has_type_partial",
    "Muon.Probe.has_member_partial",
    "Muon.Probe.has_members_partial",
    "Muon.Probe.has_arguments",
    "Muon.Probe.supported_arguments",
    "Muon.Probe.first_supported",
    "Muon.Probe.sizeof_partial",
    "Muon.Probe.compute_int_partial",
    "Muon.Probe.alignment_partial",
    "Muon.Probe.run_text",
    "Muon.Probe.run_file",
    "Muon.Probe.run_result_text",
    "Muon.Probe.run_result_file",
    "Muon.Probe.has_function_partial",
    "Muon.Probe.has_symbol_partial",
    "Muon.Probe.has_attribute",
    "Muon.Probe.supported_attributes",
    "Muon.Probe.unknown_attribute",
    "Muon.Probe.get_define_partial",
    "Muon.Probe.get_define_line",
    "Muon.Probe.sizeof_rest",
    "Muon.Probe.sizeof_letter",
    "Muon.Probe.define_end_counterexample",
    "Muon.Probe.has_members_none",
    "Muon.Probe.upgraded",
    "Muon.Probe.upgraded_file",
    "Muon.Probe.test_files",
    "Muon.Probe.find_library",
    "Muon.Probe.library_missing",
    "Muon.Probe.library_headers_partial",
    "Muon.Probe.command_line",
    "Muon.Probe.required_cached_counterexample",
    "Muon.Probe.symbol_required_counterexample",
    "Muon.Probe.header_required_counterexample",
    "Muon.Probe.long_prefix_counterexample",
    "Muon.Probe.changed_file_counterexample",
    "Muon.Probe.run_then_int_counterexample",
    "Muon.Probe.define_counterexample"
   ],
   "note": "The cache makes no difference in any history without collisions of the hash, without required checks, and in which the same program and command line are used by one function only. Proved of programs below 4096 bytes. False: a required check whose failure is cached is no error; has_header_symbol with required is an error for C++ after the first of two programs; a missing required header is ignored by find_library; programs are cut off after 4095 bytes; changed files are not noticed; run() and compute_int() of the same program abort; adjacent literals are not always joined."
  },
  {
   "property": "C100",
   "status": "partial",
   "theorems": [
    "Muon.Wrap.parse_iff_partial",
    "Muon.Wrap.git_fields",
    "Muon.Wrap.nameList_spec",
    "Muon.Wrap.loadAll_ok_partial",
    "Muon.Wrap.loadAll_total_partial",
    "Muon.Wrap.dest_spec",
    "Muon.Wrap.diffs_spec_partial",
    "Muon.Wrap.present",
    "Muon.Wrap.handle_iff_partial",
    "Muon.Wrap.handle_kept_partial",
    "Muon.Wrap.handle_defined_partial",
    "Muon.Wrap.offline",
    "Muon.Wrap.offline_git",
    "Muon.Wrap.others_ignored",
    "Muon.Wrap.fallback_counterexample",
    "Muon.Wrap.unpatched_counterexample",
    "Muon.Wrap.revision_counterexample",
    "Muon.Wrap.lead_counterexample",
    "Muon.Wrap.no_source_counterexample",
    "Muon.Wrap.diff_empty_counterexample",
    "Muon.Wrap.diff_short_counterexample",
    "Muon.Wrap.diff_merged_counterexample",
    "Muon.Wrap.directory_counterexample",
    "Muon.Wrap.download_counterexample",
    "Muon.Wrap.wrap_given",
    "Muon.Wrap.wrap_refused",
    "Muon.Wrap.download_one",
    "Muon.Wrap.download_named",
    "Muon.Wrap.download_path"
   ],
   "note": "Proved of wrap files that end in a line end, have no NUL bytes and do not begin with a pair without key, and of diff_files with names of at least two bytes. False: fallback URLs are never used, after a failed patch or checkout a second attempt succeeds with what is there, lead_directory_missing = false counts as true, a wrap without source_filename is accepted and then passes a null pointer, an empty diff_files or a last name of one byte is read behind its end, directory can be any path, muon subprojects download succeeds although fetching failed."
  },
  {
   "property": "C101",
   "status": "partial",
   "theorems": [
    "Muon.Sub.eval_extends",
    "Muon.Sub.eval_ordered",
    "Muon.Sub.start_ordered",
    "Muon.Sub.isolated",
    "Muon.Sub.same_again",
    "Muon.Sub.same_variables",
    "Muon.Sub.required_found",
    "Muon.Sub.missing_marked",
    "Muon.Sub.skipped",
    "Muon.Sub.prepare_iff",
    "Muon.Sub.found_iff",
    "Muon.Sub.eval_mono",
    "Muon.Sub.auto_no_error",
    "Muon.Sub.version_auto_counterexample",
    "Muon.Sub.version_again_counterexample",
    "Muon.Sub.disabled_counterexample",
    "Muon.Sub.failed_again_counterexample",
    "Muon.Sub.failed_nested_counterexample",
    "Muon.Sub.same_name_counterexample",
    "Muon.Sub.build_dir_counterexample",
    "Muon.Sub.empty_dir_counterexample"
   ],
   "note": "Proved of programs made of the actions that concern projects, for every nesting that ends (a subproject that uses itself under another name without end has no outcome). False: the version of a subproject that is not required is ignored, as is the version in a second call; a disabled one that was evaluated before is found; one that failed is evaluated again on each call and what it used is built; a subproject in one of the same name is evaluated too; with `directory` in a wrap another build directory is made; an empty directory is not fetched."
  },
  {
   "property": "C102",
   "status": "partial",
   "theorems": [
    "Muon.Fsmod.lookup_home",
    "Muon.Fsmod.write_iff_partial",
    "Muon.Fsmod.fixPath_spec",
    "Muon.Fsmod.fixPath_noabs",
    "Muon.Fsmod.fixPath_error_iff",
    "Muon.Fsmod.lookup_partial",
    "Muon.Fsmod.isSymlink_partial",
    "Muon.Fsmod.expanduser_partial",
    "Muon.Fsmod.expanduser_home",
    "Muon.Fsmod.name_spec",
    "Muon.Fsmod.stem_spec",
    "Muon.Fsmod.stem_none",
    "Muon.Fsmod.parent_partial",
    "Muon.Fsmod.parent_name_partial",
    "Muon.Fsmod.replaceSuffix_partial",
    "Muon.Fsmod.replaceSuffix_none",
    "Muon.Fsmod.isSamepath_spec",
    "Muon.Fsmod.samepath_sound",
    "Muon.Fsmod.samepath_complete_partial",
    "Muon.Fsmod.read_partial",
    "Muon.Fsmod.size_spec",
    "Muon.Fsmod.read_write_partial",
    "Muon.Fsmod.posix_runs",
    "Muon.Fsmod.posix_end",
    "Muon.Fsmod.asPosix_same",
    "Muon.Fsmod.asPosix_clean",
    "Muon.Fsmod.relativeTo_spec",
    "Muon.Fsmod.addSuffix_spec",
    "Muon.Fsmod.isAbsolute_spec",
    "Muon.Fsmod.expanduser_counterexample",
    "Muon.Fsmod.expanduser_slash_counterexample",
    "Muon.Fsmod.replaceSuffix_counterexample",
    "Muon.Fsmod.stem_counterexample",
    "Muon.Fsmod.samepath_counterexample",
    "Muon.Fsmod.encoding_counterexample"
   ],
   "note": "Proved of paths that do not begin with a tilde (and of the tilde alone), of names that are not `..`, and of suffixes in the last component. False: ~/x is taken to be /x, ~other/x to be in the own home directory; replace_suffix('a.d/b', '.c') is 'a.c'; .bashrc has an empty stem; /../a and /a are not the same path; an unsupported encoding does not stop fs.read."
  },
  {
   "property": "C103",
   "status": "partial",
   "theorems": [
    "Muon.Cmdline.soname_partial",
    "Muon.Cmdline.gcc_command_partial",
    "Muon.Cmdline.cl_command_partial",
    "Muon.Cmdline.posix_command_partial",
    "Muon.Cmdline.command_reads",
    "Muon.Cmdline.commands_independent_partial",
    "Muon.Cmdline.optimisation_lost_forever",
    "Muon.Cmdline.firsts_nodup",
    "Muon.Cmdline.link_command_partial",
    "Muon.Cmdline.other_link_command_partial",
    "Muon.Cmdline.regenerate_back_partial",
    "Muon.Cmdline.optimisation_lost_counterexample",
    "Muon.Cmdline.warnings_lost_counterexample",
    "Muon.Cmdline.optimization_ignored_counterexample",
    "Muon.Cmdline.optimization_plain_counterexample",
    "Muon.Cmdline.system_dirs_counterexample",
    "Muon.Cmdline.rpath_cut_counterexample",
    "Muon.Cmdline.regenerate_counterexample",
    "Muon.Cmdline.posix_optimisation_lost_counterexample"
   ],
   "note": "Proved of texts that fit into the buffers, of runs in which no target is compiled without optimisation (gcc, clang), and of options from the environment without commas. False: after one target with buildtype=plain no later target is optimised, after one with warning_level=0 cl gives no warnings; -Doptimization is ignored if a build type is set anywhere and the choice 'plain' ends the program; system directories are missing for cl; rpaths of more than 243 bytes are cut; CFLAGS with a comma becomes several arguments when ninja configures again."
  },
  {
   "property": "C104",
   "status": "partial",
   "theorems": [
    "Muon.Cdata.data_partial",
    "Muon.Cdata.dict_kept_partial",
    "Muon.Cdata.run_ok",
    "Muon.Cdata.dict_shared_counterexample",
    "Muon.Cdata.data_shared_counterexample",
    "Muon.Cdata.quoted_literal_partial",
    "Muon.Cdata.literal_unique",
    "Muon.Cdata.quoted_literal_counterexample",
    "Muon.Cdata.get_unquoted_spec",
    "Muon.Cdata.get_unquoted_back_partial",
    "Muon.Cdata.get_unquoted_back_counterexample",
    "Muon.Cdata.get_unquoted_number_counterexample",
    "Muon.Cdata.header_partial",
    "Muon.Cdata.header_unique",
    "Muon.Cdata.header_counterexample",
    "Muon.Cdata.resolve_iff",
    "Muon.Cdata.output_place",
    "Muon.Cdata.configure_file_iff",
    "Muon.Cdata.copy_false_counterexample",
    "Muon.Cdata.output_place_counterexample",
    "Muon.Cdata.load_partial",
    "Muon.Cdata.load_reads",
    "Muon.Cdata.load_counterexample"
   ],
   "note": "The dictionary given to configuration_data() is shared with the object (counterexamples): the theorems on objects and dictionaries hold for programs that give no dictionary twice, and for dictionaries that are not given. set_quoted does not escape backslashes and get_unquoted does not undo escapes and aborts on numbers; copy: false copies; the output .. is outside of the build directory; keyval.load reads beyond files without a final newline."
  },
  {
   "property": "C105",
   "status": "partial",
   "theorems": [
    "Muon.Ctgt.target_command_partial",
    "Muon.Ctgt.generated_command_partial",
    "Muon.Ctgt.depfile_place_partial",
    "Muon.Ctgt.depfile_plain",
    "Muon.Ctgt.preserve_absolute",
    "Muon.Ctgt.word_leads",
    "Muon.Ctgt.command_words_partial",
    "Muon.Ctgt.command_made",
    "Muon.Ctgt.command_runs",
    "Muon.Ctgt.outputs_places_partial",
    "Muon.Ctgt.outputs_plain",
    "Muon.Ctgt.slashed_comps",
    "Muon.Ctgt.generator_directory",
    "Muon.Ctgt.checkPreserve_ok",
    "Muon.Ctgt.generate_made_partial",
    "Muon.Ctgt.generated_apart",
    "Muon.Ctgt.fmt_loop",
    "Muon.Ctgt.generate_same_counterexample",
    "Muon.Ctgt.output_directory_counterexample",
    "Muon.Ctgt.no_input_counterexample",
    "Muon.Ctgt.key_counterexample",
    "Muon.Ctgt.dot_counterexample"
   ],
   "note": "Proved of strings whose keys are all known and of directories without @. False: keys that are not known stay as they are without an error; in a build directory with two @ in its path every custom target with outputs fails; @INPUT0@ and @BASENAME@ without an input abort; without preserve_path_from sources with the same name in different directories have the same output."
  },
  {
   "property": "C106",
   "status": "partial",
   "theorems": [
    "Muon.Prog.guess_first",
    "Muon.Prog.guess_none",
    "Muon.Prog.cut_exists",
    "Muon.Prog.override_iff",
    "Muon.Prog.override_wins",
    "Muon.Prog.override_lasts",
    "Muon.Prog.place_at",
    "Muon.Prog.file_found",
    "Muon.Prog.file_rejected",
    "Muon.Prog.file_argument",
    "Muon.Prog.forced_fallback",
    "Muon.Prog.last_fallback",
    "Muon.Prog.no_subproject",
    "Muon.Prog.found_from",
    "Muon.Prog.from_usable",
    "Muon.Prog.result_from",
    "Muon.Prog.required_found",
    "Muon.Prog.skip_nothing",
    "Muon.Prog.names_in_order",
    "Muon.Prog.none_found",
    "Muon.Prog.version_wanted_partial",
    "Muon.Prog.command_words",
    "Muon.Prog.command_result",
    "Muon.Prog.command_not_started",
    "Muon.Prog.command_missing",
    "Muon.Prog.path_of_file",
    "Muon.Prog.path_of_words",
    "Muon.Prog.version_says",
    "Muon.Prog.find_total_partial",
    "Muon.Prog.cases_found",
    "Muon.Prog.empty_name_counterexample",
    "Muon.Prog.python_override_counterexample",
    "Muon.Prog.not_found_counterexample",
    "Muon.Prog.version_counterexample",
    "Muon.Prog.version_ends_counterexample",
    "Muon.Prog.failed_subproject_counterexample",
    "Muon.Prog.guess_counterexample"
   ],
   "note": "Versions are proved of files and of overrides whose version is known, the absence of aborts of names that are not empty and without python installations as overrides. False: find_program('') aborts; a name overridden with a python installation aborts; path() and version() of a program that was not found abort; an override whose version is unknown and the built-in samurai are taken whatever version is wanted; a file of another version ends the search although there is another further on; overrides of a subproject that failed are taken; dots alone are guessed as a version. The evaluation of subprojects and the output of programs are parameters."
  },
  {
   "property": "C107",
   "status": "partial",
   "theorems": [
    "Muon.Odecl.option_iff",
    "Muon.Odecl.option_total",
    "Muon.Odecl.option_found",
    "Muon.Odecl.get_option_value",
    "Muon.Odecl.declared_value",
    "Muon.Odecl.yield_value",
    "Muon.Odecl.default_options",
    "Muon.Odecl.default_options_later",
    "Muon.Odecl.default_options_text",
    "Muon.Odecl.override_options",
    "Muon.Odecl.subprojects_known",
    "Muon.Odecl.option_file",
    "Muon.Odecl.prefix_place",
    "Muon.Odecl.prefix_relative",
    "Muon.Odecl.prefix_all",
    "Muon.Odecl.empty_name_counterexample",
    "Muon.Odecl.subproject_global_counterexample",
    "Muon.Odecl.override_commandline_counterexample"
   ],
   "note": "Proved of options that are not deprecated with other names or values (those are C37 and C38). Three parts fail: the empty name is accepted, a subproject can change options of the whole build with its own default_options, and override_options has no effect on an option given on the command line."
  },
  {
   "property": "C108",
   "status": "partial",
   "theorems": [
    "Muon.Edcfg.section_iff",
    "Muon.Edcfg.star_iff",
    "Muon.Edcfg.star_all",
    "Muon.Edcfg.empty_all",
    "Muon.Edcfg.name_iff",
    "Muon.Edcfg.name_applies",
    "Muon.Edcfg.name_dirty",
    "Muon.Edcfg.star_name_iff",
    "Muon.Edcfg.names_iff",
    "Muon.Edcfg.settings",
    "Muon.Edcfg.broken_file",
    "Muon.Edcfg.files_looked_for",
    "Muon.Edcfg.indent_text",
    "Muon.Edcfg.indent_blank",
    "Muon.Edcfg.indent_default",
    "Muon.Edcfg.fmt_indent",
    "Muon.Edcfg.longer_name_counterexample",
    "Muon.Edcfg.end_of_name_counterexample",
    "Muon.Edcfg.crlf_counterexample",
    "Muon.Edcfg.alternatives_counterexample",
    "Muon.Edcfg.brackets_counterexample",
    "Muon.Edcfg.wild_counterexample",
    "Muon.Edcfg.broken_counterexample",
    "Muon.Edcfg.negative_counterexample",
    "Muon.Edcfg.large_counterexample",
    "Muon.Edcfg.unset_counterexample",
    "Muon.Edcfg.numbers_counterexample",
    "Muon.Edcfg.below_applies",
    "Muon.Edcfg.unclosed_counterexample"
   ],
   "note": "Sections without brackets, ranges, and stars other than one at the start; what is missing are sections with stars in other places. Ten parts fail: a section applies to files whose path lacks its last byte; names fit the ends of other names; with CRLF line ends a name does not fit; of alternatives only the first that fits is tried; in brackets only the first byte counts; a comma after alternatives gives a wild pointer; if a file cannot be parsed a pointer that was never set is read; indent_size = -1 writes after the end of the buffer; 2000 fails an assertion; a size that is not a number removes all indentation."
  },
  {
   "property": "C109",
   "status": "partial",
   "theorems": [
    "Muon.Scope.variable_iff",
    "Muon.Scope.variable_undefined",
    "Muon.Scope.is_variable_iff",
    "Muon.Scope.assign_sees",
    "Muon.Scope.unset_sees",
    "Muon.Scope.scopes_balanced",
    "Muon.Scope.statements_balanced",
    "Muon.Scope.file_variables_safe",
    "Muon.Scope.others_safe",
    "Muon.Scope.call_lexical",
    "Muon.Scope.later_assignment",
    "Muon.Scope.quiet_calls",
    "Muon.Scope.quiet_statements",
    "Muon.Scope.result_type",
    "Muon.Scope.return_ends",
    "Muon.Scope.return_value",
    "Muon.Scope.plain_value",
    "Muon.Scope.loop_ends",
    "Muon.Scope.loop_last",
    "Muon.Scope.params_values",
    "Muon.Scope.call_arguments_partial",
    "Muon.Scope.call_accepted_partial",
    "Muon.Scope.nested_arguments_counterexample",
    "Muon.Scope.no_parameters_counterexample",
    "Muon.Scope.counter_counterexample",
    "Muon.Scope.caller_locals_counterexample",
    "Muon.Scope.recursion_counterexample",
    "Muon.Scope.break_counterexample"
   ],
   "note": "Scoping is proved for all programs. Arguments are bound correctly if they contain no calls of such functions themselves: the argument arrays are static, so add(1, add(2, 3)) adds 2 and 5, and f(g()) ends muon if g has no parameters. A function that is called again while it runs sees the variables of the outer call; += on a captured variable lasts until the next call; a function does not know its own name; break in a function defined in a loop skips the rest of the file."
  },
  {
   "property": "C110",
   "status": "partial",
   "theorems": [
    "Muon.Proj.project_arguments",
    "Muon.Proj.global_arguments",
    "Muon.Proj.global_main",
    "Muon.Proj.arguments_iff",
    "Muon.Proj.files_place",
    "Muon.Proj.all_left",
    "Muon.Proj.subdir_mirror",
    "Muon.Proj.languages_found",
    "Muon.Proj.languages_there",
    "Muon.Proj.languages_skip",
    "Muon.Proj.project_languages",
    "Muon.Proj.assembly_there",
    "Muon.Proj.compilers_stay",
    "Muon.Proj.project_once",
    "Muon.Proj.add_languages",
    "Muon.Proj.subproject_disabled",
    "Muon.Proj.subproject_again",
    "Muon.Proj.subproject_required",
    "Muon.Proj.subproject_place",
    "Muon.Proj.twice_counterexample",
    "Muon.Proj.outside_counterexample",
    "Muon.Proj.dependencies_counterexample",
    "Muon.Proj.first_call_counterexample",
    "Muon.Proj.order_counterexample",
    "Muon.Proj.nasm_counterexample",
    "Muon.Proj.assembler_counterexample"
   ],
   "note": "Proved for all build files and all nestings. Mirroring holds for relative names (absolute names and .. give directories outside of the build directory). Seven parts fail: a directory can be entered twice; directories outside of the build tree; add_project_dependencies() with an unknown language works and skips the rest; an optional subproject that does not begin with project() leaves its syntax tree in use; whether a language is missing depends on the order of names; nasm without C; add_languages('cpp') changes the assembly compiler. Targets, options and evaluation of expressions are not in this model."
  },
  {
   "property": "C111",
   "status": "partial",
   "theorems": [
    "Muon.Mopts.setup_partial",
    "Muon.Mopts.setup_source_partial",
    "Muon.Mopts.install_partial",
    "Muon.Mopts.test_partial",
    "Muon.Mopts.unknown_option",
    "Muon.Mopts.unknown_option_other",
    "Muon.Mopts.unknown_command",
    "Muon.Mopts.missing_value",
    "Muon.Mopts.operand_count",
    "Muon.Mopts.help_only",
    "Muon.Mopts.translation_safe",
    "Muon.Mopts.options_exist_partial",
    "Muon.Mopts.flag_value_counterexample",
    "Muon.Mopts.empty_value_counterexample",
    "Muon.Mopts.no_suite_counterexample",
    "Muon.Mopts.suites_counterexample",
    "Muon.Mopts.options_exist_counterexample"
   ],
   "note": "Proved for all command lines in all spellings and orders, with the exceptions named: --werror=false sets it to true; an empty value swallows the next option, so that install --destdir '' -n is no dry run; --no-suite slow runs only tests called slow; a 65th suite is written behind an array; --install-umask and --prefer-static set options muon does not have."
  },
  {
   "property": "C112",
   "status": "partial",
   "theorems": [
    "Muon.Tdecl.test_declared",
    "Muon.Tdecl.test_program",
    "Muon.Tdecl.test_depends",
    "Muon.Tdecl.test_accepted_partial",
    "Muon.Tdecl.test_environment",
    "Muon.Tdecl.run_environment",
    "Muon.Tdecl.test_dictionary_partial",
    "Muon.Tdecl.test_object_partial",
    "Muon.Tdecl.bench_verbose_counterexample",
    "Muon.Tdecl.program_argument_counterexample",
    "Muon.Tdecl.run_target_depends_counterexample",
    "Muon.Tdecl.gtest_counterexample",
    "Muon.Tdecl.dict_grows_counterexample",
    "Muon.Tdecl.shared_dictionary_counterexample",
    "Muon.Tdecl.later_call_counterexample",
    "Muon.Tdecl.empty_name_counterexample"
   ],
   "note": "Proved for all calls, build files and worlds: what a test is declared with, which program it runs, what is built before it, and the variables it and run targets are run with, whatever else the build file does. Fails for: verbose: of benchmarks, programs among the arguments, run targets as dependencies (abort), gtest and rust protocols, dictionaries and environment objects that are shared (they are not copied), names that are empty."
  },
  {
   "property": "C113",
   "status": "partial",
   "theorems": [
    "Muon.Script.install_script_partial",
    "Muon.Script.postconf_script_partial",
    "Muon.Script.script_accepted_partial",
    "Muon.Script.scripts_kept",
    "Muon.Script.postconf_run",
    "Muon.Script.interpreter_counterexample",
    "Muon.Script.both_counterexample",
    "Muon.Script.run_target_counterexample",
    "Muon.Script.dist_counterexample"
   ],
   "note": "Proved for all arguments, directories and build files: the words a script is run with, that the targets among them are built by default, order and failure of scripts after configuring. Fails for programs that have arguments of their own (the next string becomes a path), both_libraries() (error), run targets (abort) and dist scripts (dropped)."
  },
  {
   "property": "C114",
   "status": "partial",
   "theorems": [
    "Muon.Dobj.get_variable_partial",
    "Muon.Dobj.reads_partial",
    "Muon.Dobj.get_pkgconfig_variable",
    "Muon.Dobj.dependency_object_partial",
    "Muon.Dobj.define_counterexample",
    "Muon.Dobj.library_name_counterexample",
    "Muon.Dobj.skipped_name_counterexample"
   ],
   "note": "Proved for every behaviour of pkg-config (a parameter: libpkgconf is not modelled), all dependencies and all sequences of calls without pkgconfig_define. Fails after a call with pkgconfig_define: its definitions hold for all later calls. The names of libraries and of dependencies of disabled features are wrong."
  },
  {
   "property": "C115",
   "status": "partial",
   "theorems": [
    "Muon.Incdir.include_directories_partial",
    "Muon.Incdir.up_counterexample"
   ],
   "note": "Proved for all argument lists, source, build and current directories without '..' and a source directory that is not the root. Fails for strings that leave the source directory with '..': a directory outside of the build directory is searched too."
  },
  {
   "property": "C116",
   "status": "partial",
   "theorems": [
    "Muon.Import.import_partial",
    "Muon.Import.methods_of_import",
    "Muon.Import.found_of_import_partial",
    "Muon.Import.required_counterexample",
    "Muon.Import.script_found_counterexample"
   ],
   "note": "Proved for all names without NUL, requirements, disabler values, scripts and method names. Fails for required modules that muon knows only by name: they are imported with a warning, and found() is false. found() of a script is an error unless the script gives that function. Not modelled: the analyzer, how scripts are evaluated (a parameter), and which functions each module has (a parameter)."
  },
  {
   "property": "C117",
   "status": "partial",
   "theorems": [
    "Muon.Python.find_installation_partial",
    "Muon.Python.find_python",
    "Muon.Python.get_iff",
    "Muon.Python.absent_counterexample",
    "Muon.Python.skip_counterexample"
   ],
   "note": "Proved for every behaviour of the commands (a parameter; each prints the same every time), if a command that is there answers the three questions. Fails for a command that is not there, not required and without disabler: it is an error, because muon asks it for its version. Fails for disabled features: Python is searched for and found. Not modelled: tinyjson and how the commands are run (C83 and C84 are about that)."
  },
  {
   "property": "C118",
   "status": "partial",
   "theorems": [
    "Muon.Machine.family_partial",
    "Muon.Machine.address_bits_partial",
    "Muon.Machine.cpu_same_family",
    "Muon.Machine.system_iff",
    "Muon.Machine.arm64_counterexample",
    "Muon.Machine.sgi_counterexample"
   ],
   "note": "Proved for all names but three. Fails for arm64, which gets the family arm with 32 bits because names that begin with arm are tested first, and for ip30 and ip35, whose family is misspelt (mpis64). Not modelled: uname itself, endian()."
  },
  {
   "property": "C119",
   "status": "proved",
   "theorems": [
    "Muon.Ccdetect.kind_iff",
    "Muon.Ccdetect.detect_kind",
    "Muon.Ccdetect.library_directories"
   ],
   "note": "Proved for everything the commands can print (their behaviour is a parameter). Not modelled: how the command and the argument for the version are chosen, and compilers for nasm."
  },
  {
   "property": "C120",
   "status": "proved",
   "theorems": [
    "Muon.Ccdetect.toolchain_iff"
   ],
   "note": "Proved for every behaviour of the commands (a parameter; the same command prints the same every time). Not modelled: nasm, how options get their values from the environment, and the names of the default linkers (a parameter)."
  }
 ]
}