#!/usr/bin/env python3
"""Writes ../MANIFEST.json.  One line per property: id, status, theorem names, note."""
import json, os
V = "Verif."
claims = []
def c(pid, status, thms, note=""):
    claims.append({"property": pid, "status": status,
                   "theorems": [V + t for t in thms.split()], "note": note})

c("C01", "partial", "Vec.vec_refines_sequences_partial Vec.vec_reverse_empty_violated",
  "reverse on an empty vector is undefined behaviour in the code")
c("C02", "partial", "Vec.vec_memory_safe_partial Vec.vec_memory_safe_violated",
  "full claim false: reverse on empty")
c("C03", "proved", "Vec.vec_push_amortised")
c("C04", "partial", "Queue.queue_refines_fifo_partial Queue.queue_bytes_no_clone_partial "
  "Queue.queue_grow_wrapped_violated Queue.queue_clone_full_violated",
  "full claim false: growing a wrapped queue with elements wider than one byte corrupts it; "
  "cloning a full wrapped queue reads out of range")
c("C05", "partial", "Stack.stack_refines_lists_partial Stack.stack_clone_unused_violated",
  "full claim false when malloc(0) returns NULL: cloning a never-used stack then pushing")
c("C06", "proved", "HashSet.set_refines_finite_sets")
c("C07", "proved", "HashMap.map_refines_dictionary")
c("C08", "partial", "HashMap.map_terminates_partial HashMap.map_get_terminates "
  "HashMap.map_remove_hangs_violated HashMap.map_put_hangs_violated",
  "full claim false: deleted slots are never reused, so a full table of tombstones loops forever")
c("C09", "partial", "Iter.for_visits_in_order Iter.vec_for_after_pushes Iter.forRef_maps "
  "HashMap.map_iter_visits_all_partial HashMap.map_iter_empty_violated",
  "full claim false for maps without slots: the end of iteration reads vals[0]")
c("C10", "partial", "Str.string_refines_texts_partial Str.string_terminated_partial "
  "Str.append_self_violated Str.append_self_history_violated",
  "full claim false: appending a string to itself drops the terminator")
c("C11", "proved", "Str.string_refines_texts_partial Str.substring_exact Str.trim_exact",
  "find, contains, starts_with, ends_with, substring, trim inside histories; the suffix _partial "
  "concerns self-append (C10); texts shorter than 2^31 bytes")
c("C12", "proved", "Str.split_join Str.replace_leftmost")
c("C13", "proved", "Str.utf8_code_points Str.utf8_new")
c("C14", "proved", "Base64.base64_round_trip Base64.base64_injective")
c("C15", "proved", "Sha1.sha1_pieces Sha1.sha1_hash", "messages below 2^61 bytes, as FIPS requires")
c("C16", "partial", "StdArena.arena_blocks_safe_partial StdArena.arena_contents_kept_partial "
  "StdArena.arena_fresh_contents_partial StdArena.arena_restore_exact_partial "
  "StdArena.arena_wrap_violated StdArena.arena_alloc_n_violated",
  "full claim false: sizes whose sum or product wraps around 2^64 are accepted")
c("C17", "partial", "Json.json_round_trip_partial Json.json_backspace_violated "
  "Json.json_key_quote_violated Json.json_number_digits_violated Json.json_long_string_violated",
  "full claim false: \\b/\\f escapes, quotes in keys, 15 significant digits, strings of 4096 bytes or more")
c("C18", "partial", "WebSocket.ws_send_frame WebSocket.ws_recv_frame_partial WebSocket.ws_recv_all_partial "
  "WebSocket.ws_short_write_violated WebSocket.ws_nul_violated WebSocket.ws_fragment_violated "
  "WebSocket.ws_ping_desync_violated WebSocket.ws_huge_violated",
  "full claim false: short writes lose data, NUL cuts a message, fragments are taken for messages, "
  "control frames desynchronise, frames above 65535 bytes are refused")
c("C19", "proved", "Url.url_parse_exact Url.url_no_scheme")
c("C20", "proved", "Path.join_text Path.join_file_name Path.join_parent Path.join_extension "
  "Path.file_name_exact Path.file_name_none")
c("C21", "partial", "Lexer.lex_covers_partial Lexer.lex_increasing_partial Lexer.lex_terminates "
  "Lexer.lex_open_char_violated Lexer.lex_open_string_violated",
  "full claim false: a text ending in a quote or backslash inside a literal is read past its terminator")
c("C22", "partial", "Lexer.lex_lines_partial Lexer.lex_line_char_violated",
  "full claim false: newlines inside character literals are not counted")
c("C23", "partial", "ConstFold.fold_sound_partial ConstFold.fold_div_zero ConstFold.fold_parts ConstFold.fold_complete "
  "ConstFold.fold_overflow_violated ConstFold.fold_literal_violated",
  "full claim false: signed overflow while folding is undefined, literals of 2^63 and more change sign")
c("C36", "partial", "CArena.arena_objects_partial CArena.arena_wrap_violated",
  "requests below 2^62 bytes; full claim false: sizes near 2^64 wrap around and two requests share an address")
c("C39", "proved", "Levenshtein.levenshtein_exact Levenshtein.levenshtein_cutoff Levenshtein.levenshtein_le_three Levenshtein.suggest_closest")
c("C40", "partial", "Lsp.lsp_recovers_partial Lsp.lsp_reply_readable Lsp.lsp_terminates Lsp.lsp_large_violated Lsp.lsp_long_header_violated",
  "full claim false: bodies too large and header lines of 511 bytes and more desynchronise the reader")
c("C44", "partial", "OptionResult.option_reads_partial OptionResult.option_taken OptionResult.result_history OptionResult.result_taken OptionResult.result_error_kept OptionResult.option_none_panics "
  "OptionResult.result_reads_partial OptionResult.unwrap_twice_violated "
  "OptionResult.expect_twice_violated OptionResult.result_unwrap_twice_violated",
  "full claim false: the tag stays set after unwrap; expect does not move the value out")
c("C47", "partial", "HashMap.map_keys_all_released_partial HashMap.map_keys_released_once "
  "HashMap.map_key_leak_violated", "full claim false: growth duplicates keys and leaks the old copies")
c("C48", "proved", "Cmd.cmd_text Cmd.cmd_joined Cmd.args_kept")
c("C49", "partial", "Json.json_parse_terminates Json.json_parse_safe_partial "
  "Json.json_trailing_violated Json.json_unterminated_violated Json.json_long_string_violated",
  "full claim false: trailing garbage and unterminated strings are accepted, long strings overflow")
c("C50", "proved", "Lexer.lex_operator Lexer.operator_longest Lexer.lex_string Lexer.lex_multi Lexer.lex_fstring Lexer.lex_multi_fstring Lexer.lex_raw_string Lexer.lex_multi_raw")
c("C51", "partial", "ConstFold.array_sizes_partial ConstFold.def_wide_violated ConstFold.size_wide_violated ConstFold.let_reassigned_violated ConstFold.variant_name_violated",
  "full claim false: constants are cut to 32 bits, reassigned variables and enum variants count as constants")
c("C52", "partial", "Lsp.requests_answered_partial Lsp.signature_help_violated Lsp.shutdown_violated Lsp.unknown_document_violated Lsp.did_change_violated",
  "full claim false: several requests are never answered; only the first change of a notification is applied")
c("C24", "partial", "Move.no_use_after_move_partial Move.loop_violated Move.loop_remake_violated Move.unless_violated "
  "Move.match_violated Move.range_loop_violated Move.param_violated Move.shadow_violated Move.literal_violated "
  "Move.place_violated Move.short_circuit_violated",
  "full claim false: moves in loops, re-initialisation in skipped code, range loop bodies, parameters, shadowing, "
  "array literals and ternaries, places; proved outside these")
c("C25", "partial", "Returns.accepted_returns_partial Returns.goto_violated Returns.guarded_default_violated",
  "full claim false: goto can leave the function's end reachable; a guarded default counts as total")

c("C27", "partial", "ForRange.for_range_exact_partial ForRange.for_int_exact ForRange.visits_exists ForRange.visits_unique "
  "ForRange.for_inclusive_max_violated ForRange.for_byte_violated ForRange.for_unsigned_down_violated "
  "ForRange.for_mixed_sign_violated ForRange.for_mixed_width_violated ForRange.for_variable_step_violated ForRange.for_end_reevaluated_violated",
  "full claim false at the limits of the counter type, for mixed signedness, variable steps and ends that change; proved outside these")
c("C28", "partial", "Match.match_first_partial Match.option_match_partial Match.option_arms Match.guard_violated Match.option_value_violated Match.option_other_violated "
  "Match.wild_alternative_violated Match.string_pattern_violated Match.long_pattern_violated",
  "full claim false: guards, Option values, `_` among alternatives, `|` and `..` inside string patterns, patterns of 1024 bytes and more")
c("C53", "partial", "Match.enum_tags_partial Match.enum_explicit_violated Match.enum_value_violated",
  "full claim false for explicit values; proved for enums without them")
c("C26", "partial", "Defer.defers_run_partial Defer.defers_same_partial Defer.guard_return_violated Defer.while_return_violated "
  "Defer.shadowed_name_violated Defer.try_violated Defer.slice_return_violated Defer.labelled_break_violated "
  "Defer.many_defers_violated Defer.deep_loops_violated",
  "full claim false: exits without braces, hidden names, `?`, slice returns, labelled breaks, 1024 defers, 64 loops; proved outside these")
c("C46", "partial", "Defer.destroyed_once_partial Defer.no_ghost_partial Defer.assign_leak_violated Defer.reinit_leak_violated "
  "Defer.shadow_double_drop_violated Defer.try_leak_violated Defer.ghost_violated",
  "full claim false: assignment, re-initialisation after a move, hidden owned variables, `?`, `return x`; proved outside these")

c("C29", "partial", "Pratt.parse_exact Pratt.tree_unique Pratt.levels Pratt.left_assoc Pratt.print_roundtrip Pratt.increment_postfix Pratt.prefix_operators Pratt.lambda_params Pratt.cast_operand Pratt.paren_plus Pratt.newline_continues Pratt.paren_times_violated Pratt.try_minus_violated Pratt.ternary_increment_violated Pratt.newline_ends_violated Pratt.shift_differs_from_c",
  "Parser and grammar agree on all texts, trees are unique, printed C has the same tree. The grammar itself is not the expected one in four places, proved as violations.")
c("C30", "partial", "Pratt.assign_single_partial Pratt.assign_chain_violated",
  "Every chain of two or more assignments is emitted as C that assigns to a non-lvalue.")
c("C54", "partial", "Pratt.compound_effects Pratt.compound_once_partial Pratt.compound_twice_violated",
  "The target is duplicated; harmless only if it contains no call or increment.")
c("C31", "partial", "StrLit.string_value StrLit.string_value_exact StrLit.string_value_unique StrLit.raw_value_partial StrLit.raw_backslash_violated StrLit.raw_newline_violated StrLit.raw_quote_violated StrLit.multi_backslash_violated",
  "Proved in full for strings with escapes as the language defines them; raw strings with backslash, quote or newline and strings in three quotes ending in a backslash violate the claim.")
c("C32", "partial", "StrLit.interpolation_partial StrLit.nested_partial StrLit.closing_braces_violated StrLit.hole_overflow_violated StrLit.result_overflow_violated StrLit.bool_hole_violated StrLit.ternary_hole_violated StrLit.recursion_violated StrLit.alias_violated StrLit.scope_colons StrLit.format StrLit.nested_colon StrLit.unclosed_error",
  "Holes below 128 bytes and results below 4096; the limits are exact. Static buffer: fails for recursion and for keeping two results of one place.")
c("C55", "partial", "StrLit.print_partial StrLit.print_braces_violated StrLit.print_unclosed_violated StrLit.print_long_violated StrLit.print_quotes StrLit.print_escaped_violated",
  "Without doubled braces and backslashes in holes, below the size of the compiler's buffer.")
c("C33", "partial", "Literals.int_token Literals.int_value_partial Literals.int_sound_partial Literals.int_emit Literals.int_large_violated Literals.int_no_digits_violated Literals.int_double_prefix_violated Literals.suffix_taken Literals.suffix_only Literals.int_suffix_partial Literals.int_llu_violated Literals.int_llu_mixed_violated",
  "Literals below 2^64 are read and emitted exactly; larger ones become 2^64-1, `0xu8` is accepted as 0 and `0x0x12` as 18; of C's suffixes `LLU` is rejected, and `lLu`, which C does not have, is accepted.")
c("C34", "partial", "Literals.float_token Literals.float_kept_partial Literals.nearest_exists Literals.float_small_violated Literals.float_decimals_violated Literals.float_inf_violated Literals.float_underscore_violated",
  "Kept with at most six decimals below 2^33 and from 2^33 on, for every rounding to nearest; otherwise changed by %f.")
c("C35", "partial", "TypeEq.refl_partial TypeEq.typeEq_shape TypeEq.equivalence_partial TypeEq.symm_partial TypeEq.struct_names TypeEq.opaque_alias TypeEq.opaque_target TypeEq.alias_copy_violated TypeEq.alias_target_violated TypeEq.symm_violated TypeEq.trans_unknown_violated TypeEq.trans_string_violated TypeEq.enum_violated",
  "An equivalence without unknown types, aliases and strings; all three parts and the distinction of enums fail in general.")
c("C37", "partial", "BuildFlags.directives_partial BuildFlags.dirLine_cr BuildFlags.flags_bounded BuildFlags.two_flags_violated BuildFlags.framework_violated BuildFlags.plus_violated BuildFlags.pkg_output_violated BuildFlags.full_violated BuildFlags.quotes_violated",
  "Holds for directives with one flag each while a kilobyte suffices; buffers never overflow. Several flags in one directive, frameworks, package output, quotes and flags beyond a kilobyte do not arrive as written.")
c("C38", "proved", "BuildFlags.commands_harmless BuildFlags.harmless_not_special",
  "For every source, environment and output of the commands.")
c("C43", "proved", "BuildFlags.expand_safe BuildFlags.expand_pieces BuildFlags.expand_plain BuildFlags.expand_no_brace",
  "On memory, for every text, environment and buffer.")
c("C56", "partial", "BuildFlags.options_partial BuildFlags.full_overflow_violated BuildFlags.long_option_violated BuildFlags.unquoted_violated",
  "Holds below four kilobytes for options without white space in the prefix and without quotes; a full buffer is overrun by the next option.")
c("C41", "partial", "Brainfuck.accepted_iff Brainfuck.block_unique Brainfuck.brainfuck_partial Brainfuck.collect_partial Brainfuck.second_run_violated Brainfuck.long_body_violated",
  "First execution agrees with the machine in both directions (for programs that halt); the static memory breaks later executions and long bodies are cut.")
c("C42", "partial", "RegexPlugin.sound_partial RegexPlugin.complete_partial RegexPlugin.unanchored_violated RegexPlugin.greedy_violated RegexPlugin.quantified_char_violated RegexPlugin.alternative_violated RegexPlugin.unclosed_violated RegexPlugin.escape_violated",
  "Sound for plain characters, dots and classes with quantifiers; complete for anchored patterns whose repetitions end visibly.")
c("C57", "partial", "StdRegex.count_zero_partial StdRegex.count_violated StdRegex.count_one_violated StdRegex.split_nomatch_partial StdRegex.split_violated StdRegex.split_one_violated",
  "Only the case without a match is right: count is the position of the last match plus one, split keeps only what follows it.")

c("C45", "partial", "Keywords.path_is_expression Keywords.prefix_test_on_buffer Keywords.reads_back_whole Keywords.reads_back_partial Keywords.block_reads_back_partial Keywords.reads_back_words_partial Keywords.text_unique Keywords.else_if_name_violated Keywords.else_name_violated Keywords.return_name_violated Keywords.assert_name_violated Keywords.for_let_in_violated Keywords.for_let_name_violated Keywords.step_name_violated Keywords.guard_name_violated",
  "Statement parser over arbitrary expression, pattern and declaration parsers. Read-back of every written program holds with whole-word tests; with the code's prefix tests it holds when no name begins with a contextual keyword where that keyword may stand, and is false otherwise.")

c("C58", "partial", "Lexer.lex_columns_partial Lexer.lineBefore_spec Lexer.lex_col_comment_violated Lexer.lex_col_char_violated Lexer.lex_col_eof_violated",
  "proved when no block comment starts or ends between the last newline and the token; refuted behind block comments, after a character literal with a newline, and for the end of file behind a directive")

c("C59", "partial", "Cfg.cfg_condition_partial Cfg.cfg_select_partial Cfg.cfg_plain_violated Cfg.cfg_impl_trait_violated Cfg.cfg_unguarded_violated Cfg.cfg_globals_violated Cfg.cfg_import_violated Cfg.cfg_import_erases_violated",
  "Compiling equals compiling the selected declarations, for every -D set and every program whose guarded declarations are functions, structs without destructor, enums, traits, plain impls or globals of different names, with conditions that list no plain name in any/all. Refuted elsewhere: any(A,B)/all(A,B) never compile, trait impls leave an #if open, raw/test/alias/include/drop glue ignore the condition, equal-named globals lose one, imports guard only the first declaration or erase its guard.")

c("C60", "partial", "DeclOrder.sort_permutes DeclOrder.order_partial DeclOrder.keyword_lead DeclOrder.const_field_violated DeclOrder.opaque_payload_violated DeclOrder.vector_pointer_violated DeclOrder.slice_violated DeclOrder.tuple_violated DeclOrder.alias_chain_violated",
  "Sorting loses and duplicates nothing for all lists. For programs without a containment cycle and without const fields, opaque payloads, pointers to later vectors, slices or tuples of structs and chains of opaque aliases, every name is declared before it is mentioned and defined before it is contained. Each exclusion is proved to be a real failure.")
c("C61", "partial", "Tuple.fields_exact_iff Tuple.distinct_partial Tuple.name_partial Tuple.type_buffer_iff Tuple.variant_safe Tuple.literal_partial Tuple.typed_partial Tuple.nested_tuple_violated Tuple.underscore_violated Tuple.collision_violated Tuple.pointer_violated Tuple.type_buffer_violated Tuple.expression_violated Tuple.char_violated Tuple.decimal_violated Tuple.unsigned_violated Tuple.seventeen_violated Tuple.string_violated Tuple.typed_long_violated Tuple.typed_name_violated",
  "The fields are the element types exactly when the texts are separable (iff, all lists); literals are exact within the stated limits; everything outside the limits is proved wrong (nested tuples, pointers, calls and operators as elements, characters, small decimals, 17 elements, long strings).")
c("C62", "partial", "Http.request_partial Http.response_partial Http.fetch_partial Http.exchange_partial Http.parse_header_partial Http.request_rest_violated Http.status_violated Http.header_injection_violated Http.segments_violated Http.full_buffer_violated Http.fetch_headers_violated Http.zero_byte_violated Http.parse_header_violated",
  "Method, path, version, status and body arrive for all requests and responses of one read of at most 4095 bytes without zero bytes, end to end. Headers and request bodies never arrive, other statuses become 500, later reads are ignored, line breaks in headers inject headers: each proved.")
c("C63", "partial", "Process.command_partial Process.output_partial Process.blank_violated Process.empty_violated Process.injection_violated Process.exit_code_violated Process.zero_byte_violated",
  "A command of plain words runs with exactly these arguments and its output is returned whole; blanks, empty arguments and shell characters in arguments are not passed on; exit_code is the wait status, 256 times the code.")
c("C64", "partial", "Io.readln_line Io.readln_last Io.readln_end Io.readln_lines Io.format_partial Io.format_into_exact Io.itos_exact Io.format_long_violated Io.format_static_violated Io.itos_static_violated",
  "readln is exact for every input (lines of any number and length below 2^60). Formatting is exact up to 1023 characters; longer texts are cut; results of format and itos are overwritten by the next call.")
c("C65", "partial", "Fs.read_safe Fs.read_partial Fs.write_exact Fs.round_trip_partial Fs.append_writes Fs.readDir_partial Fs.currentDir_partial Fs.read_zero_byte_violated Fs.read_unseekable_violated Fs.read_size_zero_violated Fs.read_error_violated Fs.readDir_flag_violated Fs.currentDir_violated",
  "Regular files without zero bytes are read, written and read back exactly; directories are listed completely. Zero bytes cut the text, streams that cannot seek are undefined behaviour, files of reported size 0 and read errors give Ok, links and untyped entries lose the directory flag. Write errors found only at close are not modelled.")
c("C66", "partial", "Time.sleep_iff Time.sleep_partial Time.fromSecs_partial Time.threadSleep_partial Time.sleep_long_violated Time.sleep_none_violated Time.fromSecs_violated Time.threadSleep_overflow_violated Time.threadSleep_negative_violated",
  "Sleeps are exact up to 4294967 ms (threads: 2147483 ms), and exactly then; longer ones are shorter than asked for or overflow.")
c("C67", "partial", "Time.reseed_partial Time.reseed_violated",
  "Lookups are unchanged if the changed bits of the seed are not used by the table; any change of the three lowest bits loses the entry of every map with one entry.")
c("C68", "partial", "Generics.fields_partial Generics.method_types_partial Generics.fields_multi_partial Generics.pointer_argument_violated Generics.const_violated Generics.function_violated Generics.closure_violated Generics.lower_case_violated Generics.named_violated Generics.pair_violated Generics.capture_violated Generics.array_argument_violated Generics.c_type_violated Generics.slice_pointer_violated Generics.bit_width_violated",
  "Field and method types built from parameters, names, pointers, arrays, slices and generics with one argument are substituted exactly. Pointer arguments inside generics, const, function types, pairs, lower-case parameters, repeated parameters, array arguments and bit widths are not: each proved.")
c("C69", "partial", "Generics.names_partial Generics.instances_partial Generics.nested_partial Generics.overflow_iff Generics.nested_violated Generics.depth_violated Generics.underscore_violated Generics.pointer_violated Generics.shared_violated Generics.letter_violated",
  "Over names that can be told apart with _ and Ptr between them, different instances get different names and each name keeps its first instance. Names with _ collide, pointers at different depths collide, names of 256 characters overrun a buffer (exactly then), a field G<i32> of an instance asks for no instance of G.")
c("C70", "partial", "GenBody.body_partial GenBody.formal_partial GenBody.names_partial GenBody.other_violated GenBody.declared_violated GenBody.const_violated GenBody.result_violated GenBody.two_words_violated GenBody.c_types_violated GenBody.underscore_violated",
  "Bodies built from the copied kinds of nodes, with types as in C68 and names of which the parameter is no part, are the bodies of the instance, for names of structs, instances, most primitive types and pointers. Twenty-one kinds of nodes are not copied; const, results of function types, uint, u128, the types of C and names with the parameter as a part go wrong: each proved.")
c("C71", "partial", "GenBody.raw_partial GenBody.words_partial GenBody.words_fit GenBody.parts_exact GenBody.parts_overflow_iff GenBody.backslash_violated GenBody.quote_violated GenBody.char_violated GenBody.string_violated GenBody.twice_violated GenBody.capture_violated GenBody.long_violated",
  "Raw texts read as words, strings and other characters have exactly the parameter, the struct and parts of names replaced, if strings end with no backslash and mention no such name, within 4096 characters (exactly then). Backslashes before a quote, character literals, names in strings, arguments with the parameter as a part, two parameters and long texts go wrong: each proved.")
c("C72", "partial", "Derive.eq_partial Derive.eq_text_iff Derive.payload_violated Derive.array_violated Derive.null_violated Derive.own_eq_violated Derive.later_enum_violated Derive.vec_violated Derive.eq_overflow_violated",
  "For structs of numbers, booleans, pointers, strings, structs and earlier enums, nested to any depth, a derived eq decides structural equality; its text fits exactly under the stated lengths. Payloads are ignored, arrays compared by address, NULL strings passed to strcmp, an enum's own eq not used, later enums and Vec fields rejected by the C compiler, long names overrun a buffer: each proved.")
c("C73", "partial", "Derive.clone_partial Derive.clone_drop_iff Derive.clone_string_violated",
  "A derived clone equals the original under the derived eq. Dropping both is defined exactly when the value owns no memory: with a String the block is freed twice.")
c("C74", "partial", "Derive.json_partial Derive.json_any_order Derive.json_text_partial Derive.json_i64_violated Derive.json_u32_violated Derive.json_type_violated Derive.json_null_violated Derive.json_nul_violated Derive.json_vec_name_violated Derive.json_missing_violated Derive.json_missing_struct_violated Derive.json_overflow_violated",
  "from_json(to_json(v)) is v for nested structs of ints that fit int, doubles, booleans, non-NULL C strings, Strings without NUL and Vec<String>, in any order of keys and also through the text of C17. Larger integers, narrow types, NULL, NUL bytes, names with Vec and String, missing keys and long names go wrong: each proved.")
c("C75", "partial", "Closure.captures_partial Closure.flat_declared Closure.unseen_violated Closure.global_violated Closure.shadow_violated Closure.const_violated Closure.later_function_violated Closure.function_name_violated Closure.defer_order Closure.defer_violated Closure.overflow_violated Closure.nested_violated",
  "For bodies of the kinds of nodes the analysis looks into, whose bound names differ from the outer names they use: exactly the variables used or listed are captured, once, in the mode asked for, and the C code has no unknown name. Uses in ?:, casts, range loops and inner lambdas, inner declarations, constants, later functions, names of functions, defer, 33 captures and lambdas in lambdas go wrong: each proved.")
c("C76", "partial", "Closure.closure_partial Closure.inner_violated Closure.loop_variable_violated Closure.listed_violated Closure.ctx_violated Closure.assign_violated",
  "Same bodies: creation copies values and shares references, and each call runs like the source body over the captured variables, step by step, for any state, functions and arguments. Captures in inner lambdas, loop variables and declarations with captured names, the name ctx, and assignment to captured values go wrong: each proved.")
c("C77", "partial", "Traits.dispatch_partial Traits.tables_written Traits.missing_violated Traits.missing_accepted Traits.self_result_violated Traits.static_violated Traits.static_args_violated Traits.struct_value_violated Traits.trait_param_violated Traits.fn_ptr_violated Traits.different_violated Traits.different_accepted Traits.underscore_violated Traits.many_violated",
  "For traits over self, primitives and pointers with complete and equal implementations: accepted, and every call through a trait object runs the method of the struct it was made from, with that value and the arguments in order. Missing and different methods, Self as result, methods without self, structs by value, traits in heads, pointers to functions, underscores and 1025 implementations go wrong: each proved.")
c("C78", "partial", "Traits.resolve_partial Traits.fields_partial Traits.mixin_partial Traits.order_violated Traits.temporary_violated Traits.ambiguous_violated Traits.qualified_violated Traits.mixin_trait_violated Traits.mixin_nested_violated Traits.second_mixin_violated Traits.later_use_violated Traits.mixins_violated",
  "Method calls find the method of the struct, of the one trait, of the one mixin, in that order; structs have the fields of earlier mixins in their places; methods of the first mixin see their fields. Calls before the declaration, several traits, qualified names, traits and mixins of mixins, further mixins, later mixins and nine mixins go wrong: each proved.")
c("C79", "partial", "Args.call_partial Args.named_violated Args.early_violated Args.capture_violated Args.parameter_violated Args.decimal_violated Args.kind_violated Args.slice_violated Args.slice_accepted Args.many_violated Args.struct_violated",
  "For functions with up to 16 parameters with simple closed defaults: a call is accepted exactly if the arguments stand in order and those missing have defaults, and then each parameter gets the value of its argument or default. Names outside finished functions, defaults in methods and early calls, captured names, small decimals, other kinds of defaults, slices in calls with names, 17 parameters and names of structs go wrong: each proved.")
c("C80", "partial", "NumType.promoted NumType.let_holds_the_value_partial NumType.let_holds_conditions NumType.let_holds_choices NumType.let_holds_casts NumType.value_hasTy NumType.same_kind_accepted NumType.large_literal_violated NumType.left_operand_violated NumType.byte_sum_violated NumType.byte_negated_violated NumType.byte_shift_violated NumType.bool_sum_violated NumType.sign_violated NumType.precision_violated NumType.choice_sum_violated NumType.coalesce_violated",
  "Where the left operand of every operator has the type of the result (or an integer meets a float in + - * /), for conditions, for ? : at the top and under casts, the variable holds the value of the expression. Literals from 2^31 on, sums whose left operand is narrower, u8 and bool arithmetic, mixed signs, f32 with f64, ? : inside of sums and ?? after mixed arithmetic go wrong: each proved.")
c("C81", "partial", "ExprGen.expressions_partial ExprGen.case_clear ExprGen.twice_violated ExprGen.helper_violated ExprGen.helper_right_violated ExprGen.helper_field_violated ExprGen.helper_if_violated ExprGen.block_violated ExprGen.block_meaning ExprGen.no_else_violated ExprGen.shadow_violated ExprGen.moving_violated",
  "Full simulation of the C code (statement expressions with helper variables) for programs that do not use the names of the helper variables, whose compound assignments have places without effects, whose new variables do not stand in their own initialisers, and whose if expressions have an else and a first result without variables of its block: same value, variables, world and errors in either order of evaluation. Each of these conditions is needed: proved.")
c("C82", "proved", "Index.declared_spec Index.arrays_spec Index.array_wrap Index.place_array Index.size_cut_violated Index.size_negative_violated Index.slice_of_arrays_violated Index.index_cut_violated Index.param_value_violated Index.param_size_violated",
  "For every list of sizes and every sequence of reads and writes; the theorems called violated show what lies outside of the claim: sizes and indices beyond the range, and arrays as parameters.")
c("C83", "partial", "Index.views_partial Index.rows_partial Index.part_partial Index.field_slice_violated Index.array_of_slices_violated Index.part_bounds_violated Index.part_open_violated Index.part_capture_violated",
  "Slices that are variables, mixed in any way with the array they show. False for slices that are fields, elements or results, and for the bounds of parts: proved.")
c("C84", "partial", "Overload.operators_partial Overload.only_documented Overload.compound_partial Overload.exE_good Overload.cstr_violated Overload.mixed_violated Overload.conditional_violated Overload.unary_literal_violated Overload.compound_trait_violated Overload.compound_pointer_violated Overload.neq_value_violated Overload.neq_trait_violated Overload.pointer_arith_violated Overload.get_call_violated Overload.const_violated Overload.set_name_violated",
  "For all expressions of operators over structs, pointers, numbers and strings: value, order and number of evaluations, and type. Missing: operands without an address that the parser does not know as such, operators of compound assignments in traits, != by an eq that takes values or is in a trait; that these fail is proved.")
c("C85", "partial", "Modules.each_once Modules.main_violated",
  "For all sets of files, cycles included. Missing: programs in which a file imports the main file; that its definitions then stand twice is proved.")
c("C86", "partial", "Modules.base_ident Modules.plain_partial Modules.module_partial Modules.single_partial Modules.demo_once Modules.demo_clear Modules.demo_accepted Modules.early_violated Modules.again_violated Modules.alias_violated Modules.base_violated Modules.inner_type_violated Modules.single_fn_violated Modules.single_inner_violated Modules.own_call_violated Modules.own_method_violated Modules.nested_violated Modules.names_violated",
  "For all programs: plain imports everywhere, aliases of modules in every file, single names in the main file. Missing: names of a module used inside it, functions imported by name, repeated imports, aliases used twice; that these fail is proved.")
c("C87", "partial", "Modules.locate_first Modules.locate_relative Modules.locate_own Modules.locate_absolute Modules.relative_violated",
  "For all files and directories. Missing: ./ and ../ that are not there; that another file may be taken then is proved.")
c("C88", "partial", "Async.await_partial Async.goes_on Async.fields_partial Async.demo_tame Async.demo_sum Async.string_violated Async.pointer_violated Async.float_violated Async.variable_violated Async.long_violated Async.other_violated Async.name_violated",
  "For all programs, all schedules and all addresses malloc may give, if the results are integers (through variables: not u32, i64, u64, usize, isize), booleans, characters or structs with a capital name, and a future is awaited at most once. Missing: strings, pointers, floating point numbers, wide integers through variables; that these fail is proved.")
c("C89", "partial", "Async.memory_partial Async.kept_partial Async.leak_free_partial Async.demo_tame Async.string_violated Async.pointer_violated Async.twice_violated",
  "For the same programs. Missing: strings and pointers, whose block stays, and a second await of a future; that these fail is proved.")
c("C90", "partial", "Opaque.sealed_partial Opaque.usable_partial Opaque.users_demo Opaque.users_tidy Opaque.holder_accepted Opaque.split_violated Opaque.later_violated Opaque.generic_violated Opaque.aliased_violated Opaque.method_violated",
  "For all programs of the modelled expressions in which functions and structs are declared above their uses, structs are not taken apart with let {...}, no template is opaque and opaque aliases stand for numbers and strings. That it fails without each of these, and that methods are refused too, is proved.")
c("C91", "partial", "Opaque.kept_partial Opaque.fits_iff Opaque.inside Opaque.handles_demo Opaque.argument_violated Opaque.pointer_violated Opaque.compare_violated Opaque.letter_violated Opaque.homonym_violated",
  "For let, assignments and arithmetic in all such programs. Missing: arguments, results, pointers, comparisons, equal names in two files; that these fail is proved.")
c("C92", "partial", "Mixin.through_partial Mixin.own Mixin.getter_iff Mixin.players_demo Mixin.moved_violated Mixin.second_demo Mixin.bits_violated Mixin.packed_violated Mixin.union_violated Mixin.padding_violated Mixin.deep_violated Mixin.rvalue_violated Mixin.long_violated",
  "For all programs, method bodies and memories, for the struct embedded first: structs that are no unions, equally packed, no bit fields in embedded structs, no assignment of the whole of *self unless the embedded struct has no padding at its end, called on a variable or pointer. That it fails without each of these is proved, for later embedded structs for all structs.")
c("C93", "partial", "Mixin.fields_partial Mixin.parse_ok Mixin.readme_demo Mixin.above_violated Mixin.width_violated Mixin.nine_violated",
  "For all programs that declare structs above the structs that embed them, without bit fields in embedded structs and with at most eight embedded structs. That it fails without each of these is proved.")
c("C94", "partial", "Destruct.taken_partial Destruct.once Destruct.sample_demo Destruct.own_violated Destruct.undropped_violated Destruct.wide_violated Destruct.wide_demo Destruct.underscore_violated",
  "For all function bodies: patterns of at most sixteen names, names declared once, values without a destructor. That it fails without each of these is proved.")
c("C95", "partial", "Destruct.taken_partial Destruct.payload Destruct.leaves Destruct.err_demo Destruct.sample_demo Destruct.deferred_violated Destruct.local_violated Destruct.falls_violated Destruct.enum_violated Destruct.enum_demo",
  "For all function bodies whose guards are for Some, Ok and Err and whose else blocks leave, defer nothing and declare nothing with a destructor. That it fails without each of these is proved, for enums of the program for all of them.")
c("C96", "partial", "LspNav.references_partial LspNav.rename_partial LspNav.ab_fit LspNav.ab_ok LspNav.ab_hyps LspNav.ab_requests LspNav.alike_violated LspNav.rename_local_violated LspNav.rename_param_violated LspNav.rename_under_violated LspNav.rename_forward_violated LspNav.rename_value_violated LspNav.rename_default_violated LspNav.rename_case_violated",
  "For all projects and sessions in which the name stands for one thing, is no parameter, is only used where the index looks, and is declared before it is used. That it fails without each of these is proved, for names spelled alike for all projects.")
c("C97", "partial", "LspNav.goto_partial LspNav.hover_partial LspNav.ab_fit LspNav.ab_hyps LspNav.ab_requests LspNav.goto_shadow LspNav.goto_cross_violated LspNav.hover_cross_violated LspNav.goto_other_violated LspNav.hover_overflow_violated LspNav.hover_overflow_case",
  "For all projects and sessions as in C96 in which the name is declared once; from other files if nothing is declared at the same place there; hover only in the file of the declaration. That it fails without these is proved; the overflow for all files with a long name.")
c("C98", "partial", "Semantic.encoding Semantic.sorted_exists Semantic.tokens_partial Semantic.types_partial Semantic.const_violated Semantic.main_noconst Semantic.main_hyps Semantic.main_answer Semantic.rest_violated Semantic.rest_demo Semantic.items_violated Semantic.items_demo Semantic.other_violated Semantic.other_demo Semantic.params_violated",
  "The encoding for all token lists and all orders qsort may leave equal elements in. The traversal for files with one declaration without parameters, further members and constructs it does not name; that everything else is not coloured is proved for all files.")
c("C99", "partial", "Befunge.skipNl_drop Befunge.grid_field Befunge.compiled_partial Befunge.hello_tame Befunge.hello_written Befunge.hello_compiled Befunge.hello_compiles Befunge.labels_nodup Befunge.underflow_violated Befunge.underflow_demo Befunge.string_violated Befunge.string_demo Befunge.bridge_violated Befunge.getput_violated Befunge.quote_violated Befunge.quote_demo Befunge.overflow_violated Befunge.overflow_spec Befunge.two_blocks_violated Befunge.layout_violated",
  "Lock-step simulation for every text and every number of cells, for runs without the steps that are proved to go wrong; `?`, `&` and `~` are left out.")
c("C100", "partial", "TypeCheck.compatible_iff TypeCheck.check_sound TypeCheck.check_complete TypeCheck.accepted_welltyped_partial TypeCheck.welltyped_accepted_partial TypeCheck.program_partial TypeCheck.typed_unique TypeCheck.demo TypeCheck.return_type_violated TypeCheck.methods_violated TypeCheck.unvisited_violated TypeCheck.float_mod_violated TypeCheck.index_violated TypeCheck.elements_violated TypeCheck.void_pointer_violated TypeCheck.method_arguments_violated TypeCheck.exhaustive_match_violated TypeCheck.string_condition_violated TypeCheck.dead_code_violated TypeCheck.dead_code_demo",
  "Soundness and completeness against typing rules, by mutual induction, for functions without the parts the checker does not look at; those are proved to be accepted unchecked.")
c("C101", "partial", "Driver.command Driver.position Driver.question Driver.output_missing Driver.input_missing Driver.file_first Driver.flags_first Driver.dash_dot_violated Driver.unknown_violated Driver.cc_violated Driver.program_args_violated",
  "Proved for every command line of well-formed parts behind a command; the first argument, the order of --cc and --cpp and arguments of the program are counterexamples.")
c("C102", "partial", "Driver.check_files Driver.frame Driver.temp_ne_out Driver.build_partial Driver.transpile_partial Driver.run_partial Driver.status_iff Driver.status_violated Driver.status_signal Driver.temp_violated Driver.extra_violated Driver.run_out_violated Driver.run_abs_violated",
  "Proved for every front end, C compiler, program and file system if the name of the generated file is free; a file with that name is lost, run removes the output, 128 becomes 0.")
c("C103", "partial", "Thread.runs_once Thread.finishes_once Thread.freed_once Thread.join_waits Thread.handle_fresh Thread.all_ran Thread.no_leak Thread.trampoline_safe Thread.spawn_then_join Thread.join_twice_violated Thread.join_detached_violated Thread.cancel_violated",
  "Proved for every program and every interleaving; join or detach twice is undefined instead of an Err, and cancel leaks the closure and leaves mutexes locked.")
c("C104", "proved", "Thread.exclusive Thread.unlock_owner Thread.one_holder Thread.destroyed_last Thread.counter Thread.race Thread.tidy_safe Thread.tidy_progress",
  "Every program and interleaving, given what POSIX says of pthread_mutex functions; malloc is supposed to succeed in Mutex::new, which does not look.")
c("C105", "partial", "Thread.sleep_partial Thread.sleep_long_violated Thread.sleep_negative_violated",
  "Proved up to 2147483 ms; above that the product overflows, and a negative time sleeps for more than half an hour.")
c("C106", "partial", "CJson.string_read CJson.string_accepts_partial CJson.lone_surrogate_rejected CJson.string_print_read CJson.string_print_visible CJson.string_room CJson.string_cut_violated",
  "Every string is read and printed back, within its buffers; but a \\u0000 or a \\u with characters that are not digits ends the value silently.")
c("C107", "partial", "CJson.doc_read CJson.doc_accepts_partial CJson.doc_print CJson.doc_print_read CJson.doc_trailing_violated CJson.doc_deep_violated CJson.loops_fuel",
  "Both directions for every document; what follows a document is not looked at, and values nested deeper than 1000 are printed but not read. Printing covers integers; doubles are not modelled.")
c("C108", "partial", "CJson.find_partial CJson.find_exact CJson.find_violated",
  "The first member whose name agrees up to the case of its letters; names that differ in case only are confused.")
c("C109", "partial", "Asm.block_partial Asm.basic_verbatim Asm.braces_violated Asm.digit_violated Asm.escape_violated Asm.triple_violated",
  "Every block of string lines with outputs, and every block without operands, reaches the assembler character for character with the operands in their places; but braces that are no placeholder, digits behind a placeholder, escapes and triple quotes do not.")
c("C110", "partial", "Asm.block_partial Asm.inputs_alone_violated Asm.clobbers_alone_violated Asm.in_first_violated Asm.operand_refused",
  "With outputs every operand and clobber has its role; inputs or clobbers without outputs are rejected by the C compiler for every block, and a first section with in(x) makes x an output.")
c("C111", "partial", "Asm.bare_partial Asm.bare_assembled Asm.intel_violated Asm.hole_violated Asm.mixed_violated Asm.unclosed_violated Asm.unclosed_strings Asm.accepted_closed Asm.unclosed_placeholder_violated",
  "One line for each bare instruction in AT&T syntax; a name or a placeholder right behind the mnemonic breaks it, and an unclosed block makes the compiler loop.")
c("C112", "partial", "Asm.expand_fits Asm.expand_empty_violated Asm.template_violated Asm.operands_violated Asm.name_violated",
  "The expanded template fits unless the block is empty; the template, the operand lists and the name buffer have fixed sizes that are not checked.")
c("C113", "partial", "LineEdit.edit_line_partial LineEdit.edit_line_nosearch LineEdit.typed_line LineEdit.other_keys LineEdit.search_backspace_violated",
  "For every history, indentation and sequence of keys the line is the one an editor shows; not so when backspace is pressed during a search, which edits the line that was found instead of the text looked for.")
c("C114", "proved", "LineEdit.readline_safe",
  "For all bytes: no access outside the buffer, and the line handed back is a C string.")
c("C115", "partial", "LineEdit.older_shows LineEdit.history_keeps_line LineEdit.draft_kept LineEdit.edit_line_partial LineEdit.search_loses_line_violated",
  "Up shows the right entry and Down brings the typed line back; a search finds the latest entry with the text, but it loses the line that was being typed.")
c("C116", "partial", "LineEdit.complete_iff LineEdit.tab_completes_partial LineEdit.tab_nothing LineEdit.recalled_line_not_completed_violated",
  "Tab completes exactly the words that have one completion on a typed line of less than 1023 bytes; on a line recalled from the history it never does.")
c("C117", "partial", "LineEdit.no_line_only_ctrlD LineEdit.end_of_input_is_a_line LineEdit.escape_swallows_violated LineEdit.delete_types_tilde_violated",
  "The end of the input is handed back as a line; the Escape key swallows two bytes and the Delete key types a tilde.")
c("C118", "partial", "Repl.first_entry Repl.second_entry_violated Repl.one_entry_violated Repl.open_line Repl.open_line_never_runs_violated Repl.third_line_violated",
  "The first entry is run as it should be.  The end of the loop body frees the history, so a second entry is undefined behaviour, no execution runs more than one entry, and entries of several lines are never run.")
c("C119", "partial", "Repl.definition_program Repl.statement_program Repl.statement_twice_violated Repl.prefix_violated Repl.brace_in_string_violated Repl.seven_violated Repl.comment_violated",
  "The program has the definitions and the statements of the session in order; the last statement is in it twice, words that begin with a keyword count as definitions, braces in strings and comments at the end of a statement break it, and whether it is an expression is asked of seven characters.")
c("C120", "partial", "Repl.program_fits Repl.getCode_fits Repl.long_watch_violated Repl.long_watch_reached",
  "The text fits its block for all sessions with watches of at most 480 characters; a longer one overruns a buffer.")
c("C121", "partial", "Repl.history_round_trip_partial Repl.entry_saves Repl.two_lines_violated Repl.torn_definition_violated Repl.exit_saves_nothing_violated Repl.save_load_violated",
  "Entries of one line come back from the history file; entries of two lines come back as two, leaving does not save, and a saved session cannot be loaded.")
c("C122", "partial", "Repl.delete_command Repl.watch_command Repl.unwatch_command Repl.load_command Repl.shell_command Repl.ends Repl.undo_reset Repl.quit_commands Repl.empty_line Repl.undo_after_entry_violated Repl.unknown_command_violated Repl.edit_violated Repl.end_of_input_violated",
  "The commands do what they say before the first entry; after it they use freed memory; unknown commands are run as code, :edit runs nothing, and the end of the input does not end the session.")
c("C123", "partial", "InitLit.embed_slice InitLit.embed_default InitLit.embed_string InitLit.embed_fixed InitLit.embed_missing InitLit.embed_nul_violated InitLit.embed_size_violated InitLit.embed_char_array_violated InitLit.embed_word_violated",
  "As a slice, an array other than of char, and a string, the text denotes the bytes of the file.  The size of an array is ignored, an array of char is no C, a string ends at the first NUL, and words that begin with embed are taken for it.")
c("C124", "partial", "InitLit.array_literal_partial InitLit.raw_source InitLit.braces_violated InitLit.unclosed_violated",
  "Elements with brackets and parentheses, of at most 123 characters each, come out in order with their number as length; commas in braces count as elements, and a literal that is not closed loops for ever.")
c("C125", "partial", "InitLit.embed_fits_iff InitLit.long_name_violated InitLit.long_element_violated InitLit.long_type_violated",
  "Exactly when the text of an embedded file fits its block; long file names, elements and type names overrun buffers.")
c("C126", "partial", "Forth.postfix_value Forth.stack_words Forth.div_zero_violated Forth.mod_zero_violated Forth.full_stack_violated Forth.leading_zero_violated",
  "An expression in postfix form leaves its value on the stack, if its parts are in range, no divisor is zero and the stack has room.  Division by zero keeps the dividend on the stack, a full stack drops values, and numbers with a leading zero are octal.")
c("C127", "partial", "Forth.structured_partial Forth.structured_unique Forth.any_blanks Forth.nested_if_violated Forth.do_without_loop",
  "Sequences, loops (also nested) and conditionals that contain no conditional do what is written; a conditional in a conditional ends at the first then.  No statement about conditionals in the branches of conditionals.")
c("C128", "partial", "Forth.define_word Forth.call_word Forth.call_program Forth.string_written Forth.late_binding_violated Forth.redefinition_violated Forth.long_name_violated Forth.full_dictionary_violated Forth.long_body_violated Forth.prelude_violated Forth.blanks_violated Forth.block_state_violated",
  "Definitions of at most 31 and 511 characters are kept, and calling a word is running its text.  Words are bound when called, a word defined by its old meaning never ends, long names and texts and the 129th word are dropped, the prelude is missing, blanks in strings are lost, and blocks see what earlier ones left.")
c("C129", "partial", "Forth.source_inv Forth.address_violated Forth.long_output_violated Forth.long_variable_violated Forth.body_overrun_violated",
  "The stacks, the dictionary and the output keep to their bounds in every run that ends; addresses are not checked, and output, names and texts overrun their buffers (undefined behaviour).")
c("C130", "partial", "Lisp.transpile_text Lisp.block_meaning",
  "For every text of a block (any blanks, any nesting) over numbers, nil, variables, + - * / <, cons, car, cdr, if, let, defun, calls, print and println, what is written is the text of C that prints what the block prints.  Names are identifiers of C, functions are defined before their use, and what a let binds does not mention its own names; the evaluator of C is part of the specification.")
c("C131", "partial", "Lisp.operands_violated Lisp.comparison_violated Lisp.equals_violated Lisp.list_violated Lisp.string_violated Lisp.print_prefix_violated Lisp.percent_violated Lisp.parenthesis_violated Lisp.head_violated Lisp.symbol_violated Lisp.octal_violated Lisp.print_in_if_violated Lisp.end_violated Lisp.open_reported Lisp.stray_reported",
  "Violated: further operands are dropped, comparisons other than < call functions that do not exist, list and strings are nil, names that begin with print are print, % is a format, a list may end at the parenthesis of an operand, a call of a call is a comma expression, symbols are not mangled, zeros make octal, print in an if is no C, and definitions and strings that end early are read beyond the text.")
c("C132", "partial", "Lisp.let_self_violated Lisp.let_sequential_violated Lisp.let_hangs_violated Lisp.forward_violated Lisp.errors_unnoticed",
  "Violated: a let makes its bindings one after the other and each in its own scope, a let without lists of bindings is read for ever, functions cannot call functions defined later, and errors have values.  block_meaning (C130) is what holds without these.")

c("C133", "partial", "CHeader.declared_known CHeader.header_exact CHeader.item_decl CHeader.funcDecl_proto CHeader.first_spec CHeader.name_spec CHeader.structDecl_close_other CHeader.lines_file CHeader.lines_continued CHeader.struct_result_violated CHeader.trailing_violated CHeader.alias_violated CHeader.brace_violated CHeader.excluded_violated CHeader.statement_violated",
  "One-line prototypes, struct and union tags and closing typedefs of any header are known, and a header of such lines makes exactly these known.  Violated: functions that return structs, prototypes with a comment behind them or over several lines, typedef struct Tag Alias, a brace on the next line are not known; what is in comments or under #if 0 and calls in statements are.")
c("C134", "partial", "CHeader.read_once CHeader.include_twice CHeader.declared_known CHeader.scan_all CHeader.nested_line CHeader.nestedPath_dir CHeader.nestedPath_here CHeader.nestedPath_fits CHeader.deep_violated CHeader.root_violated",
  "Every header is read once and all that is included is read when there are at most seventeen headers.  Violated beyond that: the scan stops silently, and headers it stopped at count as read; headers in the root directory look in the current one.")
c("C135", "partial", "CHeader.define_known CHeader.macro_le CHeader.wide_violated CHeader.conditional_violated",
  "The expression parser is a parameter.  Violated: values beyond int are cut, and the first definition counts under any condition.")
c("C136", "partial", "CHeader.system_path CHeader.local_path CHeader.system_long_violated CHeader.system_open_violated CHeader.local_other_violated",
  "Violated: names of 256 characters and more overflow a buffer, a missing > is read for ever, and anything is taken for a string.")

c("C137", "partial", "Sql.block_meaning Sql.transpile_text Sql.transpile_ends Sql.quiet_violated Sql.condition_violated Sql.rows_violated Sql.star_violated Sql.other_block_violated",
  "Blocks of CREATE TABLE, INSERT INTO and SELECT * in any case, with blanks and comments, are written as C that prints what SQL prints; every block ends.  Violated: other statements, conditions, further rows and marks of SQL comments are left out silently; SELECT *FROM is refused; tables of other blocks do not compile.")
c("C138", "partial", "Sql.block_meaning Sql.full_violated Sql.again_violated Sql.short_violated Sql.call_violated Sql.backslash_violated",
  "Up to 128 rows of a table are kept in order and printed in order.  Violated: further rows are dropped silently, rows stay when the block runs again, a missing string is a null pointer, calls in values are cut, and a backslash at the end is read beyond the text.")
c("C139", "partial", "Sql.transpile_text Sql.cols_src Sql.typeSrc_text Sql.constraint_violated Sql.length_violated Sql.type_violated Sql.name_violated",
  "Columns of types INT, INTEGER, TEXT, STRING are the columns of the table.  Violated: PRIMARY KEY is a column, VARCHAR(10) ends the columns, other types are int, prefixes of TEXT are text, long names overflow their buffers.")

c("C140", "partial", "Plugin.name_plugin Plugin.name_found Plugin.name_unknown Plugin.macro_unknown Plugin.reach_inv Plugin.register_reach Plugin.register_none Plugin.same_name_violated Plugin.unknown_violated Plugin.alias_violated",
  "Behind any imports a name or alias of a plugin leads to the plugin of its latest import, names not imported to none, and an import fails only where no path has a plugin.  Violated: a plugin with the name of another takes its place; `plugin NAME ... end` knows no alias, and makes an unknown name a comment.")
c("C141", "partial", "Plugin.macro_block Plugin.macroLoop_bal Plugin.plugin_block Plugin.pluginLoop_end Plugin.layout_violated Plugin.long_violated Plugin.end_violated Plugin.lines_violated",
  "A block in braces or up to `end` hands its tokens to the plugin in order, in lines, if they fit in 8191 characters.  Violated: layout, empty lines and comments are lost, tokens that do not fit are left out silently, the first `end` ends a block, and lines are lost in blocks up to `end`.")
c("C142", "partial", "Comptime.main_statements Comptime.block_text Comptime.block_open Comptime.valid_iff Comptime.block_printed Comptime.printed_texts Comptime.error_stops Comptime.helper_violated Comptime.below_violated Comptime.impl_violated",
  "A comptime block is the text between its braces and is replaced by what its statements print in order; an error stops the compiler; exactly which blocks compile.  Violated: a @comptime function cannot call one above it, one below a block is unknown to it, and methods of a block are left out.")

c("C143", "partial", "MatchExpr.statement_arms MatchExpr.expression_arms_partial MatchExpr.expression_pattern_violated MatchExpr.negative_violated MatchExpr.nine_violated",
  "The arms of a match statement are read as written: alternatives, paths, ranges, variables, guards.  In expressions this holds for patterns of one token.  Violated: paths, ranges and alternatives are refused there; negative numbers are refused in both; a ninth variable is written beyond an array.")
c("C144", "partial", "MatchExpr.payload_parts MatchExpr.lastPart_eq MatchExpr.underscore_violated MatchExpr.self_violated",
  "The variables of an arm have the payload or the parts of a tuple, by value or address, whatever other arms have.  Violated: a variant with an underscore in its name reads the payload of another variant; match self does not compile without ref.")
c("C145", "partial", "MatchExpr.missing_exact_partial MatchExpr.alternative_violated MatchExpr.only_alternatives_violated MatchExpr.guard_missing_violated",
  "Exactly the variants without arm are warned about, when each arm has one alternative and no guard.  Violated: variants in alternatives are warned about, nothing is warned about when all arms have alternatives, and guarded arms count as arms for all values.")
c("C146", "partial", "MatchExpr.match_value_partial MatchExpr.string_violated MatchExpr.printed_violated MatchExpr.return_violated MatchExpr.blocks_violated MatchExpr.type_violated MatchExpr.unset_violated",
  "The value of a match is that of the chosen arm, for arms of one type of which one is not a block.  Violated: string literals are printed and are not values, return in an arm and blocks alone are not C, later arms are converted to the type of the first, and without a chosen arm the value is unset.")

c("C147", "partial", "TypeParse.read_W TypeParse.never_stuck TypeParse.prim_documented TypeParse.prim_bits TypeParse.path_read TypeParse.module_type TypeParse.gap_violated TypeParse.assign_violated TypeParse.ge_violated TypeParse.empty_violated",
  "Every type of the documented grammar is read as it is written, nested to any depth, and reading ends on every text; the documented names are the documented types, iN and uN for every N.  Violated: a blank before >> ends the type too early, T*= loses the =, T<U>= is an error, Vec<> is accepted.  Expressions for sizes other than numbers are a parameter of the model.")
c("C148", "partial", "TypeParse.generic_read TypeParse.compare_partial TypeParse.compare_number TypeParse.index_violated TypeParse.paren_violated TypeParse.shift_violated TypeParse.pair_violated TypeParse.ninth_violated",
  "Up to eight types between < and > behind a generic are its arguments; a < v and a < v * w are comparisons if nothing behind looks like a type, and a < 5 always is.  Violated: a < v[i], a < (x + y), a < v << 1 and f(a < b, c > d) are errors of the compiler; a ninth type argument is written beyond an array.")
c("C149", "partial", "TypeParse.literal_opens TypeParse.block_partial TypeParse.fields_read TypeParse.label_violated TypeParse.prefix_violated",
  "A literal with fields is read with its fields in order; a block behind a variable is a block.  Violated: a block that begins with a label, and an empty block behind a variable called like a struct with an underscore, are taken for literals.")
c("C150", "partial", "TypeParse.infer_partial TypeParse.second_violated TypeParse.inner_violated TypeParse.string_violated",
  "The argument found is the right one for one parameter and fields of type T, slice, array or pointer of T.  Violated: a second parameter is not looked for, nothing is found in Vec<T> or T**, nor from a string for T*.")

c("C151", "partial", "Complete.dot_fields_partial Complete.nameBefore_spec Complete.isIdent_spec Complete.cleanName_spec Complete.localType_param Complete.localType_var Complete.shadow_violated Complete.chain_violated Complete.const_violated Complete.column_violated Complete.long_violated",
  "Right behind the dot of a parameter or variable, pointer or not, exactly the fields of its struct are offered.  Violated: an outer variable of the same name wins, a.b. is taken for b, const S has no fields, columns behind the end and names of 256 characters are read and written outside the buffers.")
c("C152", "partial", "Complete.locals_iff Complete.scope_offered_partial Complete.params_offered Complete.target_spec Complete.target_around Complete.below_violated Complete.ended_violated Complete.loop_violated Complete.many_violated Complete.autofree_violated Complete.outside_violated Complete.imported_violated Complete.again_violated Complete.removed_violated",
  "Every parameter, and every variable in scope inside blocks, if, while and for of a function of less than 1024 statements, is offered.  Violated: so are variables below the cursor, of blocks that have ended and, behind the end of a function, all of its own; variables of loop, for in and match are not, nor any in a long function; functions of imported files take the place of the one around the cursor; names are repeated with every change and stay when removed.")
c("C153", "partial", "Complete.outline_functions Complete.outline_var Complete.outline_names Complete.outline_fields Complete.place_violated Complete.foreign_violated Complete.missing_violated",
  "Functions and variables are listed in order at their places, structs with their fields.  Violated: structs, enums and constants are listed at the beginning of the file, declarations of imported files as those of the file, generic functions, traits and methods not at all.")

c("C154", "partial", "Input.line_read Input.last_read Input.end_read Input.zero_violated",
  "readln() returns each line of any length without its newline, and NULL at the end.  Violated: a zero byte ends the text.  A prompt without variables calls the function readln of std/io.zc (Io.readln, C64), which exists only if that file is imported; this is read off the source and not a theorem.")
c("C155", "partial", "Input.values_read Input.short_read Input.nothing_read Input.enc_value Input.printed_read Input.arguments_fit Input.many_violated Input.blank_violated Input.narrow_violated Input.wide_violated Input.small_violated Input.text_violated Input.second_line_violated",
  "Up to sixteen variables of type int, i32, f32, f64, char and, after a prompt, string get the values of the words of the line, whatever the white space; the result is their number; missing words leave variables unchanged.  Violated: bool and 16 bit integers are written past their end, 64 bit integers get only their lower half, i8, u8 and byte get the code of a character, readln into a string overwrites the pointer, a blank line gives -1, a seventeenth variable overruns an array of the compiler.")

c("C156", "partial", "Highlight.highlight_shows Highlight.line_shown Highlight.prompts_shown Highlight.cursor_shown_partial Highlight.cursor_violated Highlight.long_violated",
  "Colours and marks change nothing of what the terminal shows: for every text, cursor and screen the row shows the prompt and the line, and in ASCII the cursor is where it is.  Violated: behind characters that are not ASCII the cursor is shown too far right; lines wider than the row are repeated with every key.")
c("C157", "partial", "Highlight.matching_iff Highlight.marks_spec Highlight.marks_under Highlight.marks_before Highlight.string_violated",
  "The marked brackets are exactly the pairs between which brackets of their kind are balanced.  Violated: brackets in strings are counted.")
c("C158", "partial", "Highlight.word_coloured Highlight.keyword_coloured Highlight.call_coloured Highlight.type_coloured Highlight.constant_coloured Highlight.words_violated",
  "Words are coloured as a whole; exactly the keywords of the table are shown as keywords, names before ( as functions.  Violated: loop, unless, async, await, alias, in and the types string, i32, u8, f64, usize and the like are not known.")

c("C159", "partial", "Diag.report_plain Diag.report_token_partial Diag.context_line Diag.wholeLine_spec Diag.dec_value Diag.caret_below Diag.long_number_violated Diag.tabs_violated Diag.utf8_violated Diag.comment_violated Diag.char_violated Diag.line_violated",
  "For every token of every file whose column the lexer gets right, the message has the number of line and column, the whole line between its newlines, and in the first 999 lines of printable ASCII the caret below the token.  Violated: the caret is to the left from line 1000 on and behind tabs, to the right behind characters of several bytes; behind block comments the line is cut, behind character literals with a newline two lines are shown, and escape characters swallow the rest.  Not modelled: the name of the file (tokens do not carry it, so the checks after parsing name the main file).")
c("C160", "partial", "Diag.write_text Diag.write_coloured Diag.literal_kept Diag.report_colours Diag.text_violated Diag.literal_violated Diag.literal_open_violated",
  "What is printed to a file or pipe is the coloured text without the colours, and text without escape characters is unchanged, the generated code included.  Violated: an escape character with [ in a string literal is removed from the generated program up to the next m, or with the closing quote.")

c("C161", "partial", "DropGlue.rounds_closed DropGlue.flags_iff_partial DropGlue.calls_spec_partial DropGlue.destroy_spec_partial DropGlue.calls_once DropGlue.sample_fine DropGlue.array_violated DropGlue.enum_violated DropGlue.union_violated DropGlue.instance_violated DropGlue.generic_member_violated DropGlue.order_violated DropGlue.late_violated DropGlue.underscore_violated DropGlue.clash_violated",
  "Propagation ends and is complete; in programs of structs whose destructors stand behind the structs, a variable destroys exactly its parts with destructors, each once, owners before their parts.  Violated: elements of arrays and payloads of enums are not destroyed, destructors of enums never called, all members of a union are destroyed, members of instances of generic structs are not, destructors before the struct or behind the first use of an instance are ignored, names with _ confuse the search for destructors.")

c("C162", "partial", "Net.run_refines Net.all_closed Net.others_kept Net.copy_violated",
  "For every sequence of operations on sockets and all answers of the system, variables use and close their own sockets only; failed connect and bind leave nothing open; when all variables are gone every socket was closed once; other descriptors are untouched.  Violated: expect of a Result gives a second variable with the same descriptor, which then reads and closes a socket of somebody else.")
c("C163", "partial", "Net.port_partial Net.port_violated",
  "Proved for 0 to 65535.  Violated: other numbers are not rejected but reduced modulo 65536.")

c("C164", "partial", "CJsonList.step_inv CJsonList.run_inv CJsonList.empty_inv CJsonList.add_rep CJsonList.detach_rep CJsonList.insert_rep CJsonList.replace_rep CJsonList.shared_violated",
  "The doubly linked lists of cJSON are lists after every sequence of adding, taking out, inserting and replacing; arrays that are not named do not change.  Violated: adding an item that still is in another array is not noticed and mixes the two up.")

c("C165", "partial", "GenCall.instances_partial GenCall.sample_fine GenCall.recursive_loops_violated GenCall.recursive_unknown_violated GenCall.in_range_violated GenCall.hidden_violated GenCall.pointer_violated GenCall.struct_pointer_violated GenCall.prefix_violated GenCall.variable_violated GenCall.taken_violated GenCall.letter_violated",
  "For every program whose generic functions are defined before their calls and whose names cannot be mixed up, the compiler ends and makes exactly the instances that are needed, each once.  Violated: recursive generic functions (endless, or an error), calls in loops over ranges, `loop`, `defer`, lambdas and other nodes, `g<T*>`, pointers to structs handed on, names that begin with the name of a generic function.")

c("C166", "partial", "GenImpl.methods_partial GenImpl.functions_partial GenImpl.types_partial GenImpl.asked_only GenImpl.run_impls GenImpl.sample_written GenImpl.sample_instances GenImpl.nest_loops_violated GenImpl.several_violated GenImpl.several_order_violated GenImpl.prefix_violated GenImpl.nested_parameter_violated",
  "In whatever order structs, `impl` blocks and uses come, every block is written exactly once for every instance, the types of its methods and fields have instances, and only what is asked for is made.  Violated: a method that returns `Box<Box<T>>` (endless), structs with several parameters, return types whose names begin with that of a generic struct, `Vec<Opt<T>>` in generic code.")
c("C167", "partial", "GenScope.scopes_partial GenScope.declare_scope GenScope.registerAll_ok GenScope.functions_ok GenScope.forward_violated GenScope.twice_violated GenScope.same_name_violated",
  "Type parameters are known in their declaration and nowhere else, for every sequence of declarations.  Violated: forward declarations of generic structs; `impl Into<T> for Box<T>` and `struct P<T, T>` make the compiler write outside of an array.")

c("C168", "partial", "IfExpr.if_partial IfExpr.value_partial IfExpr.sample_fine IfExpr.sample_out IfExpr.second_violated IfExpr.own_variable_violated IfExpr.shadowed_violated IfExpr.defer_violated IfExpr.defer_both_violated IfExpr.twice_violated IfExpr.string_violated",
  "Functions with nested `if` expressions whose branches end with the same type do in C what they say, with the same output in the same order.  Violated: a second branch of another type is converted, results that are variables of the branch are not C or have the type of another variable, `defer` in a branch runs at the end of the function whether or not the branch was taken (and twice when nested), string literals at the end of a branch are not C.")

c("C169", "partial", "CDecl.decl_partial CDecl.sig_partial CDecl.Decl.unique CDecl.sample_good CDecl.sample_text CDecl.sample_sig CDecl.array_pointer_violated CDecl.array_of_functions_violated CDecl.function_result_violated CDecl.pointer_result_violated CDecl.pointer_result_sample",
  "The C text of a declaration, read by the grammar of C, has the type that was written, for arrays of pointers to named types and for function pointers with such parameters at any depth; the same for functions.  Violated: pointers to arrays, arrays of function pointers, function pointers that return function pointers, functions that return pointers to function pointers.")

c("C170", "partial", "JsonOwn.build_free_partial JsonOwn.push_ok JsonOwn.set_ok JsonOwn.push_other JsonOwn.set_other JsonOwn.free_rep JsonOwn.at_ok JsonOwn.get_ok JsonOwn.sample_distinct JsonOwn.sample_build JsonOwn.sample_free JsonOwn.set_twice_violated JsonOwn.free_twice_violated",
  "Values built with push and set (different keys in every object) are in memory as written, at any depth; free gives back exactly their memory and the heap is as before; get, at and len read what was built.  Violated: setting a key again loses the old value for good; calling free and then the destructor (as in the documentation's example) frees twice.")

c("C171", "partial", "StdRegex.find_ok StdRegex.isMatch_ok StdRegex.findAt_partial StdRegex.matchAt_partial StdRegex.one_finds StdRegex.one_free StdRegex.one_sample StdRegex.matchFull_violated StdRegex.findAt_end_violated StdRegex.findAt_position_violated StdRegex.anchor_violated StdRegex.case_violated",
  "With a library that finds the first match: find returns it with its text, match says whether there is one, find_at and match_at do so from an offset on for expressions that do not look around.  Violated: match_full is a search; find_at finds nothing at the end of the text, counts positions from the offset and takes it for the beginning of the text; the default flags ignore case.")

c("C172", "partial", "EvalOrder.value_ok_partial EvalOrder.no_ub EvalOrder.ends EvalOrder.step_size EvalOrder.sample EvalOrder.moved_argument_violated EvalOrder.copy_violated EvalOrder.increments_violated EvalOrder.calls_violated",
  "For operands that do not mention what another operand gives away or counts up, with at most one of them making calls: value, calls and variables as written in every order a C compiler may choose, and no undefined behaviour.  Violated for accepted programs: f(x.n, x) may pass 0 for x.n; a value whose type is Copy and has a destructor is zeroed when it is copied; i++ + i++ is undefined; the calls in f(1) + g(2) may be made in the other order.")

c("C173", "proved", "CJsonBuf.print_ok CJsonBuf.value_ok CJsonBuf.elems_ok CJsonBuf.members_ok CJsonBuf.ensure_ok CJsonBuf.update_ok CJsonBuf.sample",
  "For every value the library can hold, compact or indented: no byte outside the buffer is written, no byte that was not written is read, and the block returned holds exactly the text of the value and its terminator; NULL exactly if the text and two bytes more exceed INT_MAX.  Allocation is assumed to succeed.")

c("C174", "partial", "WinArgs.received_ok_partial WinArgs.line_ok WinArgs.quoteArg_ok WinArgs.args_line WinArgs.sample WinArgs.trailing_slash_violated WinArgs.empty_violated WinArgs.slash_quote_violated",
  "The command line is built within its memory for all arguments.  It is split by the C runtime into the arguments that were given, if the program's name has no quote, no argument is empty, and none that needs quotes has a backslash before a quote or at its end.  Violated for the others: C:/My Dir/ with backslashes arrives with a quote for its last backslash, empty arguments vanish.")

c("C175", "partial", "Undef.reported_partial Undef.allowed_not_reported Undef.run_ok Undef.loadAll_ok Undef.registerAll_ok Undef.sample Undef.interop_violated Undef.named_violated",
  "Never leaves its tables, never reports a function that is defined, declared extern or listed in a configuration that counts; reports every other call if the program imports no C header and no path with /std/, the arguments have no names and the name does not begin with _z_ or _Z.  Violated otherwise: one import from std (or from any directory called std) switches the report off, calls with named arguments are never reported.")

c("C176", "partial", "DeferIt.block_partial DeferIt.replace_eval DeferIt.declarations_kept DeferIt.own_it_apart DeferIt.sample_fine DeferIt.own_it_violated DeferIt.hidden_it_violated DeferIt.defer_string_violated",
  "Holds for every block in which it occurs only below calls, members and operators in a defer attached to a declaration, and in which a defer after the semicolon of a declaration neither mentions it nor is a string.  Violated otherwise: the semicolon is eaten before the test, so the next defer is always taken; it below indexes, casts, conditionals and initialisers is left alone; a deferred string after a declaration prints nothing.")

c("C177", "partial", "ClosureOwn.never_twice ClosureOwn.exact_partial ClosureOwn.runBody_exact ClosureOwn.end_order ClosureOwn.fn_order ClosureOwn.sample_borrows ClosureOwn.captured_violated ClosureOwn.argument_violated ClosureOwn.move_out_violated",
  "No value is ever destroyed twice, and every value is destroyed exactly once if lambdas capture by reference and closures get no arguments with destructors.  Violated otherwise: a value captured by value and a value passed to a closure are never destroyed, and a lambda that moves a capture or a parameter gives C code that is not compiled.")

c("C178", "partial", "Json.json_read_partial Json.parseValue_val Json.json_escape_violated Json.json_long_string_violated",
  "Every text of the grammar of RFC 8259, with any white space and the escapes of quote, backslash, slash, line feed, tab and carriage return, is read as the value it stands for.  Violated for the escapes of backspace, form feed and of code points, whose letter is read instead, and for strings of 4096 bytes or more.")

c("C179", "partial", "LambdaHead.lambda_read_partial LambdaHead.name_kept LambdaHead.tuple_kept LambdaHead.guard_violated LambdaHead.guard_paren_violated LambdaHead.no_params_violated LambdaHead.comma_violated LambdaHead.comma_bare_violated LambdaHead.function_type_violated LambdaHead.paren_overflow_violated LambdaHead.cap_overflow_violated LambdaHead.fn_overflow_violated LambdaHead.caps_overflow_violated",
  "Each form of a lambda is read with the captures, parameters, types and capture mode that are written, up to 16 parameters and 32 captures; names and tuples without an arrow are not taken for lambdas.  Violated: guards that end in a name (`n if ok => e`) are read as a lambda; `[&]() -> e` is rejected; types with commas or parentheses in the forms with lookahead are misread; more parameters or captures, and tuples of more than 16 names, write behind the end of an array.")

c("C180", "partial", "StdMem.alloc_fresh StdMem.zalloc_fresh StdMem.alloc_n_partial StdMem.alloc_n_violated StdMem.mem_zero_exact StdMem.mem_copy_partial StdMem.mem_copy_violated StdMem.swap_exact StdMem.elements_separate StdMem.swap_twice StdMem.box_free_exact StdMem.box_free_twice_violated StdMem.box_shared_violated",
  "Allocation gives memory of its own of the right size, zeroed where promised; clearing, copying and swapping change exactly the bytes of the objects named.  Violated: `alloc_n` of 2^64 bytes or more succeeds with a block that is too small; `mem_copy` of overlapping ranges and a second `Box::free` are undefined.")

c("C181", "partial", "RawBlock.raw_exact RawBlock.raw_open_reported RawBlock.raw_stmt_lines RawBlock.raw_stmt_no_cr RawBlock.directive_exact RawBlock.emit_once RawBlock.emit_order_partial RawBlock.repeated_dropped_violated RawBlock.conditionals_violated RawBlock.guarded_block_violated RawBlock.crlf_block_violated RawBlock.directive_crlf_violated",
  "Raw blocks and directives are cut out of the source whole, and every text is in the output once, in the order of the program if directives come first and no text is repeated.  Violated: a repeated text is dropped, so that all but the first of several `#endif` vanish; directives are moved in front of the blocks they guard; with carriage returns a directive loses its continuation lines and a block that begins with a directive is put in the wrong place.")

c("C182", "partial", "Attrs.fn_attributes_partial Attrs.struct_attributes Attrs.section_custom_violated Attrs.align_prefix_violated Attrs.named_value_violated Attrs.vector_violated Attrs.empty_args_violated",
  "The C attributes of a function are one well-formed list with exactly the attributes written, unless a section stands next to attributes that are passed on and no flag is set; those of a struct are well-formed and exactly the ones written (alignment in decimal).  Violated: section and custom attribute without a flag give a list without a comma; alignments in hexadecimal or binary, or given by a name, are dropped silently; a vector struct loses its attributes; an empty argument list is rejected.")

c("C183", "partial", "Env.env_history Env.set_get Env.dup_stable Env.get_stable_partial Env.get_dangling_violated Env.windows_empty_violated Env.windows_unset_violated",
  "After any program a variable has the value it was last set to (POSIX); results tell exactly whether the name is one; copies made by get_dup survive every later call; texts of get stay until the variable is set or unset.  Violated: a text of get is given up when the variable is set again; on Windows setting the empty text removes the variable, and unset of a text with `=` sets a variable.")

c("C184", "partial", "Alias.alias_means_partial Alias.alias_only Alias.typedef_partial Alias.wide_violated Alias.header_violated Alias.cycle_violated Alias.shapes_violated Alias.typedef_violated",
  "An alias is read as the type it was declared to be, with any stars, sizes and const around it, for simple types, pointers, arrays and function pointers, also over chains of aliases.  Violated: an alias of u128 is u32, those of i128 and isize are unknown structs; a struct of an imported C header, and aliases in a cycle, make the compiler recurse without end; function types, slices of pointers, pointers to arrays, restrict and pointers to function pointers change; the typedef of arrays, function pointers and c_int is not C.")

c("C185", "partial", "SizeOf.sizeof_type_partial SizeOf.sizeof_variable_partial SizeOf.sizeof_expr SizeOf.index_zero_violated SizeOf.index_expr_violated SizeOf.c_kind_violated",
  "For every simple type with stars, array sizes and const, every variable and every element with a number other than 0 as index, C takes the text of sizeof for what was written; other operands are expressions.  Violated: sizeof(x[0]) is the size of the slice type Slice_x, sizeof(x[i]) is rejected, sizeof(c_int*) and typeof(c_int) have a word C does not know.")

c("C186", "partial", "MoveClosure.closures_sound_partial MoveClosure.no_false_alarm MoveClosure.call_twice_violated MoveClosure.ref_give_violated MoveClosure.ref_later_violated",
  "For straight-line functions with any closures called any number of times: no value is used after it was given away, if closures give away only their own variables and what is captured by reference is given away nowhere, and such functions are not rejected without reason.  Violated: a closure that gives away a captured value may be called twice; a variable may be used after a closure gave it away by reference; a closure may be called after the variable it refers to was given away.")

c("C187", "partial", "LinkCmd.args_wanted LinkCmd.args_only LinkCmd.args_shape LinkCmd.links_partial LinkCmd.static_math_violated LinkCmd.run_partial LinkCmd.run_absolute_violated",
  "For every configuration: all words of the command, the flags and the link flags, the output and all C files are passed in order, with nothing else but the compiler's own options, and libraries behind the files.  With archives read from left to right, the place of -lm and -lpthread makes no difference for libraries that do not use them.  Violated: a static library that uses mathematics does not link unless the program does too; zc run with an absolute output path runs another file.")

c("C188", "partial", "Vector.read_named Vector.read_positional_partial Vector.read_name_violated Vector.per_lane_partial Vector.broadcast_partial Vector.broadcast_violated Vector.too_many Vector.names_ignored Vector.check_named Vector.check_positional_violated Vector.index_partial Vector.index_violated",
  "Proved for all numbers of lanes, lane types and values: values are in their lanes, each evaluated once, if the first one does not begin with a name; one value without effects is in all lanes; indices within the vector give the lane.  Violated: V{a, b} is not read if a is a variable or a call; V{v: f()} calls f once for each lane; the checker rejects every V{1, 2}; an index outside the vector is not stopped.")

c("C189", "partial", "AutoImport.listed_partial AutoImport.tree_partial AutoImport.only_needed AutoImport.lost_violated AutoImport.location_partial AutoImport.location_violated",
  "Proved for every set of files and every order of imports: nothing but the declarations of needed files is printed, no file is parsed twice, types always reach the program, functions if no method loops over an array, globals if no function does, and everything from files that no automatic import needs.  Violated: a loop over an array that is parsed before the import of std/core.zc makes #define panic and __zen_hash_seed disappear.  The file is the one that an import finds unless ZC_ROOT or an include path has it: then another one or none is taken.")

c("C190", "partial", "ImplScope.methods_once_partial ImplScope.first_loop_violated ImplScope.generic_violated",
  "Proved for all programs of functions, impl blocks and imports of std/slice.zc in which the first loop over an array is not in a method: all functions and methods are printed once and in order, each method with a self of its type.  Violated, for every impl: if the first loop is in a method, this one and all behind it are printed twice, those behind it have an untyped self and are registered as functions; with a generic method there the compiler reads through NULL.")

c("C191", "partial", "TupleReturn.literal TupleReturn.other TupleReturn.returns_partial TupleReturn.after_first TupleReturn.loop_violated TupleReturn.lambda_violated TupleReturn.generic_violated TupleReturn.rest_violated TupleReturn.elems_fuel TupleReturn.end_violated TupleReturn.unfinished",
  "Proved for all programs of functions, loops and lambdas in which functions returning tuples have no loop over an array before std/slice.zc is imported, and lambdas return tuples only of the type of the function they are in: each returned tuple is a literal of that type with exactly its elements, all else is left to the reader of expressions.  Violated: behind the first loop over an array the type is forgotten; tuples returned by lambdas get the type of the function; commas in <a, b> cut a value; what is behind the literal is dropped from the value; a file that ends in a tuple makes the compiler run forever.")

c("C192", "partial", "ArrowType.single_partial ArrowType.integers_partial ArrowType.passed_partial ArrowType.identity_violated ArrowType.multi_violated ArrowType.long_violated ArrowType.first_call_violated ArrowType.bare_violated ArrowType.passed_violated ArrowType.declared_violated ArrowType.arith_number ArrowType.conv_dbl",
  "Proved for all bodies of integers and for all bodies of one parameter that is always next to something of known type, for any number of calls.  Violated: the result is an int for x -> x, for every lambda with a list of parameters or a written type and for every block of more than one statement, so fractions are cut; the first call fixes the types of parameters for all; x -> { return; } makes the compiler read through NULL; lambdas passed for a function with a floating result are called by a pointer of another type.")

c("C193", "partial", "Reflect.fields_partial Reflect.name_iff Reflect.null_iff Reflect.copied_plain Reflect.union_violated Reflect.bits_violated Reflect.generic_violated",
  "Proved for all structs of ordinary fields: every field once, in order, with the name of its type and the offset at which it is read and written; two types have the same name exactly if C does not tell them apart.  Violated: unions and structs with a bit field give C that does not compile; in generic functions @type_name(T) is the letter T and @fields(T) a null pointer in every instance.")

c("C194", "partial", "LoadFile.named_partial LoadFile.first_partial LoadFile.missing_partial LoadFile.nul_violated LoadFile.pipe_violated LoadFile.dir_violated LoadFile.short_violated LoadFile.proc_violated LoadFile.long_violated",
  "Proved for ordinary files without NUL bytes and paths up to 1023 bytes.  Violated: a file is cut at its first NUL; pipes (zc run /dev/stdin) and directories on ext4 make the compiler write outside of its memory or overflow; files without a size, as in /proc, are read as empty; longer paths are cut and may lead to another file.")

c("C195", "partial", "LspStale.released_iff LspStale.declared_partial LspStale.edit_violated LspStale.removed_violated",
  "Exactly characterised for all sessions: released memory is read if and only if at some message an earlier text had used a type that no text so far declares.  Violated: correcting a misspelt type is enough; declarations that are taken out stay known.")

c("C196", "partial", "LspScan.found_partial LspScan.once_partial LspScan.root_partial LspScan.init_partial LspScan.root_violated LspScan.uri_violated LspScan.deep_violated",
  "Proved for all file systems whose paths below the root are shorter than 1024 characters (exactly the sources that are not hidden, each once; with plain paths under the URIs an editor uses).  Violated: percent-encoded roots and files, and a directory whose path fills the buffer is scanned as its own entries, exponentially often.")

c("C197", "partial", "ZenTip.off_silent ZenTip.after_warning ZenTip.once_fits ZenTip.safe_partial ZenTip.shown_iff ZenTip.finish_same ZenTip.eleventh_violated ZenTip.message_violated",
  "Proved for all compilations, files and random numbers: no tip when off or after a warning, at most one, and it is for a construct that came up; harmless if every element has a message.  Violated: only the first ten tips of a trigger ever come up (47 of the 57 general ones that are shipped never do), and a facts.json in the current directory without messages gives a null pointer to printf.")
out = os.path.join(os.path.dirname(os.path.abspath(__file__)), "..", "MANIFEST.json")
with open(out, "w") as f:
    f.write('{"claims": [\n')
    f.write(",\n".join(json.dumps(x) for x in claims))
    f.write("\n]}\n")
