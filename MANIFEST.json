{"claims": [
{"property": "C01", "status": "partial", "theorems": ["Verif.Vec.vec_refines_sequences_partial", "Verif.Vec.vec_reverse_empty_violated"], "note": "reverse on an empty vector is undefined behaviour in the code"},
{"property": "C02", "status": "partial", "theorems": ["Verif.Vec.vec_memory_safe_partial", "Verif.Vec.vec_memory_safe_violated"], "note": "full claim false: reverse on empty"},
{"property": "C03", "status": "proved", "theorems": ["Verif.Vec.vec_push_amortised"], "note": ""},
{"property": "C04", "status": "partial", "theorems": ["Verif.Queue.queue_refines_fifo_partial", "Verif.Queue.queue_bytes_no_clone_partial", "Verif.Queue.queue_grow_wrapped_violated", "Verif.Queue.queue_clone_full_violated"], "note": "full claim false: growing a wrapped queue with elements wider than one byte corrupts it; cloning a full wrapped queue reads out of range"},
{"property": "C05", "status": "partial", "theorems": ["Verif.Stack.stack_refines_lists_partial", "Verif.Stack.stack_clone_unused_violated"], "note": "full claim false when malloc(0) returns NULL: cloning a never-used stack then pushing"},
{"property": "C06", "status": "proved", "theorems": ["Verif.HashSet.set_refines_finite_sets"], "note": ""},
{"property": "C07", "status": "proved", "theorems": ["Verif.HashMap.map_refines_dictionary"], "note": ""},
{"property": "C08", "status": "partial", "theorems": ["Verif.HashMap.map_terminates_partial", "Verif.HashMap.map_get_terminates", "Verif.HashMap.map_remove_hangs_violated", "Verif.HashMap.map_put_hangs_violated"], "note": "full claim false: deleted slots are never reused, so a full table of tombstones loops forever"},
{"property": "C09", "status": "partial", "theorems": ["Verif.Iter.for_visits_in_order", "Verif.Iter.vec_for_after_pushes", "Verif.Iter.forRef_maps", "Verif.HashMap.map_iter_visits_all_partial", "Verif.HashMap.map_iter_empty_violated"], "note": "full claim false for maps without slots: the end of iteration reads vals[0]"},
{"property": "C10", "status": "partial", "theorems": ["Verif.Str.string_refines_texts_partial", "Verif.Str.string_terminated_partial", "Verif.Str.append_self_violated", "Verif.Str.append_self_history_violated"], "note": "full claim false: appending a string to itself drops the terminator"},
{"property": "C11", "status": "proved", "theorems": ["Verif.Str.string_refines_texts_partial", "Verif.Str.substring_exact", "Verif.Str.trim_exact"], "note": "find, contains, starts_with, ends_with, substring, trim inside histories; the suffix _partial concerns self-append (C10); texts shorter than 2^31 bytes"},
{"property": "C12", "status": "proved", "theorems": ["Verif.Str.split_join", "Verif.Str.replace_leftmost"], "note": ""},
{"property": "C13", "status": "proved", "theorems": ["Verif.Str.utf8_code_points", "Verif.Str.utf8_new"], "note": ""},
{"property": "C14", "status": "proved", "theorems": ["Verif.Base64.base64_round_trip", "Verif.Base64.base64_injective"], "note": ""},
{"property": "C15", "status": "proved", "theorems": ["Verif.Sha1.sha1_pieces", "Verif.Sha1.sha1_hash"], "note": "messages below 2^61 bytes, as FIPS requires"},
{"property": "C16", "status": "partial", "theorems": ["Verif.StdArena.arena_blocks_safe_partial", "Verif.StdArena.arena_contents_kept_partial", "Verif.StdArena.arena_fresh_contents_partial", "Verif.StdArena.arena_restore_exact_partial", "Verif.StdArena.arena_wrap_violated", "Verif.StdArena.arena_alloc_n_violated"], "note": "full claim false: sizes whose sum or product wraps around 2^64 are accepted"},
{"property": "C17", "status": "partial", "theorems": ["Verif.Json.json_round_trip_partial", "Verif.Json.json_backspace_violated", "Verif.Json.json_key_quote_violated", "Verif.Json.json_number_digits_violated", "Verif.Json.json_long_string_violated"], "note": "full claim false: \\b/\\f escapes, quotes in keys, 15 significant digits, strings of 4096 bytes or more"},
{"property": "C18", "status": "partial", "theorems": ["Verif.WebSocket.ws_send_frame", "Verif.WebSocket.ws_recv_frame_partial", "Verif.WebSocket.ws_recv_all_partial", "Verif.WebSocket.ws_short_write_violated", "Verif.WebSocket.ws_nul_violated", "Verif.WebSocket.ws_fragment_violated", "Verif.WebSocket.ws_ping_desync_violated", "Verif.WebSocket.ws_huge_violated"], "note": "full claim false: short writes lose data, NUL cuts a message, fragments are taken for messages, control frames desynchronise, frames above 65535 bytes are refused"},
{"property": "C19", "status": "proved", "theorems": ["Verif.Url.url_parse_exact", "Verif.Url.url_no_scheme"], "note": ""},
{"property": "C20", "status": "proved", "theorems": ["Verif.Path.join_text", "Verif.Path.join_file_name", "Verif.Path.join_parent", "Verif.Path.join_extension", "Verif.Path.file_name_exact", "Verif.Path.file_name_none"], "note": ""},
{"property": "C21", "status": "partial", "theorems": ["Verif.Lexer.lex_covers_partial", "Verif.Lexer.lex_increasing_partial", "Verif.Lexer.lex_terminates", "Verif.Lexer.lex_open_char_violated", "Verif.Lexer.lex_open_string_violated"], "note": "full claim false: a text ending in a quote or backslash inside a literal is read past its terminator"},
{"property": "C22", "status": "partial", "theorems": ["Verif.Lexer.lex_lines_partial", "Verif.Lexer.lex_line_char_violated"], "note": "full claim false: newlines inside character literals are not counted"},
{"property": "C23", "status": "partial", "theorems": ["Verif.ConstFold.fold_sound_partial", "Verif.ConstFold.fold_div_zero", "Verif.ConstFold.fold_parts", "Verif.ConstFold.fold_complete", "Verif.ConstFold.fold_overflow_violated", "Verif.ConstFold.fold_literal_violated"], "note": "full claim false: signed overflow while folding is undefined, literals of 2^63 and more change sign"},
{"property": "C36", "status": "partial", "theorems": ["Verif.CArena.arena_objects_partial", "Verif.CArena.arena_wrap_violated"], "note": "requests below 2^62 bytes; full claim false: sizes near 2^64 wrap around and two requests share an address"},
{"property": "C39", "status": "proved", "theorems": ["Verif.Levenshtein.levenshtein_exact", "Verif.Levenshtein.levenshtein_cutoff", "Verif.Levenshtein.levenshtein_le_three", "Verif.Levenshtein.suggest_closest"], "note": ""},
{"property": "C40", "status": "partial", "theorems": ["Verif.Lsp.lsp_recovers_partial", "Verif.Lsp.lsp_reply_readable", "Verif.Lsp.lsp_terminates", "Verif.Lsp.lsp_large_violated", "Verif.Lsp.lsp_long_header_violated"], "note": "full claim false: bodies too large and header lines of 511 bytes and more desynchronise the reader"},
{"property": "C44", "status": "partial", "theorems": ["Verif.OptionResult.option_reads_partial", "Verif.OptionResult.option_taken", "Verif.OptionResult.result_history", "Verif.OptionResult.result_taken", "Verif.OptionResult.result_error_kept", "Verif.OptionResult.option_none_panics", "Verif.OptionResult.result_reads_partial", "Verif.OptionResult.unwrap_twice_violated", "Verif.OptionResult.expect_twice_violated", "Verif.OptionResult.result_unwrap_twice_violated"], "note": "full claim false: the tag stays set after unwrap; expect does not move the value out"},
{"property": "C47", "status": "partial", "theorems": ["Verif.HashMap.map_keys_all_released_partial", "Verif.HashMap.map_keys_released_once", "Verif.HashMap.map_key_leak_violated"], "note": "full claim false: growth duplicates keys and leaks the old copies"},
{"property": "C48", "status": "proved", "theorems": ["Verif.Cmd.cmd_text", "Verif.Cmd.cmd_joined", "Verif.Cmd.args_kept"], "note": ""},
{"property": "C49", "status": "partial", "theorems": ["Verif.Json.json_parse_terminates", "Verif.Json.json_parse_safe_partial", "Verif.Json.json_trailing_violated", "Verif.Json.json_unterminated_violated", "Verif.Json.json_long_string_violated"], "note": "full claim false: trailing garbage and unterminated strings are accepted, long strings overflow"},
{"property": "C50", "status": "proved", "theorems": ["Verif.Lexer.lex_operator", "Verif.Lexer.operator_longest", "Verif.Lexer.lex_string", "Verif.Lexer.lex_multi", "Verif.Lexer.lex_fstring", "Verif.Lexer.lex_multi_fstring", "Verif.Lexer.lex_raw_string", "Verif.Lexer.lex_multi_raw"], "note": ""},
{"property": "C51", "status": "partial", "theorems": ["Verif.ConstFold.array_sizes_partial", "Verif.ConstFold.def_wide_violated", "Verif.ConstFold.size_wide_violated", "Verif.ConstFold.let_reassigned_violated", "Verif.ConstFold.variant_name_violated"], "note": "full claim false: constants are cut to 32 bits, reassigned variables and enum variants count as constants"},
{"property": "C52", "status": "partial", "theorems": ["Verif.Lsp.requests_answered_partial", "Verif.Lsp.signature_help_violated", "Verif.Lsp.shutdown_violated", "Verif.Lsp.unknown_document_violated", "Verif.Lsp.did_change_violated"], "note": "full claim false: several requests are never answered; only the first change of a notification is applied"},
{"property": "C24", "status": "partial", "theorems": ["Verif.Move.no_use_after_move_partial", "Verif.Move.loop_violated", "Verif.Move.loop_remake_violated", "Verif.Move.unless_violated", "Verif.Move.match_violated", "Verif.Move.range_loop_violated", "Verif.Move.param_violated", "Verif.Move.shadow_violated", "Verif.Move.literal_violated", "Verif.Move.place_violated", "Verif.Move.short_circuit_violated"], "note": "full claim false: moves in loops, re-initialisation in skipped code, range loop bodies, parameters, shadowing, array literals and ternaries, places; proved outside these"},
{"property": "C25", "status": "partial", "theorems": ["Verif.Returns.accepted_returns_partial", "Verif.Returns.goto_violated", "Verif.Returns.guarded_default_violated"], "note": "full claim false: goto can leave the function's end reachable; a guarded default counts as total"},
{"property": "C27", "status": "partial", "theorems": ["Verif.ForRange.for_range_exact_partial", "Verif.ForRange.for_int_exact", "Verif.ForRange.visits_exists", "Verif.ForRange.visits_unique", "Verif.ForRange.for_inclusive_max_violated", "Verif.ForRange.for_byte_violated", "Verif.ForRange.for_unsigned_down_violated", "Verif.ForRange.for_mixed_sign_violated", "Verif.ForRange.for_mixed_width_violated", "Verif.ForRange.for_variable_step_violated", "Verif.ForRange.for_end_reevaluated_violated"], "note": "full claim false at the limits of the counter type, for mixed signedness, variable steps and ends that change; proved outside these"},
{"property": "C28", "status": "partial", "theorems": ["Verif.Match.match_first_partial", "Verif.Match.option_match_partial", "Verif.Match.option_arms", "Verif.Match.guard_violated", "Verif.Match.option_value_violated", "Verif.Match.option_other_violated", "Verif.Match.wild_alternative_violated", "Verif.Match.string_pattern_violated", "Verif.Match.long_pattern_violated"], "note": "full claim false: guards, Option values, `_` among alternatives, `|` and `..` inside string patterns, patterns of 1024 bytes and more"},
{"property": "C53", "status": "partial", "theorems": ["Verif.Match.enum_tags_partial", "Verif.Match.enum_explicit_violated", "Verif.Match.enum_value_violated"], "note": "full claim false for explicit values; proved for enums without them"},
{"property": "C26", "status": "partial", "theorems": ["Verif.Defer.defers_run_partial", "Verif.Defer.defers_same_partial", "Verif.Defer.guard_return_violated", "Verif.Defer.while_return_violated", "Verif.Defer.shadowed_name_violated", "Verif.Defer.try_violated", "Verif.Defer.slice_return_violated", "Verif.Defer.labelled_break_violated", "Verif.Defer.many_defers_violated", "Verif.Defer.deep_loops_violated"], "note": "full claim false: exits without braces, hidden names, `?`, slice returns, labelled breaks, 1024 defers, 64 loops; proved outside these"},
{"property": "C46", "status": "partial", "theorems": ["Verif.Defer.destroyed_once_partial", "Verif.Defer.no_ghost_partial", "Verif.Defer.assign_leak_violated", "Verif.Defer.reinit_leak_violated", "Verif.Defer.shadow_double_drop_violated", "Verif.Defer.try_leak_violated", "Verif.Defer.ghost_violated"], "note": "full claim false: assignment, re-initialisation after a move, hidden owned variables, `?`, `return x`; proved outside these"},
{"property": "C29", "status": "partial", "theorems": ["Verif.Pratt.parse_exact", "Verif.Pratt.tree_unique", "Verif.Pratt.levels", "Verif.Pratt.left_assoc", "Verif.Pratt.print_roundtrip", "Verif.Pratt.increment_postfix", "Verif.Pratt.prefix_operators", "Verif.Pratt.lambda_params", "Verif.Pratt.cast_operand", "Verif.Pratt.paren_plus", "Verif.Pratt.newline_continues", "Verif.Pratt.paren_times_violated", "Verif.Pratt.try_minus_violated", "Verif.Pratt.ternary_increment_violated", "Verif.Pratt.newline_ends_violated", "Verif.Pratt.shift_differs_from_c"], "note": "Parser and grammar agree on all texts, trees are unique, printed C has the same tree. The grammar itself is not the expected one in four places, proved as violations."},
{"property": "C30", "status": "partial", "theorems": ["Verif.Pratt.assign_single_partial", "Verif.Pratt.assign_chain_violated"], "note": "Every chain of two or more assignments is emitted as C that assigns to a non-lvalue."},
{"property": "C54", "status": "partial", "theorems": ["Verif.Pratt.compound_effects", "Verif.Pratt.compound_once_partial", "Verif.Pratt.compound_twice_violated"], "note": "The target is duplicated; harmless only if it contains no call or increment."},
{"property": "C31", "status": "partial", "theorems": ["Verif.StrLit.string_value", "Verif.StrLit.string_value_exact", "Verif.StrLit.string_value_unique", "Verif.StrLit.raw_value_partial", "Verif.StrLit.raw_backslash_violated", "Verif.StrLit.raw_newline_violated", "Verif.StrLit.raw_quote_violated", "Verif.StrLit.multi_backslash_violated"], "note": "Proved in full for strings with escapes as the language defines them; raw strings with backslash, quote or newline and strings in three quotes ending in a backslash violate the claim."},
{"property": "C32", "status": "partial", "theorems": ["Verif.StrLit.interpolation_partial", "Verif.StrLit.nested_partial", "Verif.StrLit.closing_braces_violated", "Verif.StrLit.hole_overflow_violated", "Verif.StrLit.result_overflow_violated", "Verif.StrLit.bool_hole_violated", "Verif.StrLit.ternary_hole_violated", "Verif.StrLit.recursion_violated", "Verif.StrLit.alias_violated", "Verif.StrLit.scope_colons", "Verif.StrLit.format", "Verif.StrLit.nested_colon", "Verif.StrLit.unclosed_error"], "note": "Holes below 128 bytes and results below 4096; the limits are exact. Static buffer: fails for recursion and for keeping two results of one place."},
{"property": "C55", "status": "partial", "theorems": ["Verif.StrLit.print_partial", "Verif.StrLit.print_braces_violated", "Verif.StrLit.print_unclosed_violated", "Verif.StrLit.print_long_violated", "Verif.StrLit.print_quotes", "Verif.StrLit.print_escaped_violated"], "note": "Without doubled braces and backslashes in holes, below the size of the compiler's buffer."},
{"property": "C33", "status": "partial", "theorems": ["Verif.Literals.int_token", "Verif.Literals.int_value_partial", "Verif.Literals.int_sound_partial", "Verif.Literals.int_emit", "Verif.Literals.int_large_violated", "Verif.Literals.int_no_digits_violated", "Verif.Literals.int_double_prefix_violated", "Verif.Literals.suffix_taken", "Verif.Literals.suffix_only", "Verif.Literals.int_suffix_partial", "Verif.Literals.int_llu_violated", "Verif.Literals.int_llu_mixed_violated"], "note": "Literals below 2^64 are read and emitted exactly; larger ones become 2^64-1, `0xu8` is accepted as 0 and `0x0x12` as 18; of C's suffixes `LLU` is rejected, and `lLu`, which C does not have, is accepted."},
{"property": "C34", "status": "partial", "theorems": ["Verif.Literals.float_token", "Verif.Literals.float_kept_partial", "Verif.Literals.nearest_exists", "Verif.Literals.float_small_violated", "Verif.Literals.float_decimals_violated", "Verif.Literals.float_inf_violated", "Verif.Literals.float_underscore_violated"], "note": "Kept with at most six decimals below 2^33 and from 2^33 on, for every rounding to nearest; otherwise changed by %f."},
{"property": "C35", "status": "partial", "theorems": ["Verif.TypeEq.refl_partial", "Verif.TypeEq.typeEq_shape", "Verif.TypeEq.equivalence_partial", "Verif.TypeEq.symm_partial", "Verif.TypeEq.struct_names", "Verif.TypeEq.opaque_alias", "Verif.TypeEq.opaque_target", "Verif.TypeEq.alias_copy_violated", "Verif.TypeEq.alias_target_violated", "Verif.TypeEq.symm_violated", "Verif.TypeEq.trans_unknown_violated", "Verif.TypeEq.trans_string_violated", "Verif.TypeEq.enum_violated"], "note": "An equivalence without unknown types, aliases and strings; all three parts and the distinction of enums fail in general."},
{"property": "C37", "status": "partial", "theorems": ["Verif.BuildFlags.directives_partial", "Verif.BuildFlags.dirLine_cr", "Verif.BuildFlags.flags_bounded", "Verif.BuildFlags.two_flags_violated", "Verif.BuildFlags.framework_violated", "Verif.BuildFlags.plus_violated", "Verif.BuildFlags.pkg_output_violated", "Verif.BuildFlags.full_violated", "Verif.BuildFlags.quotes_violated"], "note": "Holds for directives with one flag each while a kilobyte suffices; buffers never overflow. Several flags in one directive, frameworks, package output, quotes and flags beyond a kilobyte do not arrive as written."},
{"property": "C38", "status": "proved", "theorems": ["Verif.BuildFlags.commands_harmless", "Verif.BuildFlags.harmless_not_special"], "note": "For every source, environment and output of the commands."},
{"property": "C43", "status": "proved", "theorems": ["Verif.BuildFlags.expand_safe", "Verif.BuildFlags.expand_pieces", "Verif.BuildFlags.expand_plain", "Verif.BuildFlags.expand_no_brace"], "note": "On memory, for every text, environment and buffer."},
{"property": "C56", "status": "partial", "theorems": ["Verif.BuildFlags.options_partial", "Verif.BuildFlags.full_overflow_violated", "Verif.BuildFlags.long_option_violated", "Verif.BuildFlags.unquoted_violated"], "note": "Holds below four kilobytes for options without white space in the prefix and without quotes; a full buffer is overrun by the next option."},
{"property": "C41", "status": "partial", "theorems": ["Verif.Brainfuck.accepted_iff", "Verif.Brainfuck.block_unique", "Verif.Brainfuck.brainfuck_partial", "Verif.Brainfuck.collect_partial", "Verif.Brainfuck.second_run_violated", "Verif.Brainfuck.long_body_violated"], "note": "First execution agrees with the machine in both directions (for programs that halt); the static memory breaks later executions and long bodies are cut."},
{"property": "C42", "status": "partial", "theorems": ["Verif.RegexPlugin.sound_partial", "Verif.RegexPlugin.complete_partial", "Verif.RegexPlugin.unanchored_violated", "Verif.RegexPlugin.greedy_violated", "Verif.RegexPlugin.quantified_char_violated", "Verif.RegexPlugin.alternative_violated", "Verif.RegexPlugin.unclosed_violated", "Verif.RegexPlugin.escape_violated"], "note": "Sound for plain characters, dots and classes with quantifiers; complete for anchored patterns whose repetitions end visibly."},
{"property": "C57", "status": "partial", "theorems": ["Verif.StdRegex.count_zero_partial", "Verif.StdRegex.count_violated", "Verif.StdRegex.count_one_violated", "Verif.StdRegex.split_nomatch_partial", "Verif.StdRegex.split_violated", "Verif.StdRegex.split_one_violated"], "note": "Only the case without a match is right: count is the position of the last match plus one, split keeps only what follows it."},
{"property": "C45", "status": "partial", "theorems": ["Verif.Keywords.path_is_expression", "Verif.Keywords.prefix_test_on_buffer", "Verif.Keywords.reads_back_whole", "Verif.Keywords.reads_back_partial", "Verif.Keywords.block_reads_back_partial", "Verif.Keywords.reads_back_words_partial", "Verif.Keywords.text_unique", "Verif.Keywords.else_if_name_violated", "Verif.Keywords.else_name_violated", "Verif.Keywords.return_name_violated", "Verif.Keywords.assert_name_violated", "Verif.Keywords.for_let_in_violated", "Verif.Keywords.for_let_name_violated", "Verif.Keywords.step_name_violated", "Verif.Keywords.guard_name_violated"], "note": "Statement parser over arbitrary expression, pattern and declaration parsers. Read-back of every written program holds with whole-word tests; with the code's prefix tests it holds when no name begins with a contextual keyword where that keyword may stand, and is false otherwise."},
{"property": "C58", "status": "partial", "theorems": ["Verif.Lexer.lex_columns_partial", "Verif.Lexer.lineBefore_spec", "Verif.Lexer.lex_col_comment_violated", "Verif.Lexer.lex_col_char_violated", "Verif.Lexer.lex_col_eof_violated"], "note": "proved when no block comment starts or ends between the last newline and the token; refuted behind block comments, after a character literal with a newline, and for the end of file behind a directive"},
{"property": "C59", "status": "partial", "theorems": ["Verif.Cfg.cfg_condition_partial", "Verif.Cfg.cfg_select_partial", "Verif.Cfg.cfg_plain_violated", "Verif.Cfg.cfg_impl_trait_violated", "Verif.Cfg.cfg_unguarded_violated", "Verif.Cfg.cfg_globals_violated", "Verif.Cfg.cfg_import_violated", "Verif.Cfg.cfg_import_erases_violated"], "note": "Compiling equals compiling the selected declarations, for every -D set and every program whose guarded declarations are functions, structs without destructor, enums, traits, plain impls or globals of different names, with conditions that list no plain name in any/all. Refuted elsewhere: any(A,B)/all(A,B) never compile, trait impls leave an #if open, raw/test/alias/include/drop glue ignore the condition, equal-named globals lose one, imports guard only the first declaration or erase its guard."},
{"property": "C60", "status": "partial", "theorems": ["Verif.DeclOrder.sort_permutes", "Verif.DeclOrder.order_partial", "Verif.DeclOrder.keyword_lead", "Verif.DeclOrder.const_field_violated", "Verif.DeclOrder.opaque_payload_violated", "Verif.DeclOrder.vector_pointer_violated", "Verif.DeclOrder.slice_violated", "Verif.DeclOrder.tuple_violated", "Verif.DeclOrder.alias_chain_violated"], "note": "Sorting loses and duplicates nothing for all lists. For programs without a containment cycle and without const fields, opaque payloads, pointers to later vectors, slices or tuples of structs and chains of opaque aliases, every name is declared before it is mentioned and defined before it is contained. Each exclusion is proved to be a real failure."},
{"property": "C61", "status": "partial", "theorems": ["Verif.Tuple.fields_exact_iff", "Verif.Tuple.distinct_partial", "Verif.Tuple.name_partial", "Verif.Tuple.type_buffer_iff", "Verif.Tuple.variant_safe", "Verif.Tuple.literal_partial", "Verif.Tuple.typed_partial", "Verif.Tuple.nested_tuple_violated", "Verif.Tuple.underscore_violated", "Verif.Tuple.collision_violated", "Verif.Tuple.pointer_violated", "Verif.Tuple.type_buffer_violated", "Verif.Tuple.expression_violated", "Verif.Tuple.char_violated", "Verif.Tuple.decimal_violated", "Verif.Tuple.unsigned_violated", "Verif.Tuple.seventeen_violated", "Verif.Tuple.string_violated", "Verif.Tuple.typed_long_violated", "Verif.Tuple.typed_name_violated"], "note": "The fields are the element types exactly when the texts are separable (iff, all lists); literals are exact within the stated limits; everything outside the limits is proved wrong (nested tuples, pointers, calls and operators as elements, characters, small decimals, 17 elements, long strings)."},
{"property": "C62", "status": "partial", "theorems": ["Verif.Http.request_partial", "Verif.Http.response_partial", "Verif.Http.fetch_partial", "Verif.Http.exchange_partial", "Verif.Http.parse_header_partial", "Verif.Http.request_rest_violated", "Verif.Http.status_violated", "Verif.Http.header_injection_violated", "Verif.Http.segments_violated", "Verif.Http.full_buffer_violated", "Verif.Http.fetch_headers_violated", "Verif.Http.zero_byte_violated", "Verif.Http.parse_header_violated"], "note": "Method, path, version, status and body arrive for all requests and responses of one read of at most 4095 bytes without zero bytes, end to end. Headers and request bodies never arrive, other statuses become 500, later reads are ignored, line breaks in headers inject headers: each proved."},
{"property": "C63", "status": "partial", "theorems": ["Verif.Process.command_partial", "Verif.Process.output_partial", "Verif.Process.blank_violated", "Verif.Process.empty_violated", "Verif.Process.injection_violated", "Verif.Process.exit_code_violated", "Verif.Process.zero_byte_violated"], "note": "A command of plain words runs with exactly these arguments and its output is returned whole; blanks, empty arguments and shell characters in arguments are not passed on; exit_code is the wait status, 256 times the code."},
{"property": "C64", "status": "partial", "theorems": ["Verif.Io.readln_line", "Verif.Io.readln_last", "Verif.Io.readln_end", "Verif.Io.readln_lines", "Verif.Io.format_partial", "Verif.Io.format_into_exact", "Verif.Io.itos_exact", "Verif.Io.format_long_violated", "Verif.Io.format_static_violated", "Verif.Io.itos_static_violated"], "note": "readln is exact for every input (lines of any number and length below 2^60). Formatting is exact up to 1023 characters; longer texts are cut; results of format and itos are overwritten by the next call."},
{"property": "C65", "status": "partial", "theorems": ["Verif.Fs.read_safe", "Verif.Fs.read_partial", "Verif.Fs.write_exact", "Verif.Fs.round_trip_partial", "Verif.Fs.append_writes", "Verif.Fs.readDir_partial", "Verif.Fs.currentDir_partial", "Verif.Fs.read_zero_byte_violated", "Verif.Fs.read_unseekable_violated", "Verif.Fs.read_size_zero_violated", "Verif.Fs.read_error_violated", "Verif.Fs.readDir_flag_violated", "Verif.Fs.currentDir_violated"], "note": "Regular files without zero bytes are read, written and read back exactly; directories are listed completely. Zero bytes cut the text, streams that cannot seek are undefined behaviour, files of reported size 0 and read errors give Ok, links and untyped entries lose the directory flag. Write errors found only at close are not modelled."},
{"property": "C66", "status": "partial", "theorems": ["Verif.Time.sleep_iff", "Verif.Time.sleep_partial", "Verif.Time.fromSecs_partial", "Verif.Time.threadSleep_partial", "Verif.Time.sleep_long_violated", "Verif.Time.sleep_none_violated", "Verif.Time.fromSecs_violated", "Verif.Time.threadSleep_overflow_violated", "Verif.Time.threadSleep_negative_violated"], "note": "Sleeps are exact up to 4294967 ms (threads: 2147483 ms), and exactly then; longer ones are shorter than asked for or overflow."},
{"property": "C67", "status": "partial", "theorems": ["Verif.Time.reseed_partial", "Verif.Time.reseed_violated"], "note": "Lookups are unchanged if the changed bits of the seed are not used by the table; any change of the three lowest bits loses the entry of every map with one entry."},
{"property": "C68", "status": "partial", "theorems": ["Verif.Generics.fields_partial", "Verif.Generics.method_types_partial", "Verif.Generics.fields_multi_partial", "Verif.Generics.pointer_argument_violated", "Verif.Generics.const_violated", "Verif.Generics.function_violated", "Verif.Generics.closure_violated", "Verif.Generics.lower_case_violated", "Verif.Generics.named_violated", "Verif.Generics.pair_violated", "Verif.Generics.capture_violated", "Verif.Generics.array_argument_violated", "Verif.Generics.c_type_violated", "Verif.Generics.slice_pointer_violated", "Verif.Generics.bit_width_violated"], "note": "Field and method types built from parameters, names, pointers, arrays, slices and generics with one argument are substituted exactly. Pointer arguments inside generics, const, function types, pairs, lower-case parameters, repeated parameters, array arguments and bit widths are not: each proved."},
{"property": "C69", "status": "partial", "theorems": ["Verif.Generics.names_partial", "Verif.Generics.instances_partial", "Verif.Generics.nested_partial", "Verif.Generics.overflow_iff", "Verif.Generics.nested_violated", "Verif.Generics.depth_violated", "Verif.Generics.underscore_violated", "Verif.Generics.pointer_violated", "Verif.Generics.shared_violated", "Verif.Generics.letter_violated"], "note": "Over names that can be told apart with _ and Ptr between them, different instances get different names and each name keeps its first instance. Names with _ collide, pointers at different depths collide, names of 256 characters overrun a buffer (exactly then), a field G<i32> of an instance asks for no instance of G."},
{"property": "C70", "status": "partial", "theorems": ["Verif.GenBody.body_partial", "Verif.GenBody.formal_partial", "Verif.GenBody.names_partial", "Verif.GenBody.other_violated", "Verif.GenBody.declared_violated", "Verif.GenBody.const_violated", "Verif.GenBody.result_violated", "Verif.GenBody.two_words_violated", "Verif.GenBody.c_types_violated", "Verif.GenBody.underscore_violated"], "note": "Bodies built from the copied kinds of nodes, with types as in C68 and names of which the parameter is no part, are the bodies of the instance, for names of structs, instances, most primitive types and pointers. Twenty-one kinds of nodes are not copied; const, results of function types, uint, u128, the types of C and names with the parameter as a part go wrong: each proved."},
{"property": "C71", "status": "partial", "theorems": ["Verif.GenBody.raw_partial", "Verif.GenBody.words_partial", "Verif.GenBody.words_fit", "Verif.GenBody.parts_exact", "Verif.GenBody.parts_overflow_iff", "Verif.GenBody.backslash_violated", "Verif.GenBody.quote_violated", "Verif.GenBody.char_violated", "Verif.GenBody.string_violated", "Verif.GenBody.twice_violated", "Verif.GenBody.capture_violated", "Verif.GenBody.long_violated"], "note": "Raw texts read as words, strings and other characters have exactly the parameter, the struct and parts of names replaced, if strings end with no backslash and mention no such name, within 4096 characters (exactly then). Backslashes before a quote, character literals, names in strings, arguments with the parameter as a part, two parameters and long texts go wrong: each proved."},
{"property": "C72", "status": "partial", "theorems": ["Verif.Derive.eq_partial", "Verif.Derive.eq_text_iff", "Verif.Derive.payload_violated", "Verif.Derive.array_violated", "Verif.Derive.null_violated", "Verif.Derive.own_eq_violated", "Verif.Derive.later_enum_violated", "Verif.Derive.vec_violated", "Verif.Derive.eq_overflow_violated"], "note": "For structs of numbers, booleans, pointers, strings, structs and earlier enums, nested to any depth, a derived eq decides structural equality; its text fits exactly under the stated lengths. Payloads are ignored, arrays compared by address, NULL strings passed to strcmp, an enum's own eq not used, later enums and Vec fields rejected by the C compiler, long names overrun a buffer: each proved."},
{"property": "C73", "status": "partial", "theorems": ["Verif.Derive.clone_partial", "Verif.Derive.clone_drop_iff", "Verif.Derive.clone_string_violated"], "note": "A derived clone equals the original under the derived eq. Dropping both is defined exactly when the value owns no memory: with a String the block is freed twice."},
{"property": "C74", "status": "partial", "theorems": ["Verif.Derive.json_partial", "Verif.Derive.json_any_order", "Verif.Derive.json_text_partial", "Verif.Derive.json_i64_violated", "Verif.Derive.json_u32_violated", "Verif.Derive.json_type_violated", "Verif.Derive.json_null_violated", "Verif.Derive.json_nul_violated", "Verif.Derive.json_vec_name_violated", "Verif.Derive.json_missing_violated", "Verif.Derive.json_missing_struct_violated", "Verif.Derive.json_overflow_violated"], "note": "from_json(to_json(v)) is v for nested structs of ints that fit int, doubles, booleans, non-NULL C strings, Strings without NUL and Vec<String>, in any order of keys and also through the text of C17. Larger integers, narrow types, NULL, NUL bytes, names with Vec and String, missing keys and long names go wrong: each proved."},
{"property": "C75", "status": "partial", "theorems": ["Verif.Closure.captures_partial", "Verif.Closure.flat_declared", "Verif.Closure.unseen_violated", "Verif.Closure.global_violated", "Verif.Closure.shadow_violated", "Verif.Closure.const_violated", "Verif.Closure.later_function_violated", "Verif.Closure.function_name_violated", "Verif.Closure.defer_order", "Verif.Closure.defer_violated", "Verif.Closure.overflow_violated", "Verif.Closure.nested_violated"], "note": "For bodies of the kinds of nodes the analysis looks into, whose bound names differ from the outer names they use: exactly the variables used or listed are captured, once, in the mode asked for, and the C code has no unknown name. Uses in ?:, casts, range loops and inner lambdas, inner declarations, constants, later functions, names of functions, defer, 33 captures and lambdas in lambdas go wrong: each proved."},
{"property": "C76", "status": "partial", "theorems": ["Verif.Closure.closure_partial", "Verif.Closure.inner_violated", "Verif.Closure.loop_variable_violated", "Verif.Closure.listed_violated", "Verif.Closure.ctx_violated", "Verif.Closure.assign_violated"], "note": "Same bodies: creation copies values and shares references, and each call runs like the source body over the captured variables, step by step, for any state, functions and arguments. Captures in inner lambdas, loop variables and declarations with captured names, the name ctx, and assignment to captured values go wrong: each proved."},
{"property": "C77", "status": "partial", "theorems": ["Verif.Traits.dispatch_partial", "Verif.Traits.tables_written", "Verif.Traits.missing_violated", "Verif.Traits.missing_accepted", "Verif.Traits.self_result_violated", "Verif.Traits.static_violated", "Verif.Traits.static_args_violated", "Verif.Traits.struct_value_violated", "Verif.Traits.trait_param_violated", "Verif.Traits.fn_ptr_violated", "Verif.Traits.different_violated", "Verif.Traits.different_accepted", "Verif.Traits.underscore_violated", "Verif.Traits.many_violated"], "note": "For traits over self, primitives and pointers with complete and equal implementations: accepted, and every call through a trait object runs the method of the struct it was made from, with that value and the arguments in order. Missing and different methods, Self as result, methods without self, structs by value, traits in heads, pointers to functions, underscores and 1025 implementations go wrong: each proved."},
{"property": "C78", "status": "partial", "theorems": ["Verif.Traits.resolve_partial", "Verif.Traits.fields_partial", "Verif.Traits.mixin_partial", "Verif.Traits.order_violated", "Verif.Traits.temporary_violated", "Verif.Traits.ambiguous_violated", "Verif.Traits.qualified_violated", "Verif.Traits.mixin_trait_violated", "Verif.Traits.mixin_nested_violated", "Verif.Traits.second_mixin_violated", "Verif.Traits.later_use_violated", "Verif.Traits.mixins_violated"], "note": "Method calls find the method of the struct, of the one trait, of the one mixin, in that order; structs have the fields of earlier mixins in their places; methods of the first mixin see their fields. Calls before the declaration, several traits, qualified names, traits and mixins of mixins, further mixins, later mixins and nine mixins go wrong: each proved."},
{"property": "C79", "status": "partial", "theorems": ["Verif.Args.call_partial", "Verif.Args.named_violated", "Verif.Args.early_violated", "Verif.Args.capture_violated", "Verif.Args.parameter_violated", "Verif.Args.decimal_violated", "Verif.Args.kind_violated", "Verif.Args.slice_violated", "Verif.Args.slice_accepted", "Verif.Args.many_violated", "Verif.Args.struct_violated"], "note": "For functions with up to 16 parameters with simple closed defaults: a call is accepted exactly if the arguments stand in order and those missing have defaults, and then each parameter gets the value of its argument or default. Names outside finished functions, defaults in methods and early calls, captured names, small decimals, other kinds of defaults, slices in calls with names, 17 parameters and names of structs go wrong: each proved."},
{"property": "C80", "status": "partial", "theorems": ["Verif.NumType.promoted", "Verif.NumType.let_holds_the_value_partial", "Verif.NumType.let_holds_conditions", "Verif.NumType.let_holds_choices", "Verif.NumType.let_holds_casts", "Verif.NumType.value_hasTy", "Verif.NumType.same_kind_accepted", "Verif.NumType.large_literal_violated", "Verif.NumType.left_operand_violated", "Verif.NumType.byte_sum_violated", "Verif.NumType.byte_negated_violated", "Verif.NumType.byte_shift_violated", "Verif.NumType.bool_sum_violated", "Verif.NumType.sign_violated", "Verif.NumType.precision_violated", "Verif.NumType.choice_sum_violated", "Verif.NumType.coalesce_violated"], "note": "Where the left operand of every operator has the type of the result (or an integer meets a float in + - * /), for conditions, for ? : at the top and under casts, the variable holds the value of the expression. Literals from 2^31 on, sums whose left operand is narrower, u8 and bool arithmetic, mixed signs, f32 with f64, ? : inside of sums and ?? after mixed arithmetic go wrong: each proved."},
{"property": "C81", "status": "partial", "theorems": ["Verif.ExprGen.expressions_partial", "Verif.ExprGen.case_clear", "Verif.ExprGen.twice_violated", "Verif.ExprGen.helper_violated", "Verif.ExprGen.helper_right_violated", "Verif.ExprGen.helper_field_violated", "Verif.ExprGen.helper_if_violated", "Verif.ExprGen.block_violated", "Verif.ExprGen.block_meaning", "Verif.ExprGen.no_else_violated", "Verif.ExprGen.shadow_violated", "Verif.ExprGen.moving_violated"], "note": "Full simulation of the C code (statement expressions with helper variables) for programs that do not use the names of the helper variables, whose compound assignments have places without effects, whose new variables do not stand in their own initialisers, and whose if expressions have an else and a first result without variables of its block: same value, variables, world and errors in either order of evaluation. Each of these conditions is needed: proved."},
{"property": "C82", "status": "proved", "theorems": ["Verif.Index.declared_spec", "Verif.Index.arrays_spec", "Verif.Index.array_wrap", "Verif.Index.place_array", "Verif.Index.size_cut_violated", "Verif.Index.size_negative_violated", "Verif.Index.slice_of_arrays_violated", "Verif.Index.index_cut_violated", "Verif.Index.param_value_violated", "Verif.Index.param_size_violated"], "note": "For every list of sizes and every sequence of reads and writes; the theorems called violated show what lies outside of the claim: sizes and indices beyond the range, and arrays as parameters."},
{"property": "C83", "status": "partial", "theorems": ["Verif.Index.views_partial", "Verif.Index.rows_partial", "Verif.Index.part_partial", "Verif.Index.field_slice_violated", "Verif.Index.array_of_slices_violated", "Verif.Index.part_bounds_violated", "Verif.Index.part_open_violated", "Verif.Index.part_capture_violated"], "note": "Slices that are variables, mixed in any way with the array they show. False for slices that are fields, elements or results, and for the bounds of parts: proved."},
{"property": "C84", "status": "partial", "theorems": ["Verif.Overload.operators_partial", "Verif.Overload.only_documented", "Verif.Overload.compound_partial", "Verif.Overload.exE_good", "Verif.Overload.cstr_violated", "Verif.Overload.mixed_violated", "Verif.Overload.conditional_violated", "Verif.Overload.unary_literal_violated", "Verif.Overload.compound_trait_violated", "Verif.Overload.compound_pointer_violated", "Verif.Overload.neq_value_violated", "Verif.Overload.neq_trait_violated", "Verif.Overload.pointer_arith_violated", "Verif.Overload.get_call_violated", "Verif.Overload.const_violated", "Verif.Overload.set_name_violated"], "note": "For all expressions of operators over structs, pointers, numbers and strings: value, order and number of evaluations, and type. Missing: operands without an address that the parser does not know as such, operators of compound assignments in traits, != by an eq that takes values or is in a trait; that these fail is proved."},
{"property": "C85", "status": "partial", "theorems": ["Verif.Modules.each_once", "Verif.Modules.main_violated"], "note": "For all sets of files, cycles included. Missing: programs in which a file imports the main file; that its definitions then stand twice is proved."},
{"property": "C86", "status": "partial", "theorems": ["Verif.Modules.base_ident", "Verif.Modules.plain_partial", "Verif.Modules.module_partial", "Verif.Modules.single_partial", "Verif.Modules.demo_once", "Verif.Modules.demo_clear", "Verif.Modules.demo_accepted", "Verif.Modules.early_violated", "Verif.Modules.again_violated", "Verif.Modules.alias_violated", "Verif.Modules.base_violated", "Verif.Modules.inner_type_violated", "Verif.Modules.single_fn_violated", "Verif.Modules.single_inner_violated", "Verif.Modules.own_call_violated", "Verif.Modules.own_method_violated", "Verif.Modules.nested_violated", "Verif.Modules.names_violated"], "note": "For all programs: plain imports everywhere, aliases of modules in every file, single names in the main file. Missing: names of a module used inside it, functions imported by name, repeated imports, aliases used twice; that these fail is proved."},
{"property": "C87", "status": "partial", "theorems": ["Verif.Modules.locate_first", "Verif.Modules.locate_relative", "Verif.Modules.locate_own", "Verif.Modules.locate_absolute", "Verif.Modules.relative_violated"], "note": "For all files and directories. Missing: ./ and ../ that are not there; that another file may be taken then is proved."},
{"property": "C88", "status": "partial", "theorems": ["Verif.Async.await_partial", "Verif.Async.goes_on", "Verif.Async.fields_partial", "Verif.Async.demo_tame", "Verif.Async.demo_sum", "Verif.Async.string_violated", "Verif.Async.pointer_violated", "Verif.Async.float_violated", "Verif.Async.variable_violated", "Verif.Async.long_violated", "Verif.Async.other_violated", "Verif.Async.name_violated"], "note": "For all programs, all schedules and all addresses malloc may give, if the results are integers (through variables: not u32, i64, u64, usize, isize), booleans, characters or structs with a capital name, and a future is awaited at most once. Missing: strings, pointers, floating point numbers, wide integers through variables; that these fail is proved."},
{"property": "C89", "status": "partial", "theorems": ["Verif.Async.memory_partial", "Verif.Async.kept_partial", "Verif.Async.leak_free_partial", "Verif.Async.demo_tame", "Verif.Async.string_violated", "Verif.Async.pointer_violated", "Verif.Async.twice_violated"], "note": "For the same programs. Missing: strings and pointers, whose block stays, and a second await of a future; that these fail is proved."},
{"property": "C90", "status": "partial", "theorems": ["Verif.Opaque.sealed_partial", "Verif.Opaque.usable_partial", "Verif.Opaque.users_demo", "Verif.Opaque.users_tidy", "Verif.Opaque.holder_accepted", "Verif.Opaque.split_violated", "Verif.Opaque.later_violated", "Verif.Opaque.generic_violated", "Verif.Opaque.aliased_violated", "Verif.Opaque.method_violated"], "note": "For all programs of the modelled expressions in which functions and structs are declared above their uses, structs are not taken apart with let {...}, no template is opaque and opaque aliases stand for numbers and strings. That it fails without each of these, and that methods are refused too, is proved."},
{"property": "C91", "status": "partial", "theorems": ["Verif.Opaque.kept_partial", "Verif.Opaque.fits_iff", "Verif.Opaque.inside", "Verif.Opaque.handles_demo", "Verif.Opaque.argument_violated", "Verif.Opaque.pointer_violated", "Verif.Opaque.compare_violated", "Verif.Opaque.letter_violated", "Verif.Opaque.homonym_violated"], "note": "For let, assignments and arithmetic in all such programs. Missing: arguments, results, pointers, comparisons, equal names in two files; that these fail is proved."},
{"property": "C92", "status": "partial", "theorems": ["Verif.Mixin.through_partial", "Verif.Mixin.own", "Verif.Mixin.getter_iff", "Verif.Mixin.players_demo", "Verif.Mixin.moved_violated", "Verif.Mixin.second_demo", "Verif.Mixin.bits_violated", "Verif.Mixin.packed_violated", "Verif.Mixin.union_violated", "Verif.Mixin.padding_violated", "Verif.Mixin.deep_violated", "Verif.Mixin.rvalue_violated", "Verif.Mixin.long_violated"], "note": "For all programs, method bodies and memories, for the struct embedded first: structs that are no unions, equally packed, no bit fields in embedded structs, no assignment of the whole of *self unless the embedded struct has no padding at its end, called on a variable or pointer. That it fails without each of these is proved, for later embedded structs for all structs."},
{"property": "C93", "status": "partial", "theorems": ["Verif.Mixin.fields_partial", "Verif.Mixin.parse_ok", "Verif.Mixin.readme_demo", "Verif.Mixin.above_violated", "Verif.Mixin.width_violated", "Verif.Mixin.nine_violated"], "note": "For all programs that declare structs above the structs that embed them, without bit fields in embedded structs and with at most eight embedded structs. That it fails without each of these is proved."},
{"property": "C94", "status": "partial", "theorems": ["Verif.Destruct.taken_partial", "Verif.Destruct.once", "Verif.Destruct.sample_demo", "Verif.Destruct.own_violated", "Verif.Destruct.undropped_violated", "Verif.Destruct.wide_violated", "Verif.Destruct.wide_demo", "Verif.Destruct.underscore_violated"], "note": "For all function bodies: patterns of at most sixteen names, names declared once, values without a destructor. That it fails without each of these is proved."},
{"property": "C95", "status": "partial", "theorems": ["Verif.Destruct.taken_partial", "Verif.Destruct.payload", "Verif.Destruct.leaves", "Verif.Destruct.err_demo", "Verif.Destruct.sample_demo", "Verif.Destruct.deferred_violated", "Verif.Destruct.local_violated", "Verif.Destruct.falls_violated", "Verif.Destruct.enum_violated", "Verif.Destruct.enum_demo"], "note": "For all function bodies whose guards are for Some, Ok and Err and whose else blocks leave, defer nothing and declare nothing with a destructor. That it fails without each of these is proved, for enums of the program for all of them."},
{"property": "C96", "status": "partial", "theorems": ["Verif.LspNav.references_partial", "Verif.LspNav.rename_partial", "Verif.LspNav.ab_fit", "Verif.LspNav.ab_ok", "Verif.LspNav.ab_hyps", "Verif.LspNav.ab_requests", "Verif.LspNav.alike_violated", "Verif.LspNav.rename_local_violated", "Verif.LspNav.rename_param_violated", "Verif.LspNav.rename_under_violated", "Verif.LspNav.rename_forward_violated", "Verif.LspNav.rename_value_violated", "Verif.LspNav.rename_default_violated", "Verif.LspNav.rename_case_violated"], "note": "For all projects and sessions in which the name stands for one thing, is no parameter, is only used where the index looks, and is declared before it is used. That it fails without each of these is proved, for names spelled alike for all projects."},
{"property": "C97", "status": "partial", "theorems": ["Verif.LspNav.goto_partial", "Verif.LspNav.hover_partial", "Verif.LspNav.ab_fit", "Verif.LspNav.ab_hyps", "Verif.LspNav.ab_requests", "Verif.LspNav.goto_shadow", "Verif.LspNav.goto_cross_violated", "Verif.LspNav.hover_cross_violated", "Verif.LspNav.goto_other_violated", "Verif.LspNav.hover_overflow_violated", "Verif.LspNav.hover_overflow_case"], "note": "For all projects and sessions as in C96 in which the name is declared once; from other files if nothing is declared at the same place there; hover only in the file of the declaration. That it fails without these is proved; the overflow for all files with a long name."},
{"property": "C98", "status": "partial", "theorems": ["Verif.Semantic.encoding", "Verif.Semantic.sorted_exists", "Verif.Semantic.tokens_partial", "Verif.Semantic.types_partial", "Verif.Semantic.const_violated", "Verif.Semantic.main_noconst", "Verif.Semantic.main_hyps", "Verif.Semantic.main_answer", "Verif.Semantic.rest_violated", "Verif.Semantic.rest_demo", "Verif.Semantic.items_violated", "Verif.Semantic.items_demo", "Verif.Semantic.other_violated", "Verif.Semantic.other_demo", "Verif.Semantic.params_violated"], "note": "The encoding for all token lists and all orders qsort may leave equal elements in. The traversal for files with one declaration without parameters, further members and constructs it does not name; that everything else is not coloured is proved for all files."},
{"property": "C99", "status": "partial", "theorems": ["Verif.Befunge.skipNl_drop", "Verif.Befunge.grid_field", "Verif.Befunge.compiled_partial", "Verif.Befunge.hello_tame", "Verif.Befunge.hello_written", "Verif.Befunge.hello_compiled", "Verif.Befunge.hello_compiles", "Verif.Befunge.labels_nodup", "Verif.Befunge.underflow_violated", "Verif.Befunge.underflow_demo", "Verif.Befunge.string_violated", "Verif.Befunge.string_demo", "Verif.Befunge.bridge_violated", "Verif.Befunge.getput_violated", "Verif.Befunge.quote_violated", "Verif.Befunge.quote_demo", "Verif.Befunge.overflow_violated", "Verif.Befunge.overflow_spec", "Verif.Befunge.two_blocks_violated", "Verif.Befunge.layout_violated"], "note": "Lock-step simulation for every text and every number of cells, for runs without the steps that are proved to go wrong; `?`, `&` and `~` are left out."},
{"property": "C100", "status": "partial", "theorems": ["Verif.TypeCheck.compatible_iff", "Verif.TypeCheck.check_sound", "Verif.TypeCheck.check_complete", "Verif.TypeCheck.accepted_welltyped_partial", "Verif.TypeCheck.welltyped_accepted_partial", "Verif.TypeCheck.program_partial", "Verif.TypeCheck.typed_unique", "Verif.TypeCheck.demo", "Verif.TypeCheck.return_type_violated", "Verif.TypeCheck.methods_violated", "Verif.TypeCheck.unvisited_violated", "Verif.TypeCheck.float_mod_violated", "Verif.TypeCheck.index_violated", "Verif.TypeCheck.elements_violated", "Verif.TypeCheck.void_pointer_violated", "Verif.TypeCheck.method_arguments_violated", "Verif.TypeCheck.exhaustive_match_violated", "Verif.TypeCheck.string_condition_violated", "Verif.TypeCheck.dead_code_violated", "Verif.TypeCheck.dead_code_demo"], "note": "Soundness and completeness against typing rules, by mutual induction, for functions without the parts the checker does not look at; those are proved to be accepted unchecked."},
{"property": "C101", "status": "partial", "theorems": ["Verif.Driver.command", "Verif.Driver.position", "Verif.Driver.question", "Verif.Driver.output_missing", "Verif.Driver.input_missing", "Verif.Driver.file_first", "Verif.Driver.flags_first", "Verif.Driver.dash_dot_violated", "Verif.Driver.unknown_violated", "Verif.Driver.cc_violated", "Verif.Driver.program_args_violated"], "note": "Proved for every command line of well-formed parts behind a command; the first argument, the order of --cc and --cpp and arguments of the program are counterexamples."},
{"property": "C102", "status": "partial", "theorems": ["Verif.Driver.check_files", "Verif.Driver.frame", "Verif.Driver.temp_ne_out", "Verif.Driver.build_partial", "Verif.Driver.transpile_partial", "Verif.Driver.run_partial", "Verif.Driver.status_iff", "Verif.Driver.status_violated", "Verif.Driver.status_signal", "Verif.Driver.temp_violated", "Verif.Driver.extra_violated", "Verif.Driver.run_out_violated", "Verif.Driver.run_abs_violated"], "note": "Proved for every front end, C compiler, program and file system if the name of the generated file is free; a file with that name is lost, run removes the output, 128 becomes 0."},
{"property": "C103", "status": "partial", "theorems": ["Verif.Thread.runs_once", "Verif.Thread.finishes_once", "Verif.Thread.freed_once", "Verif.Thread.join_waits", "Verif.Thread.handle_fresh", "Verif.Thread.all_ran", "Verif.Thread.no_leak", "Verif.Thread.trampoline_safe", "Verif.Thread.spawn_then_join", "Verif.Thread.join_twice_violated", "Verif.Thread.join_detached_violated", "Verif.Thread.cancel_violated"], "note": "Proved for every program and every interleaving; join or detach twice is undefined instead of an Err, and cancel leaks the closure and leaves mutexes locked."},
{"property": "C104", "status": "proved", "theorems": ["Verif.Thread.exclusive", "Verif.Thread.unlock_owner", "Verif.Thread.one_holder", "Verif.Thread.destroyed_last", "Verif.Thread.counter", "Verif.Thread.race", "Verif.Thread.tidy_safe", "Verif.Thread.tidy_progress"], "note": "Every program and interleaving, given what POSIX says of pthread_mutex functions; malloc is supposed to succeed in Mutex::new, which does not look."},
{"property": "C105", "status": "partial", "theorems": ["Verif.Thread.sleep_partial", "Verif.Thread.sleep_long_violated", "Verif.Thread.sleep_negative_violated"], "note": "Proved up to 2147483 ms; above that the product overflows, and a negative time sleeps for more than half an hour."},
{"property": "C106", "status": "partial", "theorems": ["Verif.CJson.string_read", "Verif.CJson.string_accepts_partial", "Verif.CJson.lone_surrogate_rejected", "Verif.CJson.string_print_read", "Verif.CJson.string_print_visible", "Verif.CJson.string_room", "Verif.CJson.string_cut_violated"], "note": "Every string is read and printed back, within its buffers; but a \\u0000 or a \\u with characters that are not digits ends the value silently."},
{"property": "C107", "status": "partial", "theorems": ["Verif.CJson.doc_read", "Verif.CJson.doc_accepts_partial", "Verif.CJson.doc_print", "Verif.CJson.doc_print_read", "Verif.CJson.doc_trailing_violated", "Verif.CJson.doc_deep_violated", "Verif.CJson.loops_fuel"], "note": "Both directions for every document; what follows a document is not looked at, and values nested deeper than 1000 are printed but not read. Printing covers integers; doubles are not modelled."},
{"property": "C108", "status": "partial", "theorems": ["Verif.CJson.find_partial", "Verif.CJson.find_exact", "Verif.CJson.find_violated"], "note": "The first member whose name agrees up to the case of its letters; names that differ in case only are confused."},
{"property": "C109", "status": "partial", "theorems": ["Verif.Asm.block_partial", "Verif.Asm.basic_verbatim", "Verif.Asm.braces_violated", "Verif.Asm.digit_violated", "Verif.Asm.escape_violated", "Verif.Asm.triple_violated"], "note": "Every block of string lines with outputs, and every block without operands, reaches the assembler character for character with the operands in their places; but braces that are no placeholder, digits behind a placeholder, escapes and triple quotes do not."},
{"property": "C110", "status": "partial", "theorems": ["Verif.Asm.block_partial", "Verif.Asm.inputs_alone_violated", "Verif.Asm.clobbers_alone_violated", "Verif.Asm.in_first_violated", "Verif.Asm.operand_refused"], "note": "With outputs every operand and clobber has its role; inputs or clobbers without outputs are rejected by the C compiler for every block, and a first section with in(x) makes x an output."},
{"property": "C111", "status": "partial", "theorems": ["Verif.Asm.bare_partial", "Verif.Asm.bare_assembled", "Verif.Asm.intel_violated", "Verif.Asm.hole_violated", "Verif.Asm.mixed_violated", "Verif.Asm.unclosed_violated", "Verif.Asm.unclosed_strings", "Verif.Asm.accepted_closed", "Verif.Asm.unclosed_placeholder_violated"], "note": "One line for each bare instruction in AT&T syntax; a name or a placeholder right behind the mnemonic breaks it, and an unclosed block makes the compiler loop."},
{"property": "C112", "status": "partial", "theorems": ["Verif.Asm.expand_fits", "Verif.Asm.expand_empty_violated", "Verif.Asm.template_violated", "Verif.Asm.operands_violated", "Verif.Asm.name_violated"], "note": "The expanded template fits unless the block is empty; the template, the operand lists and the name buffer have fixed sizes that are not checked."},
{"property": "C113", "status": "partial", "theorems": ["Verif.LineEdit.edit_line_partial", "Verif.LineEdit.edit_line_nosearch", "Verif.LineEdit.typed_line", "Verif.LineEdit.other_keys", "Verif.LineEdit.search_backspace_violated"], "note": "For every history, indentation and sequence of keys the line is the one an editor shows; not so when backspace is pressed during a search, which edits the line that was found instead of the text looked for."},
{"property": "C114", "status": "proved", "theorems": ["Verif.LineEdit.readline_safe"], "note": "For all bytes: no access outside the buffer, and the line handed back is a C string."},
{"property": "C115", "status": "partial", "theorems": ["Verif.LineEdit.older_shows", "Verif.LineEdit.history_keeps_line", "Verif.LineEdit.draft_kept", "Verif.LineEdit.edit_line_partial", "Verif.LineEdit.search_loses_line_violated"], "note": "Up shows the right entry and Down brings the typed line back; a search finds the latest entry with the text, but it loses the line that was being typed."},
{"property": "C116", "status": "partial", "theorems": ["Verif.LineEdit.complete_iff", "Verif.LineEdit.tab_completes_partial", "Verif.LineEdit.tab_nothing", "Verif.LineEdit.recalled_line_not_completed_violated"], "note": "Tab completes exactly the words that have one completion on a typed line of less than 1023 bytes; on a line recalled from the history it never does."},
{"property": "C117", "status": "partial", "theorems": ["Verif.LineEdit.no_line_only_ctrlD", "Verif.LineEdit.end_of_input_is_a_line", "Verif.LineEdit.escape_swallows_violated", "Verif.LineEdit.delete_types_tilde_violated"], "note": "The end of the input is handed back as a line; the Escape key swallows two bytes and the Delete key types a tilde."},
{"property": "C118", "status": "partial", "theorems": ["Verif.Repl.first_entry", "Verif.Repl.second_entry_violated", "Verif.Repl.one_entry_violated", "Verif.Repl.open_line", "Verif.Repl.open_line_never_runs_violated", "Verif.Repl.third_line_violated"], "note": "The first entry is run as it should be.  The end of the loop body frees the history, so a second entry is undefined behaviour, no execution runs more than one entry, and entries of several lines are never run."},
{"property": "C119", "status": "partial", "theorems": ["Verif.Repl.definition_program", "Verif.Repl.statement_program", "Verif.Repl.statement_twice_violated", "Verif.Repl.prefix_violated", "Verif.Repl.brace_in_string_violated", "Verif.Repl.seven_violated", "Verif.Repl.comment_violated"], "note": "The program has the definitions and the statements of the session in order; the last statement is in it twice, words that begin with a keyword count as definitions, braces in strings and comments at the end of a statement break it, and whether it is an expression is asked of seven characters."},
{"property": "C120", "status": "partial", "theorems": ["Verif.Repl.program_fits", "Verif.Repl.getCode_fits", "Verif.Repl.long_watch_violated", "Verif.Repl.long_watch_reached"], "note": "The text fits its block for all sessions with watches of at most 480 characters; a longer one overruns a buffer."},
{"property": "C121", "status": "partial", "theorems": ["Verif.Repl.history_round_trip_partial", "Verif.Repl.entry_saves", "Verif.Repl.two_lines_violated", "Verif.Repl.torn_definition_violated", "Verif.Repl.exit_saves_nothing_violated", "Verif.Repl.save_load_violated"], "note": "Entries of one line come back from the history file; entries of two lines come back as two, leaving does not save, and a saved session cannot be loaded."},
{"property": "C122", "status": "partial", "theorems": ["Verif.Repl.delete_command", "Verif.Repl.watch_command", "Verif.Repl.unwatch_command", "Verif.Repl.load_command", "Verif.Repl.shell_command", "Verif.Repl.ends", "Verif.Repl.undo_reset", "Verif.Repl.quit_commands", "Verif.Repl.empty_line", "Verif.Repl.undo_after_entry_violated", "Verif.Repl.unknown_command_violated", "Verif.Repl.edit_violated", "Verif.Repl.end_of_input_violated"], "note": "The commands do what they say before the first entry; after it they use freed memory; unknown commands are run as code, :edit runs nothing, and the end of the input does not end the session."},
{"property": "C123", "status": "partial", "theorems": ["Verif.InitLit.embed_slice", "Verif.InitLit.embed_default", "Verif.InitLit.embed_string", "Verif.InitLit.embed_fixed", "Verif.InitLit.embed_missing", "Verif.InitLit.embed_nul_violated", "Verif.InitLit.embed_size_violated", "Verif.InitLit.embed_char_array_violated", "Verif.InitLit.embed_word_violated"], "note": "As a slice, an array other than of char, and a string, the text denotes the bytes of the file.  The size of an array is ignored, an array of char is no C, a string ends at the first NUL, and words that begin with embed are taken for it."},
{"property": "C124", "status": "partial", "theorems": ["Verif.InitLit.array_literal_partial", "Verif.InitLit.raw_source", "Verif.InitLit.braces_violated", "Verif.InitLit.unclosed_violated"], "note": "Elements with brackets and parentheses, of at most 123 characters each, come out in order with their number as length; commas in braces count as elements, and a literal that is not closed loops for ever."},
{"property": "C125", "status": "partial", "theorems": ["Verif.InitLit.embed_fits_iff", "Verif.InitLit.long_name_violated", "Verif.InitLit.long_element_violated", "Verif.InitLit.long_type_violated"], "note": "Exactly when the text of an embedded file fits its block; long file names, elements and type names overrun buffers."},
{"property": "C126", "status": "partial", "theorems": ["Verif.Forth.postfix_value", "Verif.Forth.stack_words", "Verif.Forth.div_zero_violated", "Verif.Forth.mod_zero_violated", "Verif.Forth.full_stack_violated", "Verif.Forth.leading_zero_violated"], "note": "An expression in postfix form leaves its value on the stack, if its parts are in range, no divisor is zero and the stack has room.  Division by zero keeps the dividend on the stack, a full stack drops values, and numbers with a leading zero are octal."},
{"property": "C127", "status": "partial", "theorems": ["Verif.Forth.structured_partial", "Verif.Forth.structured_unique", "Verif.Forth.any_blanks", "Verif.Forth.nested_if_violated", "Verif.Forth.do_without_loop"], "note": "Sequences, loops (also nested) and conditionals that contain no conditional do what is written; a conditional in a conditional ends at the first then.  No statement about conditionals in the branches of conditionals."},
{"property": "C128", "status": "partial", "theorems": ["Verif.Forth.define_word", "Verif.Forth.call_word", "Verif.Forth.call_program", "Verif.Forth.string_written", "Verif.Forth.late_binding_violated", "Verif.Forth.redefinition_violated", "Verif.Forth.long_name_violated", "Verif.Forth.full_dictionary_violated", "Verif.Forth.long_body_violated", "Verif.Forth.prelude_violated", "Verif.Forth.blanks_violated", "Verif.Forth.block_state_violated"], "note": "Definitions of at most 31 and 511 characters are kept, and calling a word is running its text.  Words are bound when called, a word defined by its old meaning never ends, long names and texts and the 129th word are dropped, the prelude is missing, blanks in strings are lost, and blocks see what earlier ones left."},
{"property": "C129", "status": "partial", "theorems": ["Verif.Forth.source_inv", "Verif.Forth.address_violated", "Verif.Forth.long_output_violated", "Verif.Forth.long_variable_violated", "Verif.Forth.body_overrun_violated"], "note": "The stacks, the dictionary and the output keep to their bounds in every run that ends; addresses are not checked, and output, names and texts overrun their buffers (undefined behaviour)."},
{"property": "C130", "status": "partial", "theorems": ["Verif.Lisp.transpile_text", "Verif.Lisp.block_meaning"], "note": "For every text of a block (any blanks, any nesting) over numbers, nil, variables, + - * / <, cons, car, cdr, if, let, defun, calls, print and println, what is written is the text of C that prints what the block prints.  Names are identifiers of C, functions are defined before their use, and what a let binds does not mention its own names; the evaluator of C is part of the specification."},
{"property": "C131", "status": "partial", "theorems": ["Verif.Lisp.operands_violated", "Verif.Lisp.comparison_violated", "Verif.Lisp.equals_violated", "Verif.Lisp.list_violated", "Verif.Lisp.string_violated", "Verif.Lisp.print_prefix_violated", "Verif.Lisp.percent_violated", "Verif.Lisp.parenthesis_violated", "Verif.Lisp.head_violated", "Verif.Lisp.symbol_violated", "Verif.Lisp.octal_violated", "Verif.Lisp.print_in_if_violated", "Verif.Lisp.end_violated", "Verif.Lisp.open_reported", "Verif.Lisp.stray_reported"], "note": "Violated: further operands are dropped, comparisons other than < call functions that do not exist, list and strings are nil, names that begin with print are print, % is a format, a list may end at the parenthesis of an operand, a call of a call is a comma expression, symbols are not mangled, zeros make octal, print in an if is no C, and definitions and strings that end early are read beyond the text."},
{"property": "C132", "status": "partial", "theorems": ["Verif.Lisp.let_self_violated", "Verif.Lisp.let_sequential_violated", "Verif.Lisp.let_hangs_violated", "Verif.Lisp.forward_violated", "Verif.Lisp.errors_unnoticed"], "note": "Violated: a let makes its bindings one after the other and each in its own scope, a let without lists of bindings is read for ever, functions cannot call functions defined later, and errors have values.  block_meaning (C130) is what holds without these."},
{"property": "C133", "status": "partial", "theorems": ["Verif.CHeader.declared_known", "Verif.CHeader.header_exact", "Verif.CHeader.item_decl", "Verif.CHeader.funcDecl_proto", "Verif.CHeader.first_spec", "Verif.CHeader.name_spec", "Verif.CHeader.structDecl_close_other", "Verif.CHeader.lines_file", "Verif.CHeader.lines_continued", "Verif.CHeader.struct_result_violated", "Verif.CHeader.trailing_violated", "Verif.CHeader.alias_violated", "Verif.CHeader.brace_violated", "Verif.CHeader.excluded_violated", "Verif.CHeader.statement_violated"], "note": "One-line prototypes, struct and union tags and closing typedefs of any header are known, and a header of such lines makes exactly these known.  Violated: functions that return structs, prototypes with a comment behind them or over several lines, typedef struct Tag Alias, a brace on the next line are not known; what is in comments or under #if 0 and calls in statements are."},
{"property": "C134", "status": "partial", "theorems": ["Verif.CHeader.read_once", "Verif.CHeader.include_twice", "Verif.CHeader.declared_known", "Verif.CHeader.scan_all", "Verif.CHeader.nested_line", "Verif.CHeader.nestedPath_dir", "Verif.CHeader.nestedPath_here", "Verif.CHeader.nestedPath_fits", "Verif.CHeader.deep_violated", "Verif.CHeader.root_violated"], "note": "Every header is read once and all that is included is read when there are at most seventeen headers.  Violated beyond that: the scan stops silently, and headers it stopped at count as read; headers in the root directory look in the current one."},
{"property": "C135", "status": "partial", "theorems": ["Verif.CHeader.define_known", "Verif.CHeader.macro_le", "Verif.CHeader.wide_violated", "Verif.CHeader.conditional_violated"], "note": "The expression parser is a parameter.  Violated: values beyond int are cut, and the first definition counts under any condition."},
{"property": "C136", "status": "partial", "theorems": ["Verif.CHeader.system_path", "Verif.CHeader.local_path", "Verif.CHeader.system_long_violated", "Verif.CHeader.system_open_violated", "Verif.CHeader.local_other_violated"], "note": "Violated: names of 256 characters and more overflow a buffer, a missing > is read for ever, and anything is taken for a string."},
{"property": "C137", "status": "partial", "theorems": ["Verif.Sql.block_meaning", "Verif.Sql.transpile_text", "Verif.Sql.transpile_ends", "Verif.Sql.quiet_violated", "Verif.Sql.condition_violated", "Verif.Sql.rows_violated", "Verif.Sql.star_violated", "Verif.Sql.other_block_violated"], "note": "Blocks of CREATE TABLE, INSERT INTO and SELECT * in any case, with blanks and comments, are written as C that prints what SQL prints; every block ends.  Violated: other statements, conditions, further rows and marks of SQL comments are left out silently; SELECT *FROM is refused; tables of other blocks do not compile."},
{"property": "C138", "status": "partial", "theorems": ["Verif.Sql.block_meaning", "Verif.Sql.full_violated", "Verif.Sql.again_violated", "Verif.Sql.short_violated", "Verif.Sql.call_violated", "Verif.Sql.backslash_violated"], "note": "Up to 128 rows of a table are kept in order and printed in order.  Violated: further rows are dropped silently, rows stay when the block runs again, a missing string is a null pointer, calls in values are cut, and a backslash at the end is read beyond the text."},
{"property": "C139", "status": "partial", "theorems": ["Verif.Sql.transpile_text", "Verif.Sql.cols_src", "Verif.Sql.typeSrc_text", "Verif.Sql.constraint_violated", "Verif.Sql.length_violated", "Verif.Sql.type_violated", "Verif.Sql.name_violated"], "note": "Columns of types INT, INTEGER, TEXT, STRING are the columns of the table.  Violated: PRIMARY KEY is a column, VARCHAR(10) ends the columns, other types are int, prefixes of TEXT are text, long names overflow their buffers."},
{"property": "C140", "status": "partial", "theorems": ["Verif.Plugin.name_plugin", "Verif.Plugin.name_found", "Verif.Plugin.name_unknown", "Verif.Plugin.macro_unknown", "Verif.Plugin.reach_inv", "Verif.Plugin.register_reach", "Verif.Plugin.register_none", "Verif.Plugin.same_name_violated", "Verif.Plugin.unknown_violated", "Verif.Plugin.alias_violated"], "note": "Behind any imports a name or alias of a plugin leads to the plugin of its latest import, names not imported to none, and an import fails only where no path has a plugin.  Violated: a plugin with the name of another takes its place; `plugin NAME ... end` knows no alias, and makes an unknown name a comment."},
{"property": "C141", "status": "partial", "theorems": ["Verif.Plugin.macro_block", "Verif.Plugin.macroLoop_bal", "Verif.Plugin.plugin_block", "Verif.Plugin.pluginLoop_end", "Verif.Plugin.layout_violated", "Verif.Plugin.long_violated", "Verif.Plugin.end_violated", "Verif.Plugin.lines_violated"], "note": "A block in braces or up to `end` hands its tokens to the plugin in order, in lines, if they fit in 8191 characters.  Violated: layout, empty lines and comments are lost, tokens that do not fit are left out silently, the first `end` ends a block, and lines are lost in blocks up to `end`."},
{"property": "C142", "status": "partial", "theorems": ["Verif.Comptime.main_statements", "Verif.Comptime.block_text", "Verif.Comptime.block_open", "Verif.Comptime.valid_iff", "Verif.Comptime.block_printed", "Verif.Comptime.printed_texts", "Verif.Comptime.error_stops", "Verif.Comptime.helper_violated", "Verif.Comptime.below_violated", "Verif.Comptime.impl_violated"], "note": "A comptime block is the text between its braces and is replaced by what its statements print in order; an error stops the compiler; exactly which blocks compile.  Violated: a @comptime function cannot call one above it, one below a block is unknown to it, and methods of a block are left out."},
{"property": "C143", "status": "partial", "theorems": ["Verif.MatchExpr.statement_arms", "Verif.MatchExpr.expression_arms_partial", "Verif.MatchExpr.expression_pattern_violated", "Verif.MatchExpr.negative_violated", "Verif.MatchExpr.nine_violated"], "note": "The arms of a match statement are read as written: alternatives, paths, ranges, variables, guards.  In expressions this holds for patterns of one token.  Violated: paths, ranges and alternatives are refused there; negative numbers are refused in both; a ninth variable is written beyond an array."},
{"property": "C144", "status": "partial", "theorems": ["Verif.MatchExpr.payload_parts", "Verif.MatchExpr.lastPart_eq", "Verif.MatchExpr.underscore_violated", "Verif.MatchExpr.self_violated"], "note": "The variables of an arm have the payload or the parts of a tuple, by value or address, whatever other arms have.  Violated: a variant with an underscore in its name reads the payload of another variant; match self does not compile without ref."},
{"property": "C145", "status": "partial", "theorems": ["Verif.MatchExpr.missing_exact_partial", "Verif.MatchExpr.alternative_violated", "Verif.MatchExpr.only_alternatives_violated", "Verif.MatchExpr.guard_missing_violated"], "note": "Exactly the variants without arm are warned about, when each arm has one alternative and no guard.  Violated: variants in alternatives are warned about, nothing is warned about when all arms have alternatives, and guarded arms count as arms for all values."},
{"property": "C146", "status": "partial", "theorems": ["Verif.MatchExpr.match_value_partial", "Verif.MatchExpr.string_violated", "Verif.MatchExpr.printed_violated", "Verif.MatchExpr.return_violated", "Verif.MatchExpr.blocks_violated", "Verif.MatchExpr.type_violated", "Verif.MatchExpr.unset_violated"], "note": "The value of a match is that of the chosen arm, for arms of one type of which one is not a block.  Violated: string literals are printed and are not values, return in an arm and blocks alone are not C, later arms are converted to the type of the first, and without a chosen arm the value is unset."},
{"property": "C147", "status": "partial", "theorems": ["Verif.TypeParse.read_W", "Verif.TypeParse.never_stuck", "Verif.TypeParse.prim_documented", "Verif.TypeParse.prim_bits", "Verif.TypeParse.path_read", "Verif.TypeParse.module_type", "Verif.TypeParse.gap_violated", "Verif.TypeParse.assign_violated", "Verif.TypeParse.ge_violated", "Verif.TypeParse.empty_violated"], "note": "Every type of the documented grammar is read as it is written, nested to any depth, and reading ends on every text; the documented names are the documented types, iN and uN for every N.  Violated: a blank before >> ends the type too early, T*= loses the =, T<U>= is an error, Vec<> is accepted.  Expressions for sizes other than numbers are a parameter of the model."},
{"property": "C148", "status": "partial", "theorems": ["Verif.TypeParse.generic_read", "Verif.TypeParse.compare_partial", "Verif.TypeParse.compare_number", "Verif.TypeParse.index_violated", "Verif.TypeParse.paren_violated", "Verif.TypeParse.shift_violated", "Verif.TypeParse.pair_violated", "Verif.TypeParse.ninth_violated"], "note": "Up to eight types between < and > behind a generic are its arguments; a < v and a < v * w are comparisons if nothing behind looks like a type, and a < 5 always is.  Violated: a < v[i], a < (x + y), a < v << 1 and f(a < b, c > d) are errors of the compiler; a ninth type argument is written beyond an array."},
{"property": "C149", "status": "partial", "theorems": ["Verif.TypeParse.literal_opens", "Verif.TypeParse.block_partial", "Verif.TypeParse.fields_read", "Verif.TypeParse.label_violated", "Verif.TypeParse.prefix_violated"], "note": "A literal with fields is read with its fields in order; a block behind a variable is a block.  Violated: a block that begins with a label, and an empty block behind a variable called like a struct with an underscore, are taken for literals."},
{"property": "C150", "status": "partial", "theorems": ["Verif.TypeParse.infer_partial", "Verif.TypeParse.second_violated", "Verif.TypeParse.inner_violated", "Verif.TypeParse.string_violated"], "note": "The argument found is the right one for one parameter and fields of type T, slice, array or pointer of T.  Violated: a second parameter is not looked for, nothing is found in Vec<T> or T**, nor from a string for T*."},
{"property": "C151", "status": "partial", "theorems": ["Verif.Complete.dot_fields_partial", "Verif.Complete.nameBefore_spec", "Verif.Complete.isIdent_spec", "Verif.Complete.cleanName_spec", "Verif.Complete.localType_param", "Verif.Complete.localType_var", "Verif.Complete.shadow_violated", "Verif.Complete.chain_violated", "Verif.Complete.const_violated", "Verif.Complete.column_violated", "Verif.Complete.long_violated"], "note": "Right behind the dot of a parameter or variable, pointer or not, exactly the fields of its struct are offered.  Violated: an outer variable of the same name wins, a.b. is taken for b, const S has no fields, columns behind the end and names of 256 characters are read and written outside the buffers."},
{"property": "C152", "status": "partial", "theorems": ["Verif.Complete.locals_iff", "Verif.Complete.scope_offered_partial", "Verif.Complete.params_offered", "Verif.Complete.target_spec", "Verif.Complete.target_around", "Verif.Complete.below_violated", "Verif.Complete.ended_violated", "Verif.Complete.loop_violated", "Verif.Complete.many_violated", "Verif.Complete.autofree_violated", "Verif.Complete.outside_violated", "Verif.Complete.imported_violated", "Verif.Complete.again_violated", "Verif.Complete.removed_violated"], "note": "Every parameter, and every variable in scope inside blocks, if, while and for of a function of less than 1024 statements, is offered.  Violated: so are variables below the cursor, of blocks that have ended and, behind the end of a function, all of its own; variables of loop, for in and match are not, nor any in a long function; functions of imported files take the place of the one around the cursor; names are repeated with every change and stay when removed."},
{"property": "C153", "status": "partial", "theorems": ["Verif.Complete.outline_functions", "Verif.Complete.outline_var", "Verif.Complete.outline_names", "Verif.Complete.outline_fields", "Verif.Complete.place_violated", "Verif.Complete.foreign_violated", "Verif.Complete.missing_violated"], "note": "Functions and variables are listed in order at their places, structs with their fields.  Violated: structs, enums and constants are listed at the beginning of the file, declarations of imported files as those of the file, generic functions, traits and methods not at all."},
{"property": "C154", "status": "partial", "theorems": ["Verif.Input.line_read", "Verif.Input.last_read", "Verif.Input.end_read", "Verif.Input.zero_violated"], "note": "readln() returns each line of any length without its newline, and NULL at the end.  Violated: a zero byte ends the text.  A prompt without variables calls the function readln of std/io.zc (Io.readln, C64), which exists only if that file is imported; this is read off the source and not a theorem."},
{"property": "C155", "status": "partial", "theorems": ["Verif.Input.values_read", "Verif.Input.short_read", "Verif.Input.nothing_read", "Verif.Input.enc_value", "Verif.Input.printed_read", "Verif.Input.arguments_fit", "Verif.Input.many_violated", "Verif.Input.blank_violated", "Verif.Input.narrow_violated", "Verif.Input.wide_violated", "Verif.Input.small_violated", "Verif.Input.text_violated", "Verif.Input.second_line_violated"], "note": "Up to sixteen variables of type int, i32, f32, f64, char and, after a prompt, string get the values of the words of the line, whatever the white space; the result is their number; missing words leave variables unchanged.  Violated: bool and 16 bit integers are written past their end, 64 bit integers get only their lower half, i8, u8 and byte get the code of a character, readln into a string overwrites the pointer, a blank line gives -1, a seventeenth variable overruns an array of the compiler."},
{"property": "C156", "status": "partial", "theorems": ["Verif.Highlight.highlight_shows", "Verif.Highlight.line_shown", "Verif.Highlight.prompts_shown", "Verif.Highlight.cursor_shown_partial", "Verif.Highlight.cursor_violated", "Verif.Highlight.long_violated"], "note": "Colours and marks change nothing of what the terminal shows: for every text, cursor and screen the row shows the prompt and the line, and in ASCII the cursor is where it is.  Violated: behind characters that are not ASCII the cursor is shown too far right; lines wider than the row are repeated with every key."},
{"property": "C157", "status": "partial", "theorems": ["Verif.Highlight.matching_iff", "Verif.Highlight.marks_spec", "Verif.Highlight.marks_under", "Verif.Highlight.marks_before", "Verif.Highlight.string_violated"], "note": "The marked brackets are exactly the pairs between which brackets of their kind are balanced.  Violated: brackets in strings are counted."},
{"property": "C158", "status": "partial", "theorems": ["Verif.Highlight.word_coloured", "Verif.Highlight.keyword_coloured", "Verif.Highlight.call_coloured", "Verif.Highlight.type_coloured", "Verif.Highlight.constant_coloured", "Verif.Highlight.words_violated"], "note": "Words are coloured as a whole; exactly the keywords of the table are shown as keywords, names before ( as functions.  Violated: loop, unless, async, await, alias, in and the types string, i32, u8, f64, usize and the like are not known."},
{"property": "C159", "status": "partial", "theorems": ["Verif.Diag.report_plain", "Verif.Diag.report_token_partial", "Verif.Diag.context_line", "Verif.Diag.wholeLine_spec", "Verif.Diag.dec_value", "Verif.Diag.caret_below", "Verif.Diag.long_number_violated", "Verif.Diag.tabs_violated", "Verif.Diag.utf8_violated", "Verif.Diag.comment_violated", "Verif.Diag.char_violated", "Verif.Diag.line_violated"], "note": "For every token of every file whose column the lexer gets right, the message has the number of line and column, the whole line between its newlines, and in the first 999 lines of printable ASCII the caret below the token.  Violated: the caret is to the left from line 1000 on and behind tabs, to the right behind characters of several bytes; behind block comments the line is cut, behind character literals with a newline two lines are shown, and escape characters swallow the rest.  Not modelled: the name of the file (tokens do not carry it, so the checks after parsing name the main file)."},
{"property": "C160", "status": "partial", "theorems": ["Verif.Diag.write_text", "Verif.Diag.write_coloured", "Verif.Diag.literal_kept", "Verif.Diag.report_colours", "Verif.Diag.text_violated", "Verif.Diag.literal_violated", "Verif.Diag.literal_open_violated"], "note": "What is printed to a file or pipe is the coloured text without the colours, and text without escape characters is unchanged, the generated code included.  Violated: an escape character with [ in a string literal is removed from the generated program up to the next m, or with the closing quote."},
{"property": "C161", "status": "partial", "theorems": ["Verif.DropGlue.rounds_closed", "Verif.DropGlue.flags_iff_partial", "Verif.DropGlue.calls_spec_partial", "Verif.DropGlue.destroy_spec_partial", "Verif.DropGlue.calls_once", "Verif.DropGlue.sample_fine", "Verif.DropGlue.array_violated", "Verif.DropGlue.enum_violated", "Verif.DropGlue.union_violated", "Verif.DropGlue.instance_violated", "Verif.DropGlue.generic_member_violated", "Verif.DropGlue.order_violated", "Verif.DropGlue.late_violated", "Verif.DropGlue.underscore_violated", "Verif.DropGlue.clash_violated"], "note": "Propagation ends and is complete; in programs of structs whose destructors stand behind the structs, a variable destroys exactly its parts with destructors, each once, owners before their parts.  Violated: elements of arrays and payloads of enums are not destroyed, destructors of enums never called, all members of a union are destroyed, members of instances of generic structs are not, destructors before the struct or behind the first use of an instance are ignored, names with _ confuse the search for destructors."},
{"property": "C162", "status": "partial", "theorems": ["Verif.Net.run_refines", "Verif.Net.all_closed", "Verif.Net.others_kept", "Verif.Net.copy_violated"], "note": "For every sequence of operations on sockets and all answers of the system, variables use and close their own sockets only; failed connect and bind leave nothing open; when all variables are gone every socket was closed once; other descriptors are untouched.  Violated: expect of a Result gives a second variable with the same descriptor, which then reads and closes a socket of somebody else."},
{"property": "C163", "status": "partial", "theorems": ["Verif.Net.port_partial", "Verif.Net.port_violated"], "note": "Proved for 0 to 65535.  Violated: other numbers are not rejected but reduced modulo 65536."},
{"property": "C164", "status": "partial", "theorems": ["Verif.CJsonList.step_inv", "Verif.CJsonList.run_inv", "Verif.CJsonList.empty_inv", "Verif.CJsonList.add_rep", "Verif.CJsonList.detach_rep", "Verif.CJsonList.insert_rep", "Verif.CJsonList.replace_rep", "Verif.CJsonList.shared_violated"], "note": "The doubly linked lists of cJSON are lists after every sequence of adding, taking out, inserting and replacing; arrays that are not named do not change.  Violated: adding an item that still is in another array is not noticed and mixes the two up."},
{"property": "C165", "status": "partial", "theorems": ["Verif.GenCall.instances_partial", "Verif.GenCall.sample_fine", "Verif.GenCall.recursive_loops_violated", "Verif.GenCall.recursive_unknown_violated", "Verif.GenCall.in_range_violated", "Verif.GenCall.hidden_violated", "Verif.GenCall.pointer_violated", "Verif.GenCall.struct_pointer_violated", "Verif.GenCall.prefix_violated", "Verif.GenCall.variable_violated", "Verif.GenCall.taken_violated", "Verif.GenCall.letter_violated"], "note": "For every program whose generic functions are defined before their calls and whose names cannot be mixed up, the compiler ends and makes exactly the instances that are needed, each once.  Violated: recursive generic functions (endless, or an error), calls in loops over ranges, `loop`, `defer`, lambdas and other nodes, `g<T*>`, pointers to structs handed on, names that begin with the name of a generic function."},
{"property": "C166", "status": "partial", "theorems": ["Verif.GenImpl.methods_partial", "Verif.GenImpl.functions_partial", "Verif.GenImpl.types_partial", "Verif.GenImpl.asked_only", "Verif.GenImpl.run_impls", "Verif.GenImpl.sample_written", "Verif.GenImpl.sample_instances", "Verif.GenImpl.nest_loops_violated", "Verif.GenImpl.several_violated", "Verif.GenImpl.several_order_violated", "Verif.GenImpl.prefix_violated", "Verif.GenImpl.nested_parameter_violated"], "note": "In whatever order structs, `impl` blocks and uses come, every block is written exactly once for every instance, the types of its methods and fields have instances, and only what is asked for is made.  Violated: a method that returns `Box<Box<T>>` (endless), structs with several parameters, return types whose names begin with that of a generic struct, `Vec<Opt<T>>` in generic code."},
{"property": "C167", "status": "partial", "theorems": ["Verif.GenScope.scopes_partial", "Verif.GenScope.declare_scope", "Verif.GenScope.registerAll_ok", "Verif.GenScope.functions_ok", "Verif.GenScope.forward_violated", "Verif.GenScope.twice_violated", "Verif.GenScope.same_name_violated"], "note": "Type parameters are known in their declaration and nowhere else, for every sequence of declarations.  Violated: forward declarations of generic structs; `impl Into<T> for Box<T>` and `struct P<T, T>` make the compiler write outside of an array."},
{"property": "C168", "status": "partial", "theorems": ["Verif.IfExpr.if_partial", "Verif.IfExpr.value_partial", "Verif.IfExpr.sample_fine", "Verif.IfExpr.sample_out", "Verif.IfExpr.second_violated", "Verif.IfExpr.own_variable_violated", "Verif.IfExpr.shadowed_violated", "Verif.IfExpr.defer_violated", "Verif.IfExpr.defer_both_violated", "Verif.IfExpr.twice_violated", "Verif.IfExpr.string_violated"], "note": "Functions with nested `if` expressions whose branches end with the same type do in C what they say, with the same output in the same order.  Violated: a second branch of another type is converted, results that are variables of the branch are not C or have the type of another variable, `defer` in a branch runs at the end of the function whether or not the branch was taken (and twice when nested), string literals at the end of a branch are not C."},
{"property": "C169", "status": "partial", "theorems": ["Verif.CDecl.decl_partial", "Verif.CDecl.sig_partial", "Verif.CDecl.Decl.unique", "Verif.CDecl.sample_good", "Verif.CDecl.sample_text", "Verif.CDecl.sample_sig", "Verif.CDecl.array_pointer_violated", "Verif.CDecl.array_of_functions_violated", "Verif.CDecl.function_result_violated", "Verif.CDecl.pointer_result_violated", "Verif.CDecl.pointer_result_sample"], "note": "The C text of a declaration, read by the grammar of C, has the type that was written, for arrays of pointers to named types and for function pointers with such parameters at any depth; the same for functions.  Violated: pointers to arrays, arrays of function pointers, function pointers that return function pointers, functions that return pointers to function pointers."},
{"property": "C170", "status": "partial", "theorems": ["Verif.JsonOwn.build_free_partial", "Verif.JsonOwn.push_ok", "Verif.JsonOwn.set_ok", "Verif.JsonOwn.push_other", "Verif.JsonOwn.set_other", "Verif.JsonOwn.free_rep", "Verif.JsonOwn.at_ok", "Verif.JsonOwn.get_ok", "Verif.JsonOwn.sample_distinct", "Verif.JsonOwn.sample_build", "Verif.JsonOwn.sample_free", "Verif.JsonOwn.set_twice_violated", "Verif.JsonOwn.free_twice_violated"], "note": "Values built with push and set (different keys in every object) are in memory as written, at any depth; free gives back exactly their memory and the heap is as before; get, at and len read what was built.  Violated: setting a key again loses the old value for good; calling free and then the destructor (as in the documentation's example) frees twice."},
{"property": "C171", "status": "partial", "theorems": ["Verif.StdRegex.find_ok", "Verif.StdRegex.isMatch_ok", "Verif.StdRegex.findAt_partial", "Verif.StdRegex.matchAt_partial", "Verif.StdRegex.one_finds", "Verif.StdRegex.one_free", "Verif.StdRegex.one_sample", "Verif.StdRegex.matchFull_violated", "Verif.StdRegex.findAt_end_violated", "Verif.StdRegex.findAt_position_violated", "Verif.StdRegex.anchor_violated", "Verif.StdRegex.case_violated"], "note": "With a library that finds the first match: find returns it with its text, match says whether there is one, find_at and match_at do so from an offset on for expressions that do not look around.  Violated: match_full is a search; find_at finds nothing at the end of the text, counts positions from the offset and takes it for the beginning of the text; the default flags ignore case."},
{"property": "C172", "status": "partial", "theorems": ["Verif.EvalOrder.value_ok_partial", "Verif.EvalOrder.no_ub", "Verif.EvalOrder.ends", "Verif.EvalOrder.step_size", "Verif.EvalOrder.sample", "Verif.EvalOrder.moved_argument_violated", "Verif.EvalOrder.copy_violated", "Verif.EvalOrder.increments_violated", "Verif.EvalOrder.calls_violated"], "note": "For operands that do not mention what another operand gives away or counts up, with at most one of them making calls: value, calls and variables as written in every order a C compiler may choose, and no undefined behaviour.  Violated for accepted programs: f(x.n, x) may pass 0 for x.n; a value whose type is Copy and has a destructor is zeroed when it is copied; i++ + i++ is undefined; the calls in f(1) + g(2) may be made in the other order."},
{"property": "C173", "status": "proved", "theorems": ["Verif.CJsonBuf.print_ok", "Verif.CJsonBuf.value_ok", "Verif.CJsonBuf.elems_ok", "Verif.CJsonBuf.members_ok", "Verif.CJsonBuf.ensure_ok", "Verif.CJsonBuf.update_ok", "Verif.CJsonBuf.sample"], "note": "For every value the library can hold, compact or indented: no byte outside the buffer is written, no byte that was not written is read, and the block returned holds exactly the text of the value and its terminator; NULL exactly if the text and two bytes more exceed INT_MAX.  Allocation is assumed to succeed."},
{"property": "C174", "status": "partial", "theorems": ["Verif.WinArgs.received_ok_partial", "Verif.WinArgs.line_ok", "Verif.WinArgs.quoteArg_ok", "Verif.WinArgs.args_line", "Verif.WinArgs.sample", "Verif.WinArgs.trailing_slash_violated", "Verif.WinArgs.empty_violated", "Verif.WinArgs.slash_quote_violated"], "note": "The command line is built within its memory for all arguments.  It is split by the C runtime into the arguments that were given, if the program's name has no quote, no argument is empty, and none that needs quotes has a backslash before a quote or at its end.  Violated for the others: C:/My Dir/ with backslashes arrives with a quote for its last backslash, empty arguments vanish."},
{"property": "C175", "status": "partial", "theorems": ["Verif.Undef.reported_partial", "Verif.Undef.allowed_not_reported", "Verif.Undef.run_ok", "Verif.Undef.loadAll_ok", "Verif.Undef.registerAll_ok", "Verif.Undef.sample", "Verif.Undef.interop_violated", "Verif.Undef.named_violated"], "note": "Never leaves its tables, never reports a function that is defined, declared extern or listed in a configuration that counts; reports every other call if the program imports no C header and no path with /std/, the arguments have no names and the name does not begin with _z_ or _Z.  Violated otherwise: one import from std (or from any directory called std) switches the report off, calls with named arguments are never reported."},
{"property": "C176", "status": "partial", "theorems": ["Verif.DeferIt.block_partial", "Verif.DeferIt.replace_eval", "Verif.DeferIt.declarations_kept", "Verif.DeferIt.own_it_apart", "Verif.DeferIt.sample_fine", "Verif.DeferIt.own_it_violated", "Verif.DeferIt.hidden_it_violated", "Verif.DeferIt.defer_string_violated"], "note": "Holds for every block in which it occurs only below calls, members and operators in a defer attached to a declaration, and in which a defer after the semicolon of a declaration neither mentions it nor is a string.  Violated otherwise: the semicolon is eaten before the test, so the next defer is always taken; it below indexes, casts, conditionals and initialisers is left alone; a deferred string after a declaration prints nothing."},
{"property": "C177", "status": "partial", "theorems": ["Verif.ClosureOwn.never_twice", "Verif.ClosureOwn.exact_partial", "Verif.ClosureOwn.runBody_exact", "Verif.ClosureOwn.end_order", "Verif.ClosureOwn.fn_order", "Verif.ClosureOwn.sample_borrows", "Verif.ClosureOwn.captured_violated", "Verif.ClosureOwn.argument_violated", "Verif.ClosureOwn.move_out_violated"], "note": "No value is ever destroyed twice, and every value is destroyed exactly once if lambdas capture by reference and closures get no arguments with destructors.  Violated otherwise: a value captured by value and a value passed to a closure are never destroyed, and a lambda that moves a capture or a parameter gives C code that is not compiled."},
{"property": "C178", "status": "partial", "theorems": ["Verif.Json.json_read_partial", "Verif.Json.parseValue_val", "Verif.Json.json_escape_violated", "Verif.Json.json_long_string_violated"], "note": "Every text of the grammar of RFC 8259, with any white space and the escapes of quote, backslash, slash, line feed, tab and carriage return, is read as the value it stands for.  Violated for the escapes of backspace, form feed and of code points, whose letter is read instead, and for strings of 4096 bytes or more."},
{"property": "C179", "status": "partial", "theorems": ["Verif.LambdaHead.lambda_read_partial", "Verif.LambdaHead.name_kept", "Verif.LambdaHead.tuple_kept", "Verif.LambdaHead.guard_violated", "Verif.LambdaHead.guard_paren_violated", "Verif.LambdaHead.no_params_violated", "Verif.LambdaHead.comma_violated", "Verif.LambdaHead.comma_bare_violated", "Verif.LambdaHead.function_type_violated", "Verif.LambdaHead.paren_overflow_violated", "Verif.LambdaHead.cap_overflow_violated", "Verif.LambdaHead.fn_overflow_violated", "Verif.LambdaHead.caps_overflow_violated"], "note": "Each form of a lambda is read with the captures, parameters, types and capture mode that are written, up to 16 parameters and 32 captures; names and tuples without an arrow are not taken for lambdas.  Violated: guards that end in a name (`n if ok => e`) are read as a lambda; `[&]() -> e` is rejected; types with commas or parentheses in the forms with lookahead are misread; more parameters or captures, and tuples of more than 16 names, write behind the end of an array."},
{"property": "C180", "status": "partial", "theorems": ["Verif.StdMem.alloc_fresh", "Verif.StdMem.zalloc_fresh", "Verif.StdMem.alloc_n_partial", "Verif.StdMem.alloc_n_violated", "Verif.StdMem.mem_zero_exact", "Verif.StdMem.mem_copy_partial", "Verif.StdMem.mem_copy_violated", "Verif.StdMem.swap_exact", "Verif.StdMem.elements_separate", "Verif.StdMem.swap_twice", "Verif.StdMem.box_free_exact", "Verif.StdMem.box_free_twice_violated", "Verif.StdMem.box_shared_violated"], "note": "Allocation gives memory of its own of the right size, zeroed where promised; clearing, copying and swapping change exactly the bytes of the objects named.  Violated: `alloc_n` of 2^64 bytes or more succeeds with a block that is too small; `mem_copy` of overlapping ranges and a second `Box::free` are undefined."},
{"property": "C181", "status": "partial", "theorems": ["Verif.RawBlock.raw_exact", "Verif.RawBlock.raw_open_reported", "Verif.RawBlock.raw_stmt_lines", "Verif.RawBlock.raw_stmt_no_cr", "Verif.RawBlock.directive_exact", "Verif.RawBlock.emit_once", "Verif.RawBlock.emit_order_partial", "Verif.RawBlock.repeated_dropped_violated", "Verif.RawBlock.conditionals_violated", "Verif.RawBlock.guarded_block_violated", "Verif.RawBlock.crlf_block_violated", "Verif.RawBlock.directive_crlf_violated"], "note": "Raw blocks and directives are cut out of the source whole, and every text is in the output once, in the order of the program if directives come first and no text is repeated.  Violated: a repeated text is dropped, so that all but the first of several `#endif` vanish; directives are moved in front of the blocks they guard; with carriage returns a directive loses its continuation lines and a block that begins with a directive is put in the wrong place."},
{"property": "C182", "status": "partial", "theorems": ["Verif.Attrs.fn_attributes_partial", "Verif.Attrs.struct_attributes", "Verif.Attrs.section_custom_violated", "Verif.Attrs.align_prefix_violated", "Verif.Attrs.named_value_violated", "Verif.Attrs.vector_violated", "Verif.Attrs.empty_args_violated"], "note": "The C attributes of a function are one well-formed list with exactly the attributes written, unless a section stands next to attributes that are passed on and no flag is set; those of a struct are well-formed and exactly the ones written (alignment in decimal).  Violated: section and custom attribute without a flag give a list without a comma; alignments in hexadecimal or binary, or given by a name, are dropped silently; a vector struct loses its attributes; an empty argument list is rejected."},
{"property": "C183", "status": "partial", "theorems": ["Verif.Env.env_history", "Verif.Env.set_get", "Verif.Env.dup_stable", "Verif.Env.get_stable_partial", "Verif.Env.get_dangling_violated", "Verif.Env.windows_empty_violated", "Verif.Env.windows_unset_violated"], "note": "After any program a variable has the value it was last set to (POSIX); results tell exactly whether the name is one; copies made by get_dup survive every later call; texts of get stay until the variable is set or unset.  Violated: a text of get is given up when the variable is set again; on Windows setting the empty text removes the variable, and unset of a text with `=` sets a variable."},
{"property": "C184", "status": "partial", "theorems": ["Verif.Alias.alias_means_partial", "Verif.Alias.alias_only", "Verif.Alias.typedef_partial", "Verif.Alias.wide_violated", "Verif.Alias.header_violated", "Verif.Alias.cycle_violated", "Verif.Alias.shapes_violated", "Verif.Alias.typedef_violated"], "note": "An alias is read as the type it was declared to be, with any stars, sizes and const around it, for simple types, pointers, arrays and function pointers, also over chains of aliases.  Violated: an alias of u128 is u32, those of i128 and isize are unknown structs; a struct of an imported C header, and aliases in a cycle, make the compiler recurse without end; function types, slices of pointers, pointers to arrays, restrict and pointers to function pointers change; the typedef of arrays, function pointers and c_int is not C."},
{"property": "C185", "status": "partial", "theorems": ["Verif.SizeOf.sizeof_type_partial", "Verif.SizeOf.sizeof_variable_partial", "Verif.SizeOf.sizeof_expr", "Verif.SizeOf.index_zero_violated", "Verif.SizeOf.index_expr_violated", "Verif.SizeOf.c_kind_violated"], "note": "For every simple type with stars, array sizes and const, every variable and every element with a number other than 0 as index, C takes the text of sizeof for what was written; other operands are expressions.  Violated: sizeof(x[0]) is the size of the slice type Slice_x, sizeof(x[i]) is rejected, sizeof(c_int*) and typeof(c_int) have a word C does not know."},
{"property": "C186", "status": "partial", "theorems": ["Verif.MoveClosure.closures_sound_partial", "Verif.MoveClosure.no_false_alarm", "Verif.MoveClosure.call_twice_violated", "Verif.MoveClosure.ref_give_violated", "Verif.MoveClosure.ref_later_violated"], "note": "For straight-line functions with any closures called any number of times: no value is used after it was given away, if closures give away only their own variables and what is captured by reference is given away nowhere, and such functions are not rejected without reason.  Violated: a closure that gives away a captured value may be called twice; a variable may be used after a closure gave it away by reference; a closure may be called after the variable it refers to was given away."},
{"property": "C187", "status": "partial", "theorems": ["Verif.LinkCmd.args_wanted", "Verif.LinkCmd.args_only", "Verif.LinkCmd.args_shape", "Verif.LinkCmd.links_partial", "Verif.LinkCmd.static_math_violated", "Verif.LinkCmd.run_partial", "Verif.LinkCmd.run_absolute_violated"], "note": "For every configuration: all words of the command, the flags and the link flags, the output and all C files are passed in order, with nothing else but the compiler's own options, and libraries behind the files.  With archives read from left to right, the place of -lm and -lpthread makes no difference for libraries that do not use them.  Violated: a static library that uses mathematics does not link unless the program does too; zc run with an absolute output path runs another file."},
{"property": "C188", "status": "partial", "theorems": ["Verif.Vector.read_named", "Verif.Vector.read_positional_partial", "Verif.Vector.read_name_violated", "Verif.Vector.per_lane_partial", "Verif.Vector.broadcast_partial", "Verif.Vector.broadcast_violated", "Verif.Vector.too_many", "Verif.Vector.names_ignored", "Verif.Vector.check_named", "Verif.Vector.check_positional_violated", "Verif.Vector.index_partial", "Verif.Vector.index_violated"], "note": "Proved for all numbers of lanes, lane types and values: values are in their lanes, each evaluated once, if the first one does not begin with a name; one value without effects is in all lanes; indices within the vector give the lane.  Violated: V{a, b} is not read if a is a variable or a call; V{v: f()} calls f once for each lane; the checker rejects every V{1, 2}; an index outside the vector is not stopped."},
{"property": "C189", "status": "partial", "theorems": ["Verif.AutoImport.listed_partial", "Verif.AutoImport.tree_partial", "Verif.AutoImport.only_needed", "Verif.AutoImport.lost_violated", "Verif.AutoImport.location_partial", "Verif.AutoImport.location_violated"], "note": "Proved for every set of files and every order of imports: nothing but the declarations of needed files is printed, no file is parsed twice, types always reach the program, functions if no method loops over an array, globals if no function does, and everything from files that no automatic import needs.  Violated: a loop over an array that is parsed before the import of std/core.zc makes #define panic and __zen_hash_seed disappear.  The file is the one that an import finds unless ZC_ROOT or an include path has it: then another one or none is taken."},
{"property": "C190", "status": "partial", "theorems": ["Verif.ImplScope.methods_once_partial", "Verif.ImplScope.first_loop_violated", "Verif.ImplScope.generic_violated"], "note": "Proved for all programs of functions, impl blocks and imports of std/slice.zc in which the first loop over an array is not in a method: all functions and methods are printed once and in order, each method with a self of its type.  Violated, for every impl: if the first loop is in a method, this one and all behind it are printed twice, those behind it have an untyped self and are registered as functions; with a generic method there the compiler reads through NULL."},
{"property": "C191", "status": "partial", "theorems": ["Verif.TupleReturn.literal", "Verif.TupleReturn.other", "Verif.TupleReturn.returns_partial", "Verif.TupleReturn.after_first", "Verif.TupleReturn.loop_violated", "Verif.TupleReturn.lambda_violated", "Verif.TupleReturn.generic_violated", "Verif.TupleReturn.rest_violated", "Verif.TupleReturn.elems_fuel", "Verif.TupleReturn.end_violated", "Verif.TupleReturn.unfinished"], "note": "Proved for all programs of functions, loops and lambdas in which functions returning tuples have no loop over an array before std/slice.zc is imported, and lambdas return tuples only of the type of the function they are in: each returned tuple is a literal of that type with exactly its elements, all else is left to the reader of expressions.  Violated: behind the first loop over an array the type is forgotten; tuples returned by lambdas get the type of the function; commas in <a, b> cut a value; what is behind the literal is dropped from the value; a file that ends in a tuple makes the compiler run forever."},
{"property": "C192", "status": "partial", "theorems": ["Verif.ArrowType.single_partial", "Verif.ArrowType.integers_partial", "Verif.ArrowType.passed_partial", "Verif.ArrowType.identity_violated", "Verif.ArrowType.multi_violated", "Verif.ArrowType.long_violated", "Verif.ArrowType.first_call_violated", "Verif.ArrowType.bare_violated", "Verif.ArrowType.passed_violated", "Verif.ArrowType.declared_violated", "Verif.ArrowType.arith_number", "Verif.ArrowType.conv_dbl"], "note": "Proved for all bodies of integers and for all bodies of one parameter that is always next to something of known type, for any number of calls.  Violated: the result is an int for x -> x, for every lambda with a list of parameters or a written type and for every block of more than one statement, so fractions are cut; the first call fixes the types of parameters for all; x -> { return; } makes the compiler read through NULL; lambdas passed for a function with a floating result are called by a pointer of another type."},
{"property": "C193", "status": "partial", "theorems": ["Verif.Reflect.fields_partial", "Verif.Reflect.name_iff", "Verif.Reflect.null_iff", "Verif.Reflect.copied_plain", "Verif.Reflect.union_violated", "Verif.Reflect.bits_violated", "Verif.Reflect.generic_violated"], "note": "Proved for all structs of ordinary fields: every field once, in order, with the name of its type and the offset at which it is read and written; two types have the same name exactly if C does not tell them apart.  Violated: unions and structs with a bit field give C that does not compile; in generic functions @type_name(T) is the letter T and @fields(T) a null pointer in every instance."},
{"property": "C194", "status": "partial", "theorems": ["Verif.LoadFile.named_partial", "Verif.LoadFile.first_partial", "Verif.LoadFile.missing_partial", "Verif.LoadFile.nul_violated", "Verif.LoadFile.pipe_violated", "Verif.LoadFile.dir_violated", "Verif.LoadFile.short_violated", "Verif.LoadFile.proc_violated", "Verif.LoadFile.long_violated"], "note": "Proved for ordinary files without NUL bytes and paths up to 1023 bytes.  Violated: a file is cut at its first NUL; pipes (zc run /dev/stdin) and directories on ext4 make the compiler write outside of its memory or overflow; files without a size, as in /proc, are read as empty; longer paths are cut and may lead to another file."},
{"property": "C195", "status": "partial", "theorems": ["Verif.LspStale.released_iff", "Verif.LspStale.declared_partial", "Verif.LspStale.edit_violated", "Verif.LspStale.removed_violated"], "note": "Exactly characterised for all sessions: released memory is read if and only if at some message an earlier text had used a type that no text so far declares.  Violated: correcting a misspelt type is enough; declarations that are taken out stay known."},
{"property": "C196", "status": "partial", "theorems": ["Verif.LspScan.found_partial", "Verif.LspScan.once_partial", "Verif.LspScan.root_partial", "Verif.LspScan.init_partial", "Verif.LspScan.root_violated", "Verif.LspScan.uri_violated", "Verif.LspScan.deep_violated"], "note": "Proved for all file systems whose paths below the root are shorter than 1024 characters (exactly the sources that are not hidden, each once; with plain paths under the URIs an editor uses).  Violated: percent-encoded roots and files, and a directory whose path fills the buffer is scanned as its own entries, exponentially often."},
{"property": "C197", "status": "partial", "theorems": ["Verif.ZenTip.off_silent", "Verif.ZenTip.after_warning", "Verif.ZenTip.once_fits", "Verif.ZenTip.safe_partial", "Verif.ZenTip.shown_iff", "Verif.ZenTip.finish_same", "Verif.ZenTip.eleventh_violated", "Verif.ZenTip.message_violated"], "note": "Proved for all compilations, files and random numbers: no tip when off or after a warning, at most one, and it is for a construct that came up; harmless if every element has a message.  Violated: only the first ten tips of a trigger ever come up (47 of the 57 general ones that are shipped never do), and a facts.json in the current directory without messages gives a null pointer to printf."}
]}
