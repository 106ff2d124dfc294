{"id": "C01", "title": "Vec behaves as a sequence", "statement": "Starting from an empty or pre-sized growable vector, any sequence of push, insert, pop, pop_opt, remove, set, append, clear, reverse, get, first, last, contains, eq, clone and length calls returns exactly what the same calls return on a mathematical finite sequence, and a call panics exactly when the sequence operation is undefined (index out of range, pop of empty).", "quantifier": "every element type, every finite history of calls with every argument", "why_tests_cant": "A unit test fixes one history; growth boundaries, shifts and clones interact over unboundedly many histories.", "anchors": ["std/vec.zc: Vec::push insert pop pop_opt remove append get set reverse eq contains clone clear grow grow_to_fit"]}
{"id": "C02", "title": "Vec never touches memory outside its buffer", "statement": "No sequence of calls on a vector reads or writes an element slot outside the buffer it currently owns.", "quantifier": "every finite history of calls with every argument, including calls on empty vectors", "why_tests_cant": "Out-of-bounds accesses are undefined behaviour: a test run may pass although the access happened.", "anchors": ["std/vec.zc: Vec::reverse, Vec::insert, Vec::append, Vec::grow_to_fit"]}
{"id": "C03", "title": "Vec growth is amortised", "statement": "n pushes into a fresh vector relocate fewer than 2*n elements in total, and capacity never falls below length.", "quantifier": "every n", "why_tests_cant": "Tests can only time some n.", "anchors": ["std/vec.zc: Vec::grow, Vec::push"]}
{"id": "C04", "title": "Queue is FIFO", "statement": "Any sequence of push, pop, clear, length and clone calls on a queue returns exactly what a first-in first-out list returns: elements come out in insertion order, unchanged, and none is lost or duplicated.", "quantifier": "every element size, every history of calls, every wrap-around position at which growth or cloning happens", "why_tests_cant": "The ring can wrap at any offset relative to growth; tests cover a few offsets and a single element type.", "anchors": ["std/queue.zc: Queue::push pop _grow clone clear"]}
{"id": "C05", "title": "Stack is LIFO", "statement": "Any sequence of push, pop, clear, length and clone calls on a stack returns what a last-in first-out list returns and never writes outside the stack's buffer.", "quantifier": "every history of calls", "why_tests_cant": "Clone of a never-used stack and growth interleavings cannot be enumerated by tests.", "anchors": ["std/stack.zc: Stack::push pop clear clone free"]}
{"id": "C06", "title": "Set behaves as a finite set", "statement": "Any sequence of add, remove, contains, clear and length on a hash set returns exactly what a mathematical finite set returns: add reports true iff the value was absent, remove reports true iff it was present, and length is the number of distinct members. Every call terminates.", "quantifier": "every history, every hash function, every collision pattern and every distribution of deleted slots", "why_tests_cant": "Open addressing with deleted slots fails only for particular collision patterns and histories.", "anchors": ["std/set.zc: Set::add remove contains clear _resize"]}
{"id": "C07", "title": "Map behaves as a dictionary", "statement": "As long as calls return, a get after any history of put and remove returns the value of the latest put of that key not followed by a remove, contains agrees with get, and length is the number of present keys.", "quantifier": "every history, every hash function and collision pattern", "why_tests_cant": "Probe chains through deleted slots depend on the whole history.", "anchors": ["std/map.zc: Map::put get remove contains length _resize"]}
{"id": "C08", "title": "Map operations terminate", "statement": "Every put, get and remove call returns after finitely many steps.", "quantifier": "every history of calls", "why_tests_cant": "A hang needs a specific history in which deleted slots fill the table; tests do not reach it.", "anchors": ["std/map.zc: Map::put (129-144), Map::remove (183-194), Map::get"]}
{"id": "C09", "title": "Iterators visit every element exactly once", "statement": "Iterating a vector or slice yields its elements in index order exactly once; iterating a map yields exactly its current entries, each once, and then reports the end without touching memory it does not own.", "quantifier": "every container content, including empty containers", "why_tests_cant": "The number of contents is unbounded and the failing end-of-iteration read is invisible unless the memory is unmapped.", "anchors": ["std/vec.zc: VecIter::next VecIterRef::next", "std/slice.zc: SliceIter::next", "std/map.zc: MapIter::next"]}
{"id": "C10", "title": "String stays NUL-terminated and append concatenates", "statement": "Every string value reachable through the public operations is a byte sequence without interior change followed by one terminating NUL inside the buffer; append and + yield the concatenation of the two texts; length is the number of bytes before the NUL; equality is byte equality.", "quantifier": "every history of string operations, including appending a string to itself", "why_tests_cant": "Loss of the terminator is undefined behaviour that may look right in a test.", "anchors": ["std/string.zc: String::new append append_c add eq length"]}
{"id": "C11", "title": "String search and slicing agree with their mathematical meaning", "statement": "find returns the first index at which a character occurs or none; starts_with/ends_with hold iff the text has that prefix/suffix; substring(i,n) is exactly the n bytes from i and panics exactly when the range exceeds the text; trim removes exactly the leading and trailing blanks.", "quantifier": "every text, pattern, index and length", "why_tests_cant": "Boundary lengths and positions are unbounded.", "anchors": ["std/string.zc: String::find starts_with ends_with substring trim"]}
{"id": "C12", "title": "split and join are inverse; replace substitutes every occurrence", "statement": "Splitting on a delimiter yields pieces without that delimiter whose join with the delimiter is the original text; replace rewrites the leftmost non-overlapping occurrences of the target and nothing else.", "quantifier": "every text, delimiter, target and replacement", "why_tests_cant": "Overlaps, adjacent delimiters and empty pieces are unbounded.", "anchors": ["std/string.zc: String::split, String::replace"]}
{"id": "C13", "title": "UTF-8 helpers address code points", "statement": "For text that is the UTF-8 encoding of a sequence of code points, the character count is the number of code points, indexing by i gives the encoding of the i-th one, and the substring by character range gives the encoding of that sub-sequence.", "quantifier": "every sequence of Unicode scalar values and all indices", "why_tests_cant": "The code point space times text length is unbounded.", "anchors": ["std/string.zc: String::_utf8_seq_len utf8_len utf8_at utf8_substr"]}
{"id": "C14", "title": "Base64 output decodes to the input", "statement": "The text produced for any byte string decodes under the RFC 4648 decoder to that byte string, has length 4*ceil(n/3) and uses only the standard alphabet plus padding; hence different inputs give different outputs.", "quantifier": "every byte string of every length", "why_tests_cant": "Inputs are unbounded.", "anchors": ["std/encoding/base64.zc: base64 encode"]}
{"id": "C15", "title": "SHA-1 implements the FIPS 180 function independently of chunking", "statement": "The digest returned for a message equals the FIPS 180-4 definition, and feeding the message in any sequence of pieces gives the same digest as feeding it at once.", "quantifier": "every message and every way of cutting it into pieces", "why_tests_cant": "Messages and cut patterns are unbounded; vectors test a few.", "anchors": ["std/crypto/sha1.zc"]}
{"id": "C16", "title": "Arena allocations are aligned, in bounds and disjoint", "statement": "Every block handed out between two resets lies inside the arena's buffer, starts at a multiple of 8, does not overlap any other live block, and restoring a mark frees exactly the blocks allocated after it.", "quantifier": "every history of allocations, marks, restores and resets and every requested size", "why_tests_cant": "Size arithmetic wrap-around needs specific huge sizes; histories are unbounded.", "anchors": ["std/arena.zc: Arena::alloc_bytes alloc_n save restore reset"]}
{"id": "C17", "title": "JSON values survive a write/read round trip", "statement": "Parsing the text produced for a JSON value gives back an equal value.", "quantifier": "every nested value, every string content", "why_tests_cant": "Values are unbounded; escapes interact with nesting.", "anchors": ["std/json.zc: JsonValue::parse parse_value parse_string parse_object parse_array stringify"]}
{"id": "C18", "title": "WebSocket frames decode to the message sent", "statement": "The bytes written for a message carry the RFC 6455 opcode and shortest length form, and a receiver following RFC 6455 recovers exactly the payload; on the receive side unmasking with the frame's key recovers the payload that was masked.", "quantifier": "every payload length and content and every mask key", "why_tests_cant": "Length classes have boundaries at 125/126/65535/65536 and payloads are unbounded.", "anchors": ["std/net/websocket.zc: WebSocket send recv"]}
{"id": "C19", "title": "URL parsing splits without loss", "statement": "For a URL scheme://host[:port][/path] with the documented default ports, parsing returns exactly those components.", "quantifier": "every host, port and path text without the separator characters", "why_tests_cant": "Texts are unbounded.", "anchors": ["std/net/url.zc: Url::parse"]}
{"id": "C20", "title": "Path join, file name, extension and parent agree", "statement": "Joining a directory and a single component and then taking the file name gives the component and taking the parent gives the directory; separators are never doubled.", "quantifier": "every directory text and component", "why_tests_cant": "Texts are unbounded.", "anchors": ["std/path.zc: Path::join file_name extension parent"]}
{"id": "C21", "title": "Lexing covers the source and makes progress", "statement": "Tokenising a source text ends after finitely many tokens; consecutive tokens occupy strictly increasing, non-overlapping ranges of the text; every byte outside tokens is whitespace or comment; and no byte past the terminating NUL is examined.", "quantifier": "every source text", "why_tests_cant": "Source texts are unbounded; reading past the terminator is silent.", "anchors": ["src/lexer/token.c: lexer_next"]}
{"id": "C22", "title": "Reported line numbers are right", "statement": "The line attached to each token is one plus the number of newlines before the token in the source.", "quantifier": "every source text", "why_tests_cant": "Source texts are unbounded.", "anchors": ["src/lexer/token.c: lexer_next"]}
{"id": "C23", "title": "Compile-time folding equals run-time evaluation", "statement": "When the compiler reduces an integer constant expression to a number, evaluating the expression in C (64-bit signed) gives that same number without undefined behaviour; expressions that divide by zero are never reduced.", "quantifier": "every constant expression", "why_tests_cant": "Expressions are unbounded and overflow cases are specific values.", "anchors": ["src/analysis/const_fold.c: eval_const_int_expr"]}
{"id": "C24", "title": "Accepted programs never use a moved value", "statement": "If the checker reports no use-after-move for a function, then on no execution is a variable read after its value was moved out and not re-assigned.", "quantifier": "every function body and every execution path including loop iterations", "why_tests_cant": "Paths are unbounded.", "anchors": ["src/analysis/move_check.c", "src/analysis/typecheck.c: check_if check_loop check_match"]}
{"id": "C25", "title": "A function accepted as always returning always returns", "statement": "If the compiler's flow check accepts a non-void function body, no execution reaches the end of the body without executing a return.", "quantifier": "every function body and every execution", "why_tests_cant": "Bodies and executions are unbounded.", "anchors": ["src/analysis/typecheck.c: stmt_always_returns block_always_returns"]}
{"id": "C26", "title": "Deferred statements run exactly once, in reverse order, at every scope exit", "statement": "For each scope, the deferred statements registered in it run exactly once, last registered first, whenever the scope is left: by falling off the end, break, continue, return, labelled break or the ? operator.", "quantifier": "every nesting of blocks, loops, conditionals and exits, every execution", "why_tests_cant": "Programs are unbounded.", "anchors": ["src/codegen/codegen_stmt.c: NODE_BLOCK NODE_DEFER NODE_RETURN NODE_BREAK NODE_CONTINUE NODE_WHILE", "src/codegen/codegen.c: NODE_TRY"]}
{"id": "C27", "title": "Range loops visit exactly the documented integers", "statement": "for i in a..b visits a, a+1, ..., b-1; a..=b also visits b; with step s it visits a, a+s, ... while inside the range; with a negative step it descends; the loop ends.", "quantifier": "every a, b and step", "why_tests_cant": "Integers are unbounded; wrap at the type bounds is never tested.", "anchors": ["src/codegen/codegen_stmt.c: NODE_FOR_RANGE"]}
{"id": "C28", "title": "Match selects the first arm whose pattern and guard hold", "statement": "Executing a match runs the body of the first arm whose pattern matches (literal, list of alternatives, exclusive or inclusive range, wildcard) and guard is true, and no other body.", "quantifier": "every arm list and every scrutinee value", "why_tests_cant": "Arm lists and values are unbounded.", "anchors": ["src/codegen/codegen_stmt.c: codegen_match_internal emit_pattern_condition", "src/parser/parser_stmt.c: parse_match"]}
{"id": "C29", "title": "Parsing respects the operator precedence table", "statement": "The expression tree built for a sequence of operands and binary operators is the unique tree that respects the precedence levels with left association inside a level, and the C text emitted for a tree re-parses in C to the same tree.", "quantifier": "every operator sequence", "why_tests_cant": "Operator sequences are unbounded.", "anchors": ["src/parser/parser_expr.c: get_token_precedence parse_expr_prec", "src/codegen/codegen.c: NODE_EXPR_BINARY"]}
{"id": "C30", "title": "Chained assignment associates to the right", "statement": "a = b = c assigns c to b and then to a, as in C.", "quantifier": "every chain of assignments", "why_tests_cant": "Chains are unbounded and the failing result is only visible in the generated C.", "anchors": ["src/parser/parser_expr.c: parse_expr_prec (6326)"]}
{"id": "C31", "title": "String literals keep their value", "statement": "The C literal emitted for a string literal denotes the same bytes as the Zen-C literal, and contains no raw newline or unescaped quote.", "quantifier": "every literal body", "why_tests_cant": "Bodies are unbounded.", "anchors": ["src/parser/parser_expr.c: escape_c_string", "src/parser/parser_stmt.c: escape_c_string"]}
{"id": "C32", "title": "Interpolated strings render literal text and holes in order", "statement": "Evaluating an interpolated string gives the literal segments ({{ and }} standing for braces) and the values of the holes concatenated in order, for results of any length, without writing outside the buffer used for the result.", "quantifier": "every template and every run-time value length", "why_tests_cant": "Lengths are unbounded.", "anchors": ["src/parser/parser_expr.c: create_fstring_block"]}
{"id": "C33", "title": "Integer literals denote the written number", "statement": "A decimal, hexadecimal, octal or binary integer literal (underscores and type suffix allowed) has exactly the value its digits denote, or is rejected.", "quantifier": "every digit string", "why_tests_cant": "Digit strings are unbounded.", "anchors": ["src/parser/parser_expr.c: parse_int_literal", "src/lexer/token.c: number scanning"]}
{"id": "C34", "title": "Floating literals keep their value", "statement": "The C code emitted for a floating literal denotes the same number.", "quantifier": "every literal", "why_tests_cant": "Literals are unbounded.", "anchors": ["src/codegen/codegen.c: codegen_literal_expr"]}
{"id": "C35", "title": "Type equality is an equivalence", "statement": "The compiler's test that two types are the same is reflexive, symmetric and transitive and distinguishes differently named enums.", "quantifier": "every pair and triple of types", "why_tests_cant": "Types are unboundedly nested.", "anchors": ["src/ast/ast.c: type_eq"]}
{"id": "C36", "title": "The compiler's allocator never hands out overlapping memory and realloc keeps contents", "statement": "Every block returned is 8-byte aligned, disjoint from all earlier blocks and at least as large as requested; reallocation preserves the old contents.", "quantifier": "every history of requests", "why_tests_cant": "Histories are unbounded.", "anchors": ["src/utils/utils.c: arena_alloc_raw xmalloc xrealloc xcalloc xstrdup"]}
{"id": "C37", "title": "Build flags reach the C compiler as written", "statement": "Each flag given by link, cflags, include, lib, define, framework and pkg-config directives appears as its own argument on the C compiler's command line, in order, and the flag buffers never overflow.", "quantifier": "every sequence of directives", "why_tests_cant": "Texts are unbounded.", "anchors": ["src/utils/utils.c: append_flag scan_build_directives", "src/utils/cmd.c: arg_list_add_from_string"]}
{"id": "C38", "title": "Source files cannot make the compiler run arbitrary commands", "statement": "Whatever a source file contains, scanning its directives runs no command other than pkg-config with arguments free of shell metacharacters; shell: and get: are never executed.", "quantifier": "every source text and environment", "why_tests_cant": "Texts are unbounded.", "anchors": ["src/utils/utils.c: scan_build_directives expand_env_vars"]}
{"id": "C39", "title": "Spelling suggestions use the true edit distance", "statement": "The distance computed between two names of similar length is the minimum number of single-character insertions, deletions and substitutions that turns one into the other.", "quantifier": "every pair of names", "why_tests_cant": "Pairs are unbounded.", "anchors": ["src/utils/utils.c: levenshtein"]}
{"id": "C40", "title": "Language-server framing recovers the message stream", "statement": "If a client writes messages with Content-Length framing, the server processes exactly those message bodies in order.", "quantifier": "every sequence of messages", "why_tests_cant": "Sequences are unbounded.", "anchors": ["src/lsp/lsp_main.c: lsp_main"]}
{"id": "C41", "title": "The Brainfuck plugin preserves program meaning", "statement": "For a program with balanced brackets, the generated C code behaves as the Brainfuck program: same output for same input.", "quantifier": "every program and input", "why_tests_cant": "Programs are unbounded.", "anchors": ["plugins/brainfuck.c"]}
{"id": "C42", "title": "The regex plugin matches only what the pattern denotes", "statement": "A generated matcher accepts a text only if the pattern matches, and accepts every text the pattern matches.", "quantifier": "every pattern and text", "why_tests_cant": "Patterns and texts are unbounded.", "anchors": ["plugins/regex.c"]}
{"id": "C43", "title": "Environment expansion never overflows", "statement": "Expanding ${VAR} references writes at most the destination size including the terminator, and text without references is copied unchanged (up to that size).", "quantifier": "every text, environment and buffer size", "why_tests_cant": "Texts are unbounded.", "anchors": ["src/utils/utils.c: expand_env_vars"]}
{"id": "C44", "title": "Option and Result accessors agree with the tag", "statement": "unwrap/expect return the stored value exactly when the tag says present and panic otherwise; unwrap_or and or_else choose by the tag; after unwrap the value has been moved out exactly once.", "quantifier": "every value and call sequence", "why_tests_cant": "Call sequences are unbounded.", "anchors": ["std/option.zc", "std/result.zc"]}
{"id": "C45", "title": "Keywords are recognised as whole words", "statement": "A statement following if/for/guard headers is treated as an else branch, a step clause and so on only when the next word is exactly that keyword; other identifiers keep their meaning.", "quantifier": "every identifier", "why_tests_cant": "Identifiers are unbounded.", "anchors": ["src/parser/parser_stmt.c: parse_if parse_for parse_guard parse_match", "src/lexer/token.c: keywords"]}
{"id": "C46", "title": "Owned values are destroyed exactly once", "statement": "A local variable whose type has a destructor is destroyed exactly once on every path on which it was not moved out, and never after it was moved out.", "quantifier": "every function body and path", "why_tests_cant": "Paths are unbounded.", "anchors": ["src/codegen/codegen_stmt.c: NODE_VAR_DECL", "src/codegen/codegen_utils.c: emit_move_invalidation"]}
{"id": "C47", "title": "Map releases the key memory it allocates", "statement": "After a map is freed every key copy it allocated has been released exactly once.", "quantifier": "every history", "why_tests_cant": "Leaks are invisible to functional tests.", "anchors": ["std/map.zc: Map::put _resize remove free"]}
{"id": "C48", "title": "Command-line builder never overflows and keeps arguments", "statement": "Appending text to the command builder keeps the text so far, adds exactly the new text, and never writes outside the buffer.", "quantifier": "every sequence of appended texts", "why_tests_cant": "Lengths are unbounded.", "anchors": ["src/utils/cmd.c: cmd_add ensure_cap"]}
{"id": "C49", "title": "The JSON reader terminates, stays in bounds and rejects malformed text", "statement": "For every NUL-terminated input the JSON reader returns, reads nothing behind the terminator, writes nothing outside its buffers, and reports an error unless the text is a JSON document.", "quantifier": "every text", "why_tests_cant": "Texts are unbounded and malformed in unbounded ways.", "anchors": ["std/json.zc: JsonValue::parse"]}
{"id": "C50", "title": "Tokens are the longest ones", "statement": "At every position the operator token is the longest operator spelled there; a string literal extends exactly to its first unescaped closing quote.", "quantifier": "every source text and position", "why_tests_cant": "Texts are unbounded; adjacent operators combine in many ways.", "anchors": ["src/lexer/token.c: lexer_next"]}
{"id": "C51", "title": "Compile-time constants have the value of their initialiser", "statement": "An array whose size is a constant expression over `def` constants has exactly as many elements as the initialisers say, and a name that is not a constant is never used as one.", "quantifier": "every program with every chain of definitions and every size expression", "why_tests_cant": "Constant chains and the names in scope are unbounded.", "anchors": ["src/analysis/const_fold.c: eval_const_int_expr", "src/parser/parser_decl.c: parse_def parse_var_decl", "src/parser/parser_type.c: array sizes"]}
{"id": "C52", "title": "Every language-server request gets exactly one answer", "statement": "For every sequence of messages from the editor each request is answered exactly once, with its own id, and answers about a document refer to its latest text.", "quantifier": "every sequence of messages", "why_tests_cant": "Sessions are unbounded sequences of messages.", "anchors": ["src/lsp/json_rpc.c", "src/lsp/lsp_main.c", "src/lsp/lsp_analysis.c"]}
{"id": "C53", "title": "Enum variants are told apart by match", "statement": "A value built with variant V of an enum is taken by a match arm naming V and by no arm naming another variant of that enum; explicit variant values are the ones stored.", "quantifier": "every enum declaration and every pair of variants", "why_tests_cant": "Enums have unboundedly many variants and explicit values.", "anchors": ["src/parser/parser_struct.c: parse_enum", "src/codegen/codegen_decl.c: enum emission", "src/codegen/codegen_stmt.c: emit_pattern_condition"]}
{"id": "C54", "title": "Compound assignment evaluates its target once", "statement": "In target op= value every call and increment written in the target happens once, as in C.", "quantifier": "every target and value expression", "why_tests_cant": "Target expressions are unbounded and the duplication is only visible through side effects.", "anchors": ["src/parser/parser_expr.c: parse_expr_prec (6507-6597)"]}
{"id": "C55", "title": "Printing a string writes its text and holes", "statement": "A print statement writes the literal text and the values of the holes of its string in order; braces are written by doubling them; every text is either compiled or rejected.", "quantifier": "every string", "why_tests_cant": "Strings are unbounded.", "anchors": ["src/parser/parser_stmt.c: process_printf_sugar (1684-2080)"]}
{"id": "C56", "title": "Command-line options reach the C compiler", "statement": "Every option that the command line hands on to the C compiler (-I, -D, -O, -g, -W..., -f..., -m..., unknown ones) arrives there as one argument, in order, and collecting them never writes outside the buffer.", "quantifier": "every sequence of options", "why_tests_cant": "Options are unbounded in number and length.", "anchors": ["src/main.c: main_append_flag", "src/utils/cmd.c: arg_list_add_from_string build_compile_arg_list"]}
{"id": "C57", "title": "Regex count and split agree with the matches", "statement": "Regex::count returns the number of non-overlapping matches of the text and Regex::split the parts of the text between them.", "quantifier": "every expression and text", "why_tests_cant": "Expressions and texts are unbounded.", "anchors": ["std/regex.zc: Regex::count Regex::split", "docs/std/regex.md"]}
{"id": "C58", "title": "Reported columns are right", "statement": "The column attached to each token is one plus the number of bytes between the last newline before it and the token.", "quantifier": "every source text and token", "why_tests_cant": "Source texts are unbounded; columns drift silently behind comments.", "anchors": ["src/lexer/token.c: lexer_next"]}
{"id": "C59", "title": "Conditional compilation selects declarations", "statement": "Compiling a program with @cfg attributes gives the C compiler the same text as compiling the program from which the declarations whose documented condition is false were deleted: @cfg(NAME), not, any and all mean what the README table says over the -D names, several attributes are ANDed, and every kind of top-level declaration obeys.", "quantifier": "every program, attribute list and set of -D names", "why_tests_cant": "Conditions combine freely with all declaration kinds and all 2^n sets of -D names; the project's tests compile two configurations.", "anchors": ["src/parser/parser_core.c: parse_program_nodes", "src/codegen/codegen_decl.c: emit_protos, emit_globals, emit_struct_defs", "src/codegen/codegen_main.c: codegen_node"]}
{"id": "C60", "title": "Types are defined before they are used", "statement": "In the C file every type is declared before it is mentioned and completely defined before a value of it is contained in another type, whatever the order of the declarations in the program; sorting loses and duplicates no type.", "quantifier": "every program without a type that contains itself", "why_tests_cant": "Declarations come in any order and any number with any containment relation.", "anchors": ["src/codegen/codegen_main.c: struct_depends_on topo_sort_structs codegen_node", "src/codegen/codegen_decl.c: print_type_defs emit_enum_protos emit_global_aliases emit_struct_defs", "src/ast/ast.c: type_to_c_string type_to_string"]}
{"id": "C61", "title": "Tuples keep their element types and values", "statement": "A tuple type has exactly its element types as fields v0, v1, ... in order, different tuple types are different C types, and a tuple literal has the values of its elements; reading a tuple never writes outside a buffer.", "quantifier": "every list of element types and every literal", "why_tests_cant": "Element types nest and are named freely; lengths are unbounded.", "anchors": ["src/parser/parser_type.c: parse_type_base parse_tuple_literal", "src/parser/parser_utils.c: register_tuple", "src/codegen/codegen_decl.c: print_type_defs", "src/parser/parser_expr.c: parse_primary (3739-3845)", "src/parser/parser_struct.c: parse_enum (1138-1172)"]}
{"id": "C62", "title": "HTTP messages arrive as sent", "statement": "A handler sees the method, path, version, headers and body the client sent; the client sees the status, headers and body the handler returned; both for every segmentation of the byte stream.", "quantifier": "every request, response and segmentation", "why_tests_cant": "Messages and their arrival in pieces are unbounded.", "anchors": ["std/net/http.zc"]}
{"id": "C63", "title": "Commands run with their arguments", "statement": "A command runs the program with exactly the given arguments; output is everything it printed and exit_code the code it exited with.", "quantifier": "every program, argument list and output", "why_tests_cant": "Arguments are arbitrary texts that pass through a shell.", "anchors": ["std/process.zc", "std/sys/process.zc"]}
{"id": "C64", "title": "Lines are read and values formatted exactly", "statement": "Reading lines until NULL gives exactly the lines of the input and never leaves the buffer; formatting and integer conversion give exactly the text, and a result stays as it is.", "quantifier": "every input, text and integer", "why_tests_cant": "Inputs and lines have any length; results are kept across calls.", "anchors": ["std/io.zc"]}
{"id": "C65", "title": "Files and directories are read and written exactly", "statement": "Reading a file gives its contents or an error; what was written is read back; listing a directory gives every entry with its name and kind.", "quantifier": "every file contents, every kind of stream, every directory", "why_tests_cant": "Contents, stream kinds and file systems vary.", "anchors": ["std/fs.zc", "std/sys/fs.zc"]}
{"id": "C66", "title": "Sleeping lasts as long as asked for", "statement": "Sleeping for a number of milliseconds or a duration lasts at least that long.", "quantifier": "every number of milliseconds and seconds", "why_tests_cant": "The failing values sleep for hours in a test.", "anchors": ["std/time.zc: sleep sleep_ms from_secs", "std/thread.zc: sleep_ms"]}
{"id": "C67", "title": "Randomizing the hash keeps the contents of maps", "statement": "Time::randomize_hash does not change what lookups in existing maps return.", "quantifier": "every seed, random number, map and key", "why_tests_cant": "The random number differs from run to run.", "anchors": ["std/time.zc: randomize_hash", "std/map.zc: _map_hash_str get put", "std/set.zc: _set_hash"]}
{"id": "C68", "title": "Instances have the fields of the template with the arguments put in", "statement": "The struct a generic type with arguments stands for has the fields of the declaration in their order, each with the declared type in which every parameter is replaced by its argument; so have the parameter and return types of its methods.", "quantifier": "every template, field type and argument types", "why_tests_cant": "Types nest without bound and every combination of argument and field type is a separate case.", "anchors": ["src/parser/parser_utils.c: replace_type_str copy_fields_replacing instantiate_generic instantiate_generic_multi"]}
{"id": "C69", "title": "Different instances stay different", "statement": "Every generic type used in a program, also inside another instance, gets its own struct: two uses share one exactly if template and arguments are the same.", "quantifier": "every set of names and every sequence of uses", "why_tests_cant": "Collisions depend on the names a program chooses; sequences are unbounded.", "anchors": ["src/parser/parser_utils.c: sanitize_mangled_name instantiate_generic copy_fields_replacing", "src/parser/parser_type.c: parse_type_base"]}
{"id": "C70", "title": "Instances have the code of the template with the arguments put in", "statement": "The code of a function or method of an instance is the code of the template in which every type, every method named by a type and every raw statement has its arguments put in and nothing else is changed; an initializer without fields is 0 for numbers and pointers.", "quantifier": "every body, of any depth, and every argument type", "why_tests_cant": "Bodies nest without bound; each kind of node combines with each kind of type.", "anchors": ["src/parser/parser_utils.c: copy_ast_replacing replace_type_formal type_from_string_helper replace_mangled_part"]}
{"id": "C71", "title": "Raw code in templates means the same in instances", "statement": "In raw statements and parameter lists of a template the words that name the parameter, the struct and its instances are replaced and string and character literals and other words stay as they are.", "quantifier": "every text and argument", "why_tests_cant": "Texts are unbounded, and the effect of a quote or backslash reaches arbitrarily far.", "anchors": ["src/parser/parser_utils.c: replace_in_string replace_mangled_part copy_ast_replacing"]}
{"id": "C72", "title": "Derived equality is structural equality", "statement": "For a type with @derive(Eq), a == b is true exactly when all fields (and for enums tag and payload) of a and b are equal, using the eq of the types of the fields; it is defined for all values and compiles for every type whose fields can be compared.", "quantifier": "every program, type and pair of values", "why_tests_cant": "Types nest without bound and the compiler chooses the comparison of each field by name and order of declarations.", "anchors": ["src/parser/parser_core.c: generate_derive_impls", "src/codegen/codegen.c: codegen_expression"]}
{"id": "C73", "title": "A derived clone is an equal value that can be dropped on its own", "statement": "For a type with @derive(Clone), the clone equals the original, and dropping both is as good as dropping two separately made values.", "quantifier": "every type and value", "why_tests_cant": "Ownership is a property of all executions, not of the two values compared by a test.", "anchors": ["src/parser/parser_core.c: generate_derive_impls"]}
{"id": "C74", "title": "Derived JSON methods are inverse", "statement": "For a struct with @derive(ToJson, FromJson), from_json of to_json of a value is that value, also when the JSON was written as text and parsed, or its keys reordered; an object that lacks a field is reported as an error.", "quantifier": "every struct and value", "why_tests_cant": "Structs nest without bound; the values of 64 bit fields cannot be enumerated.", "anchors": ["src/parser/parser_core.c: generate_derive_impls", "std/json.zc: JsonValue::get_int JsonValue::get_string JsonValue::set"]}
{"id": "C75", "title": "A lambda captures the variables it uses, and no others", "statement": "A lambda, wherever it is written, captures exactly the variables of the functions around it that its body uses and those its capture list names, each once, by value or by reference as asked for; everything else in its body keeps its meaning and the program compiles.", "quantifier": "every lambda and scope", "why_tests_cant": "Bodies and scopes are unbounded; a forgotten kind of node shows only for programs that use a variable nowhere else.", "anchors": ["src/parser/parser_expr.c: find_var_refs analyze_lambda_captures", "src/codegen/codegen_main.c: codegen_lambda_defs"]}
{"id": "C76", "title": "A closure runs its body over the captured variables", "statement": "Creating a closure copies the variables captured by value and shares those captured by reference; each call does what the body says, in the scope of parameters, captured and global variables; variables captured by value cannot be assigned to.", "quantifier": "every lambda, state, function and sequence of arguments", "why_tests_cant": "Equality of two programs for all states and executions, including those that do not end.", "anchors": ["src/codegen/codegen.c: codegen_expression", "src/codegen/codegen_main.c: codegen_lambda_defs"]}
{"id": "C77", "title": "A trait object runs the methods of the value it was made from", "statement": "A program with traits, implementations and trait objects compiles, and calling a method of a trait object runs the implementation for the type of the value the object was made from, on that value, with the arguments given, in order; an implementation that does not fit its trait is rejected.", "quantifier": "every set of traits, structs, implementations, values and arguments", "why_tests_cant": "Tables, wrappers and casts are generated per trait and type; a wrong slot or name shows only for particular sets of declarations.", "anchors": ["src/codegen/codegen_decl.c: emit_trait_defs emit_trait_wrappers print_type_defs", "src/codegen/codegen_utils.c: parse_and_convert_args extract_call_args", "src/parser/parser_struct.c: parse_trait parse_impl"]}
{"id": "C78", "title": "A method call runs the method its receiver has", "statement": "A call of a method runs the method of the receiver's struct, else of the trait it implements, else of a struct it mixes in, wherever these are declared; a method of a mixed in struct works on the fields of that struct; a call that could mean several methods is rejected.", "quantifier": "every set of structs, traits, mixins and places of a call", "why_tests_cant": "Depends on the order of declarations and on names across the whole program.", "anchors": ["src/codegen/codegen.c: handle_node_expr_call codegen_expression", "src/parser/parser_struct.c: parse_struct"]}
{"id": "C79", "title": "A call gives each parameter the argument meant for it", "statement": "In a call, each parameter gets the value of the argument with its name, or else of the argument in its place, or else of its default as it is where the function is defined; a call that gives a parameter nothing, or has an argument for no parameter, is rejected, and no other is.", "quantifier": "every list of parameters and defaults, every list of arguments with or without names, every place of the call", "why_tests_cant": "Depends on names, order, defaults and the place of the call together.", "anchors": ["src/parser/parser_expr.c: validate_named_arguments find_function_definition", "src/parser/parser_utils.c: ast_to_string parse_and_convert_args", "src/codegen/codegen.c: codegen_expression"]}
{"id": "C80", "title": "A variable declared without a type holds the value of its initialiser", "statement": "After let x = e; the variable x stands for the value e has where it is used directly: naming a number does not change it.", "quantifier": "every expression of literals, variables, operators, casts, choices and ??, every type and value of the variables", "why_tests_cant": "Depends on the types and the magnitude of every operand together.", "anchors": ["src/parser/parser_expr.c: parse_expr_prec", "src/parser/parser_decl.c: parse_var_decl", "src/ast/ast.c: type_eq is_integer_type is_float_type", "src/codegen/codegen_utils.c: infer_type emit_auto_type", "src/codegen/codegen_stmt.c: codegen_node_single"]}
{"id": "C81", "title": "Expressions do what they say", "statement": "An expression with assignments, compound assignments, ??, ??=, ?., blocks with variables and if as a value evaluates each operand at most once, finds the place of a compound assignment once, gives each name the variable in whose scope it stands, and yields the value and the effects this implies.", "quantifier": "every expression, every store, memory and behaviour of functions, both orders of evaluation of operands", "why_tests_cant": "Depends on names, nesting and effects of operands together.", "anchors": ["src/codegen/codegen.c: codegen_expression", "src/parser/parser_expr.c: parse_expr_prec parse_primary"]}
{"id": "C82", "title": "Elements of arrays are apart and checked", "statement": "A variable or field that is an array with any number of dimensions behaves as a function from indices to elements: a write changes the element with exactly these indices and nothing else in memory, a read gives what was last written, and the program stops if an index is not in the range of its dimension. The C declaration has the dimensions in the order in which they are written.", "quantifier": "every list of sizes in the range of int, every sequence of reads and writes with indices in the range of a 64 bit type, every memory", "why_tests_cant": "Dimensions, indices and sequences of accesses are unbounded.", "anchors": ["src/codegen/codegen.c: codegen_expression (NODE_EXPR_INDEX)", "src/codegen/codegen_decl.c: _z_check_bounds", "src/parser/parser_type.c: parse_type_formal", "src/ast/ast.c: type_to_c_string", "src/codegen/codegen_utils.c: emit_c_decl"]}
{"id": "C83", "title": "Slices show the array they are made from", "statement": "A slice of an array or of a part of it reads and writes the elements of the array, every access out of its range stops the program, and a part whose bounds are not in the range of the whole stops it too.", "quantifier": "every slice, every sequence of accesses through the array and its slices", "why_tests_cant": "A test sees one access; that neighbours are never touched is about all of them.", "anchors": ["src/codegen/codegen.c: codegen_expression (NODE_EXPR_INDEX, NODE_EXPR_SLICE, NODE_EXPR_CALL)", "src/parser/parser_expr.c: parse_expr_prec"]}
{"id": "C84", "title": "Operators of structs call the documented methods", "statement": "An operator whose left operand is a struct, or a pointer to one, calls the method the documentation names, with the left operand as self and the right one as argument, each evaluated once; != without neq is the negation of eq; strings are compared by text, pointers by address; a op= b computes what a op b does; constants cannot be changed.", "quantifier": "every expression of operators, every set of methods in impls and traits, with parameters by value or by pointer, every kind of operand", "why_tests_cant": "Kinds of operands, signatures and operators combine; each combination is a different path.", "anchors": ["src/parser/parser_expr.c: parse_expr_prec get_operator_method resolve_struct_name_from_type", "src/codegen/codegen.c: codegen_expression"]}
{"id": "C85", "title": "Imported files are compiled exactly once", "statement": "Compiling ends however files import each other; every declaration of the main file and of every file that is imported, directly or not, stands exactly once in the C file, and nothing else does.", "quantifier": "every set of files, every graph of imports, with cycles and repeated imports, plain, named and selective", "why_tests_cant": "The graphs of imports are infinite in number.", "anchors": ["src/parser/parser_stmt.c: parse_import", "src/parser/parser_utils.c: is_file_imported mark_file_imported"]}
{"id": "C86", "title": "Names of imported files mean what the import says", "statement": "After import \"q\" every name that q declares can be used; after import \"q\" as m the function g of q is m::g, its type t is m::t and its method m::t::g; after import { x as y } from \"q\" the name y means x of q; each such name means that declaration and no other, and names inside an imported file keep their meaning.", "quantifier": "every set of files, every graph of imports, every name in every file", "why_tests_cant": "A name may clash with one in any other file; tests see a few programs.", "anchors": ["src/parser/parser_stmt.c: parse_import", "src/parser/parser_expr.c: parse_primary", "src/parser/parser_type.c: parse_type_base", "src/parser/parser_utils.c: find_module find_selective_import extract_module_name"]}
{"id": "C87", "title": "Imported files are searched in the documented order", "statement": "import \"fn\" takes the file beside the importing one if there is one, else that of the current directory, else the first in the include paths in their order, else in the installed directories; ./ and ../ mean the directory of the importing file only; an absolute path means itself.", "quantifier": "every set of readable files, every list of include paths, every name", "why_tests_cant": "Which files exist is up to the machine.", "anchors": ["src/parser/parser_stmt.c: parse_import"]}
{"id": "C88", "title": "await gives what the async function returned", "statement": "Calling an async function starts its body with the values of the arguments at the call; await of the future gives the value that the body returned, after it has returned; nothing else about the program depends on how threads are scheduled, and a thread only waits for threads that have not returned.", "quantifier": "every program of async functions, calls and awaits, every result type and value, every interleaving of the threads", "why_tests_cant": "Schedules cannot be chosen by a test, and the values of a type are too many.", "anchors": ["src/codegen/codegen_stmt.c: NODE_FUNCTION", "src/codegen/codegen.c: NODE_AWAIT", "src/codegen/codegen_utils.c: is_struct_return_type", "src/parser/parser_expr.c: parse_primary"]}
{"id": "C89", "title": "Memory of async calls is released", "statement": "The blocks that carry arguments and results of async calls are used only while they exist and are released exactly once; when every future has been awaited none is left.", "quantifier": "every program of async functions, calls and awaits, every interleaving of the threads, every choice of addresses", "why_tests_cant": "Use after free depends on the schedule and is mostly invisible.", "anchors": ["src/codegen/codegen_stmt.c: NODE_FUNCTION", "src/codegen/codegen.c: NODE_AWAIT"]}
{"id": "C90", "title": "Fields of an opaque struct are private to its file", "statement": "Outside the file that defines an opaque struct, no accepted program reads or writes its fields or builds a value of it; values may be held, copied, passed on and pointed at, and the functions and methods that the file offers may be called. Inside the file there is no restriction.", "quantifier": "every program over several files, every expression and statement", "why_tests_cant": "The test sits in several places of the parser and depends on the type found for each subexpression; programs are unboundedly many.", "anchors": ["src/parser/parser_expr.c: parse_expr_prec, parse_primary, get_field_type, resolve_struct_name_from_type", "src/parser/parser_decl.c: parse_var_decl", "src/parser/parser_struct.c: parse_struct", "src/parser/parser_utils.c: instantiate_generic"]}
{"id": "C91", "title": "An opaque alias is a type of its own outside its file", "statement": "Outside the file that defines an opaque alias, no accepted program turns a value of the alias into one of the underlying type or of another type, or the other way round, without a cast; inside the file it converts implicitly.", "quantifier": "every program over several files, every pair of types", "why_tests_cant": "Pairs of types and places where a value flows are unboundedly many.", "anchors": ["src/parser/parser_expr.c: check_opaque_alias_compat, parse_expr_prec", "src/parser/parser_decl.c: parse_var_decl", "src/ast/ast.c: type_eq", "src/parser/parser_type.c: parse_type_base"]}
{"id": "C92", "title": "Methods of an embedded struct work on the outer object", "statement": "If a struct embeds another with `use K;`, a method of K called on an object of the outer struct reads and writes the fields of that object that come from K, and no others; a method of the same name of the outer struct is preferred.", "quantifier": "every program, every method body, every content of memory", "why_tests_cant": "The call goes through a pointer cast, so it depends on the layout of both structs; programs, bodies and contents are unboundedly many.", "anchors": ["src/codegen/codegen.c: codegen_expression", "src/parser/parser_struct.c: parse_struct", "src/codegen/codegen_decl.c: emit_struct_defs"]}
{"id": "C93", "title": "Embedding a struct adds exactly its fields", "statement": "A struct has the fields its text lists, in order: for `use K;` all fields of K with their types and widths, for `use name: K;` one field of that name. A program that embeds structs does not corrupt the compiler.", "quantifier": "every program", "why_tests_cant": "Nesting and order of declarations are unbounded.", "anchors": ["src/parser/parser_struct.c: parse_struct", "src/parser/parser_utils.c: find_struct_def, add_to_struct_list"]}
{"id": "C94", "title": "Destructuring binds every name to its field", "statement": "`let {a, b} = e`, `let P{f: a} = e` and `let (a, b) = e` evaluate e once and bind each name to the named field, or to the element at its place; a value with a destructor is dropped at the end of the scope. Patterns of any length do not corrupt the compiler.", "quantifier": "every function body, every value, every nesting of blocks, defers and returns", "why_tests_cant": "Bodies, patterns and values are unboundedly many, and the effects depend on the order of evaluation and of deferred calls.", "anchors": ["src/parser/parser_decl.c: parse_var_decl", "src/codegen/codegen_stmt.c: codegen_node_single"]}
{"id": "C95", "title": "let-else binds the payload or leaves", "statement": "`let V(x) = e else { .. }` binds x to the payload if e is V; otherwise the block runs and the function is left. What the block defers or declares happens only if the block was entered.", "quantifier": "every function body, every value of every option, result or enum", "why_tests_cant": "The paths through guards, blocks and defers are unboundedly many.", "anchors": ["src/parser/parser_decl.c: parse_var_decl", "src/codegen/codegen_stmt.c: codegen_node_single"]}
{"id": "C96", "title": "Rename and references reach exactly the uses of a declaration", "statement": "In an editor, renaming a function or variable from any of its occurrences edits every occurrence that stands for the same declaration, in every file of the project, each once, and nothing else; find references lists the same places.", "quantifier": "every project, every sequence of opened and changed files, every position", "why_tests_cant": "Projects, editing histories and bindings are unboundedly many; a missed or foreign occurrence breaks the program silently.", "anchors": ["src/lsp/lsp_analysis.c: lsp_rename, lsp_references", "src/lsp/lsp_index.c: lsp_walk_node", "src/lsp/lsp_project.c: lsp_project_update_file"]}
{"id": "C97", "title": "Go to definition and hover lead to the declaration", "statement": "From any occurrence of a function or variable, go to definition leads to the file, line and column of its declaration, and hover shows that declaration; reading a file never corrupts the server.", "quantifier": "every project, every sequence of opened and changed files, every position", "why_tests_cant": "The answer depends on the order in which files were read and on the places of unrelated declarations.", "anchors": ["src/lsp/lsp_analysis.c: lsp_goto_definition, lsp_hover", "src/lsp/lsp_index.c: lsp_find_at"]}
{"id": "C98", "title": "Semantic tokens are the names and literals of the file", "statement": "The numbers the language server answers to a request for semantic tokens decode, as the protocol says, to the names and literals of the file, in order, each place once.", "quantifier": "every file, every order in which equal elements may be sorted", "why_tests_cant": "Files are unboundedly many; a client decodes differences, so one wrong number displaces everything after it.", "anchors": ["src/lsp/lsp_semantic.c: lsp_semantic_tokens_full, traverse_node"]}
{"id": "C99", "title": "The Befunge plugin compiles Befunge", "statement": "A block of Befunge-93 behaves, cell after cell, as the language says: same stack, position, direction and output, and it ends when the program ends.", "quantifier": "every program text, every number of executed cells", "why_tests_cant": "A playfield has 2000 cells and runs are unbounded; tests only follow a few paths.", "anchors": ["plugins/befunge.c: befunge_transpile", "src/parser/parser_stmt.c: parse_macro_call"]}
{"id": "C100", "title": "The type checker accepts the well-typed programs and no others", "statement": "A program the type check reports no error in is well typed: operands, arguments, initialisers, fields, assigned and returned values have types that fit; and a well-typed program is not refused.", "quantifier": "every context of functions and structs, every expression, statement, function and program", "why_tests_cant": "Programs are nested without bound; tests check single mistakes, and a construct without a case in the checker is simply accepted.", "anchors": ["src/analysis/typecheck.c: check_program, check_node, check_function", "src/ast/ast.c: type_eq"]}
{"id": "C101", "title": "Options mean the same wherever they stand on the command line", "statement": "For every command, each option of the usage text sets what it says and nothing else, before, between or behind the files, with its value joined or apart; the first file is the program, the others are further sources, in their order.", "quantifier": "every command and every list of options, values and files", "why_tests_cant": "There are unboundedly many orders and combinations of options; tests use one command line per option.", "anchors": ["src/main.c: main"]}
{"id": "C102", "title": "The compiler changes only the files asked for, and its exit status tells what happened", "statement": "check changes no file; transpile writes the C text where asked; build writes the output and leaves no other file; run leaves no file of its own and exits with the status of the program; a failure is reported by exit status 1 and changes nothing.", "quantifier": "every configuration, file system, front end, C compiler and program run", "why_tests_cant": "Which files exist before is unbounded; tests run in a clean directory and with programs that exit with 0 or 1.", "anchors": ["src/main.c: main", "src/platform/os.c: z_run_command"]}
{"id": "C103", "title": "A spawned thread runs its closure exactly once, join waits for it, nothing leaks", "statement": "Each successful Thread::spawn makes a new thread that runs the closure with what it captured, once; join returns only when the thread has returned; the copy of the closure is freed once, after that and not before; when all threads are over none is left; join of a thread that cannot be joined is an Err.", "quantifier": "every program, closure and interleaving", "why_tests_cant": "The number of interleavings is unbounded and a test sees one of them.", "anchors": ["std/thread.zc: Thread::spawn", "std/thread.zc: Thread.join", "std/thread.zc: Thread.cancel", "std/thread.zc: _z_thread_trampoline"]}
{"id": "C104", "title": "A mutex excludes: additions under it are not lost, and disciplined programs neither block nor hit undefined behaviour", "statement": "At most one thread holds a Mutex; between two locks it was unlocked by the first; a variable that threads only increment under the mutex ends as its first value plus the number of increments; programs whose threads join or detach once what they spawned, and do not wait while holding the mutex, never reach an undefined call nor a state in which no thread can go on.", "quantifier": "every program and interleaving", "why_tests_cant": "Lost updates and deadlocks depend on the interleaving, which tests do not choose.", "anchors": ["std/thread.zc: Mutex.lock", "std/thread.zc: Mutex.unlock", "std/thread.zc: Mutex.free"]}
{"id": "C105", "title": "sleep_ms sleeps for the given number of milliseconds", "statement": "For every non-negative int, sleep_ms(ms) asks the system for ms times a thousand microseconds; a negative time does not sleep.", "quantifier": "every int", "why_tests_cant": "A test that sleeps an hour is not run.", "anchors": ["std/thread.zc: sleep_ms"]}
{"id": "C106", "title": "The language server reads and writes JSON strings faithfully", "statement": "A JSON string in a request is read as the bytes it stands for, with every escape and surrogate pair as the UTF-8 of its code point; texts that are not strings are refused; a string in an answer is a JSON string without control bytes that reads back as itself; no buffer overflows.", "quantifier": "every byte string and every text", "why_tests_cant": "Escapes, surrogates, lengths and positions combine without bound.", "anchors": ["src/lsp/cJSON.c: parse_string", "src/lsp/cJSON.c: utf16_literal_to_utf8", "src/lsp/cJSON.c: print_string_ptr"]}
{"id": "C107", "title": "A message is accepted exactly when it is JSON, and an answer reads back as the value it was made from", "statement": "Every JSON document, in whatever layout, is read as the value it writes; nothing else is accepted; what is printed, formatted or not, is JSON for the value and reads back as it.", "quantifier": "every text and every value", "why_tests_cant": "Documents nest without bound and blanks may appear between any two tokens.", "anchors": ["src/lsp/cJSON.c: cJSON_Parse", "src/lsp/cJSON.c: parse_value", "src/lsp/cJSON.c: print_value"]}
{"id": "C108", "title": "Looking up a member of a JSON object finds the member of that name", "statement": "The value found for a name is that of the first member with exactly this name; nothing is found when there is none; a member that was added is found.", "quantifier": "every object and name", "why_tests_cant": "Any two names could be confused.", "anchors": ["src/lsp/cJSON.c: cJSON_GetObjectItem", "src/lsp/cJSON.c: get_object_item"]}
{"id": "C109", "title": "The assembler gets the lines of an asm block as they are written, with the operands in place of their names", "statement": "For every asm block, the text that arrives at the assembler through the C compiler is the lines of the block in order, one line each, every character as written and the register of the operand wherever a placeholder names it.", "quantifier": "every block of lines, operands and clobbers", "why_tests_cant": "The text passes two layers of quoting and the operand numbering; any character and any combination of operands may occur.", "anchors": ["src/parser/parser_stmt.c: parse_asm", "src/codegen/codegen_stmt.c: NODE_ASM"]}
{"id": "C110", "title": "Outputs, inputs and clobbers of an asm block reach the C compiler as such", "statement": "The C statement for a block is accepted by the compiler and has exactly the declared outputs, with the constraint of their mode, the declared inputs and the declared clobbers, in their order.", "quantifier": "every block", "why_tests_cant": "Any of the three sections may be empty, in any combination.", "anchors": ["src/parser/parser_stmt.c: parse_asm", "src/codegen/codegen_stmt.c: NODE_ASM"]}
{"id": "C111", "title": "Bare instructions in an asm block become one line each", "statement": "Instructions written without quotes arrive as one line per instruction with their tokens in order; a block that is not closed is reported.", "quantifier": "every sequence of instructions", "why_tests_cant": "Where an instruction ends is guessed from its tokens, of which there is no bound.", "anchors": ["src/parser/parser_stmt.c: parse_asm"]}
{"id": "C112", "title": "No asm block overruns the compiler's buffers", "statement": "The template, the lists of operands, the names of placeholders and the expanded template fit the memory reserved for them.", "quantifier": "every block", "why_tests_cant": "Lengths are unbounded.", "anchors": ["src/parser/parser_stmt.c: parse_asm", "src/codegen/codegen_stmt.c: NODE_ASM"]}
{"id": "C113", "title": "The line the REPL reads is the line the keys produce", "statement": "For every history and every sequence of keys (characters, arrows, Home, End, backspace, Ctrl-U, Ctrl-K, history, search) the line handed back by Enter is what an editor with a cursor would show.", "quantifier": "every history, indentation and key sequence", "why_tests_cant": "Key sequences are unbounded and each key works on memory that is moved, grown and replaced.", "anchors": ["src/repl/repl.c: repl_readline"]}
{"id": "C114", "title": "No sequence of bytes from the terminal overruns the line buffer", "statement": "Whatever bytes are sent, the editor reads and writes only inside its buffer, and ends with a proper string or with nothing.", "quantifier": "every byte sequence and history", "why_tests_cant": "The buffer is grown in one place, replaced by exact copies in others, and escape sequences may be cut anywhere.", "anchors": ["src/repl/repl.c: repl_readline"]}
{"id": "C115", "title": "Walking through the history keeps the line being typed", "statement": "Up pressed n times shows the n-th entry from the end, going down again brings back the line that was being typed, and a search shows the latest entry that contains the text.", "quantifier": "every history, typed line and number of steps", "why_tests_cant": "The history and the typed line are arbitrary.", "anchors": ["src/repl/repl.c: repl_readline"]}
{"id": "C116", "title": "Tab completes the word before the cursor when there is one completion", "statement": "If the word before the cursor begins exactly one keyword or command, Tab inserts the rest of it at the cursor; otherwise nothing changes.", "quantifier": "every line and cursor position", "why_tests_cant": "Any line may precede the word.", "anchors": ["src/repl/repl.c: repl_complete, repl_readline"]}
{"id": "C117", "title": "Other keys and the end of the input do no harm", "statement": "A key the editor does not know changes nothing, and the end of the input ends the session.", "quantifier": "every line and key", "why_tests_cant": "Terminals send many sequences.", "anchors": ["src/repl/repl.c: repl_readline"]}
{"id": "C118", "title": "A REPL session runs its entries one after the other", "statement": "Every complete entry, on one line or several, is run with the definitions and variables of the entries before it, for as long as the session lasts.", "quantifier": "every history, every sequence of lines", "why_tests_cant": "Sessions are unbounded; a test enters a handful of lines.", "anchors": ["src/repl/repl.c: run_repl"]}
{"id": "C119", "title": "The program of a session is its definitions and its statements, in order, each once", "statement": "The program that is run for an entry has all definitions of the session outside of main and all statements inside, in the order they were entered, the new one last and once; an expression is printed.", "quantifier": "every session of definitions and statements", "why_tests_cant": "The text depends on all entries so far.", "anchors": ["src/repl/repl.c: repl_get_code, is_header_line, run_repl"]}
{"id": "C120", "title": "No entry and no watch overruns the buffers of the program text", "statement": "Whatever is entered or watched, the program text fits the memory it is written to.", "quantifier": "every session, entry and list of watches", "why_tests_cant": "The sizes are sums over the session.", "anchors": ["src/repl/repl.c: run_repl"]}
{"id": "C121", "title": "The session is the same after leaving and coming back", "statement": "The history written on leaving is the session, reading it back gives the same entries, and a session saved with :save can be loaded with :load.", "quantifier": "every session", "why_tests_cant": "Entries are arbitrary texts.", "anchors": ["src/repl/repl.c: run_repl"]}
{"id": "C122", "title": "Commands change the session as they say", "statement": ":delete n removes the n-th entry, :undo the last, :reset all; :edit runs the edited entry; unknown commands are refused; exit and the end of the input end the session.", "quantifier": "every session and number", "why_tests_cant": "All session states.", "anchors": ["src/repl/repl.c: run_repl"]}
{"id": "C123", "title": "An embedded file is its bytes", "statement": "embed denotes the bytes of the file in order, with their number as length, as the type that is asked for; an array of n elements has n.", "quantifier": "every file, every type", "why_tests_cant": "Files are arbitrary byte sequences.", "anchors": ["src/parser/parser_type.c: parse_embed", "src/parser/parser_decl.c: parse_var_decl"]}
{"id": "C124", "title": "A slice literal has the elements that are written", "statement": "A slice literal in a declaration has the elements between its brackets, in order, and their number as length; one that is not closed is rejected.", "quantifier": "every list of elements", "why_tests_cant": "Elements are arbitrary expressions.", "anchors": ["src/parser/parser_type.c: parse_array_literal"]}
{"id": "C125", "title": "No embedded file and no slice literal overruns a buffer of the compiler", "statement": "Whatever the file, the element and the type, the text fits the memory it is written to.", "quantifier": "every file name, file, type and literal", "why_tests_cant": "The sizes depend on the input.", "anchors": ["src/parser/parser_type.c: parse_embed, parse_array_literal"]}
{"id": "C126", "title": "Forth blocks compute what their postfix expressions say", "statement": "An arithmetic expression in postfix form leaves exactly its value on the stack, above what was there.", "quantifier": "every expression", "why_tests_cant": "Expressions are arbitrary.", "anchors": ["plugins/forth.c: eval_forth_token"]}
{"id": "C127", "title": "Forth conditionals and loops nest", "statement": "if/else/then and do/loop run the parts that are meant, whatever is inside of them.", "quantifier": "every program", "why_tests_cant": "Programs are arbitrary nestings.", "anchors": ["plugins/forth.c: eval_forth_token, skip_until, eval_forth_string"]}
{"id": "C128", "title": "A Forth word means what it was defined as", "statement": "Calling a word does what its definition says, with the meaning words had then; definitions are kept, and a block does the same wherever it stands.", "quantifier": "every name and definition", "why_tests_cant": "Definitions are arbitrary programs.", "anchors": ["plugins/forth.c: process_forth_source, eval_forth_token"]}
{"id": "C129", "title": "A Forth block cannot overrun the memory of the compiler", "statement": "Whatever a block says, the plugin stays within its stacks, memory, dictionary and buffers.", "quantifier": "every block", "why_tests_cant": "Blocks are arbitrary programs.", "anchors": ["plugins/forth.c: eval_forth_token, process_forth_source"]}
{"id": "C130", "title": "A Lisp block computes what its expressions say", "statement": "A block of Lisp is turned into C that prints what the block prints, whatever blanks and nesting it has.", "quantifier": "every block", "why_tests_cant": "Blocks are arbitrary nestings.", "anchors": ["plugins/lisp.c: parse_lisp_expr, parse_lisp_list, parse_atom, lisp_transpile"]}
{"id": "C131", "title": "Forms of Lisp are written as what they mean", "statement": "Operators take all their operands, comparisons, lists and strings have their values, and what cannot be written is reported.", "quantifier": "every form", "why_tests_cant": "Forms have arbitrary operands and names.", "anchors": ["plugins/lisp.c: parse_lisp_list, parse_atom"]}
{"id": "C132", "title": "Lisp variables and functions have the scopes of Lisp", "statement": "The bindings of a let see the variables outside of it, and functions see each other.", "quantifier": "every let and every pair of functions", "why_tests_cant": "Names and values are arbitrary.", "anchors": ["plugins/lisp.c: parse_lisp_list (let, defun)"]}
{"id": "C133", "title": "What a C header declares is known", "statement": "After include of a header, its functions and types can be used without warnings, and nothing it does not declare.", "quantifier": "every header", "why_tests_cant": "Headers have arbitrary lines.", "anchors": ["src/parser/parser_stmt.c: try_parse_c_function_decl, try_parse_c_struct_decl, scan_c_header_contents"]}
{"id": "C134", "title": "Headers that include headers are read once and completely", "statement": "Every header reachable by include is scanned, once, and scanning ends, whatever includes what.", "quantifier": "every graph of headers", "why_tests_cant": "Graphs may have any depth and cycles.", "anchors": ["src/parser/parser_stmt.c: scan_c_header_contents"]}
{"id": "C135", "title": "A constant of a C header has the value it has in C", "statement": "A name defined by #define as an integer has that value in the program.", "quantifier": "every definition", "why_tests_cant": "Values and conditions are arbitrary.", "anchors": ["src/parser/parser_utils.c: try_parse_macro_const"]}
{"id": "C136", "title": "An include names the file that is written", "statement": "include of a name in brackets or quotes names that file, whatever its length, and malformed ones are reported.", "quantifier": "every include", "why_tests_cant": "Names have arbitrary length.", "anchors": ["src/parser/parser_stmt.c: parse_include"]}
{"id": "C137", "title": "Blocks of SQL do what SQL does", "statement": "The statements of a sql block have the effect they have in SQL, and what the plugin does not support is reported.", "quantifier": "every block", "why_tests_cant": "Blocks have arbitrary statements.", "anchors": ["plugins/sql.c: sql_transpile, parse_select, parse_insert"]}
{"id": "C138", "title": "Rows of a table are kept and printed", "statement": "SELECT prints exactly the rows that have been inserted since the table was created, in this order.", "quantifier": "every number of rows", "why_tests_cant": "Tables have arbitrarily many rows.", "anchors": ["plugins/sql.c: parse_insert, parse_select"]}
{"id": "C139", "title": "Tables have the columns they are created with", "statement": "CREATE TABLE makes a table with the columns it lists, of their types, whatever their names.", "quantifier": "every list of columns", "why_tests_cant": "Lists and names have arbitrary length.", "anchors": ["plugins/sql.c: parse_create_table, add_column"]}
{"id": "C140", "title": "Names of plugins lead to the plugins imported", "statement": "Behind any imports of plugins a block with a name or alias is given to the plugin imported under it last, and a block with any other name is reported.", "quantifier": "every sequence of imports", "why_tests_cant": "Imports come in arbitrary sequences.", "anchors": ["src/plugins/plugin_manager.c: zptr_register_plugin, zptr_find_plugin", "src/parser/parser_utils.c: resolve_plugin"]}
{"id": "C141", "title": "A plugin gets the text of its block", "statement": "What a plugin is given is the text of the block, with its lines, whatever its length and its words.", "quantifier": "every block", "why_tests_cant": "Blocks have arbitrary tokens and length.", "anchors": ["src/parser/parser_stmt.c: parse_macro_call, parse_plugin"]}
{"id": "C142", "title": "A comptime block is replaced by what it prints", "statement": "A comptime block runs its statements in order, with the @comptime functions of the file, and the source it yields takes its place; if it reports an error compiling stops.", "quantifier": "every block and every set of @comptime functions", "why_tests_cant": "Blocks and functions are arbitrary.", "anchors": ["src/parser/parser_stmt.c: run_comptime_block"]}
{"id": "C143", "title": "The arms of a match are read as written, in statements and expressions", "statement": "A match has the arms it is written with, each with its alternatives, paths, ranges, variables, guard and body, whether it is a statement or part of an expression.", "quantifier": "every list of arms", "why_tests_cant": "Arms and patterns are arbitrary.", "anchors": ["src/parser/parser_stmt.c: parse_match", "src/parser/parser_expr.c: parse_primary"]}
{"id": "C144", "title": "Variables in a pattern have the payload of the variant", "statement": "In an arm E::V(x, y) the variables have the parts of the payload of V, and with ref their addresses.", "quantifier": "every enum, variant and list of variables", "why_tests_cant": "Names and payloads are arbitrary.", "anchors": ["src/codegen/codegen_stmt.c: codegen_match_internal"]}
{"id": "C145", "title": "A match on an enum is warned about exactly when a variant is missing", "statement": "The compiler warns about a variant if and only if no arm takes it.", "quantifier": "every enum and every list of arms", "why_tests_cant": "Enums and arms are arbitrary.", "anchors": ["src/codegen/codegen_stmt.c: codegen_match_internal"]}
{"id": "C146", "title": "The value of a match is that of the arm chosen", "statement": "A match used as an expression has the value of the body of the arm chosen, of whatever type.", "quantifier": "every list of arms", "why_tests_cant": "Arms are arbitrary.", "anchors": ["src/codegen/codegen_stmt.c: codegen_match_internal", "src/codegen/codegen_utils.c: infer_type"]}
{"id": "C147", "title": "Types are read as they are written", "statement": "A type has the meaning of its parts as written: names, arguments in angle brackets, slices, arrays, tuples, functions, pointers and qualifiers, nested to any depth; blanks do not matter.", "quantifier": "every type and every text behind it", "why_tests_cant": "Types nest without bound.", "anchors": ["src/parser/parser_type.c: parse_type_base, parse_type_formal"]}
{"id": "C148", "title": "A name followed by < is a comparison unless it is a generic with its arguments", "statement": "a < e is a comparison for every variable a and every expression e; f<T, U> is f with its arguments for every generic f and all types.", "quantifier": "every expression and every list of types", "why_tests_cant": "Expressions and types are arbitrary.", "anchors": ["src/parser/parser_expr.c: parse_primary"]}
{"id": "C149", "title": "A brace behind a name begins a literal if the name is a type, and a block otherwise", "statement": "S { f: e, ... } is a literal with the fields written, in order; a block behind a condition that ends with a variable is a block.", "quantifier": "every name, list of fields and block", "why_tests_cant": "Names and blocks are arbitrary.", "anchors": ["src/parser/parser_expr.c: parse_primary"]}
{"id": "C150", "title": "The type arguments of a struct literal are found from its fields", "statement": "In a literal of a generic struct without type arguments, the arguments are those for which the values fit the fields.", "quantifier": "every generic struct and every literal of it", "why_tests_cant": "Structs and values are arbitrary.", "anchors": ["src/parser/parser_expr.c: parse_primary"]}
{"id": "C151", "title": "Behind a dot, completion offers the fields of the value", "statement": "With the cursor behind x. for a variable or parameter x of a struct type, completion offers exactly the fields of this struct.", "quantifier": "every file and place", "why_tests_cant": "Files, types and places are arbitrary.", "anchors": ["src/lsp/lsp_analysis.c: lsp_completion, find_local_in_func, resolve_local_type"]}
{"id": "C152", "title": "Completion offers the names in scope", "statement": "Elsewhere completion offers the variables and parameters in scope at the cursor and the functions, structs and globals of the project, each once, and no other names.", "quantifier": "every function, place and history of changes", "why_tests_cant": "Functions have arbitrary statements.", "anchors": ["src/lsp/lsp_analysis.c: lsp_completion", "src/lsp/lsp_project.c: lsp_project_update_file"]}
{"id": "C153", "title": "The outline lists the declarations of a file where they are", "statement": "The outline of a file has its declarations in order, each with its place and the fields of structs below them, and no others.", "quantifier": "every file", "why_tests_cant": "Files are arbitrary.", "anchors": ["src/lsp/lsp_analysis.c: ast_to_symbol, lsp_document_symbol"]}
{"id": "C154", "title": "readln() reads one line", "statement": "readln() and a prompt return the next line of the input, of any length, without its newline, and NULL at the end of the input.", "quantifier": "every input", "why_tests_cant": "Lines have arbitrary length and content.", "anchors": ["src/codegen/codegen_decl.c: _z_readln_raw", "src/parser/parser_expr.c: parse_primary (readln), parse_expr_prec_impl (?)"]}
{"id": "C155", "title": "readln(a, b, ...) and prompts scan values into variables", "statement": "readln(a, b, ...) and ? \"text\" (a, b, ...) read a line and store in each variable the value of its word by the type of the variable, return the number of the values, and change nothing else.", "quantifier": "every list of types, line and memory", "why_tests_cant": "Types, lines and white space are arbitrary.", "anchors": ["src/codegen/codegen_decl.c: _z_scan_helper", "src/parser/parser_expr.c: parse_primary (readln), parse_expr_prec_impl (?)"]}
{"id": "C156", "title": "The prompt shows what was typed", "statement": "After every key the row of the terminal shows the prompt and the line as it is, with the cursor at its place, and no other row changes.", "quantifier": "every line, cursor, prompt and screen", "why_tests_cant": "Lines and screens are arbitrary.", "anchors": ["src/repl/repl.c: repl_highlight, get_visible_length, repl_readline"]}
{"id": "C157", "title": "The bracket at the cursor is marked with its partner", "statement": "If the bracket at the cursor or before it has a partner in the line, these two are marked, and no other.", "quantifier": "every line and cursor", "why_tests_cant": "Lines have arbitrary nesting.", "anchors": ["src/repl/repl.c: find_matching_brace, repl_highlight"]}
{"id": "C158", "title": "Words are coloured by what they are", "statement": "Keywords, types, functions and constants of the language are shown in their colours, other words without.", "quantifier": "every line", "why_tests_cant": "Lines are arbitrary.", "anchors": ["src/repl/repl.c: repl_highlight"]}
{"id": "C159", "title": "Error messages show the place", "statement": "The message for a token of the program names its line and column and shows the whole line, with the caret below the first character of the token.", "quantifier": "every program text, token, message and level", "why_tests_cant": "Lines, columns and texts are arbitrary.", "anchors": ["src/diagnostics/diagnostics.c: zpanic_at, zerror_at, zwarn_at"]}
{"id": "C160", "title": "Without a terminal there are no colours, and nothing else changes", "statement": "What the compiler writes to a file or a pipe is what it would write to a terminal without the colours; in particular the generated program contains every string of the source as it is.", "quantifier": "every text", "why_tests_cant": "Texts are arbitrary.", "anchors": ["src/utils/colors.c: strip_ansi_codes, zvfprintf", "src/codegen/codegen.c: codegen_literal_expr"]}
{"id": "C161", "title": "Parts are destroyed with the whole", "statement": "When a variable goes away, the destructor of every part of it that has one is called exactly once, that of a value before those of its parts, and no other destructor is called.", "quantifier": "every program of definitions, destructors and instances, every type", "why_tests_cant": "Definitions nest to arbitrary depth.", "anchors": ["src/parser/parser_utils.c: propagate_drop_traits, instantiate_generic, check_impl", "src/parser/parser_struct.c: parse_impl", "src/codegen/codegen_main.c: emit_auto_drop_glues", "src/codegen/codegen_stmt.c: NODE_VAR_DECL"]}
{"id": "C162", "title": "Sockets belong to their variables", "statement": "A TcpStream, TcpListener or UdpSocket reads, writes, accepts on and closes the socket that it was made with and no other descriptor of the process; after close, drop or a move it does nothing to any socket; a failed connect or bind leaves no socket open; when all variables are gone, every socket has been closed exactly once.", "quantifier": "every sequence of operations, every answer of the system, every reuse of descriptors", "why_tests_cant": "The system reuses descriptors, so a stale one hits another socket only in certain orders of events.", "anchors": ["std/net/tcp.zc", "std/net/udp.zc", "std/sys/net.zc", "std/result.zc: expect"]}
{"id": "C163", "title": "Connections go to the port that was asked for", "statement": "connect, bind and send_to ask the system for the port that they were given, or report an error.", "quantifier": "every int", "why_tests_cant": "Only numbers outside the range show it.", "anchors": ["std/sys/net.zc: _z_net_bind, _z_net_bind_udp, _z_net_connect, _z_net_sendto"]}
{"id": "C164", "title": "JSON arrays of the language server behave like lists", "statement": "After any sequence of calls that add, insert, replace or take out items, an array or object has the items that a list would have, in order, for every way of going through it; other arrays keep theirs.", "quantifier": "every sequence of calls, any number of arrays and items", "why_tests_cant": "Links in both directions, and from the first item to the last, must agree after every order of calls.", "anchors": ["src/lsp/cJSON.c: add_item_to_array, cJSON_DetachItemViaPointer, cJSON_InsertItemInArray, cJSON_ReplaceItemViaPointer, get_array_item, cJSON_GetArraySize"]}
{"id": "C165", "title": "Every generic function that is called gets its instance", "statement": "When a program calls generic functions with types, and generic functions call others with their own parameter, the compiler ends and the C program has exactly one function for every generic function and type that are needed, and no others.", "quantifier": "every program, any number of generic functions and any depth of calls", "why_tests_cant": "The instances needed are a closure over calls inside of instances; names are composed and taken apart again at every step.", "anchors": ["src/parser/parser_utils.c: instantiate_function_template, trigger_instantiations, unmangle_ptr_suffix", "src/parser/parser_decl.c: parse_function", "src/parser/parser_expr.c: parse_primary (generic calls)"]}
{"id": "C166", "title": "Every instance of a generic struct has its methods, once", "statement": "Whatever the order of generic structs, their impl blocks and their uses, every method of every impl block exists exactly once for every instance of the struct, and the types that it names exist.", "quantifier": "every sequence of definitions and uses", "why_tests_cant": "An impl block may come before or after the uses, and methods ask for instances while instances are being made.", "anchors": ["src/parser/parser_utils.c: register_impl_template, instantiate_methods, instantiate_generic, instantiate_generic_multi", "src/parser/parser_struct.c: parse_impl"]}
{"id": "C167", "title": "Type parameters are in force in their declaration only", "statement": "In a function, struct, trait, enum or impl block exactly its own type parameters, and those of the block around it, are taken for type parameters; behind it none of them is.", "quantifier": "every sequence of declarations", "why_tests_cant": "The parameters in force are a counter and an array that every kind of declaration changes in its own way.", "anchors": ["src/parser/parser_utils.c: register_generic, is_known_generic", "src/parser/parser_decl.c: parse_function", "src/parser/parser_struct.c: parse_trait, parse_impl, parse_struct, parse_enum"]}
{"id": "C168", "title": "The value of an if expression is that of the branch taken", "statement": "An `if` used as a value evaluates its condition once, runs exactly the branch chosen, has the last value of that branch unchanged, and what the branch defers runs at its end.", "quantifier": "every function with nested if expressions, every initial state", "why_tests_cant": "Types of branches, names declared in them and deferred statements combine freely.", "anchors": ["src/codegen/codegen.c: codegen_expression", "src/codegen/codegen_stmt.c: codegen_node_single", "src/parser/parser_expr.c: parse_primary"]}
{"id": "C169", "title": "Declarations in C have the types that were written", "statement": "The C declaration of a variable, field, parameter or function, read by the rules of C, declares that name with the type written in the source.", "quantifier": "every type built from names, pointers, arrays and function pointers", "why_tests_cant": "Declarators of C nest inside out, so every combination of constructors is a case of its own.", "anchors": ["src/ast/ast.c: type_to_c_string", "src/codegen/codegen_utils.c: emit_c_decl, emit_func_signature"]}
{"id": "C170", "title": "JSON values own their memory", "statement": "A JSON value that was built with push and set holds what was put into it, can be read with get, at and len, and gives back all of its memory, each block once, when it is freed.", "quantifier": "every program that builds a value, nested to any depth, on every heap", "why_tests_cant": "Leaks and double frees depend on the shape of the tree and do not show in the output.", "anchors": ["std/json.zc: JsonValue.push, set, get, at, len, free, Drop", "std/map.zc: Map.put"]}
{"id": "C171", "title": "Finding with regular expressions", "statement": "find returns the first match in the text with its position and text, and nothing if there is none; match_full says whether the whole text matches; find_at and match_at do the same from an offset on, with positions in the text; letters are matched as written unless flags say otherwise.", "quantifier": "every expression, text and offset", "why_tests_cant": "Where a match begins depends on text and expression together.", "anchors": ["std/regex.zc: Match.as_string, Match.end, Regex.compile, match, match_full, match_at, find, find_at"]}
{"id": "C172", "title": "Expressions mean the same with every C compiler", "statement": "An accepted expression with several operands or arguments has the value, and makes the calls in the order, that evaluation from left to right gives, whichever order the C compiler chooses; giving a value away does not disturb the other operands, and copying a value leaves it as it was.", "quantifier": "every expression, state of the variables and order of evaluation", "why_tests_cant": "A test sees the order that one compiler chooses.", "anchors": ["src/codegen/codegen_utils.c: codegen_expression_with_move, emit_move_invalidation", "src/codegen/codegen.c: codegen_expression", "src/analysis/move_check.c: is_type_copy"]}
{"id": "C173", "title": "Printing JSON stays within its buffer", "statement": "Printing a JSON value writes only into the memory it asked for, reads only what it wrote, and returns a block with exactly the text of the value and a terminating zero; it fails only for texts that do not fit into INT_MAX bytes.", "quantifier": "every value, with strings of any length and any nesting, compact and indented", "why_tests_cant": "Each print asks for space at a dozen places with a size computed apart from what is then stored; a size that is short by one shows only when the buffer happens to be full there.", "anchors": ["src/lsp/cJSON.c: ensure, update_offset, print_number, print_string_ptr, print_value, print_array, print_object, print"]}
{"id": "C174", "title": "Arguments reach programs unchanged on Windows", "statement": "A program that the compiler starts on Windows receives exactly the arguments that were given, whatever blanks, quotes and backslashes are in them, and building its command line stays within memory.", "quantifier": "every list of arguments", "why_tests_cant": "The rules for backslashes before quotes are known for their corner cases; the tests run on other systems, where arguments are not joined.", "anchors": ["src/platform/os.c: quote_arg, z_run_command"]}
{"id": "C175", "title": "Calls of undefined functions are reported", "statement": "A call of a function is reported exactly if the function is neither defined, nor declared extern, nor listed under c_functions in a configuration file: that of ZC_ROOT or else of the installation, the hidden and the visible one of the project.", "quantifier": "every program, declaration list and set of configuration files", "why_tests_cant": "Tables grow by 64 names and with every file; entries of other types are skipped; whether a report is missing depends on all imports together.", "anchors": ["src/utils/config.c: append_whitelist, load_config_file, load_all_configs", "src/parser/parser_utils.c: register_extern_symbol, is_extern_symbol", "src/codegen/codegen.c: codegen_expression (NODE_EXPR_CALL)"]}
{"id": "C176", "title": "The defer of a declaration acts on the declared variable", "statement": "let x = e defer d; runs d at the end of the scope with it meaning x; a defer that is a statement of its own, in particular one after the semicolon of a declaration, has no special it and does the same as anywhere else.", "quantifier": "every block of declarations, defer statements and expressions, every environment and meaning of the operators", "why_tests_cant": "it may occur at any depth of any kind of expression; what a defer means depends on the statement before it.", "anchors": ["src/parser/parser_decl.c: replace_it_with_var, parse_var_decl", "src/parser/parser_stmt.c: parse_defer, parse_block"]}
{"id": "C177", "title": "Values with destructors survive being captured, exactly once", "statement": "In a function that makes values with destructors, captures them in lambdas, calls the closures and other functions with them and moves them, every value is destroyed exactly once.", "quantifier": "every sequence of declarations, moves, lambdas, calls of closures and calls of functions", "why_tests_cant": "Leaks and double releases depend on the whole history of moves, captures and calls; tests see only the program they run, and a missing destructor call leaves no trace.", "anchors": ["src/codegen/codegen.c: codegen_lambda_expr, codegen_expression (closure calls)", "src/codegen/codegen_decl.c: emit_lambda_defs", "src/codegen/codegen_utils.c: codegen_expression_with_move, emit_move_invalidation", "src/codegen/codegen_stmt.c: codegen_node_single (NODE_VAR_DECL, NODE_FUNCTION)"]}
{"id": "C178", "title": "JSON texts of other programs are read as what they say", "statement": "Parsing a JSON text gives the value the text stands for, whatever the white space between its tokens and whichever of the allowed escapes it uses.", "quantifier": "every value, however nested, and every layout of its text", "why_tests_cant": "Layouts, escapes and nestings combine without limit; tests read the few texts at hand, mostly those the library wrote itself.", "anchors": ["std/json.zc: JsonValue::parse, _json_skip_ws, _json_parse_string, _json_parse_array, _json_parse_object, _json_parse_value (39-175)"]}
{"id": "C179", "title": "Lambdas are read with the captures and parameters that are written", "statement": "An expression written as a lambda, in any of its forms, is compiled as a lambda with exactly the captures, capture mode, parameters and types written, and an expression that is not a lambda is not taken for one.", "quantifier": "every list of captures and parameters, every type and every body", "why_tests_cant": "Forms, lists and types combine without limit, and the lookahead that decides depends on tokens arbitrarily far away.", "anchors": ["src/parser/parser_expr.c: parse_lambda (805-943), parse_primary (1921-2000, 3578-3675, 3858-3981)", "src/parser/parser_stmt.c: parse_match guard (333-343)"]}
{"id": "C180", "title": "The memory helpers touch exactly the objects they are given", "statement": "`alloc`, `zalloc`, `alloc_n` and `Box::new` give memory for all the objects asked for that nobody else uses, `mem_zero`, `mem_copy` and `swap` change exactly the bytes of the objects named, and `Box::free` ends the life of its object once.", "quantifier": "every heap, element size, count and pair of pointers", "why_tests_cant": "Sizes multiply to any value and pointers may lie anywhere in the same block; the failures need sizes beyond 64 bits or overlapping ranges.", "anchors": ["std/mem.zc: alloc, zalloc, alloc_n, Box, mem_zero, mem_copy, swap (2-68)"]}
{"id": "C181", "title": "C code that is passed through arrives unchanged and in order", "statement": "The text of every raw block and of every preprocessor directive appears in the generated C exactly as written, in the order of the source.", "quantifier": "every text of blocks and directives, every sequence of them, every kind of line end", "why_tests_cant": "Whether a line is dropped or moved depends on all the other lines of the program; tests have few directives each.", "anchors": ["src/parser/parser_core.c: raw and preprocessor nodes (609-617, 769-807)", "src/parser/parser_stmt.c: normalize_raw_content, raw statements (147-181, 2245-2255, 2434-2472)", "src/lexer/token.c: directives (53-71)", "src/codegen/codegen_main.c: raw passes (264-284, 530-583)"]}
{"id": "C182", "title": "Attributes of functions and structs reach the generated C", "statement": "For every list of attributes in front of a function or struct, the generated C has well-formed attribute lists with exactly the attributes written: the flags, the section, packing and alignment, and every attribute that is passed on, with its arguments.", "quantifier": "every list of attributes in any order, every argument", "why_tests_cant": "Separators depend on which combination of attributes is present; tests use a few combinations and mostly decimal alignments.", "anchors": ["src/parser/parser_core.c: attributes (75-606, 640-665, 860-925)", "src/codegen/codegen_stmt.c: attributes of functions (672-765)", "src/codegen/codegen_decl.c: attributes of structs (443-521)"]}
{"id": "C183", "title": "Environment variables have the value last set, and copies of them are independent", "statement": "After any sequence of Env::set and Env::unset, Env::get yields for every name the value it was last set to, or nothing if it was unset after that; a call with an invalid name reports ERR and changes nothing; texts handed out earlier stay readable, in particular the copies made by Env::get_dup.", "quantifier": "every environment at the start, every sequence of calls, every name and value", "why_tests_cant": "Histories are unbounded, and whether a text handed out earlier is still valid cannot be seen by a test that happens to find the old bytes.", "anchors": ["std/env.zc: Env (24-57)", "std/sys/env.zc: _z_setenv, _z_unsetenv (7-28)"]}
{"id": "C184", "title": "An alias means the type it stands for", "statement": "After `alias A = T`, the name A may be used for T wherever a type may stand, with the same meaning, and the generated C compiles; names of C structs from imported headers can be used as types.", "quantifier": "every type, every table of aliases declared before, every context of stars, sizes and const", "why_tests_cant": "An alias is kept as a text that is read again, so that the claim is about a round trip of every type; tests use three or four types.", "anchors": ["src/parser/parser_decl.c: parse_type_alias (922-950)", "src/parser/parser_type.c: parse_type_base, parse_type_formal, parse_type (6-963)", "src/ast/ast.c: type_to_string (224-475)", "src/parser/parser_utils.c: register_type_alias, find_type_alias_node (730-761)", "src/codegen/codegen_decl.c: emit_type_aliases (247-267)"]}
{"id": "C185", "title": "sizeof is the size of its operand", "statement": "`sizeof(T)` is the size of the type T and `sizeof(e)` that of the type of the expression e, with variables, elements and fields among the expressions; `typeof` likewise.", "quantifier": "every type, every variable, every expression", "why_tests_cant": "The operand is read as a type first, so that the claim depends on what of all expressions also reads as a type; tests use `sizeof(int)` and a struct.", "anchors": ["src/parser/parser_expr.c: parse_sizeof_expr, parse_typeof_expr (1499-1578)", "src/codegen/codegen.c: codegen_expression (1518-1596)", "src/parser/parser_utils.c: normalize_type_name (4422-4526)"]}
{"id": "C186", "title": "The use-after-move check sees through closures", "statement": "A program in which a value may be used after it was given away is rejected, also if the value is captured by a closure, by value or by reference, and if the closure uses it or gives it away; programs without such uses are accepted.", "quantifier": "every straight-line function, all closures in it, every number and order of calls", "why_tests_cant": "Which uses are bad depends on how often and when a closure is called; the tests of the check have single calls.", "anchors": ["src/analysis/typecheck.c: check_expr_lambda (1569-1635), check_expr_var (970-983), check_var_decl (798-832)", "src/analysis/move_check.c: check_use_validity, mark_symbol_moved, mark_symbol_valid (215-316)"]}
{"id": "C187", "title": "The C compiler gets what the user asked for, and run runs it", "statement": "The C compiler is called with every flag, library and C file the user named, in an order in which the program links if it can, and `zc run` runs the program that was made.", "quantifier": "every configuration, all sets of libraries and symbols, every output path", "why_tests_cant": "Whether a program links depends on the order of all libraries and which symbols each uses; the tests link libm at most.", "anchors": ["src/utils/cmd.c: build_compile_arg_list (81-168)", "src/main.c: main (648-720)"]}
{"id": "C188", "title": "Vector literals give the lanes that are written", "statement": "`V{v: e}` puts the value of `e`, evaluated once, into all lanes of a vector, `V{a, b, ...}` puts each value into its lane, both are accepted whatever the expressions are, and indexing a vector gives the lane or stops the program.", "quantifier": "all expressions, all numbers and types of lanes, all states, all indices", "why_tests_cant": "The tests use numbers as values; with a variable, a call or an index outside the vector the result is another one.", "anchors": ["src/parser/parser_expr.c: parse_primary (2451-2530, 2639-2725)", "src/codegen/codegen.c: codegen_expression (1104-1126, 1690-1745)", "src/analysis/typecheck.c: check_struct_init (1007-1071)"]}
{"id": "C189", "title": "Automatic imports do not change the program", "statement": "When a loop over an array or an implementation of Drop makes the compiler import a file of the standard library by itself, that is the file an import would find, and the declarations of all files that the program imports are in the program, in whatever order they are imported.", "quantifier": "all sets of files that import each other, all orders of imports, all places of loops, all search paths", "why_tests_cant": "What is lost depends on which file comes first; the tests have their imports at the top of a single file and run from the root of the repository.", "anchors": ["src/parser/parser_stmt.c: auto_import_std_slice (26-129)", "src/parser/parser_struct.c: auto_import_std_mem (22-121)", "src/parser/parser_decl.c: (224-227, 779-782)", "src/codegen/codegen_main.c: (488-600)"]}
{"id": "C190", "title": "Methods are defined once, whatever is in their bodies", "statement": "Every function and method of a program is defined once in the C file, `self` has the type of the impl in every method, and the names of methods are not names of functions, whatever the bodies are.", "quantifier": "all programs of functions and impl blocks, loops over arrays in any of them", "why_tests_cant": "It goes wrong only if the first loop over an array of a program is in a method; the tests have theirs in functions.", "anchors": ["src/parser/parser_struct.c: parse_impl (386-506, 549-790)", "src/parser/parser_decl.c: parse_function (130-230)", "src/parser/parser_stmt.c: auto_import_std_slice (26-129)", "src/codegen/codegen_main.c: (627-806)"]}
{"id": "C191", "title": "A returned tuple has the declared type", "statement": "In a function or lambda whose return type is a tuple, `return (a, b, ...);` returns a tuple of that type with these elements in order, and a `return` of anything else is not taken for a tuple literal; the compiler stops for every source text.", "quantifier": "all programs of functions with nested lambdas and loops, all elements with matching parentheses", "why_tests_cant": "It depends on what was parsed before in the same function (first loop over an array, an enclosing function with another tuple type); the tests return tuples from small functions.", "anchors": ["src/parser/parser_stmt.c: parse_return (1023-1103)", "src/parser/parser_type.c: parse_tuple_literal (1041-1103)", "src/parser/parser_decl.c: parse_function (127-196)", "src/parser/parser_stmt.c: auto_import_std_slice (26-129)"]}
{"id": "C192", "title": "Arrow lambdas return the value of their expression", "statement": "A lambda `x -> e` or `(a, b) -> e` returns, in every call and wherever it is passed, the value of `e` for the arguments; it does not depend on other calls.", "quantifier": "all bodies of numbers, parameters and operators, all lists of calls", "why_tests_cant": "The types of the C function are guessed from the body, from the first call and from a default of int; the tests use integers, and one fraction in a form for which the guess is right.", "anchors": ["src/parser/parser_expr.c: parse_arrow_lambda_single, parse_arrow_lambda_multi (7215-7377)", "src/parser/parser_expr.c: (6877-6911)", "src/analysis/typecheck.c: check_expr_call (588-640)", "src/codegen/codegen_decl.c: emit_lambda_defs (343-387)"]}
{"id": "C193", "title": "Reflection tells the fields of a type", "statement": "@fields(T) is a table with one row for each field of T, in order, with its name, the name of its type and the offset at which the field lies, ended by a row without a name; @type_name(T) names T and no other type; both also where T is a parameter of a generic function.", "quantifier": "all structs and unions, all types of scalars, structs and pointers, all instances", "why_tests_cant": "There is no test of reflection; offsets depend on the layout of every struct, and instances of generic functions are made of a copy that leaves these nodes out.", "anchors": ["src/parser/parser_expr.c: parse_intrinsic (1580-1622)", "src/codegen/codegen.c: NODE_REFLECTION (1598-1639)", "src/parser/parser_utils.c: copy_ast_replacing (1915-2202)", "src/ast/ast.c: type_to_c_string (482-753)"]}
{"id": "C194", "title": "The file that is named is read, completely", "statement": "The compiler reads the file it is given, or an imported one, from the first of the places as named, below ZC_ROOT, /usr/local/share/zenc and /usr/share/zenc where it exists; the text is every byte of it, or an error is reported.", "quantifier": "all file systems, paths, roots and contents", "why_tests_cant": "What happens depends on the kind of the file and the length of the path; tests read short ordinary files from one place.", "anchors": ["src/utils/utils.c: load_file (94-132)"]}
{"id": "C195", "title": "Editing does not make the language server read texts it has dropped", "statement": "Whatever the sequence of texts an editor sends, the language server reads no memory of a text it has released, and what it says about types is about the texts as they are now.", "quantifier": "all sequences of messages, all uses and declarations of types in them", "why_tests_cant": "Tokens of every text stay in a list that is searched at every later message; the error needs two messages and memory that is reused, tests send one.", "anchors": ["src/lsp/lsp_project.c: lsp_project_update_file (145-186)", "src/parser/parser_utils.c: register_type_usage, validate_types (4333-4367)", "src/diagnostics/diagnostics.c: zwarn_at (83-136)", "src/lsp/json_rpc.c: handle_request (288)"]}
{"id": "C196", "title": "Opening a workspace enters every source in it once, under the URI an editor uses", "statement": "When an editor opens a workspace, the language server enters exactly the readable files ending in .zc that are below it and not hidden, each once and under the URI that the editor will use for it.", "quantifier": "all file systems, all roots given as path or URI, all numbers of free descriptors", "why_tests_cant": "The workspace of a test is small and its paths are short and plain; what happens at the length of a buffer or with a character that a URI encodes is never in it.", "anchors": ["src/lsp/lsp_project.c: lsp_project_init, scan_file, scan_dir (12-37, 50-106)", "src/lsp/json_rpc.c: handle_request (78-109)"]}
{"id": "C197", "title": "Tips are rare, fit what was compiled, and do no harm", "statement": "A compilation prints at most one tip; none with --quiet or --no-zen and none after a warning; the tip is one of the file for a construct that came up; every tip of the file can come up; and no file of tips makes the compiler misbehave.", "quantifier": "all compilations (sequences of constructs and warnings), all files of tips, all random numbers", "why_tests_cant": "Tips depend on random numbers with one chance in ten; what never comes up, or only with a particular file in the current directory, is not seen by running tests.", "anchors": ["src/zen/zen_facts.c: map_trigger_name, load_facts, zzen_at, zen_trigger_at, zen_trigger_global (27-332)", "src/zen/facts.json"]}
