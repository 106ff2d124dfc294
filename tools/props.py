#!/usr/bin/env python3
"""Writes /verif/properties.jsonl.  One tuple per property."""
import json, os
P = []
def p(i, title, statement, quantifier, why, anchors):
    P.append(dict(id=i, title=title, statement=statement, quantifier=quantifier,
                  why_tests_cant=why, anchors=anchors))

p("C01", "Vec behaves as a sequence",
  "Starting from an empty or pre-sized growable vector, any sequence of push, insert, pop, pop_opt, remove, set, append, clear, reverse, get, first, last, contains, eq, clone and length calls returns exactly what the same calls return on a mathematical finite sequence, and a call panics exactly when the sequence operation is undefined (index out of range, pop of empty).",
  "every element type, every finite history of calls with every argument",
  "A unit test fixes one history; growth boundaries, shifts and clones interact over unboundedly many histories.",
  ["std/vec.zc: Vec::push insert pop pop_opt remove append get set reverse eq contains clone clear grow grow_to_fit"])
p("C02", "Vec never touches memory outside its buffer",
  "No sequence of calls on a vector reads or writes an element slot outside the buffer it currently owns.",
  "every finite history of calls with every argument, including calls on empty vectors",
  "Out-of-bounds accesses are undefined behaviour: a test run may pass although the access happened.",
  ["std/vec.zc: Vec::reverse, Vec::insert, Vec::append, Vec::grow_to_fit"])
p("C03", "Vec growth is amortised",
  "n pushes into a fresh vector relocate fewer than 2*n elements in total, and capacity never falls below length.",
  "every n", "Tests can only time some n.", ["std/vec.zc: Vec::grow, Vec::push"])
p("C04", "Queue is FIFO",
  "Any sequence of push, pop, clear, length and clone calls on a queue returns exactly what a first-in first-out list returns: elements come out in insertion order, unchanged, and none is lost or duplicated.",
  "every element size, every history of calls, every wrap-around position at which growth or cloning happens",
  "The ring can wrap at any offset relative to growth; tests cover a few offsets and a single element type.",
  ["std/queue.zc: Queue::push pop _grow clone clear"])
p("C05", "Stack is LIFO",
  "Any sequence of push, pop, clear, length and clone calls on a stack returns what a last-in first-out list returns and never writes outside the stack's buffer.",
  "every history of calls", "Clone of a never-used stack and growth interleavings cannot be enumerated by tests.",
  ["std/stack.zc: Stack::push pop clear clone free"])
p("C06", "Set behaves as a finite set",
  "Any sequence of add, remove, contains, clear and length on a hash set returns exactly what a mathematical finite set returns: add reports true iff the value was absent, remove reports true iff it was present, and length is the number of distinct members. Every call terminates.",
  "every history, every hash function, every collision pattern and every distribution of deleted slots",
  "Open addressing with deleted slots fails only for particular collision patterns and histories.",
  ["std/set.zc: Set::add remove contains clear _resize"])
p("C07", "Map behaves as a dictionary",
  "As long as calls return, a get after any history of put and remove returns the value of the latest put of that key not followed by a remove, contains agrees with get, and length is the number of present keys.",
  "every history, every hash function and collision pattern",
  "Probe chains through deleted slots depend on the whole history.",
  ["std/map.zc: Map::put get remove contains length _resize"])
p("C08", "Map operations terminate",
  "Every put, get and remove call returns after finitely many steps.",
  "every history of calls", "A hang needs a specific history in which deleted slots fill the table; tests do not reach it.",
  ["std/map.zc: Map::put (129-144), Map::remove (183-194), Map::get"])
p("C09", "Iterators visit every element exactly once",
  "Iterating a vector or slice yields its elements in index order exactly once; iterating a map yields exactly its current entries, each once, and then reports the end without touching memory it does not own.",
  "every container content, including empty containers",
  "The number of contents is unbounded and the failing end-of-iteration read is invisible unless the memory is unmapped.",
  ["std/vec.zc: VecIter::next VecIterRef::next", "std/slice.zc: SliceIter::next", "std/map.zc: MapIter::next"])
p("C10", "String stays NUL-terminated and append concatenates",
  "Every string value reachable through the public operations is a byte sequence without interior change followed by one terminating NUL inside the buffer; append and + yield the concatenation of the two texts; length is the number of bytes before the NUL; equality is byte equality.",
  "every history of string operations, including appending a string to itself",
  "Loss of the terminator is undefined behaviour that may look right in a test.",
  ["std/string.zc: String::new append append_c add eq length"])
p("C11", "String search and slicing agree with their mathematical meaning",
  "find returns the first index at which a character occurs or none; starts_with/ends_with hold iff the text has that prefix/suffix; substring(i,n) is exactly the n bytes from i and panics exactly when the range exceeds the text; trim removes exactly the leading and trailing blanks.",
  "every text, pattern, index and length", "Boundary lengths and positions are unbounded.",
  ["std/string.zc: String::find starts_with ends_with substring trim"])
p("C12", "split and join are inverse; replace substitutes every occurrence",
  "Splitting on a delimiter yields pieces without that delimiter whose join with the delimiter is the original text; replace rewrites the leftmost non-overlapping occurrences of the target and nothing else.",
  "every text, delimiter, target and replacement", "Overlaps, adjacent delimiters and empty pieces are unbounded.",
  ["std/string.zc: String::split, String::replace"])
p("C13", "UTF-8 helpers address code points",
  "For text that is the UTF-8 encoding of a sequence of code points, the character count is the number of code points, indexing by i gives the encoding of the i-th one, and the substring by character range gives the encoding of that sub-sequence.",
  "every sequence of Unicode scalar values and all indices", "The code point space times text length is unbounded.",
  ["std/string.zc: String::_utf8_seq_len utf8_len utf8_at utf8_substr"])
p("C14", "Base64 output decodes to the input",
  "The text produced for any byte string decodes under the RFC 4648 decoder to that byte string, has length 4*ceil(n/3) and uses only the standard alphabet plus padding; hence different inputs give different outputs.",
  "every byte string of every length", "Inputs are unbounded.", ["std/encoding/base64.zc: base64 encode"])
p("C15", "SHA-1 implements the FIPS 180 function independently of chunking",
  "The digest returned for a message equals the FIPS 180-4 definition, and feeding the message in any sequence of pieces gives the same digest as feeding it at once.",
  "every message and every way of cutting it into pieces", "Messages and cut patterns are unbounded; vectors test a few.",
  ["std/crypto/sha1.zc"])
p("C16", "Arena allocations are aligned, in bounds and disjoint",
  "Every block handed out between two resets lies inside the arena's buffer, starts at a multiple of 8, does not overlap any other live block, and restoring a mark frees exactly the blocks allocated after it.",
  "every history of allocations, marks, restores and resets and every requested size",
  "Size arithmetic wrap-around needs specific huge sizes; histories are unbounded.",
  ["std/arena.zc: Arena::alloc_bytes alloc_n save restore reset"])
p("C17", "JSON values survive a write/read round trip",
  "Parsing the text produced for a JSON value gives back an equal value.",
  "every nested value, every string content", "Values are unbounded; escapes interact with nesting.",
  ["std/json.zc: JsonValue::parse parse_value parse_string parse_object parse_array stringify"])
p("C18", "WebSocket frames decode to the message sent",
  "The bytes written for a message carry the RFC 6455 opcode and shortest length form, and a receiver following RFC 6455 recovers exactly the payload; on the receive side unmasking with the frame's key recovers the payload that was masked.",
  "every payload length and content and every mask key", "Length classes have boundaries at 125/126/65535/65536 and payloads are unbounded.",
  ["std/net/websocket.zc: WebSocket send recv"])
p("C19", "URL parsing splits without loss",
  "For a URL scheme://host[:port][/path] with the documented default ports, parsing returns exactly those components.",
  "every host, port and path text without the separator characters", "Texts are unbounded.", ["std/net/url.zc: Url::parse"])
p("C20", "Path join, file name, extension and parent agree",
  "Joining a directory and a single component and then taking the file name gives the component and taking the parent gives the directory; separators are never doubled.",
  "every directory text and component", "Texts are unbounded.", ["std/path.zc: Path::join file_name extension parent"])
p("C21", "Lexing covers the source and makes progress",
  "Tokenising a source text ends after finitely many tokens; consecutive tokens occupy strictly increasing, non-overlapping ranges of the text; every byte outside tokens is whitespace or comment; and no byte past the terminating NUL is examined.",
  "every source text", "Source texts are unbounded; reading past the terminator is silent.",
  ["src/lexer/token.c: lexer_next"])
p("C22", "Reported line numbers are right",
  "The line attached to each token is one plus the number of newlines before the token in the source.",
  "every source text", "Source texts are unbounded.", ["src/lexer/token.c: lexer_next"])
p("C23", "Compile-time folding equals run-time evaluation",
  "When the compiler reduces an integer constant expression to a number, evaluating the expression in C (64-bit signed) gives that same number without undefined behaviour; expressions that divide by zero are never reduced.",
  "every constant expression", "Expressions are unbounded and overflow cases are specific values.",
  ["src/analysis/const_fold.c: eval_const_int_expr"])
p("C24", "Accepted programs never use a moved value",
  "If the checker reports no use-after-move for a function, then on no execution is a variable read after its value was moved out and not re-assigned.",
  "every function body and every execution path including loop iterations", "Paths are unbounded.",
  ["src/analysis/move_check.c", "src/analysis/typecheck.c: check_if check_loop check_match"])
p("C25", "A function accepted as always returning always returns",
  "If the compiler's flow check accepts a non-void function body, no execution reaches the end of the body without executing a return.",
  "every function body and every execution", "Bodies and executions are unbounded.",
  ["src/analysis/typecheck.c: stmt_always_returns block_always_returns"])
p("C26", "Deferred statements run exactly once, in reverse order, at every scope exit",
  "For each scope, the deferred statements registered in it run exactly once, last registered first, whenever the scope is left: by falling off the end, break, continue, return, labelled break or the ? operator.",
  "every nesting of blocks, loops, conditionals and exits, every execution", "Programs are unbounded.",
  ["src/codegen/codegen_stmt.c: NODE_BLOCK NODE_DEFER NODE_RETURN NODE_BREAK NODE_CONTINUE NODE_WHILE", "src/codegen/codegen.c: NODE_TRY"])
p("C27", "Range loops visit exactly the documented integers",
  "for i in a..b visits a, a+1, ..., b-1; a..=b also visits b; with step s it visits a, a+s, ... while inside the range; with a negative step it descends; the loop ends.",
  "every a, b and step", "Integers are unbounded; wrap at the type bounds is never tested.",
  ["src/codegen/codegen_stmt.c: NODE_FOR_RANGE"])
p("C28", "Match selects the first arm whose pattern and guard hold",
  "Executing a match runs the body of the first arm whose pattern matches (literal, list of alternatives, exclusive or inclusive range, wildcard) and guard is true, and no other body.",
  "every arm list and every scrutinee value", "Arm lists and values are unbounded.",
  ["src/codegen/codegen_stmt.c: codegen_match_internal emit_pattern_condition", "src/parser/parser_stmt.c: parse_match"])
p("C29", "Parsing respects the operator precedence table",
  "The expression tree built for a sequence of operands and binary operators is the unique tree that respects the precedence levels with left association inside a level, and the C text emitted for a tree re-parses in C to the same tree.",
  "every operator sequence", "Operator sequences are unbounded.",
  ["src/parser/parser_expr.c: get_token_precedence parse_expr_prec", "src/codegen/codegen.c: NODE_EXPR_BINARY"])
p("C30", "Chained assignment associates to the right",
  "a = b = c assigns c to b and then to a, as in C.",
  "every chain of assignments", "Chains are unbounded and the failing result is only visible in the generated C.",
  ["src/parser/parser_expr.c: parse_expr_prec (6326)"])
p("C31", "String literals keep their value",
  "The C literal emitted for a string literal denotes the same bytes as the Zen-C literal, and contains no raw newline or unescaped quote.",
  "every literal body", "Bodies are unbounded.", ["src/parser/parser_expr.c: escape_c_string", "src/parser/parser_stmt.c: escape_c_string"])
p("C32", "Interpolated strings render literal text and holes in order",
  "Evaluating an interpolated string gives the literal segments ({{ and }} standing for braces) and the values of the holes concatenated in order, for results of any length, without writing outside the buffer used for the result.",
  "every template and every run-time value length", "Lengths are unbounded.", ["src/parser/parser_expr.c: create_fstring_block"])
p("C33", "Integer literals denote the written number",
  "A decimal, hexadecimal, octal or binary integer literal (underscores and type suffix allowed) has exactly the value its digits denote, or is rejected.",
  "every digit string", "Digit strings are unbounded.", ["src/parser/parser_expr.c: parse_int_literal", "src/lexer/token.c: number scanning"])
p("C34", "Floating literals keep their value",
  "The C code emitted for a floating literal denotes the same number.",
  "every literal", "Literals are unbounded.", ["src/codegen/codegen.c: codegen_literal_expr"])
p("C35", "Type equality is an equivalence",
  "The compiler's test that two types are the same is reflexive, symmetric and transitive and distinguishes differently named enums.",
  "every pair and triple of types", "Types are unboundedly nested.", ["src/ast/ast.c: type_eq"])
p("C36", "The compiler's allocator never hands out overlapping memory and realloc keeps contents",
  "Every block returned is 8-byte aligned, disjoint from all earlier blocks and at least as large as requested; reallocation preserves the old contents.",
  "every history of requests", "Histories are unbounded.", ["src/utils/utils.c: arena_alloc_raw xmalloc xrealloc xcalloc xstrdup"])
p("C37", "Build flags reach the C compiler as written",
  "Each flag given by link, cflags, include, lib, define, framework and pkg-config directives appears as its own argument on the C compiler's command line, in order, and the flag buffers never overflow.",
  "every sequence of directives", "Texts are unbounded.", ["src/utils/utils.c: append_flag scan_build_directives", "src/utils/cmd.c: arg_list_add_from_string"])
p("C38", "Source files cannot make the compiler run arbitrary commands",
  "Whatever a source file contains, scanning its directives runs no command other than pkg-config with arguments free of shell metacharacters; shell: and get: are never executed.",
  "every source text and environment", "Texts are unbounded.", ["src/utils/utils.c: scan_build_directives expand_env_vars"])
p("C39", "Spelling suggestions use the true edit distance",
  "The distance computed between two names of similar length is the minimum number of single-character insertions, deletions and substitutions that turns one into the other.",
  "every pair of names", "Pairs are unbounded.", ["src/utils/utils.c: levenshtein"])
p("C40", "Language-server framing recovers the message stream",
  "If a client writes messages with Content-Length framing, the server processes exactly those message bodies in order.",
  "every sequence of messages", "Sequences are unbounded.", ["src/lsp/lsp_main.c: lsp_main"])
p("C41", "The Brainfuck plugin preserves program meaning",
  "For a program with balanced brackets, the generated C code behaves as the Brainfuck program: same output for same input.",
  "every program and input", "Programs are unbounded.", ["plugins/brainfuck.c"])
p("C42", "The regex plugin matches only what the pattern denotes",
  "A generated matcher accepts a text only if the pattern matches, and accepts every text the pattern matches.",
  "every pattern and text", "Patterns and texts are unbounded.", ["plugins/regex.c"])
p("C43", "Environment expansion never overflows",
  "Expanding ${VAR} references writes at most the destination size including the terminator, and text without references is copied unchanged (up to that size).",
  "every text, environment and buffer size", "Texts are unbounded.", ["src/utils/utils.c: expand_env_vars"])
p("C44", "Option and Result accessors agree with the tag",
  "unwrap/expect return the stored value exactly when the tag says present and panic otherwise; unwrap_or and or_else choose by the tag; after unwrap the value has been moved out exactly once.",
  "every value and call sequence", "Call sequences are unbounded.", ["std/option.zc", "std/result.zc"])
p("C45", "Keywords are recognised as whole words",
  "A statement following if/for/guard headers is treated as an else branch, a step clause and so on only when the next word is exactly that keyword; other identifiers keep their meaning.",
  "every identifier", "Identifiers are unbounded.", ["src/parser/parser_stmt.c: parse_if parse_for parse_guard parse_match", "src/lexer/token.c: keywords"])
p("C46", "Owned values are destroyed exactly once",
  "A local variable whose type has a destructor is destroyed exactly once on every path on which it was not moved out, and never after it was moved out.",
  "every function body and path", "Paths are unbounded.", ["src/codegen/codegen_stmt.c: NODE_VAR_DECL", "src/codegen/codegen_utils.c: emit_move_invalidation"])
p("C47", "Map releases the key memory it allocates",
  "After a map is freed every key copy it allocated has been released exactly once.",
  "every history", "Leaks are invisible to functional tests.", ["std/map.zc: Map::put _resize remove free"])
p("C48", "Command-line builder never overflows and keeps arguments",
  "Appending text to the command builder keeps the text so far, adds exactly the new text, and never writes outside the buffer.",
  "every sequence of appended texts", "Lengths are unbounded.", ["src/utils/cmd.c: cmd_add ensure_cap"])
p("C49", "The JSON reader terminates, stays in bounds and rejects malformed text",
  "For every NUL-terminated input the JSON reader returns, reads nothing behind the terminator, writes nothing outside its buffers, and reports an error unless the text is a JSON document.",
  "every text", "Texts are unbounded and malformed in unbounded ways.", ["std/json.zc: JsonValue::parse"])
p("C50", "Tokens are the longest ones",
  "At every position the operator token is the longest operator spelled there; a string literal extends exactly to its first unescaped closing quote.",
  "every source text and position", "Texts are unbounded; adjacent operators combine in many ways.", ["src/lexer/token.c: lexer_next"])
p("C51", "Compile-time constants have the value of their initialiser",
  "An array whose size is a constant expression over `def` constants has exactly as many elements as the initialisers say, and a name that is not a constant is never used as one.",
  "every program with every chain of definitions and every size expression", "Constant chains and the names in scope are unbounded.", ["src/analysis/const_fold.c: eval_const_int_expr", "src/parser/parser_decl.c: parse_def parse_var_decl", "src/parser/parser_type.c: array sizes"])
p("C52", "Every language-server request gets exactly one answer",
  "For every sequence of messages from the editor each request is answered exactly once, with its own id, and answers about a document refer to its latest text.",
  "every sequence of messages", "Sessions are unbounded sequences of messages.", ["src/lsp/json_rpc.c", "src/lsp/lsp_main.c", "src/lsp/lsp_analysis.c"])
p("C53", "Enum variants are told apart by match",
  "A value built with variant V of an enum is taken by a match arm naming V and by no arm naming another variant of that enum; explicit variant values are the ones stored.",
  "every enum declaration and every pair of variants", "Enums have unboundedly many variants and explicit values.", ["src/parser/parser_struct.c: parse_enum", "src/codegen/codegen_decl.c: enum emission", "src/codegen/codegen_stmt.c: emit_pattern_condition"])
p("C54", "Compound assignment evaluates its target once",
  "In target op= value every call and increment written in the target happens once, as in C.",
  "every target and value expression", "Target expressions are unbounded and the duplication is only visible through side effects.", ["src/parser/parser_expr.c: parse_expr_prec (6507-6597)"])
p("C55", "Printing a string writes its text and holes",
  "A print statement writes the literal text and the values of the holes of its string in order; braces are written by doubling them; every text is either compiled or rejected.",
  "every string", "Strings are unbounded.", ["src/parser/parser_stmt.c: process_printf_sugar (1684-2080)"])
p("C56", "Command-line options reach the C compiler",
  "Every option that the command line hands on to the C compiler (-I, -D, -O, -g, -W..., -f..., -m..., unknown ones) arrives there as one argument, in order, and collecting them never writes outside the buffer.",
  "every sequence of options", "Options are unbounded in number and length.", ["src/main.c: main_append_flag", "src/utils/cmd.c: arg_list_add_from_string build_compile_arg_list"])
p("C57", "Regex count and split agree with the matches",
  "Regex::count returns the number of non-overlapping matches of the text and Regex::split the parts of the text between them.",
  "every expression and text", "Expressions and texts are unbounded.", ["std/regex.zc: Regex::count Regex::split", "docs/std/regex.md"])
p("C58", "Reported columns are right",
  "The column attached to each token is one plus the number of bytes between the last newline before it and the token.",
  "every source text and token", "Source texts are unbounded; columns drift silently behind comments.", ["src/lexer/token.c: lexer_next"])

p("C59", "Conditional compilation selects declarations",
  "Compiling a program with @cfg attributes gives the C compiler the same text as compiling the program from which the declarations whose documented condition is false were deleted: @cfg(NAME), not, any and all mean what the README table says over the -D names, several attributes are ANDed, and every kind of top-level declaration obeys.",
  "every program, attribute list and set of -D names", "Conditions combine freely with all declaration kinds and all 2^n sets of -D names; the project's tests compile two configurations.", ["src/parser/parser_core.c: parse_program_nodes", "src/codegen/codegen_decl.c: emit_protos, emit_globals, emit_struct_defs", "src/codegen/codegen_main.c: codegen_node"])


p("C60", "Types are defined before they are used",
  "In the C file every type is declared before it is mentioned and completely defined before a value of it is contained in another type, whatever the order of the declarations in the program; sorting loses and duplicates no type.",
  "every program without a type that contains itself", "Declarations come in any order and any number with any containment relation.", ["src/codegen/codegen_main.c: struct_depends_on topo_sort_structs codegen_node", "src/codegen/codegen_decl.c: print_type_defs emit_enum_protos emit_global_aliases emit_struct_defs", "src/ast/ast.c: type_to_c_string type_to_string"])
p("C61", "Tuples keep their element types and values",
  "A tuple type has exactly its element types as fields v0, v1, ... in order, different tuple types are different C types, and a tuple literal has the values of its elements; reading a tuple never writes outside a buffer.",
  "every list of element types and every literal", "Element types nest and are named freely; lengths are unbounded.", ["src/parser/parser_type.c: parse_type_base parse_tuple_literal", "src/parser/parser_utils.c: register_tuple", "src/codegen/codegen_decl.c: print_type_defs", "src/parser/parser_expr.c: parse_primary (3739-3845)", "src/parser/parser_struct.c: parse_enum (1138-1172)"])


p("C62", "HTTP messages arrive as sent",
  "A handler sees the method, path, version, headers and body the client sent; the client sees the status, headers and body the handler returned; both for every segmentation of the byte stream.",
  "every request, response and segmentation", "Messages and their arrival in pieces are unbounded.", ["std/net/http.zc"])
p("C63", "Commands run with their arguments",
  "A command runs the program with exactly the given arguments; output is everything it printed and exit_code the code it exited with.",
  "every program, argument list and output", "Arguments are arbitrary texts that pass through a shell.", ["std/process.zc", "std/sys/process.zc"])
p("C64", "Lines are read and values formatted exactly",
  "Reading lines until NULL gives exactly the lines of the input and never leaves the buffer; formatting and integer conversion give exactly the text, and a result stays as it is.",
  "every input, text and integer", "Inputs and lines have any length; results are kept across calls.", ["std/io.zc"])
p("C65", "Files and directories are read and written exactly",
  "Reading a file gives its contents or an error; what was written is read back; listing a directory gives every entry with its name and kind.",
  "every file contents, every kind of stream, every directory", "Contents, stream kinds and file systems vary.", ["std/fs.zc", "std/sys/fs.zc"])
p("C66", "Sleeping lasts as long as asked for",
  "Sleeping for a number of milliseconds or a duration lasts at least that long.",
  "every number of milliseconds and seconds", "The failing values sleep for hours in a test.", ["std/time.zc: sleep sleep_ms from_secs", "std/thread.zc: sleep_ms"])
p("C67", "Randomizing the hash keeps the contents of maps",
  "Time::randomize_hash does not change what lookups in existing maps return.",
  "every seed, random number, map and key", "The random number differs from run to run.", ["std/time.zc: randomize_hash", "std/map.zc: _map_hash_str get put", "std/set.zc: _set_hash"])


p("C68", "Instances have the fields of the template with the arguments put in",
  "The struct a generic type with arguments stands for has the fields of the declaration in their order, each with the declared type in which every parameter is replaced by its argument; so have the parameter and return types of its methods.",
  "every template, field type and argument types", "Types nest without bound and every combination of argument and field type is a separate case.", ["src/parser/parser_utils.c: replace_type_str copy_fields_replacing instantiate_generic instantiate_generic_multi"])
p("C69", "Different instances stay different",
  "Every generic type used in a program, also inside another instance, gets its own struct: two uses share one exactly if template and arguments are the same.",
  "every set of names and every sequence of uses", "Collisions depend on the names a program chooses; sequences are unbounded.", ["src/parser/parser_utils.c: sanitize_mangled_name instantiate_generic copy_fields_replacing", "src/parser/parser_type.c: parse_type_base"])


p("C70", "Instances have the code of the template with the arguments put in",
  "The code of a function or method of an instance is the code of the template in which every type, every method named by a type and every raw statement has its arguments put in and nothing else is changed; an initializer without fields is 0 for numbers and pointers.",
  "every body, of any depth, and every argument type", "Bodies nest without bound; each kind of node combines with each kind of type.", ["src/parser/parser_utils.c: copy_ast_replacing replace_type_formal type_from_string_helper replace_mangled_part"])
p("C71", "Raw code in templates means the same in instances",
  "In raw statements and parameter lists of a template the words that name the parameter, the struct and its instances are replaced and string and character literals and other words stay as they are.",
  "every text and argument", "Texts are unbounded, and the effect of a quote or backslash reaches arbitrarily far.", ["src/parser/parser_utils.c: replace_in_string replace_mangled_part copy_ast_replacing"])


p("C72", "Derived equality is structural equality",
  "For a type with @derive(Eq), a == b is true exactly when all fields (and for enums tag and payload) of a and b are equal, using the eq of the types of the fields; it is defined for all values and compiles for every type whose fields can be compared.",
  "every program, type and pair of values", "Types nest without bound and the compiler chooses the comparison of each field by name and order of declarations.", ["src/parser/parser_core.c: generate_derive_impls", "src/codegen/codegen.c: codegen_expression"])
p("C73", "A derived clone is an equal value that can be dropped on its own",
  "For a type with @derive(Clone), the clone equals the original, and dropping both is as good as dropping two separately made values.",
  "every type and value", "Ownership is a property of all executions, not of the two values compared by a test.", ["src/parser/parser_core.c: generate_derive_impls"])
p("C74", "Derived JSON methods are inverse",
  "For a struct with @derive(ToJson, FromJson), from_json of to_json of a value is that value, also when the JSON was written as text and parsed, or its keys reordered; an object that lacks a field is reported as an error.",
  "every struct and value", "Structs nest without bound; the values of 64 bit fields cannot be enumerated.", ["src/parser/parser_core.c: generate_derive_impls", "std/json.zc: JsonValue::get_int JsonValue::get_string JsonValue::set"])


p("C75", "A lambda captures the variables it uses, and no others",
  "A lambda, wherever it is written, captures exactly the variables of the functions around it that its body uses and those its capture list names, each once, by value or by reference as asked for; everything else in its body keeps its meaning and the program compiles.",
  "every lambda and scope", "Bodies and scopes are unbounded; a forgotten kind of node shows only for programs that use a variable nowhere else.", ["src/parser/parser_expr.c: find_var_refs analyze_lambda_captures", "src/codegen/codegen_main.c: codegen_lambda_defs"])
p("C76", "A closure runs its body over the captured variables",
  "Creating a closure copies the variables captured by value and shares those captured by reference; each call does what the body says, in the scope of parameters, captured and global variables; variables captured by value cannot be assigned to.",
  "every lambda, state, function and sequence of arguments", "Equality of two programs for all states and executions, including those that do not end.", ["src/codegen/codegen.c: codegen_expression", "src/codegen/codegen_main.c: codegen_lambda_defs"])


p("C77", "A trait object runs the methods of the value it was made from",
  "A program with traits, implementations and trait objects compiles, and calling a method of a trait object runs the implementation for the type of the value the object was made from, on that value, with the arguments given, in order; an implementation that does not fit its trait is rejected.",
  "every set of traits, structs, implementations, values and arguments", "Tables, wrappers and casts are generated per trait and type; a wrong slot or name shows only for particular sets of declarations.", ["src/codegen/codegen_decl.c: emit_trait_defs emit_trait_wrappers print_type_defs", "src/codegen/codegen_utils.c: parse_and_convert_args extract_call_args", "src/parser/parser_struct.c: parse_trait parse_impl"])
p("C78", "A method call runs the method its receiver has",
  "A call of a method runs the method of the receiver's struct, else of the trait it implements, else of a struct it mixes in, wherever these are declared; a method of a mixed in struct works on the fields of that struct; a call that could mean several methods is rejected.",
  "every set of structs, traits, mixins and places of a call", "Depends on the order of declarations and on names across the whole program.", ["src/codegen/codegen.c: handle_node_expr_call codegen_expression", "src/parser/parser_struct.c: parse_struct"])


p("C79", "A call gives each parameter the argument meant for it",
  "In a call, each parameter gets the value of the argument with its name, or else of the argument in its place, or else of its default as it is where the function is defined; a call that gives a parameter nothing, or has an argument for no parameter, is rejected, and no other is.",
  "every list of parameters and defaults, every list of arguments with or without names, every place of the call", "Depends on names, order, defaults and the place of the call together.", ["src/parser/parser_expr.c: validate_named_arguments find_function_definition", "src/parser/parser_utils.c: ast_to_string parse_and_convert_args", "src/codegen/codegen.c: codegen_expression"])


p("C80", "A variable declared without a type holds the value of its initialiser",
  "After let x = e; the variable x stands for the value e has where it is used directly: naming a number does not change it.",
  "every expression of literals, variables, operators, casts, choices and ??, every type and value of the variables", "Depends on the types and the magnitude of every operand together.", ["src/parser/parser_expr.c: parse_expr_prec", "src/parser/parser_decl.c: parse_var_decl", "src/ast/ast.c: type_eq is_integer_type is_float_type", "src/codegen/codegen_utils.c: infer_type emit_auto_type", "src/codegen/codegen_stmt.c: codegen_node_single"])


p("C81", "Expressions do what they say",
  "An expression with assignments, compound assignments, ??, ??=, ?., blocks with variables and if as a value evaluates each operand at most once, finds the place of a compound assignment once, gives each name the variable in whose scope it stands, and yields the value and the effects this implies.",
  "every expression, every store, memory and behaviour of functions, both orders of evaluation of operands", "Depends on names, nesting and effects of operands together.", ["src/codegen/codegen.c: codegen_expression", "src/parser/parser_expr.c: parse_expr_prec parse_primary"])


p("C82", "Elements of arrays are apart and checked",
  "A variable or field that is an array with any number of dimensions behaves as a function from indices to elements: a write changes the element with exactly these indices and nothing else in memory, a read gives what was last written, and the program stops if an index is not in the range of its dimension. The C declaration has the dimensions in the order in which they are written.",
  "every list of sizes in the range of int, every sequence of reads and writes with indices in the range of a 64 bit type, every memory", "Dimensions, indices and sequences of accesses are unbounded.", ["src/codegen/codegen.c: codegen_expression (NODE_EXPR_INDEX)", "src/codegen/codegen_decl.c: _z_check_bounds", "src/parser/parser_type.c: parse_type_formal", "src/ast/ast.c: type_to_c_string", "src/codegen/codegen_utils.c: emit_c_decl"])
p("C83", "Slices show the array they are made from",
  "A slice of an array or of a part of it reads and writes the elements of the array, every access out of its range stops the program, and a part whose bounds are not in the range of the whole stops it too.",
  "every slice, every sequence of accesses through the array and its slices", "A test sees one access; that neighbours are never touched is about all of them.", ["src/codegen/codegen.c: codegen_expression (NODE_EXPR_INDEX, NODE_EXPR_SLICE, NODE_EXPR_CALL)", "src/parser/parser_expr.c: parse_expr_prec"])


p("C84", "Operators of structs call the documented methods",
  "An operator whose left operand is a struct, or a pointer to one, calls the method the documentation names, with the left operand as self and the right one as argument, each evaluated once; != without neq is the negation of eq; strings are compared by text, pointers by address; a op= b computes what a op b does; constants cannot be changed.",
  "every expression of operators, every set of methods in impls and traits, with parameters by value or by pointer, every kind of operand", "Kinds of operands, signatures and operators combine; each combination is a different path.", ["src/parser/parser_expr.c: parse_expr_prec get_operator_method resolve_struct_name_from_type", "src/codegen/codegen.c: codegen_expression"])


p("C85", "Imported files are compiled exactly once",
  "Compiling ends however files import each other; every declaration of the main file and of every file that is imported, directly or not, stands exactly once in the C file, and nothing else does.",
  "every set of files, every graph of imports, with cycles and repeated imports, plain, named and selective", "The graphs of imports are infinite in number.", ["src/parser/parser_stmt.c: parse_import", "src/parser/parser_utils.c: is_file_imported mark_file_imported"])
p("C86", "Names of imported files mean what the import says",
  "After import \"q\" every name that q declares can be used; after import \"q\" as m the function g of q is m::g, its type t is m::t and its method m::t::g; after import { x as y } from \"q\" the name y means x of q; each such name means that declaration and no other, and names inside an imported file keep their meaning.",
  "every set of files, every graph of imports, every name in every file", "A name may clash with one in any other file; tests see a few programs.", ["src/parser/parser_stmt.c: parse_import", "src/parser/parser_expr.c: parse_primary", "src/parser/parser_type.c: parse_type_base", "src/parser/parser_utils.c: find_module find_selective_import extract_module_name"])
p("C87", "Imported files are searched in the documented order",
  "import \"fn\" takes the file beside the importing one if there is one, else that of the current directory, else the first in the include paths in their order, else in the installed directories; ./ and ../ mean the directory of the importing file only; an absolute path means itself.",
  "every set of readable files, every list of include paths, every name", "Which files exist is up to the machine.", ["src/parser/parser_stmt.c: parse_import"])


p("C88", "await gives what the async function returned",
  "Calling an async function starts its body with the values of the arguments at the call; await of the future gives the value that the body returned, after it has returned; nothing else about the program depends on how threads are scheduled, and a thread only waits for threads that have not returned.",
  "every program of async functions, calls and awaits, every result type and value, every interleaving of the threads", "Schedules cannot be chosen by a test, and the values of a type are too many.", ["src/codegen/codegen_stmt.c: NODE_FUNCTION", "src/codegen/codegen.c: NODE_AWAIT", "src/codegen/codegen_utils.c: is_struct_return_type", "src/parser/parser_expr.c: parse_primary"])
p("C89", "Memory of async calls is released",
  "The blocks that carry arguments and results of async calls are used only while they exist and are released exactly once; when every future has been awaited none is left.",
  "every program of async functions, calls and awaits, every interleaving of the threads, every choice of addresses", "Use after free depends on the schedule and is mostly invisible.", ["src/codegen/codegen_stmt.c: NODE_FUNCTION", "src/codegen/codegen.c: NODE_AWAIT"])


p("C90", "Fields of an opaque struct are private to its file",
  "Outside the file that defines an opaque struct, no accepted program reads or writes its fields or builds a value of it; values may be held, copied, passed on and pointed at, and the functions and methods that the file offers may be called. Inside the file there is no restriction.",
  "every program over several files, every expression and statement", "The test sits in several places of the parser and depends on the type found for each subexpression; programs are unboundedly many.", ["src/parser/parser_expr.c: parse_expr_prec, parse_primary, get_field_type, resolve_struct_name_from_type", "src/parser/parser_decl.c: parse_var_decl", "src/parser/parser_struct.c: parse_struct", "src/parser/parser_utils.c: instantiate_generic"])
p("C91", "An opaque alias is a type of its own outside its file",
  "Outside the file that defines an opaque alias, no accepted program turns a value of the alias into one of the underlying type or of another type, or the other way round, without a cast; inside the file it converts implicitly.",
  "every program over several files, every pair of types", "Pairs of types and places where a value flows are unboundedly many.", ["src/parser/parser_expr.c: check_opaque_alias_compat, parse_expr_prec", "src/parser/parser_decl.c: parse_var_decl", "src/ast/ast.c: type_eq", "src/parser/parser_type.c: parse_type_base"])


p("C92", "Methods of an embedded struct work on the outer object",
  "If a struct embeds another with `use K;`, a method of K called on an object of the outer struct reads and writes the fields of that object that come from K, and no others; a method of the same name of the outer struct is preferred.",
  "every program, every method body, every content of memory", "The call goes through a pointer cast, so it depends on the layout of both structs; programs, bodies and contents are unboundedly many.", ["src/codegen/codegen.c: codegen_expression", "src/parser/parser_struct.c: parse_struct", "src/codegen/codegen_decl.c: emit_struct_defs"])
p("C93", "Embedding a struct adds exactly its fields",
  "A struct has the fields its text lists, in order: for `use K;` all fields of K with their types and widths, for `use name: K;` one field of that name. A program that embeds structs does not corrupt the compiler.",
  "every program", "Nesting and order of declarations are unbounded.", ["src/parser/parser_struct.c: parse_struct", "src/parser/parser_utils.c: find_struct_def, add_to_struct_list"])


p("C94", "Destructuring binds every name to its field",
  "`let {a, b} = e`, `let P{f: a} = e` and `let (a, b) = e` evaluate e once and bind each name to the named field, or to the element at its place; a value with a destructor is dropped at the end of the scope. Patterns of any length do not corrupt the compiler.",
  "every function body, every value, every nesting of blocks, defers and returns", "Bodies, patterns and values are unboundedly many, and the effects depend on the order of evaluation and of deferred calls.", ["src/parser/parser_decl.c: parse_var_decl", "src/codegen/codegen_stmt.c: codegen_node_single"])
p("C95", "let-else binds the payload or leaves",
  "`let V(x) = e else { .. }` binds x to the payload if e is V; otherwise the block runs and the function is left. What the block defers or declares happens only if the block was entered.",
  "every function body, every value of every option, result or enum", "The paths through guards, blocks and defers are unboundedly many.", ["src/parser/parser_decl.c: parse_var_decl", "src/codegen/codegen_stmt.c: codegen_node_single"])


p("C96", "Rename and references reach exactly the uses of a declaration",
  "In an editor, renaming a function or variable from any of its occurrences edits every occurrence that stands for the same declaration, in every file of the project, each once, and nothing else; find references lists the same places.",
  "every project, every sequence of opened and changed files, every position", "Projects, editing histories and bindings are unboundedly many; a missed or foreign occurrence breaks the program silently.", ["src/lsp/lsp_analysis.c: lsp_rename, lsp_references", "src/lsp/lsp_index.c: lsp_walk_node", "src/lsp/lsp_project.c: lsp_project_update_file"])
p("C97", "Go to definition and hover lead to the declaration",
  "From any occurrence of a function or variable, go to definition leads to the file, line and column of its declaration, and hover shows that declaration; reading a file never corrupts the server.",
  "every project, every sequence of opened and changed files, every position", "The answer depends on the order in which files were read and on the places of unrelated declarations.", ["src/lsp/lsp_analysis.c: lsp_goto_definition, lsp_hover", "src/lsp/lsp_index.c: lsp_find_at"])


p("C98", "Semantic tokens are the names and literals of the file",
  "The numbers the language server answers to a request for semantic tokens decode, as the protocol says, to the names and literals of the file, in order, each place once.",
  "every file, every order in which equal elements may be sorted", "Files are unboundedly many; a client decodes differences, so one wrong number displaces everything after it.", ["src/lsp/lsp_semantic.c: lsp_semantic_tokens_full, traverse_node"])


p("C99", "The Befunge plugin compiles Befunge",
  "A block of Befunge-93 behaves, cell after cell, as the language says: same stack, position, direction and output, and it ends when the program ends.",
  "every program text, every number of executed cells", "A playfield has 2000 cells and runs are unbounded; tests only follow a few paths.", ["plugins/befunge.c: befunge_transpile", "src/parser/parser_stmt.c: parse_macro_call"])


p("C100", "The type checker accepts the well-typed programs and no others",
  "A program the type check reports no error in is well typed: operands, arguments, initialisers, fields, assigned and returned values have types that fit; and a well-typed program is not refused.",
  "every context of functions and structs, every expression, statement, function and program", "Programs are nested without bound; tests check single mistakes, and a construct without a case in the checker is simply accepted.", ["src/analysis/typecheck.c: check_program, check_node, check_function", "src/ast/ast.c: type_eq"])


p("C101", "Options mean the same wherever they stand on the command line",
  "For every command, each option of the usage text sets what it says and nothing else, before, between or behind the files, with its value joined or apart; the first file is the program, the others are further sources, in their order.",
  "every command and every list of options, values and files", "There are unboundedly many orders and combinations of options; tests use one command line per option.", ["src/main.c: main"])
p("C102", "The compiler changes only the files asked for, and its exit status tells what happened",
  "check changes no file; transpile writes the C text where asked; build writes the output and leaves no other file; run leaves no file of its own and exits with the status of the program; a failure is reported by exit status 1 and changes nothing.",
  "every configuration, file system, front end, C compiler and program run", "Which files exist before is unbounded; tests run in a clean directory and with programs that exit with 0 or 1.", ["src/main.c: main", "src/platform/os.c: z_run_command"])


p("C103", "A spawned thread runs its closure exactly once, join waits for it, nothing leaks",
  "Each successful Thread::spawn makes a new thread that runs the closure with what it captured, once; join returns only when the thread has returned; the copy of the closure is freed once, after that and not before; when all threads are over none is left; join of a thread that cannot be joined is an Err.",
  "every program, closure and interleaving", "The number of interleavings is unbounded and a test sees one of them.", ["std/thread.zc: Thread::spawn", "std/thread.zc: Thread.join", "std/thread.zc: Thread.cancel", "std/thread.zc: _z_thread_trampoline"])
p("C104", "A mutex excludes: additions under it are not lost, and disciplined programs neither block nor hit undefined behaviour",
  "At most one thread holds a Mutex; between two locks it was unlocked by the first; a variable that threads only increment under the mutex ends as its first value plus the number of increments; programs whose threads join or detach once what they spawned, and do not wait while holding the mutex, never reach an undefined call nor a state in which no thread can go on.",
  "every program and interleaving", "Lost updates and deadlocks depend on the interleaving, which tests do not choose.", ["std/thread.zc: Mutex.lock", "std/thread.zc: Mutex.unlock", "std/thread.zc: Mutex.free"])
p("C105", "sleep_ms sleeps for the given number of milliseconds",
  "For every non-negative int, sleep_ms(ms) asks the system for ms times a thousand microseconds; a negative time does not sleep.",
  "every int", "A test that sleeps an hour is not run.", ["std/thread.zc: sleep_ms"])


p("C106", "The language server reads and writes JSON strings faithfully",
  "A JSON string in a request is read as the bytes it stands for, with every escape and surrogate pair as the UTF-8 of its code point; texts that are not strings are refused; a string in an answer is a JSON string without control bytes that reads back as itself; no buffer overflows.",
  "every byte string and every text", "Escapes, surrogates, lengths and positions combine without bound.", ["src/lsp/cJSON.c: parse_string", "src/lsp/cJSON.c: utf16_literal_to_utf8", "src/lsp/cJSON.c: print_string_ptr"])
p("C107", "A message is accepted exactly when it is JSON, and an answer reads back as the value it was made from",
  "Every JSON document, in whatever layout, is read as the value it writes; nothing else is accepted; what is printed, formatted or not, is JSON for the value and reads back as it.",
  "every text and every value", "Documents nest without bound and blanks may appear between any two tokens.", ["src/lsp/cJSON.c: cJSON_Parse", "src/lsp/cJSON.c: parse_value", "src/lsp/cJSON.c: print_value"])
p("C108", "Looking up a member of a JSON object finds the member of that name",
  "The value found for a name is that of the first member with exactly this name; nothing is found when there is none; a member that was added is found.",
  "every object and name", "Any two names could be confused.", ["src/lsp/cJSON.c: cJSON_GetObjectItem", "src/lsp/cJSON.c: get_object_item"])


p("C109", "The assembler gets the lines of an asm block as they are written, with the operands in place of their names",
  "For every asm block, the text that arrives at the assembler through the C compiler is the lines of the block in order, one line each, every character as written and the register of the operand wherever a placeholder names it.",
  "every block of lines, operands and clobbers", "The text passes two layers of quoting and the operand numbering; any character and any combination of operands may occur.", ["src/parser/parser_stmt.c: parse_asm", "src/codegen/codegen_stmt.c: NODE_ASM"])
p("C110", "Outputs, inputs and clobbers of an asm block reach the C compiler as such",
  "The C statement for a block is accepted by the compiler and has exactly the declared outputs, with the constraint of their mode, the declared inputs and the declared clobbers, in their order.",
  "every block", "Any of the three sections may be empty, in any combination.", ["src/parser/parser_stmt.c: parse_asm", "src/codegen/codegen_stmt.c: NODE_ASM"])
p("C111", "Bare instructions in an asm block become one line each",
  "Instructions written without quotes arrive as one line per instruction with their tokens in order; a block that is not closed is reported.",
  "every sequence of instructions", "Where an instruction ends is guessed from its tokens, of which there is no bound.", ["src/parser/parser_stmt.c: parse_asm"])
p("C112", "No asm block overruns the compiler's buffers",
  "The template, the lists of operands, the names of placeholders and the expanded template fit the memory reserved for them.",
  "every block", "Lengths are unbounded.", ["src/parser/parser_stmt.c: parse_asm", "src/codegen/codegen_stmt.c: NODE_ASM"])


p("C113", "The line the REPL reads is the line the keys produce",
  "For every history and every sequence of keys (characters, arrows, Home, End, backspace, Ctrl-U, Ctrl-K, history, search) the line handed back by Enter is what an editor with a cursor would show.",
  "every history, indentation and key sequence", "Key sequences are unbounded and each key works on memory that is moved, grown and replaced.", ["src/repl/repl.c: repl_readline"])
p("C114", "No sequence of bytes from the terminal overruns the line buffer",
  "Whatever bytes are sent, the editor reads and writes only inside its buffer, and ends with a proper string or with nothing.",
  "every byte sequence and history", "The buffer is grown in one place, replaced by exact copies in others, and escape sequences may be cut anywhere.", ["src/repl/repl.c: repl_readline"])
p("C115", "Walking through the history keeps the line being typed",
  "Up pressed n times shows the n-th entry from the end, going down again brings back the line that was being typed, and a search shows the latest entry that contains the text.",
  "every history, typed line and number of steps", "The history and the typed line are arbitrary.", ["src/repl/repl.c: repl_readline"])
p("C116", "Tab completes the word before the cursor when there is one completion",
  "If the word before the cursor begins exactly one keyword or command, Tab inserts the rest of it at the cursor; otherwise nothing changes.",
  "every line and cursor position", "Any line may precede the word.", ["src/repl/repl.c: repl_complete, repl_readline"])
p("C117", "Other keys and the end of the input do no harm",
  "A key the editor does not know changes nothing, and the end of the input ends the session.",
  "every line and key", "Terminals send many sequences.", ["src/repl/repl.c: repl_readline"])


p("C118", "A REPL session runs its entries one after the other",
  "Every complete entry, on one line or several, is run with the definitions and variables of the entries before it, for as long as the session lasts.",
  "every history, every sequence of lines", "Sessions are unbounded; a test enters a handful of lines.", ["src/repl/repl.c: run_repl"])
p("C119", "The program of a session is its definitions and its statements, in order, each once",
  "The program that is run for an entry has all definitions of the session outside of main and all statements inside, in the order they were entered, the new one last and once; an expression is printed.",
  "every session of definitions and statements", "The text depends on all entries so far.", ["src/repl/repl.c: repl_get_code, is_header_line, run_repl"])
p("C120", "No entry and no watch overruns the buffers of the program text",
  "Whatever is entered or watched, the program text fits the memory it is written to.",
  "every session, entry and list of watches", "The sizes are sums over the session.", ["src/repl/repl.c: run_repl"])
p("C121", "The session is the same after leaving and coming back",
  "The history written on leaving is the session, reading it back gives the same entries, and a session saved with :save can be loaded with :load.",
  "every session", "Entries are arbitrary texts.", ["src/repl/repl.c: run_repl"])
p("C122", "Commands change the session as they say",
  ":delete n removes the n-th entry, :undo the last, :reset all; :edit runs the edited entry; unknown commands are refused; exit and the end of the input end the session.",
  "every session and number", "All session states.", ["src/repl/repl.c: run_repl"])


p("C123", "An embedded file is its bytes",
  "embed denotes the bytes of the file in order, with their number as length, as the type that is asked for; an array of n elements has n.",
  "every file, every type", "Files are arbitrary byte sequences.", ["src/parser/parser_type.c: parse_embed", "src/parser/parser_decl.c: parse_var_decl"])
p("C124", "A slice literal has the elements that are written",
  "A slice literal in a declaration has the elements between its brackets, in order, and their number as length; one that is not closed is rejected.",
  "every list of elements", "Elements are arbitrary expressions.", ["src/parser/parser_type.c: parse_array_literal"])
p("C125", "No embedded file and no slice literal overruns a buffer of the compiler",
  "Whatever the file, the element and the type, the text fits the memory it is written to.",
  "every file name, file, type and literal", "The sizes depend on the input.", ["src/parser/parser_type.c: parse_embed, parse_array_literal"])


p("C126", "Forth blocks compute what their postfix expressions say",
  "An arithmetic expression in postfix form leaves exactly its value on the stack, above what was there.",
  "every expression", "Expressions are arbitrary.", ["plugins/forth.c: eval_forth_token"])
p("C127", "Forth conditionals and loops nest",
  "if/else/then and do/loop run the parts that are meant, whatever is inside of them.",
  "every program", "Programs are arbitrary nestings.", ["plugins/forth.c: eval_forth_token, skip_until, eval_forth_string"])
p("C128", "A Forth word means what it was defined as",
  "Calling a word does what its definition says, with the meaning words had then; definitions are kept, and a block does the same wherever it stands.",
  "every name and definition", "Definitions are arbitrary programs.", ["plugins/forth.c: process_forth_source, eval_forth_token"])
p("C129", "A Forth block cannot overrun the memory of the compiler",
  "Whatever a block says, the plugin stays within its stacks, memory, dictionary and buffers.",
  "every block", "Blocks are arbitrary programs.", ["plugins/forth.c: eval_forth_token, process_forth_source"])


p("C130", "A Lisp block computes what its expressions say",
  "A block of Lisp is turned into C that prints what the block prints, whatever blanks and nesting it has.",
  "every block", "Blocks are arbitrary nestings.", ["plugins/lisp.c: parse_lisp_expr, parse_lisp_list, parse_atom, lisp_transpile"])
p("C131", "Forms of Lisp are written as what they mean",
  "Operators take all their operands, comparisons, lists and strings have their values, and what cannot be written is reported.",
  "every form", "Forms have arbitrary operands and names.", ["plugins/lisp.c: parse_lisp_list, parse_atom"])
p("C132", "Lisp variables and functions have the scopes of Lisp",
  "The bindings of a let see the variables outside of it, and functions see each other.",
  "every let and every pair of functions", "Names and values are arbitrary.", ["plugins/lisp.c: parse_lisp_list (let, defun)"])


p("C133", "What a C header declares is known",
  "After include of a header, its functions and types can be used without warnings, and nothing it does not declare.",
  "every header", "Headers have arbitrary lines.", ["src/parser/parser_stmt.c: try_parse_c_function_decl, try_parse_c_struct_decl, scan_c_header_contents"])
p("C134", "Headers that include headers are read once and completely",
  "Every header reachable by include is scanned, once, and scanning ends, whatever includes what.",
  "every graph of headers", "Graphs may have any depth and cycles.", ["src/parser/parser_stmt.c: scan_c_header_contents"])
p("C135", "A constant of a C header has the value it has in C",
  "A name defined by #define as an integer has that value in the program.",
  "every definition", "Values and conditions are arbitrary.", ["src/parser/parser_utils.c: try_parse_macro_const"])
p("C136", "An include names the file that is written",
  "include of a name in brackets or quotes names that file, whatever its length, and malformed ones are reported.",
  "every include", "Names have arbitrary length.", ["src/parser/parser_stmt.c: parse_include"])


p("C137", "Blocks of SQL do what SQL does",
  "The statements of a sql block have the effect they have in SQL, and what the plugin does not support is reported.",
  "every block", "Blocks have arbitrary statements.", ["plugins/sql.c: sql_transpile, parse_select, parse_insert"])
p("C138", "Rows of a table are kept and printed",
  "SELECT prints exactly the rows that have been inserted since the table was created, in this order.",
  "every number of rows", "Tables have arbitrarily many rows.", ["plugins/sql.c: parse_insert, parse_select"])
p("C139", "Tables have the columns they are created with",
  "CREATE TABLE makes a table with the columns it lists, of their types, whatever their names.",
  "every list of columns", "Lists and names have arbitrary length.", ["plugins/sql.c: parse_create_table, add_column"])


p("C140", "Names of plugins lead to the plugins imported",
  "Behind any imports of plugins a block with a name or alias is given to the plugin imported under it last, and a block with any other name is reported.",
  "every sequence of imports", "Imports come in arbitrary sequences.", ["src/plugins/plugin_manager.c: zptr_register_plugin, zptr_find_plugin", "src/parser/parser_utils.c: resolve_plugin"])
p("C141", "A plugin gets the text of its block",
  "What a plugin is given is the text of the block, with its lines, whatever its length and its words.",
  "every block", "Blocks have arbitrary tokens and length.", ["src/parser/parser_stmt.c: parse_macro_call, parse_plugin"])
p("C142", "A comptime block is replaced by what it prints",
  "A comptime block runs its statements in order, with the @comptime functions of the file, and the source it yields takes its place; if it reports an error compiling stops.",
  "every block and every set of @comptime functions", "Blocks and functions are arbitrary.", ["src/parser/parser_stmt.c: run_comptime_block"])


p("C143", "The arms of a match are read as written, in statements and expressions",
  "A match has the arms it is written with, each with its alternatives, paths, ranges, variables, guard and body, whether it is a statement or part of an expression.",
  "every list of arms", "Arms and patterns are arbitrary.", ["src/parser/parser_stmt.c: parse_match", "src/parser/parser_expr.c: parse_primary"])
p("C144", "Variables in a pattern have the payload of the variant",
  "In an arm E::V(x, y) the variables have the parts of the payload of V, and with ref their addresses.",
  "every enum, variant and list of variables", "Names and payloads are arbitrary.", ["src/codegen/codegen_stmt.c: codegen_match_internal"])
p("C145", "A match on an enum is warned about exactly when a variant is missing",
  "The compiler warns about a variant if and only if no arm takes it.",
  "every enum and every list of arms", "Enums and arms are arbitrary.", ["src/codegen/codegen_stmt.c: codegen_match_internal"])
p("C146", "The value of a match is that of the arm chosen",
  "A match used as an expression has the value of the body of the arm chosen, of whatever type.",
  "every list of arms", "Arms are arbitrary.", ["src/codegen/codegen_stmt.c: codegen_match_internal", "src/codegen/codegen_utils.c: infer_type"])


p("C147", "Types are read as they are written",
  "A type has the meaning of its parts as written: names, arguments in angle brackets, slices, arrays, tuples, functions, pointers and qualifiers, nested to any depth; blanks do not matter.",
  "every type and every text behind it", "Types nest without bound.", ["src/parser/parser_type.c: parse_type_base, parse_type_formal"])
p("C148", "A name followed by < is a comparison unless it is a generic with its arguments",
  "a < e is a comparison for every variable a and every expression e; f<T, U> is f with its arguments for every generic f and all types.",
  "every expression and every list of types", "Expressions and types are arbitrary.", ["src/parser/parser_expr.c: parse_primary"])
p("C149", "A brace behind a name begins a literal if the name is a type, and a block otherwise",
  "S { f: e, ... } is a literal with the fields written, in order; a block behind a condition that ends with a variable is a block.",
  "every name, list of fields and block", "Names and blocks are arbitrary.", ["src/parser/parser_expr.c: parse_primary"])
p("C150", "The type arguments of a struct literal are found from its fields",
  "In a literal of a generic struct without type arguments, the arguments are those for which the values fit the fields.",
  "every generic struct and every literal of it", "Structs and values are arbitrary.", ["src/parser/parser_expr.c: parse_primary"])


p("C151", "Behind a dot, completion offers the fields of the value",
  "With the cursor behind x. for a variable or parameter x of a struct type, completion offers exactly the fields of this struct.",
  "every file and place", "Files, types and places are arbitrary.", ["src/lsp/lsp_analysis.c: lsp_completion, find_local_in_func, resolve_local_type"])
p("C152", "Completion offers the names in scope",
  "Elsewhere completion offers the variables and parameters in scope at the cursor and the functions, structs and globals of the project, each once, and no other names.",
  "every function, place and history of changes", "Functions have arbitrary statements.", ["src/lsp/lsp_analysis.c: lsp_completion", "src/lsp/lsp_project.c: lsp_project_update_file"])
p("C153", "The outline lists the declarations of a file where they are",
  "The outline of a file has its declarations in order, each with its place and the fields of structs below them, and no others.",
  "every file", "Files are arbitrary.", ["src/lsp/lsp_analysis.c: ast_to_symbol, lsp_document_symbol"])


p("C154", "readln() reads one line",
  "readln() and a prompt return the next line of the input, of any length, without its newline, and NULL at the end of the input.",
  "every input", "Lines have arbitrary length and content.", ["src/codegen/codegen_decl.c: _z_readln_raw", "src/parser/parser_expr.c: parse_primary (readln), parse_expr_prec_impl (?)"])
p("C155", "readln(a, b, ...) and prompts scan values into variables",
  "readln(a, b, ...) and ? \"text\" (a, b, ...) read a line and store in each variable the value of its word by the type of the variable, return the number of the values, and change nothing else.",
  "every list of types, line and memory", "Types, lines and white space are arbitrary.", ["src/codegen/codegen_decl.c: _z_scan_helper", "src/parser/parser_expr.c: parse_primary (readln), parse_expr_prec_impl (?)"])


p("C156", "The prompt shows what was typed",
  "After every key the row of the terminal shows the prompt and the line as it is, with the cursor at its place, and no other row changes.",
  "every line, cursor, prompt and screen", "Lines and screens are arbitrary.", ["src/repl/repl.c: repl_highlight, get_visible_length, repl_readline"])
p("C157", "The bracket at the cursor is marked with its partner",
  "If the bracket at the cursor or before it has a partner in the line, these two are marked, and no other.",
  "every line and cursor", "Lines have arbitrary nesting.", ["src/repl/repl.c: find_matching_brace, repl_highlight"])
p("C158", "Words are coloured by what they are",
  "Keywords, types, functions and constants of the language are shown in their colours, other words without.",
  "every line", "Lines are arbitrary.", ["src/repl/repl.c: repl_highlight"])


p("C159", "Error messages show the place",
  "The message for a token of the program names its line and column and shows the whole line, with the caret below the first character of the token.",
  "every program text, token, message and level", "Lines, columns and texts are arbitrary.", ["src/diagnostics/diagnostics.c: zpanic_at, zerror_at, zwarn_at"])
p("C160", "Without a terminal there are no colours, and nothing else changes",
  "What the compiler writes to a file or a pipe is what it would write to a terminal without the colours; in particular the generated program contains every string of the source as it is.",
  "every text", "Texts are arbitrary.", ["src/utils/colors.c: strip_ansi_codes, zvfprintf", "src/codegen/codegen.c: codegen_literal_expr"])


p("C161", "Parts are destroyed with the whole",
  "When a variable goes away, the destructor of every part of it that has one is called exactly once, that of a value before those of its parts, and no other destructor is called.",
  "every program of definitions, destructors and instances, every type", "Definitions nest to arbitrary depth.", ["src/parser/parser_utils.c: propagate_drop_traits, instantiate_generic, check_impl", "src/parser/parser_struct.c: parse_impl", "src/codegen/codegen_main.c: emit_auto_drop_glues", "src/codegen/codegen_stmt.c: NODE_VAR_DECL"])


p("C162", "Sockets belong to their variables",
  "A TcpStream, TcpListener or UdpSocket reads, writes, accepts on and closes the socket that it was made with and no other descriptor of the process; after close, drop or a move it does nothing to any socket; a failed connect or bind leaves no socket open; when all variables are gone, every socket has been closed exactly once.",
  "every sequence of operations, every answer of the system, every reuse of descriptors", "The system reuses descriptors, so a stale one hits another socket only in certain orders of events.", ["std/net/tcp.zc", "std/net/udp.zc", "std/sys/net.zc", "std/result.zc: expect"])
p("C163", "Connections go to the port that was asked for",
  "connect, bind and send_to ask the system for the port that they were given, or report an error.",
  "every int", "Only numbers outside the range show it.", ["std/sys/net.zc: _z_net_bind, _z_net_bind_udp, _z_net_connect, _z_net_sendto"])


p("C164", "JSON arrays of the language server behave like lists",
  "After any sequence of calls that add, insert, replace or take out items, an array or object has the items that a list would have, in order, for every way of going through it; other arrays keep theirs.",
  "every sequence of calls, any number of arrays and items", "Links in both directions, and from the first item to the last, must agree after every order of calls.", ["src/lsp/cJSON.c: add_item_to_array, cJSON_DetachItemViaPointer, cJSON_InsertItemInArray, cJSON_ReplaceItemViaPointer, get_array_item, cJSON_GetArraySize"])


p("C165", "Every generic function that is called gets its instance",
  "When a program calls generic functions with types, and generic functions call others with their own parameter, the compiler ends and the C program has exactly one function for every generic function and type that are needed, and no others.",
  "every program, any number of generic functions and any depth of calls", "The instances needed are a closure over calls inside of instances; names are composed and taken apart again at every step.", ["src/parser/parser_utils.c: instantiate_function_template, trigger_instantiations, unmangle_ptr_suffix", "src/parser/parser_decl.c: parse_function", "src/parser/parser_expr.c: parse_primary (generic calls)"])


p("C166", "Every instance of a generic struct has its methods, once",
  "Whatever the order of generic structs, their impl blocks and their uses, every method of every impl block exists exactly once for every instance of the struct, and the types that it names exist.",
  "every sequence of definitions and uses", "An impl block may come before or after the uses, and methods ask for instances while instances are being made.", ["src/parser/parser_utils.c: register_impl_template, instantiate_methods, instantiate_generic, instantiate_generic_multi", "src/parser/parser_struct.c: parse_impl"])
p("C167", "Type parameters are in force in their declaration only",
  "In a function, struct, trait, enum or impl block exactly its own type parameters, and those of the block around it, are taken for type parameters; behind it none of them is.",
  "every sequence of declarations", "The parameters in force are a counter and an array that every kind of declaration changes in its own way.", ["src/parser/parser_utils.c: register_generic, is_known_generic", "src/parser/parser_decl.c: parse_function", "src/parser/parser_struct.c: parse_trait, parse_impl, parse_struct, parse_enum"])


p("C168", "The value of an if expression is that of the branch taken",
  "An `if` used as a value evaluates its condition once, runs exactly the branch chosen, has the last value of that branch unchanged, and what the branch defers runs at its end.",
  "every function with nested if expressions, every initial state", "Types of branches, names declared in them and deferred statements combine freely.", ["src/codegen/codegen.c: codegen_expression", "src/codegen/codegen_stmt.c: codegen_node_single", "src/parser/parser_expr.c: parse_primary"])


p("C169", "Declarations in C have the types that were written",
  "The C declaration of a variable, field, parameter or function, read by the rules of C, declares that name with the type written in the source.",
  "every type built from names, pointers, arrays and function pointers", "Declarators of C nest inside out, so every combination of constructors is a case of its own.", ["src/ast/ast.c: type_to_c_string", "src/codegen/codegen_utils.c: emit_c_decl, emit_func_signature"])


p("C170", "JSON values own their memory",
  "A JSON value that was built with push and set holds what was put into it, can be read with get, at and len, and gives back all of its memory, each block once, when it is freed.",
  "every program that builds a value, nested to any depth, on every heap", "Leaks and double frees depend on the shape of the tree and do not show in the output.", ["std/json.zc: JsonValue.push, set, get, at, len, free, Drop", "std/map.zc: Map.put"])


p("C171", "Finding with regular expressions",
  "find returns the first match in the text with its position and text, and nothing if there is none; match_full says whether the whole text matches; find_at and match_at do the same from an offset on, with positions in the text; letters are matched as written unless flags say otherwise.",
  "every expression, text and offset", "Where a match begins depends on text and expression together.", ["std/regex.zc: Match.as_string, Match.end, Regex.compile, match, match_full, match_at, find, find_at"])


p("C172", "Expressions mean the same with every C compiler",
  "An accepted expression with several operands or arguments has the value, and makes the calls in the order, that evaluation from left to right gives, whichever order the C compiler chooses; giving a value away does not disturb the other operands, and copying a value leaves it as it was.",
  "every expression, state of the variables and order of evaluation", "A test sees the order that one compiler chooses.", ["src/codegen/codegen_utils.c: codegen_expression_with_move, emit_move_invalidation", "src/codegen/codegen.c: codegen_expression", "src/analysis/move_check.c: is_type_copy"])


p("C173", "Printing JSON stays within its buffer",
  "Printing a JSON value writes only into the memory it asked for, reads only what it wrote, and returns a block with exactly the text of the value and a terminating zero; it fails only for texts that do not fit into INT_MAX bytes.",
  "every value, with strings of any length and any nesting, compact and indented", "Each print asks for space at a dozen places with a size computed apart from what is then stored; a size that is short by one shows only when the buffer happens to be full there.", ["src/lsp/cJSON.c: ensure, update_offset, print_number, print_string_ptr, print_value, print_array, print_object, print"])


p("C174", "Arguments reach programs unchanged on Windows",
  "A program that the compiler starts on Windows receives exactly the arguments that were given, whatever blanks, quotes and backslashes are in them, and building its command line stays within memory.",
  "every list of arguments", "The rules for backslashes before quotes are known for their corner cases; the tests run on other systems, where arguments are not joined.", ["src/platform/os.c: quote_arg, z_run_command"])


p("C175", "Calls of undefined functions are reported",
  "A call of a function is reported exactly if the function is neither defined, nor declared extern, nor listed under c_functions in a configuration file: that of ZC_ROOT or else of the installation, the hidden and the visible one of the project.",
  "every program, declaration list and set of configuration files", "Tables grow by 64 names and with every file; entries of other types are skipped; whether a report is missing depends on all imports together.", ["src/utils/config.c: append_whitelist, load_config_file, load_all_configs", "src/parser/parser_utils.c: register_extern_symbol, is_extern_symbol", "src/codegen/codegen.c: codegen_expression (NODE_EXPR_CALL)"])


p("C176", "The defer of a declaration acts on the declared variable",
  "let x = e defer d; runs d at the end of the scope with it meaning x; a defer that is a statement of its own, in particular one after the semicolon of a declaration, has no special it and does the same as anywhere else.",
  "every block of declarations, defer statements and expressions, every environment and meaning of the operators", "it may occur at any depth of any kind of expression; what a defer means depends on the statement before it.", ["src/parser/parser_decl.c: replace_it_with_var, parse_var_decl", "src/parser/parser_stmt.c: parse_defer, parse_block"])


p("C177", "Values with destructors survive being captured, exactly once",
  "In a function that makes values with destructors, captures them in lambdas, calls the closures and other functions with them and moves them, every value is destroyed exactly once.",
  "every sequence of declarations, moves, lambdas, calls of closures and calls of functions", "Leaks and double releases depend on the whole history of moves, captures and calls; tests see only the program they run, and a missing destructor call leaves no trace.", ["src/codegen/codegen.c: codegen_lambda_expr, codegen_expression (closure calls)", "src/codegen/codegen_decl.c: emit_lambda_defs", "src/codegen/codegen_utils.c: codegen_expression_with_move, emit_move_invalidation", "src/codegen/codegen_stmt.c: codegen_node_single (NODE_VAR_DECL, NODE_FUNCTION)"])


p("C178", "JSON texts of other programs are read as what they say",
  "Parsing a JSON text gives the value the text stands for, whatever the white space between its tokens and whichever of the allowed escapes it uses.",
  "every value, however nested, and every layout of its text", "Layouts, escapes and nestings combine without limit; tests read the few texts at hand, mostly those the library wrote itself.", ["std/json.zc: JsonValue::parse, _json_skip_ws, _json_parse_string, _json_parse_array, _json_parse_object, _json_parse_value (39-175)"])


p("C179", "Lambdas are read with the captures and parameters that are written",
  "An expression written as a lambda, in any of its forms, is compiled as a lambda with exactly the captures, capture mode, parameters and types written, and an expression that is not a lambda is not taken for one.",
  "every list of captures and parameters, every type and every body", "Forms, lists and types combine without limit, and the lookahead that decides depends on tokens arbitrarily far away.", ["src/parser/parser_expr.c: parse_lambda (805-943), parse_primary (1921-2000, 3578-3675, 3858-3981)", "src/parser/parser_stmt.c: parse_match guard (333-343)"])


p("C180", "The memory helpers touch exactly the objects they are given",
  "`alloc`, `zalloc`, `alloc_n` and `Box::new` give memory for all the objects asked for that nobody else uses, `mem_zero`, `mem_copy` and `swap` change exactly the bytes of the objects named, and `Box::free` ends the life of its object once.",
  "every heap, element size, count and pair of pointers", "Sizes multiply to any value and pointers may lie anywhere in the same block; the failures need sizes beyond 64 bits or overlapping ranges.", ["std/mem.zc: alloc, zalloc, alloc_n, Box, mem_zero, mem_copy, swap (2-68)"])


p("C181", "C code that is passed through arrives unchanged and in order",
  "The text of every raw block and of every preprocessor directive appears in the generated C exactly as written, in the order of the source.",
  "every text of blocks and directives, every sequence of them, every kind of line end", "Whether a line is dropped or moved depends on all the other lines of the program; tests have few directives each.", ["src/parser/parser_core.c: raw and preprocessor nodes (609-617, 769-807)", "src/parser/parser_stmt.c: normalize_raw_content, raw statements (147-181, 2245-2255, 2434-2472)", "src/lexer/token.c: directives (53-71)", "src/codegen/codegen_main.c: raw passes (264-284, 530-583)"])


p("C182", "Attributes of functions and structs reach the generated C",
  "For every list of attributes in front of a function or struct, the generated C has well-formed attribute lists with exactly the attributes written: the flags, the section, packing and alignment, and every attribute that is passed on, with its arguments.",
  "every list of attributes in any order, every argument", "Separators depend on which combination of attributes is present; tests use a few combinations and mostly decimal alignments.", ["src/parser/parser_core.c: attributes (75-606, 640-665, 860-925)", "src/codegen/codegen_stmt.c: attributes of functions (672-765)", "src/codegen/codegen_decl.c: attributes of structs (443-521)"])


p("C183", "Environment variables have the value last set, and copies of them are independent",
  "After any sequence of Env::set and Env::unset, Env::get yields for every name the value it was last set to, or nothing if it was unset after that; a call with an invalid name reports ERR and changes nothing; texts handed out earlier stay readable, in particular the copies made by Env::get_dup.",
  "every environment at the start, every sequence of calls, every name and value", "Histories are unbounded, and whether a text handed out earlier is still valid cannot be seen by a test that happens to find the old bytes.", ["std/env.zc: Env (24-57)", "std/sys/env.zc: _z_setenv, _z_unsetenv (7-28)"])


p("C184", "An alias means the type it stands for",
  "After `alias A = T`, the name A may be used for T wherever a type may stand, with the same meaning, and the generated C compiles; names of C structs from imported headers can be used as types.",
  "every type, every table of aliases declared before, every context of stars, sizes and const", "An alias is kept as a text that is read again, so that the claim is about a round trip of every type; tests use three or four types.", ["src/parser/parser_decl.c: parse_type_alias (922-950)", "src/parser/parser_type.c: parse_type_base, parse_type_formal, parse_type (6-963)", "src/ast/ast.c: type_to_string (224-475)", "src/parser/parser_utils.c: register_type_alias, find_type_alias_node (730-761)", "src/codegen/codegen_decl.c: emit_type_aliases (247-267)"])


p("C185", "sizeof is the size of its operand",
  "`sizeof(T)` is the size of the type T and `sizeof(e)` that of the type of the expression e, with variables, elements and fields among the expressions; `typeof` likewise.",
  "every type, every variable, every expression", "The operand is read as a type first, so that the claim depends on what of all expressions also reads as a type; tests use `sizeof(int)` and a struct.", ["src/parser/parser_expr.c: parse_sizeof_expr, parse_typeof_expr (1499-1578)", "src/codegen/codegen.c: codegen_expression (1518-1596)", "src/parser/parser_utils.c: normalize_type_name (4422-4526)"])


p("C186", "The use-after-move check sees through closures",
  "A program in which a value may be used after it was given away is rejected, also if the value is captured by a closure, by value or by reference, and if the closure uses it or gives it away; programs without such uses are accepted.",
  "every straight-line function, all closures in it, every number and order of calls", "Which uses are bad depends on how often and when a closure is called; the tests of the check have single calls.", ["src/analysis/typecheck.c: check_expr_lambda (1569-1635), check_expr_var (970-983), check_var_decl (798-832)", "src/analysis/move_check.c: check_use_validity, mark_symbol_moved, mark_symbol_valid (215-316)"])


p("C187", "The C compiler gets what the user asked for, and run runs it",
  "The C compiler is called with every flag, library and C file the user named, in an order in which the program links if it can, and `zc run` runs the program that was made.",
  "every configuration, all sets of libraries and symbols, every output path", "Whether a program links depends on the order of all libraries and which symbols each uses; the tests link libm at most.", ["src/utils/cmd.c: build_compile_arg_list (81-168)", "src/main.c: main (648-720)"])


p("C188", "Vector literals give the lanes that are written",
  "`V{v: e}` puts the value of `e`, evaluated once, into all lanes of a vector, `V{a, b, ...}` puts each value into its lane, both are accepted whatever the expressions are, and indexing a vector gives the lane or stops the program.",
  "all expressions, all numbers and types of lanes, all states, all indices", "The tests use numbers as values; with a variable, a call or an index outside the vector the result is another one.", ["src/parser/parser_expr.c: parse_primary (2451-2530, 2639-2725)", "src/codegen/codegen.c: codegen_expression (1104-1126, 1690-1745)", "src/analysis/typecheck.c: check_struct_init (1007-1071)"])


p("C189", "Automatic imports do not change the program",
  "When a loop over an array or an implementation of Drop makes the compiler import a file of the standard library by itself, that is the file an import would find, and the declarations of all files that the program imports are in the program, in whatever order they are imported.",
  "all sets of files that import each other, all orders of imports, all places of loops, all search paths", "What is lost depends on which file comes first; the tests have their imports at the top of a single file and run from the root of the repository.", ["src/parser/parser_stmt.c: auto_import_std_slice (26-129)", "src/parser/parser_struct.c: auto_import_std_mem (22-121)", "src/parser/parser_decl.c: (224-227, 779-782)", "src/codegen/codegen_main.c: (488-600)"])


p("C190", "Methods are defined once, whatever is in their bodies",
  "Every function and method of a program is defined once in the C file, `self` has the type of the impl in every method, and the names of methods are not names of functions, whatever the bodies are.",
  "all programs of functions and impl blocks, loops over arrays in any of them", "It goes wrong only if the first loop over an array of a program is in a method; the tests have theirs in functions.", ["src/parser/parser_struct.c: parse_impl (386-506, 549-790)", "src/parser/parser_decl.c: parse_function (130-230)", "src/parser/parser_stmt.c: auto_import_std_slice (26-129)", "src/codegen/codegen_main.c: (627-806)"])


p("C191", "A returned tuple has the declared type",
  "In a function or lambda whose return type is a tuple, `return (a, b, ...);` returns a tuple of that type with these elements in order, and a `return` of anything else is not taken for a tuple literal; the compiler stops for every source text.",
  "all programs of functions with nested lambdas and loops, all elements with matching parentheses", "It depends on what was parsed before in the same function (first loop over an array, an enclosing function with another tuple type); the tests return tuples from small functions.", ["src/parser/parser_stmt.c: parse_return (1023-1103)", "src/parser/parser_type.c: parse_tuple_literal (1041-1103)", "src/parser/parser_decl.c: parse_function (127-196)", "src/parser/parser_stmt.c: auto_import_std_slice (26-129)"])


p("C192", "Arrow lambdas return the value of their expression",
  "A lambda `x -> e` or `(a, b) -> e` returns, in every call and wherever it is passed, the value of `e` for the arguments; it does not depend on other calls.",
  "all bodies of numbers, parameters and operators, all lists of calls", "The types of the C function are guessed from the body, from the first call and from a default of int; the tests use integers, and one fraction in a form for which the guess is right.", ["src/parser/parser_expr.c: parse_arrow_lambda_single, parse_arrow_lambda_multi (7215-7377)", "src/parser/parser_expr.c: (6877-6911)", "src/analysis/typecheck.c: check_expr_call (588-640)", "src/codegen/codegen_decl.c: emit_lambda_defs (343-387)"])


p("C193", "Reflection tells the fields of a type",
  "@fields(T) is a table with one row for each field of T, in order, with its name, the name of its type and the offset at which the field lies, ended by a row without a name; @type_name(T) names T and no other type; both also where T is a parameter of a generic function.",
  "all structs and unions, all types of scalars, structs and pointers, all instances", "There is no test of reflection; offsets depend on the layout of every struct, and instances of generic functions are made of a copy that leaves these nodes out.", ["src/parser/parser_expr.c: parse_intrinsic (1580-1622)", "src/codegen/codegen.c: NODE_REFLECTION (1598-1639)", "src/parser/parser_utils.c: copy_ast_replacing (1915-2202)", "src/ast/ast.c: type_to_c_string (482-753)"])


p("C194", "The file that is named is read, completely",
  "The compiler reads the file it is given, or an imported one, from the first of the places as named, below ZC_ROOT, /usr/local/share/zenc and /usr/share/zenc where it exists; the text is every byte of it, or an error is reported.",
  "all file systems, paths, roots and contents", "What happens depends on the kind of the file and the length of the path; tests read short ordinary files from one place.", ["src/utils/utils.c: load_file (94-132)"])


p("C195", "Editing does not make the language server read texts it has dropped",
  "Whatever the sequence of texts an editor sends, the language server reads no memory of a text it has released, and what it says about types is about the texts as they are now.",
  "all sequences of messages, all uses and declarations of types in them", "Tokens of every text stay in a list that is searched at every later message; the error needs two messages and memory that is reused, tests send one.", ["src/lsp/lsp_project.c: lsp_project_update_file (145-186)", "src/parser/parser_utils.c: register_type_usage, validate_types (4333-4367)", "src/diagnostics/diagnostics.c: zwarn_at (83-136)", "src/lsp/json_rpc.c: handle_request (288)"])


p("C196", "Opening a workspace enters every source in it once, under the URI an editor uses",
  "When an editor opens a workspace, the language server enters exactly the readable files ending in .zc that are below it and not hidden, each once and under the URI that the editor will use for it.",
  "all file systems, all roots given as path or URI, all numbers of free descriptors", "The workspace of a test is small and its paths are short and plain; what happens at the length of a buffer or with a character that a URI encodes is never in it.", ["src/lsp/lsp_project.c: lsp_project_init, scan_file, scan_dir (12-37, 50-106)", "src/lsp/json_rpc.c: handle_request (78-109)"])


p("C197", "Tips are rare, fit what was compiled, and do no harm",
  "A compilation prints at most one tip; none with --quiet or --no-zen and none after a warning; the tip is one of the file for a construct that came up; every tip of the file can come up; and no file of tips makes the compiler misbehave.",
  "all compilations (sequences of constructs and warnings), all files of tips, all random numbers", "Tips depend on random numbers with one chance in ten; what never comes up, or only with a particular file in the current directory, is not seen by running tests.", ["src/zen/zen_facts.c: map_trigger_name, load_facts, zzen_at, zen_trigger_at, zen_trigger_global (27-332)", "src/zen/facts.json"])

with open(os.path.join(os.path.dirname(__file__), "..", "properties.jsonl"), "w") as f:
    for o in P: f.write(json.dumps(o) + "\n")
