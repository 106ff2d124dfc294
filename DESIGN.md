# Formal model of Zen-C: design

The repository translates Zen-C to C (compiler in `src/`, C) and ships a standard
library written in Zen-C (`std/*.zc`).  The model is written in Lean 4 under
`lean/Verif/`.  Nothing of the repository is built or run; every definition of the
model cites the lines it transcribes.

## Conventions

* One directory per modelled unit: `Verif/<Unit>/Model.lean` holds the model (definitions with
  citations) and a small `namespace Spec`, `Lemmas.lean` helper lemmas, `Props.lean` the theorems
  named in MANIFEST.json.
* A C-level undefined behaviour, a panic (`exit(1)`) and non-termination are distinct
  outcomes of the model, never defaulted away (`Out.ub`, `Out.panic`, fuel exhaustion
  for every amount of fuel).
* The specification side of each theorem uses plain Lean lists / finite maps / small
  inductive relations that do not mention the model's helpers.
* Where the code violates the claim, the model reproduces the violation, a theorem
  `..._violated` proves the negation with a concrete witness, and a `..._partial`
  theorem proves the claim under the exact guard which excludes the violation.

## Trusted base

* Lean 4.33.0 kernel; axioms allowed: `propext`, `Classical.choice`, `Quot.sound`.
* The transcription of the cited code into the model (read by hand).
* Memory allocation never fails (`malloc`/`realloc` return fresh, disjoint memory).
* `usize` values stay below 2^64 unless the property is about wrap-around, in which
  case the model uses arithmetic modulo 2^64.
* C semantics of the emitted code: modelled only as far as each section says.

## Plan per property

| id | model | proof |
|----|-------|-------|
| C01-C03 | `Vec`: buffer as a list of optional cells + len + cap, every method transcribed with UB outcome | refinement to `List`, induction over histories; reverse on empty is UB: negation + partial |
| C04 | `Queue`: byte-level ring buffer with element size, `_grow` with `void*` arithmetic as emitted | refinement to list for element size 1, partial for larger sizes while growth happens unwrapped, negations for growth when wrapped and for clone of full queue |
| C05 | `Stack` | refinement to list; negation for clone of a never-used stack |
| C06 | `Set`: open addressing | probe-chain invariant; refinement to membership; termination |
| C07,C08,C47 | `Map`: open addressing with fuel, heap of key copies | as C06, negation of termination with a history; leak negation |
| C09 | iterators of Vec/Slice/Map | induction; negation for empty map |
| C10-C13 | `Str`: byte buffer | refinement to byte lists; append-self negation; UTF-8 by encode/decode spec |
| C14 | `Base64` | RFC 4648 decoder spec, round trip by induction on triples |
| C15 | `Sha1` on `BitVec 32`/`UInt32` | chunk independence by buffer invariant; equality with FIPS spec |
| C16 | `StdArena` mod 2^64 | disjointness invariant; overflow negation |
| C17 | `Json` writer and reader | round trip by mutual induction for values with safe strings; negations |
| C18 | `WebSocket` send/recv bytes | RFC 6455 decoder spec |
| C19,C20 | `Url`, `Path` | list lemmas |
| C21,C22 | `Lexer`: transcription of `lexer_next` on byte list with terminator | progress, tiling, line counts; negations for out-of-range reads |
| C23 | `ConstFold` with UB outcome of C signed arithmetic | induction on expressions |
| C51 | `ConstFold` | symbol table invariant over declaration lists; negations |
| C24 | `Move`: small statement language, checker and semantics | soundness by induction on syntax, invariant relating checker state and environment; ten negations |
| C25 | `Returns` | soundness by induction over big-step semantics |
| C26,C46 | `Defer`: source language with defers, emitted C-like target, both with semantics | compile-correctness; negations |
| C27 | `ForRange` | emitted loop vs. integer interval |
| C28 | `Match` | first-match semantics |
| C53 | `Match` | tags of variants by position; negations for explicit values |
| C29,C30,C54 | `Pratt` | parser is sound and complete for a grammar, uniqueness; printing round trip through a C grammar; negations |
| C31 | `StrLit` | relation between C literals (after line splicing) and their values; induction over bodies; negations |
| C32, C55 | `StrLit` | templates as an inductive relation, segmentation by induction, buffers with capacity; nested evaluation with one buffer per place; negations |
| C33 | `Literals` | numerals as an inductive relation; lexer, reader and writer against it; negations |
| C34 | `Literals` (Float*) | doubles as rationals, any rounding to nearest; spacing of doubles; negations. Uses Mathlib (ordered fields, `linarith`) |
| C35 | `TypeEq` | structural induction; negations |
| C37, C38, C43, C56 | `BuildFlags` | expansion on memory refines a list function; invariants over every scan; joined flags split back by induction; negations |
| C36 | `CArena` | invariant over histories |
| C39 | `Levenshtein` | DP equals minimum of edit scripts |
| C40 | `Lsp` | round trip over message lists |
| C52 | `Lsp` | induction over sessions; negations |
| C41 | `Brainfuck` | machine with bracket jumps against the structured C statements, both directions by induction; uniqueness of bracket partners; negations |
| C42 | `RegexPlugin` | languages as an inductive relation; soundness, completeness for deterministic patterns; negations |
| C59 | `Cfg` | token-level attribute parser and `#if` passes; refinement to the selected program; negations |
| C60 | `DeclOrder` | the passes as a list of C declarations; sorting permutes; acceptance by a one-pass C reader; negations |
| C61 | `Tuple` | split after join is the identity iff separable; literal values; buffer bounds; negations |
| C62 | `Http` | request and response texts through the `String` lemmas; end-to-end exchange; negations |
| C63 | `Process` | the command line as fields of a shell; wait status; negations |
| C64 | `Io` | buffer invariant of `readln`; lines by induction on the input; decimal text denotes the number |
| C65 | `Fs` | streams with a reported end; round trip; directory loop; negations |
| C66 | `Time` | arithmetic modulo 2^32; negations |
| C67 | `Time` | low bits of the hash are a function of the low bits of the seed; negation for every key |
| C68 | `Generics` | substitution on type texts against substitution on types; induction on types; negations |
| C69 | `Generics` | unique decoding of instance names by induction on types; table invariant over requests; negations |
| C70 | `GenBody` | copying of syntax trees against substitution on trees of types; induction on trees; negations |
| C71 | `GenBody` | scanners against a reading as words, strings and marks; induction on readings; negations |
| C72 | `Derive` | meaning of the generated comparisons against structural equality; induction on values; exact lengths of the text; negations |
| C73 | `Derive` | equality with the copy; exact condition for dropping both; negation |
| C74 | `Derive` | writer and reader of JSON objects; induction on values and fields; composition with C17; negations |
| C75 | `Closure` | free names of the source against the list of the compiler; induction on bodies; negations |
| C76 | `Closure` | step by step equality of source and generated body, for any fuel, by induction on fuel and bodies; negations |
| C77 | `Traits` | injectivity of the names of all declarations; induction on the generated text of parameter lists; negations |
| C78 | `Traits` | same injectivity against the search of the compiler; induction on the declarations of structs; negations |
| C79 | `Args` | induction on arguments, defaults and expressions, against a relation between arguments and parameters; negations |
| C80 | `NumType` | induction on expressions: parser's type = C's type = inferred type, values have their types; negations |
| C81 | `ExprGen` | simulation between source expressions and the C emitted, by induction on expressions, for any set of names that are not the program's; negations |
| C82, C83 | `Index` | row-major places are injective and inside (induction on dimensions); simulation of sequences of accesses with an array as a function; negations |
| C84 | `Overload` | the C code of an expression has the meaning a relational specification gives it (induction on the derivation); negations |
| C85, C86, C87 | `Modules` | reading as a relation without depth; induction over the frames of open files with invariants of the tables; termination by the number of files left; negations |
| C88, C89 | `Async` | interleaving machine with a heap against one without; forward simulation with an owner for each block; negations |
| C90, C91 | `Opaque` | one pass of the parser with the tables it has against the types of the whole program; induction on expressions and bodies; negations |
| C92, C93 | `Mixin` | the flattening parser against a relation on program texts; bit-exact ABI layout, methods run through the cast against methods run on records; induction on bodies; negations |
| C94, C95 | `Destruct` | printed C run against the meaning of the body: simulation by mutual induction on statements, `defer_stack` against pending events; negations |
| C96, C97 | `LspNav` | index of parsed files against the bindings of the program: mutual induction on expressions and statements, invariant of the session (context never reset, one index per file); negations |
| C98 | `Semantic` | decoder against encoder, for every sorting; traversal against the places of the tree by mutual induction; negations |
| C99 | `Befunge` | reading of the grid against lines and columns; lock-step simulation by induction on the number of cells; negations |
| C100 | `TypeCheck` | typing rules as inductive relations; soundness and completeness by mutual induction over expressions and statements; negations |
| C101, C102 | `Driver` | command line: parts rendered to arguments, meaning per option, independent of position, by induction over the parts; files and exit status for every front end, C compiler and program; negations |
| C103–C105 | `Thread` | interleaving steps over threads, closures on the heap, mutexes and variables; a thread is a tree of calls; invariants over traces; a sum invariant for the counter; ownership of child threads for progress; negations |
| C106–C108 | `CJson` | the two passes over a string against an inductive grammar of strings (RFC 8259, RFC 3629); `strtod`'s longest prefix; documents against an inductive grammar over a parameter for the tokens, completeness for the tokens of the RFC and soundness for the looser ones; printing is a derivation of the grammar; negations |
| C109–C112 | `Asm` | the parser over token streams; a reader for the `asm` statement of GNU C (string literals, sections, constraints) and for its templates (`%%`, `%N`, dialect braces) as the specification; emission followed by reading gives the block back; negations |
| C113–C117 | `LineEdit` | the loop over the bytes of the terminal, on memory blocks; an editor with text before and after the cursor as a relation on keys is the specification; refinement key by key, safety for all bytes; negations |
| C118–C122 | `Repl` | the loop of the session over lines, with the lifetime of the history and the texts it builds; compiler, parser and editor are an environment; sessions of definitions and statements, pieces of a line and numerals are the specification; an invariant over all executions; negations |
| C123–C125 | `InitLit` | `parse_embed` and `parse_array_literal` as functions of the bytes of the file and of the tokens; hexadecimal constants and escapes of C, nested elements with commas between them are the specification; negations |
| C126–C129 | `Forth` | the whole of plugins/forth.c as an interpreter with fuel (monotone, so that results are unique), floating-point numbers abstract; postfix expressions, structured programs with their own meaning, and definitions as lists of words are the specification; invariant; negations |
| C130–C132 | `Lisp` | the reader of plugins/lisp.c as it is, on texts; grammar of the texts of a block, an evaluator for Lisp, and a syntax of C with its text and an evaluator that follows the runtime of the plugin are the specification; simulation in lockstep; negations |
| C133–C136 | `CHeader` | the scanner of C headers on texts, over any file system, with the expression parser as a parameter; the grammar of declarations and reachability by include are the specification; depth-first search with a bound by counting unmarked files; negations |
| C137–C139 | `Sql` | the SQL plugin on texts; a grammar of SQL, a database and the C it is to be written as are the specification; agreement of database and C variables as an invariant; fuel by length; negations |
| C140–C141 | `Plugin` | loading and naming of plugins, and blocks as tokens; imports as a relation on states with an invariant; balanced tokens as an inductive predicate; negations |
| C142 | `Comptime` | the C program of a comptime block as declarations and names; C11's rule of declaration before use is the specification; statements on any state; negations |
| C143–C146 | `MatchExpr` | reading of arms on tokens against a grammar of arms; payloads as members of a union; the warning about missing variants; the C of a match in an expression; negations |
| C147–C150 | `TypeParse` | reader of types on tokens, with `>` one by one, against a grammar of written types; termination of the reader; the look ahead behind `<` and `{`; type arguments of literals; negations |
| C151–C153 | `Complete` | completion and outline on statement trees and texts; the queue of 1024 places as in the code, shown to reach all of smaller functions; places in programs as zippers; negations |
| C154–C155 | `Input` | the format of the scan as text, the part of `sscanf` it uses interpreting that text, variables as bytes; induction over the variables; negations per type |
| C156–C158 | `Highlight` | what is printed as text, interpreted by a terminal with rows, columns, escape sequences and UTF-8; brackets against a grammar of balanced texts; negations |
| C159–C160 | `Diag` | lines of the message written out; columns of a screen with tabs and UTF-8; composed with the theorems about columns of tokens; negations |
| C161 | `DropGlue` | parts of a value as an inductive relation with paths; least fixed point of the flags; calls against the relation; negations |
| C162–C163 | `Net` | variables that hold sockets; refinement of the descriptors by induction over operations; counts of opening and closing; negation |
| C164 | `CJsonList` | arrays as lists; invariant of the links with a frame; refinement by induction over calls; negation for shared items |
| C165 | `GenCall` | needed instances as an inductive closure; invariant over the nested instantiation, induction on the generic functions still allowed; negations |
| C166 | `GenImpl` | postcondition of nested instantiation (new instances, pairs made as a permutation, requests met), induction on depth and on programs; negations, one by induction on depth |
| C167 | `GenScope` | known parameters as a stack; induction over declarations; negations |
| C168 | `IfExpr` | two evaluators (language, emitted C with `_ifval` and the stack of `defer`); mutual induction over expressions and statements with types preserved; negations |
| C169 | `CDecl` | a reader of C declarators as specification, its rules as lemmas; shapes of the emitted text, mutual induction over types; negations for families of types |
| C170 | `JsonOwn` | a heap with blocks; representation predicate with the list of owned blocks, frame lemmas, mutual induction over the tree for build and free; negations for all heaps |
| C171 | `StdRegex.Find` | the library underneath as a parameter with a first-match specification that includes the context of a word; direct proofs; negations for all expressions |
| C172 | `EvalOrder` | nondeterministic small steps; a step keeps the result of left-to-right evaluation; frame lemmas for stores; termination measure |
| C173 | `CJsonBuf` | invariants between steps (text up to `offset`) and after values (text, terminator, two bytes of slack), composed with a rule for steps that may fail; induction over values |
| C174 | `WinArgs` | the runtime's rules as a state machine; invariants outside and inside quotes; induction over characters and arguments |
| C175 | `Undef` | tables on memory refine lists; the report as an equivalence for all programs |
| C176 | `DeferIt` | substitution lemma by mutual induction over expressions, then induction over the block |
| C177 | `ClosureOwn` | count of each value over variables, contexts and destroyed values as an invariant of all programs |
| C178 | `Json` (`Read`) | grammar of RFC 8259 as an inductive relation of texts and values; induction over the step budget |
| C179 | `LambdaHead` | token lists and an arbitrary reader of types; induction over the lists of captures and parameters |
| C180 | `StdMem` | byte-addressed blocks; what each place holds before and after |
| C181 | `RawBlock` | matching braces as an inductive predicate; sublists and membership for the two passes |
| C182 | `Attrs` | the record read as a fold over the written attributes; membership per field; `first` in step with the items printed |
| C183 | `Env` | table refinement over histories; ownership of texts as an invariant |
| C184 | `Alias` | printer and reader of types with a stack bound; types as users think of them (`Q`) with a round trip by mutual induction; negations for all stack sizes |
| C185 | `SizeOf` | the reader and printer of `Alias`; expressions a parameter; what C takes the text for as an inductive relation |
| C186 | `MoveClosure` | the check as a fold over statements, the state of `Move`; a run with the values each closure holds as specification; invariants for soundness and for no false alarms |
| C187 | `LinkCmd` | the list of arguments; a linker that reads archives from left to right and the files paths mean as specification; archives that have nothing to do with each other commute |
| C188 | `Vector` | vector literals from their tokens to the lanes, and indexing; lanes as specification, evaluated in turn |
| C189 | `AutoImport` | files that import each other, parsed depth first, with places that import by themselves; files that are needed as specification, one invariant over all runs; where such files are searched against `Modules.locate` |
| C190 | `ImplScope` | the open `impl` over a program of functions and methods, closed by a file imported in a body; the lists of functions and methods as specification |
| C191 | `TupleReturn` | tokens of `return` statements with matching parentheses; the return type in force over a program of functions, loops and lambdas; the innermost return type as specification |
| C192 | `ArrowType` | the types guessed for arrow lambdas, by the parser, the first call and the parameter they are passed for; integers and rationals with C conversions; the value of the expression as specification |
| C193 | `Reflect` | `@type_name` and `@fields`: the table as C sees it, on the bit layout of `Mixin`; reading and writing the field as specification of its offset |
| C194 | `LoadFile` | `load_file` on a file system of nodes with the size `ftell` tells and the bytes reading gives; the first place that exists as specification |
| C195 | `LspStale` | the context of the language server over a session: pending uses of types with the message their tokens point into; released memory characterised exactly over the texts sent |
| C196 | `LspScan` | the scan of a workspace by the language server over any file system, with the cut of paths at 1023 characters and the number of free descriptors; the root from path or URI |
| C197 | `ZenTip` | the tips of the compiler: the file as an array of elements, the ten places, and a compilation as a sequence of events with the numbers of `rand` |
| C58 | `Lexer` (`Cols`) | invariant: column right unless a block comment touches the line; negations |
| C57 | `StdRegex` | search as a parameter, exact result of both loops; negations |
| C44 | `OptionResult` | case analysis |
| C45 | `Keywords` | statement trees and how they are written; reading back by structural induction; negations |
| C48 | `Cmd` | invariant |

Not expressible here: performance in seconds, behaviour of the OS, of libc's `printf`
and of the external C compiler; these appear only as stated assumptions.

## What is modelled and what is not

A cited range is not modelled in every respect: the table lists the lines the definitions of the model cite (written by `tools/coverage.py`);
what each definition simplifies stands in its comment.

<!-- coverage begin -->
| file of the repository | lines cited | units |
|---|---|---|
| plugins/befunge.c | 9-196 | Befunge |
| plugins/brainfuck.c | 4-42 | Brainfuck |
| plugins/forth.c | 8-55, 73-630 | Forth |
| plugins/lisp.c | 8-488 | Lisp |
| plugins/regex.c | 10-229 | RegexPlugin |
| plugins/sql.c | 8-413 | Sql |
| plugins/zprep_plugin.h | 35-39 | Plugin |
| src/analysis/const_fold.c | 5-140 | ConstFold |
| src/analysis/move_check.c | 60-198, 215-316 | EvalOrder, Move, MoveClosure |
| src/analysis/move_check.h | whole functions | Move |
| src/analysis/typecheck.c | 62-115, 123-1665 | Args, ArrowType, EvalOrder, Move, MoveClosure, Opaque, Returns, TypeCheck, Vector |
| src/ast/ast.c | 95-755 | Alias, Async, CDecl, DeclOrder, Generics, Index, NumType, Opaque, Reflect, TypeCheck, TypeEq, TypeParse |
| src/ast/ast.h | 21-620 | Alias, ArrowType, Cfg, Closure, ConstFold, DeclOrder, DeferIt, DropGlue, EvalOrder, GenBody, GenCall, Generics, ImplScope, Mixin, Move, Opaque, Reflect, Returns, TypeCheck, TypeEq, TypeParse, Vector |
| src/codegen/codegen.c | 37-85, 147-1745, 1788-1876 | Args, ArrowType, Async, Closure, ClosureOwn, Defer, Derive, Diag, EvalOrder, ExprGen, IfExpr, Index, Literals, Mixin, Modules, NumType, Overload, Plugin, Pratt, Reflect, SizeOf, StrLit, Traits, Undef, Vector |
| src/codegen/codegen.h | 97-98 | Defer |
| src/codegen/codegen_decl.c | 17, 28, 95, 161-200, 222-1298 | Alias, ArrowType, Attrs, Cfg, Closure, ClosureOwn, DeclOrder, ForRange, IfExpr, Index, Input, Match, Mixin, Reflect, SizeOf, StrLit, Traits, Tuple, Vector |
| src/codegen/codegen_main.c | 9-246, 295-830 | AutoImport, Cfg, DeclOrder, DropGlue, ImplScope, RawBlock, Traits |
| src/codegen/codegen_stmt.c | 16-150, 193-537, 552-765, 775-830, 841-846, 858-963, 986, 993-1130, 1155-1167, 1193, 1328-1686, 1718-1810 | Asm, Async, Attrs, ClosureOwn, Defer, Destruct, DropGlue, ForRange, IfExpr, ImplScope, JsonOwn, Match, MatchExpr, Mixin, NumType, Queue, Returns |
| src/codegen/codegen_utils.c | 15, 43-110, 119-156, 187-694, 754-1004 | Async, CDecl, ClosureOwn, Defer, DropGlue, EvalOrder, Index, JsonOwn, MatchExpr, Net, NumType, Queue, Traits, Vec |
| src/constants.h | 19-77 | Derive |
| src/diagnostics/diagnostics.c | 6-24, 74, 83-136, 151, 188-250, 412-476 | Diag, LspStale, TypeParse, ZenTip |
| src/lexer/token.c | 3-647 | Asm, Keywords, LambdaHead, Lexer, Literals, RawBlock, TypeParse |
| src/lsp/cJSON.c | 135-156, 178, 310-403, 480-1086, 1097-1244, 1253-1345, 1385-1516, 1524-1528, 1536-1604, 1617-1676, 1684-1688, 1695-1785, 1797-1957, 1969-2008, 2046-2084, 2119-2164, 2290-2324, 2366-2449 | CJson, CJsonBuf, CJsonList, Lsp, LspNav, Undef |
| src/lsp/cJSON.h | 103-131, 145-147 | CJson |
| src/lsp/json_rpc.c | 19-38, 53-289 | Lsp, LspScan, LspStale, Semantic |
| src/lsp/lsp_analysis.c | 24-34, 59-885, 1010-1133 | Complete, Lsp, LspNav, LspStale |
| src/lsp/lsp_index.c | 32-254 | Complete, LspNav |
| src/lsp/lsp_main.c | 9-67 | Lsp |
| src/lsp/lsp_project.c | 12-37, 50-316 | Complete, Lsp, LspNav, LspScan, LspStale |
| src/lsp/lsp_semantic.c | 23-30, 39-360 | Semantic |
| src/main.c | 20-772 | ArrowType, AutoImport, BuildFlags, Driver, DropGlue, LinkCmd, Modules, Opaque, Vector |
| src/parser/parser.h | 15-26, 45-62, 280-330 | AutoImport, CHeader, ConstFold, DropGlue, GenScope, ImplScope, Pratt |
| src/parser/parser_core.c | 9-1324 | Attrs, Cfg, Complete, Derive, ImplScope, LspNav, Modules, RawBlock, Vector |
| src/parser/parser_decl.c | 86-230, 277-513, 523-566, 590-722, 731-768, 779-816, 843-893, 908-950 | Alias, Args, AutoImport, Cfg, Complete, ConstFold, DeclOrder, DeferIt, Destruct, GenCall, GenScope, ImplScope, InitLit, LspNav, Modules, NumType, Opaque, Traits, TupleReturn |
| src/parser/parser_expr.c | 3-41, 52-105, 349-1014, 1024-1025, 1037-1350, 1361-1474, 1499-1622, 1690-1699, 1720-2436, 2445-2530, 2599-2623, 2632, 2639-2725, 2737-3316, 3327-3486, 3532-3554, 3578-3675, 3684-3716, 3739-3845, 3858-3981, 4039-4108, 4137-4252, 4267-4330, 4339-4413, 4597-7204, 7215-7377 | Args, ArrowType, Async, Closure, ConstFold, ExprGen, GenCall, IfExpr, Index, Input, LambdaHead, Literals, LspNav, MatchExpr, Modules, MoveClosure, NumType, Opaque, Overload, Pratt, Reflect, SizeOf, StrLit, Traits, Tuple, TupleReturn, TypeParse, Vector |
| src/parser/parser_stmt.c | 16, 26-129, 147-529, 564-960, 987-2085, 2092-3033, 3078-3177, 3191-3312, 3329-3463, 3472-4166 | Alias, Asm, AutoImport, Brainfuck, CHeader, Complete, Comptime, Defer, DeferIt, ForRange, IfExpr, ImplScope, Iter, Keywords, Match, MatchExpr, Modules, Opaque, Plugin, RawBlock, StrLit, TupleReturn |
| src/parser/parser_struct.c | 22-121, 133-178, 259-520, 545-557, 585, 680-780, 795-1070, 1088-1240, 1251 | Args, AutoImport, Complete, DeclOrder, Derive, DropGlue, GenScope, Generics, ImplScope, Match, Mixin, Modules, Opaque, Reflect, Traits, Tuple |
| src/parser/parser_type.c | 6-1238 | Alias, ConstFold, DeclOrder, GenBody, Generics, Index, InitLit, Modules, Opaque, Tuple, TupleReturn, TypeParse, Vector |
| src/parser/parser_utils.c | 9-148, 168-355, 465-516, 564-585, 612-630, 676-777, 787-793, 850-917, 996-1055, 1062-1212, 1227-2303, 2334-2662, 2813-2869, 2880-2940, 2978-3252, 3272-3389, 3574-3617, 3942-4367, 4387-4526 | Alias, Args, Async, AutoImport, CHeader, Cfg, Closure, Complete, Comptime, ConstFold, Derive, DropGlue, GenBody, GenCall, GenImpl, GenScope, Generics, ImplScope, Levenshtein, LspNav, LspStale, Match, Mixin, Modules, Opaque, Plugin, Reflect, SizeOf, Traits, Tuple, TypeParse, Undef |
| src/platform/os.c | 244-301, 317-337 | Driver, WinArgs |
| src/plugins/plugin_manager.c | 16, 45-66, 79-92 | Plugin |
| src/repl/repl.c | 14-67, 165-271, 313-970, 990-2532 | Highlight, LineEdit, Repl |
| src/utils/cmd.c | 81-359 | BuildFlags, Cmd, LinkCmd |
| src/utils/cmd.h | whole functions | Cmd |
| src/utils/colors.c | 19-86 | Diag |
| src/utils/colors.h | 8-14, 22-27 | Diag |
| src/utils/config.c | 8-118 | Undef |
| src/utils/utils.c | 7-132, 140-536 | BuildFlags, CArena, Cmd, Levenshtein, LoadFile |
| src/zen/zen_facts.c | 10-15, 25-332 | ZenTip |
| src/zen/zen_facts.h | 13-28 | ZenTip |
| src/zprep.h | 17, 28-85, 167, 196-260 | Asm, BuildFlags, CArena, Cfg, Driver, Generics, LambdaHead, Lexer, TupleReturn, TypeParse, Vector |
| std/arena.zc | 6-52, 66-74 | StdArena |
| std/crypto/sha1.zc | 10-203 | Sha1 |
| std/encoding/base64.zc | 10-88 | Base64 |
| std/env.zc | 24-57 | Env |
| std/fs.zc | 64-90, 107-117, 170-234 | Fs |
| std/io.zc | 31-63, 73-134 | Input, Io |
| std/json.zc | 9-28, 39-65, 81-90, 105-523 | Derive, Json, JsonOwn |
| std/map.zc | 6-256 | HashMap, Json, JsonOwn, Time |
| std/mem.zc | 2-12, 24-49, 56-68 | AutoImport, StdMem |
| std/net/http.zc | 14-41, 54-67, 112-183, 228-302 | Http |
| std/net/tcp.zc | 14-61, 68-99 | Http, Net, WebSocket |
| std/net/udp.zc | 18-72 | Net |
| std/net/url.zc | 6-115 | Url |
| std/net/websocket.zc | 56-155 | WebSocket |
| std/option.zc | 4-68 | Destruct, OptionResult |
| std/path.zc | 28-116 | Path |
| std/process.zc | 23-26, 41-100 | Process |
| std/queue.zc | 4-114 | Queue |
| std/regex.zc | 114-163 | StdRegex |
| std/result.zc | 3-57 | Destruct, Net, OptionResult |
| std/set.zc | 6-164 | HashSet, Time |
| std/slice.zc | 3-24, 40-46, 56-66 | AutoImport, ImplScope, Iter, TupleReturn |
| std/stack.zc | 4-71 | Stack |
| std/string.zc | 5-351 | Derive, Str |
| std/sys/env.zc | 7-28 | Env |
| std/sys/fs.zc | 57-69 | Fs |
| std/sys/net.zc | 36-153 | Net |
| std/sys/process.zc | 24-26 | Process |
| std/thread.zc | 14-75, 101-142, 150-170, 180-183 | Thread, Time |
| std/time.zc | 38-40, 48-63 | Time |
| std/vec.zc | 5-309 | Derive, Iter, Json, Vec |
<!-- coverage end -->

Not modelled: every file and line range not in the table.  In particular

* type inference in the parser (`src/parser/parser_type.c` except what `TypeEq` and `Literals`
  cite), of the checker aliases, vectors and the messages, of generics the instantiation of functions by inferred
  arguments, generic traits, types of closures and calls of captured closures,
  SIMD and CUDA;
* colours and brackets in the REPL, the diagnostics' layout, `zen_facts.c`, of cJSON editing of lists, copies and `cJSON_Minify`;
* operating-system wrappers of the standard library: `net/tcp`, `net/udp`, `thread`, `env`, and of
  `fs`, `process` and `time` the system calls themselves;
* the C compiler: the C text the compiler emits is given the meaning the C11 standard gives it,
  only for the constructs each unit names; layout, alignment and optimisation are out of scope.

## Where the code disagrees with the property (found while proving)

Each line is proved as a `..._violated` theorem.

| id | code | disagreement |
|----|------|--------------|
| C01 | std/vec.zc `reverse` | on an empty vector `len - 1` wraps and memory is read out of range |
| C04 | std/queue.zc `_grow`, `clone` | byte offsets in place of element offsets after wrap-around; clone of a full queue |
| C05 | std/stack.zc `clone` | clone of a never-used stack has capacity without memory |
| C08 | std/map.zc | tombstones are never reused, a table full of them makes `remove`/`put` loop forever |
| C09 | std/map.zc iterator | iterating a map without slots reads `vals[0]` |
| C10 | std/string.zc `append` | appending a string to itself loses the terminator |
| C16 | std/arena.zc | sizes wrapping around 2^64 are accepted |
| C17, C49 | std/json.zc | `\\b`/`\\f` not read back, keys not escaped, 15 digits, 4096-byte buffer overflow, trailing garbage and unterminated strings accepted |
| C18 | std/net/websocket.zc | short writes, NUL bytes, fragments, control frames, frames above 65535 bytes |
| C21 | src/lexer/token.c | a text ending inside a literal with a quote or backslash is read past its terminator |
| C22 | src/lexer/token.c | newlines inside character literals are not counted |
| C23 | src/analysis/const_fold.c | signed overflow while folding; literals of 2^63 and more turn negative |
| C24 | src/analysis/typecheck.c, move_check.c | loop bodies checked once, range loop bodies not at all, parameters never tracked, match arms and `unless` share one state, names not scopes, array literals and `? :` not tracked, places not checked |
| C25 | src/analysis/typecheck.c | `goto` ignored; a guarded `_` arm counts as exhaustive |
| C26 | src/codegen/codegen_stmt.c | `return`, `break` without braces under `guard`, `while` with something deferred; inner declarations capture deferred names; `?` and slice returns skip cleanups; labelled break has no label; 1024 defers, 64 loops |
| C27 | src/codegen/codegen_stmt.c | the counter overflows at the limits of its type, variable steps and mixed signedness change the direction test, the end is evaluated again on every turn |
| C28 | src/codegen/codegen_stmt.c | guards of arms are not emitted, `_` inside alternatives never matches, string patterns split at `\|` and `..`, fixed 1024-byte buffer |
| C29 | src/parser/parser_expr.c | `(a) * b` and `(a) & b` are casts; `r? - 1` is a ternary; `a ? ++b : c` is not; `+ - * &` on a new line end the expression |
| C30 | src/parser/parser_expr.c | `a = b = c` becomes `((a = b) = c)` |
| C31 | src/parser/parser_expr.c | raw strings are emitted unescaped: backslashes, quotes and newlines change the value or break the literal; `"""C:\\"""` has no end |
| C33 | src/parser/parser_expr.c parse_int_literal | literals of 2^64 and more become 2^64-1; `0xu8` is 0; `0x0x12` is 18; `1LLU` is rejected, `1lLu` accepted |
| C34 | src/codegen/codegen.c | `%f` keeps six decimals: 1e-7 becomes 0.000000, 0.1234567 becomes 0.123457, 1e999 becomes `inf`; `1.000_5` is read as 1.0 |
| C35 | src/ast/ast.c type_eq | an alias equals neither its target nor a second object of the same alias, and not symmetrically; unknown types and `char*` break transitivity; all enums and all function types are equal |
| C32 | src/parser/parser_expr.c create_fstring_block | `sprintf` into 128 bytes, `strcat` into 4096, `bool` passed to `%s`, `:` of a ternary taken for a format, `}}` kept doubled without `{`; the buffer is static: recursion and a second evaluation overwrite results |
| C55 | src/parser/parser_stmt.c process_printf_sugar | doubled braces not understood, an unclosed hole is read past its end, 8192-byte buffer |
| C54 | src/parser/parser_expr.c | `a[f()] += 1` becomes `a[f()] = a[f()] + 1` |
| C46 | src/codegen/codegen_stmt.c, codegen_utils.c | assignment leaks the old object; re-initialised variables are never destroyed; hidden owned variables: double destruction and leak; `return x` runs the destructor on zeroed memory |
| C53 | src/parser/parser_struct.c | explicit values are used by the test of an arm but not stored |
| C36 | src/utils/utils.c | sizes near 2^64 wrap around, two requests get the same address |
| C40 | src/lsp/lsp_main.c | messages larger than the buffer and header lines of 511 bytes and more desynchronise the reader |
| C51 | src/parser/parser_decl.c | constants cut to 32 bits; reassigned `let`s and variant names count as constants |
| C52 | src/lsp/json_rpc.c | signatureHelp, shutdown and requests about unknown documents are not answered; only the first change of a didChange is applied |
| C44 | std/option.zc, std/result.zc | tag stays set after `unwrap`, second `unwrap` returns zero bytes |
| C47 | std/map.zc `_resize` | duplicates keys and leaks the old copies |
| C37 | src/utils/utils.c append_flag, scan_build_directives | several flags in one directive, `framework:` and multi-flag `pkg-config` output become one argument; quotes are lost; `+` in a package name blocks it; flags beyond a kilobyte are dropped |
| C56 | src/main.c main_append_flag | the next option after the buffer is full is written behind its end; options passed on as they are fall apart at spaces |
| C41 | plugins/brainfuck.c, parse_macro_call | the memory is static: a second execution starts with old cells; bodies of 8192 bytes and more lose tokens |
| C42 | plugins/regex.c | always anchored at the start, no backtracking, quantifiers behind characters and alternatives are characters, an unclosed class accepts everything, escapes do not compile |
| C57 | std/regex.zc | `count` is the position of the last match plus one; `split` loses all parts before the last match |
| C45 | src/parser/parser_stmt.c parse_if parse_for parse_guard parse_match | `else`, `if`, `in`, `step`, `let`, `var`, `assert`, `return` are recognised by their first letters: `else ifx(b);` becomes `else if (b);`, `elsewhere(b);` behind an `if` becomes its else branch, a case `returned(b)` returns, `for let index = 0; …` is rejected |
| C58 | src/lexer/token.c lexer_next | tokens behind a block comment on the same line have a column too small by the comment's delimiters; a newline in a character literal does not reset it; the end of file behind a directive keeps the directive's column |
| C59 | src/parser/parser_core.c parse_program_nodes | a plain name in `@cfg(any(...))` or `@cfg(all(...))` is always a compile error (the test looks at the wrong token) |
| C59 | src/codegen/codegen_decl.c emit_protos | `@cfg` on `impl Trait for T` prints `#if` without `#endif`: the C file never compiles |
| C59 | src/codegen/codegen_main.c codegen_node | `@cfg` has no effect on `raw`, `test`, `alias`, `include` and on the drop glue of a struct; of two globals of one name under opposite conditions one is dropped |
| C59 | src/parser/parser_core.c parse_program_nodes | `@cfg` on `import` guards only the first declaration of the file; an `import` without `@cfg` erases the guard of the file's first declaration |
| C60 | src/codegen/codegen_main.c struct_depends_on | a `const` field of struct type makes no dependency: the struct may be defined after the one that contains it |
| C60 | src/codegen/codegen_main.c struct_depends_on | an enum payload that is an opaque alias of a struct makes no dependency on the struct |
| C60 | src/codegen/codegen_decl.c emit_struct_defs | a pointer to a vector type declared further down: vectors have no forward declaration |
| C60 | src/codegen/codegen_decl.c print_type_defs | slices and tuples of structs are printed in front of the structs |
| C60 | src/codegen/codegen_decl.c emit_global_aliases | an opaque alias of an opaque alias is printed in front of it |
| C61 | src/parser/parser_utils.c register_tuple, src/codegen/codegen_decl.c print_type_defs | a tuple in a tuple gets wrong fields; names with `__` or a final `_` are cut in the wrong place and can collide |
| C61 | src/parser/parser_type.c parse_type_base | a pointer in a tuple gives a struct name with `*`; signatures over 255 characters overrun the buffer |
| C61 | src/parser/parser_expr.c parse_primary | calls, operators, characters as elements of a tuple literal silently become 0; decimals are rounded to six places; 17 elements or a string of 254 characters overrun arrays |
| C61 | src/parser/parser_type.c parse_tuple_literal | an element of 256 characters overruns the buffer, which is doubled only once; so does a type name of 124 characters |
| C62 | std/net/http.zc | headers and body of a request never reach the handler; headers of a response never reach the client; a value with a colon is cut |
| C62 | std/net/http.zc | only the first read of a connection counts; of 4096 bytes the last is lost; statuses other than 200, 201, 400 and 404 are sent as 500; a line break in a header value starts another header |
| C63 | std/process.zc build_cmd | arguments are joined by blanks and passed to a shell: blanks split, empty arguments vanish, shell characters are run |
| C63 | std/process.zc output | exit_code is the wait status, 256 times the exit code; a zero byte hides the rest of a piece of output |
| C64 | std/io.zc format, format_new | texts over 1023 characters are cut silently |
| C64 | std/io.zc format, itos, utos | the result is overwritten by the next call |
| C65 | std/fs.zc read_to_string | a pipe, FIFO or terminal: `ftell` is -1, `malloc(0)`, and the zero byte is written outside the block |
| C65 | std/fs.zc read_to_string | files below `/proc` read as empty; a read error gives `Ok`; a zero byte ends the text |
| C65 | std/sys/fs.zc _z_fs_read_entry | links to directories and entries of unknown type are reported as files |
| C65 | std/fs.zc current_dir | paths of 1024 bytes and more are an error |
| C66 | std/time.zc sleep, sleep_ms | from 4294968 ms on the sleep is shorter than asked for, for 536870912 ms none at all |
| C66 | std/thread.zc sleep_ms | more than 2147483 ms overflow an `int`; a negative number sleeps for 35 minutes or more |
| C67 | std/time.zc randomize_hash | every existing map and set loses its entries: the stored positions belong to the old seed |
| C68 | parser_utils.c replace_type_str | `G<T>` with `T = X*` becomes `G_X*`, a pointer to an instance that was not asked for |
| C68 | parser_utils.c replace_type_str | `const T`, function types and generics with two arguments keep the parameter; a type or field type named like the end of a parameter is changed |
| C68 | parser_utils.c copy_fields_replacing | bit widths of fields are lost in instances |
| C68 | parser_utils.c instantiate_generic_multi | parameters are replaced one after the other: an argument named like a later parameter is replaced again |
| C69 | parser_utils.c instantiate_generic | `A_B<C>` and `A<B_C>`, `G<H<t*>>` and `G<H<t>*>`, `G<t*>` and `G<tPtr>` share an instance: the first one |
| C69 | parser_utils.c instantiate_generic | the name is written to a buffer of 256 bytes without a check; a struct with a name of one capital letter gets no instance as an argument |
| C69 | parser_utils.c copy_fields_replacing | a field `G<T>` with `T = i32` (or any name with `_`) does not create the instance `G_int32_t` |
| C70 | parser_utils.c copy_ast_replacing | `loop`, `match`, `defer`, ternaries, lambdas, range loops, `unless`, array literals, `do` loops, … (21 kinds) are shared with the template and keep its parameters |
| C70 | parser_utils.c copy_ast_replacing | a variable `max_T` is declared as `max_T` and used as `max_int` |
| C70 | parser_utils.c replace_type_formal | `const T` loses `const`; the result of a function type is not replaced |
| C70 | parser_utils.c type_from_string_helper | `uint`, `u128` and the types of C as arguments become structs `unsigned_int`, `c_long` |
| C70 | parser_utils.c copy_ast_replacing | with `i128`, `Vec<T>::new` in a method of `Vec` becomes `Vec___int128___int128__new` |
| C71 | parser_utils.c replace_in_string | after a string that ends with a backslash, or the literal `'"'`, nothing is replaced up to the next quote |
| C71 | parser_utils.c replace_in_string | the character literal `'T'` is replaced; two parameters are replaced one after the other |
| C71 | parser_utils.c replace_mangled_part | names in strings are changed; an argument `My_T` for `T` is put in twice; results of 4096 characters overrun a buffer |
| C72 | parser_core.c generate_derive_impls | the derived `eq` of an enum compares tags only |
| C72 | parser_core.c generate_derive_impls | array fields are compared by address |
| C72 | codegen.c `==` | NULL strings are passed to `strcmp` (`JsonValue::number(1) == JsonValue::number(1)`) |
| C72 | parser_core.c generate_derive_impls | a field of an enum with its own `eq` is compared by tag |
| C72 | parser_core.c generate_derive_impls | a field of an enum without derived `eq` that is declared later, or of type `Vec`, does not compile |
| C72 | parser_core.c generate_derive_impls | names of 121 characters overrun `cmp[256]` |
| C73 | parser_core.c generate_derive_impls | `clone` copies the words: a struct with a `String` and its clone free one block twice |
| C74 | parser_core.c generate_derive_impls | 64 bit and unsigned fields are read through `int`: values from 2^31 on are undefined |
| C74 | parser_core.c generate_derive_impls | fields of 8 and 16 bits, `f32`, `char` do not compile |
| C74 | parser_core.c generate_derive_impls | missing keys give 0, missing nested objects an uninitialised field; NULL strings are undefined; `String`s end at NUL |
| C74 | parser_core.c generate_derive_impls | a struct whose name has `Vec` and `String` in it is taken for `Vec<String>`; names of 62 characters overrun a buffer |
| C75 | parser_expr.c find_var_refs | variables used only in `?:`, casts, range loops, inner lambdas are not captured: rejected, or silently the global variable of that name |
| C75 | parser_expr.c find_declared_vars | a name declared in an inner block is not captured where it is used outside of it; constants of the body are captured |
| C75 | parser_expr.c analyze_lambda_captures | functions declared later are captured as variables; variables named like a function are not captured |
| C75 | parser_expr.c analyze_lambda_captures | 33 captures overrun the tables |
| C75 | codegen_main.c codegen_lambda_defs | deferred expressions of a lambda do not know its captures |
| C75 | codegen_main.c codegen_lambda_defs | a lambda in a lambda is written after the one that uses it: every such program is rejected by the C compiler |
| C76 | codegen.c NODE_LAMBDA | a captured variable captured again is read from the new, uninitialised context |
| C76 | codegen.c NODE_EXPR_VAR | loop variables and declarations with the name of a captured variable are not seen; a variable `ctx` cannot be captured |
| C76 | codegen.c NODE_EXPR_VAR | assignment to a variable captured by value is accepted and kept until the next call |
| C77 | codegen_decl.c emit_impl_vtables | an implementation that lacks a method is accepted, its slot is NULL; one with other types is accepted, a cast hides it |
| C77 | codegen_decl.c emit_trait_defs | methods with `Self` as result are called through a pointer with another result type; methods without `self` are called with one argument too many, or are rejected by the C compiler |
| C77 | codegen_decl.c emit_trait_defs | structs by value in a method of a trait: rejected by the C compiler, the wrappers come before the structs; likewise a trait in its own methods |
| C77 | codegen_utils.c extract_call_args | pointers to functions as parameters are cut at their commas |
| C77 | codegen_decl.c | names with underscores make the same table twice; more than 1024 implementations overrun a table |
| C78 | codegen.c NODE_EXPR_CALL | a call between a trait's implementation and the methods of the struct runs another method than the same call later |
| C78 | codegen.c NODE_EXPR_CALL | temporaries do not find methods of traits implemented later, nor those of mixins |
| C78 | codegen.c NODE_EXPR_CALL | two traits with the method: the last is taken silently; `x.T_m()` means method `m` of `T` even if there is a `T_m` |
| C78 | codegen.c NODE_EXPR_CALL | methods of traits and of mixins of a mixin are not found |
| C78 | codegen.c NODE_EXPR_CALL | the receiver is cast to any mixin: all but the first read other fields |
| C78 | parser_struct.c parse_struct | `use` of a later struct adds nothing, silently; the ninth `use` overruns a table |
| C79 | parser_expr.c find_function_definition | names of arguments are checked only in calls behind a finished function: in methods, recursive and earlier calls `f(b: x, a: y)` gives `x` to `a` silently |
| C79 | parser_expr.c | methods and calls in front of the function do not use defaults: rejected by the C compiler |
| C79 | parser_expr.c | defaults are read again where the call stands: local names of the caller are captured, names of parameters mean the caller's |
| C79 | parser_utils.c ast_to_string | decimals are written with six digits: a default of 1e-7 becomes 0; conditional expressions, literals of arrays and structs and lambdas are written as nothing: calls are rejected |
| C79 | codegen.c | an array is not made a slice in a call with names: rejected by the C compiler |
| C79 | parser_utils.c parse_and_convert_args | 17 parameters overrun the tables |
| C79 | codegen.c | `Point(1, 2)` drops the arguments silently |
| C80 | parser_expr.c parse_int_literal | every integer literal is an `int`: `let x = 5000000000` is cut to 32 bits, also with a suffix |
| C80 | parser_expr.c, ast.c type_eq | all integer types are equal, and the left operand has the say: `let x = 1 + n` with `n : i64` is an `int` |
| C80 | parser_expr.c | `u8 + u8`, `-u8`, `u8 << 8` and `bool + bool` are named as `u8` and `bool`: digits are lost |
| C80 | parser_expr.c | `i32 - u32` changes its sign when it is named |
| C80 | parser_expr.c | `f32 * f64` is rounded to `f32` when it is named |
| C80 | codegen_utils.c infer_type | `(c ? a : b) + d` has the type of `d` |
| C80 | codegen_utils.c infer_type | `(i + d) ?? 7` holds the sum of an integer and a double in an `int` |
| C81 | parser_expr.c | `t[next()] += 1` calls `next` twice: it reads one element and writes another |
| C81 | codegen.c | variables named `_l`, `_t` and `_ifval` are captured by the helpers of `??`, `?.` and `if` |
| C81 | codegen.c | `if c { let y = n; y } else { m }` does not compile: `__typeof__(y)` stands in front of the block |
| C81 | codegen.c | `if` without `else` as a value is accepted and reads an unset variable |
| C81 | codegen_stmt.c | `let x = x + 1` in an inner block reads the new `x` |
| C81 | parser_expr.c | `t[i] ??= e` may write to another element than it tested if `e` changes `i` |
| C82 | parser_type.c | sizes are cut to `int`: `int[4294967297]` has one element, `int[4294967296]` is a slice |
| C82 | ast.c | `int[-1]` is not rejected: `type_to_string` calls itself without end |
| C82 | ast.c | `int[][3]` is declared as `Slice_int32_t x[3]`, an array of slices |
| C82 | codegen_decl.c | an index of 128 bits (64 where `long` has 32) is cut before the check: `a[2^64]` is `a[0]` |
| C82 | codegen.c | arrays as parameters are those of the caller (README: value semantics), and their checks use the size of the parameter |
| C83 | codegen.c | elements of slices that are fields, elements or results are not checked |
| C83 | codegen.c | the bounds of `x.f[a..b]` are not checked; the part may reach behind the whole |
| C83 | codegen.c | `p[1..]` of a pointer is empty; `x.f[_start..e]` reads an unset variable |
| C84 | codegen.c | `char* == char*` and `string == char*` compare texts (README: addresses) |
| C84 | parser_expr.c | `-P{...}` and `(c ? a : b) + d` take the address of something that has none |
| C84 | parser_expr.c | `a += b` does not find `add` in a trait and does not pass `&b`; `a = a + b` does |
| C84 | codegen.c | `!=` without `neq` needs an `eq` with pointers in the struct's own impl; `==` does not |
| C84 | parser_expr.c | `p + 1`, `!p` of a pointer to a struct with `add`, `not` are calls |
| C84 | parser_expr.c | `%=`, `&=`, `<<=`, `??=` change constants |
| C85 | parser_stmt.c parse_import | a file that imports the main file reads it a second time: all its definitions stand twice |
| C86 | parser_expr.c | a function in a module that is imported by name calls the module's own functions without the prefix they are defined with; it may reach the main file's function instead |
| C86 | parser_expr.c | `T::new` in a module, or in front of `struct T`, becomes `T_new` in place of `T__new` |
| C86 | parser_stmt.c parse_import | functions imported as `import { f }` cannot be called |
| C86 | parser_stmt.c parse_import | the second import of a file is skipped with its alias or names |
| C86 | parser_stmt.c parse_import | a plain import inside a module gets the module's prefix; nobody can use its names |
| C86 | parser_utils.c extract_module_name | two modules of the same file name collide |
| C86 | parser_utils.c find_module | aliases are global: an alias inside an imported file replaces the importing file's |
| C86 | parser_type.c | `n::T` inside a module gets two prefixes |
| C86 | parser_stmt.c parse_import | more than 32 names overflow the table |
| C87 | parser_stmt.c parse_import | `./a.zc` that does not exist is searched below the include paths |
| C88, C89 | codegen_stmt.c, codegen.c NODE_AWAIT | an `async fn` that returns `string` or a pointer: the runner puts the result in a block, `await` takes the address of the block for the result and never frees it (the README's own example) |
| C88 | codegen_stmt.c | floating point results are cut to integers |
| C88 | parser_expr.c | `i64`, `u64`, `usize`, `u32` awaited through a variable are cut to `int` |
| C88 | codegen_stmt.c | 64-bit results are cut where `long` has 32 bits |
| C88 | parser_expr.c | futures in fields or arrays give the raw word as `void*` |
| C88 | codegen_utils.c is_struct_return_type | structs named `interval`, `i8x`, … are taken for integers; the C is rejected |
| C89 | codegen.c NODE_AWAIT | awaiting a future twice is accepted: the thread is joined twice |
| C90 | parser_decl.c parse_var_decl | `let {id} = u` reads fields of an opaque struct anywhere |
| C90 | parser_expr.c | the result of a function declared later has no type yet: its fields are open |
| C90 | parser_utils.c instantiate_generic | instances of an opaque generic struct are not opaque |
| C90 | parser_expr.c resolve_struct_name_from_type | through an opaque alias of a struct the fields are open |
| C90 | parser_expr.c | calling a method of an opaque struct from another file is refused as a private field |
| C91 | parser_expr.c, parser_stmt.c | arguments and results are not compared: numbers pass for handles and back |
| C91 | parser_expr.c check_opaque_alias_compat | a pointer to an alias passes for a pointer to the underlying type |
| C91 | parser_expr.c | inside its file an alias cannot be compared with the underlying type; one-letter aliases compare with anything |
| C91 | ast.c type_eq | aliases of one name from two files are the same type |
| C92 | codegen.c | methods of any embedded struct but the first read the fields of the first |
| C92 | codegen.c, parser_struct.c | methods of embedded structs with bit fields, of packed ones and of unions read the wrong bits |
| C92 | codegen.c | `*self = v` in a method of an embedded struct overwrites the field that follows in its padding |
| C92 | codegen.c | methods of a struct embedded in an embedded struct, or called on a value that is no variable, are emitted as calls of functions that do not exist |
| C93 | parser_struct.c | `use K` above the declaration of `K` adds nothing, silently |
| C93 | parser_struct.c | the widths of bit fields are lost when embedded |
| C93 | parser_struct.c | nine embedded structs write past a block of eight pointers |
| C94 | codegen_stmt.c | a value with a destructor that is taken apart is never dropped |
| C94 | parser_decl.c | patterns of seventeen names write past tables of sixteen |
| C94 | codegen_stmt.c | `_` in two patterns of one block is refused as a second declaration |
| C95 | codegen_stmt.c | what an `else` block defers also happens when it was not entered; its variables are dropped where they do not exist |
| C95 | codegen_stmt.c | an `else` block that does not leave is accepted, and a payload that is not there is used |
| C95 | codegen_stmt.c | guards against variants of enums of the program are refused by the C compiler |
| C96 | lsp_project.c | references and rename go by spelling: every declaration in the project with the same name is edited |
| C96 | parser_utils.c | parameters enter the scope without a place: they cannot be renamed |
| C96 | lsp_index.c | names below unary operators, casts, indexes, members, ... are not in the index and are not edited |
| C96 | parser_expr.c | calls above the declaration, and functions used as values, are not edited |
| C96 | parser_utils.c | a default value is read at every call and edits the beginning of the file with the call |
| C96 | lsp_analysis.c, cJSON.c | files whose names differ in case only share one list of edits |
| C97 | lsp_analysis.c | the place of a declaration in another file is first looked up in the file with the use: goto and hover lead to whatever is declared there |
| C97 | lsp_analysis.c | hover shows nothing for names of other files |
| C97 | lsp_index.c | names of 252 characters overflow the text of 256 bytes |
| C98 | lsp_semantic.c | a constant is marked `definition`, not `readonly` |
| C98 | lsp_semantic.c | only the first declaration of a file is coloured |
| C98 | lsp_semantic.c | of a struct, enum, trait or impl only the first member is coloured; parameters are not, nor anything below `if`, `while`, `match`, unary operators, ... |
| C99 | plugins/befunge.c | popping from an empty stack and more than 1024 values are undefined behaviour |
| C99 | plugins/befunge.c | in string mode instructions are executed and blanks dropped |
| C99 | plugins/befunge.c | a bridge at the edge skips no cell; `g` and `p` are ignored; an apostrophe does not compile; two blocks in a function do not compile |
| C99 | parser_stmt.c | the text of a block is put together from tokens, which loses the columns |
| C100 | typecheck.c | the type of a returned value is not compared with that of the function |
| C100 | typecheck.c | methods in `impl` blocks, range loops, `do`-`while` and destructuring are not visited |
| C100 | typecheck.c | `%` of floats, indexing of anything, array literals of mixed types, any value for `void*`, any arguments of methods are accepted |
| C100 | typecheck.c | a `match` without `_`, code behind a `return` and a string before `?` are refused |
| C101 | main.c | `zc -I./inc main.zc`: an option with a dot as the first argument is taken for the input file |
| C101 | main.c | a first argument that is no command and has no dot is ignored: `zc bild main.zc` builds |
| C101 | main.c | `--cpp` behind `--cc` takes the compiler back; `run` cannot give arguments to the program |
| C102 | main.c | a file named as the generated one (`out.c`, `main.c` with `-o main`) is overwritten and removed, even if it is a source file of the same command |
| C102 | main.c | `run` removes an existing `a.out` or output; with an absolute output it runs `.//path` |
| C102 | main.c | a program that exits with 128 makes `zc run` exit with 0: the wait macros are applied to a decoded status |
| C103 | std/thread.zc | `join` or `detach` of a thread that was joined or detached is undefined in `pthread_join`; the `Result` it returns cannot say so, and nothing stops a handle from being used twice |
| C103 | std/thread.zc | `cancel`: the trampoline does not reach `free`, so the closure leaks, and a mutex the thread holds stays locked for ever |
| C104 | std/thread.zc | `Mutex::new` does not check `malloc` and gives NULL to `pthread_mutex_init` (not a theorem: a step the model takes for undefined) |
| C105 | std/thread.zc | `sleep_ms` above 2147483 ms (36 minutes) overflows `int`; a negative argument sleeps between 36 and 72 minutes |
| C106 | src/lsp/cJSON.c:669-702, 937 | `parse_hex4` returns 0 for bytes that are not digits, so `"a\uZZZZb"` is accepted, and as after `\u0000` the C string ends there: the value is `a` |
| C107 | src/lsp/cJSON.c:1212, 1241 | `cJSON_Parse` does not look at what follows the value: `{}x` is accepted |
| C107 | src/lsp/cJSON.c:1524, 1684 | a value nested 1001 deep is printed but what is printed cannot be parsed |
| C108 | src/lsp/cJSON.c:1998 | `cJSON_GetObjectItem` ignores case: in `{"A":1,"a":2}` the member `a` is 1; `lsp_rename` uses it with URIs as names |
| C109 | src/codegen/codegen_stmt.c:1449 | `{text}` that names no operand is copied with its braces into an extended template, where GCC takes them as dialect alternatives on x86: AVX-512 masks lose their braces |
| C109 | src/codegen/codegen_stmt.c:1444 | `{x}1` becomes `%01`, the operand number 1 |
| C109 | src/parser/parser_stmt.c:668-675 | strings are copied raw: `\n` arrives as two characters, and triple quotes lose one quote only |
| C110 | src/codegen/codegen_stmt.c:1498-1543 | without outputs the first colon is missing: inputs or clobbers are printed where outputs belong, and GCC rejects the statement |
| C110 | src/parser/parser_stmt.c:790-821 | any word is accepted as an output mode: `: in(x)` as the first section makes `x` an output (`"=r"`) |
| C111 | src/parser/parser_stmt.c:711-733 | a name right behind the mnemonic starts a new line: `jmp target`, `mov rax, rbx` |
| C111 | src/parser/parser_stmt.c:698-713 | a placeholder is appended without a blank: `push {x}` is `push%0` |
| C111 | src/parser/parser_stmt.c:686 | the argument loop does not stop at the end of the file: an unclosed block loops, writing past the buffer |
| C112 | src/parser/parser_stmt.c:648, 774 | 4096 characters of template and 16 operands are not checked |
| C112 | src/codegen/codegen_stmt.c:1406-1408 | a text of 64 characters between braces overruns `var_name` |
| C112 | src/codegen/codegen_stmt.c:1396 | an empty block allocates no byte for the terminator |
| C113 | src/repl/repl.c:724, 806-842 | backspace during a search edits the line that was found: the branch for it is never reached |
| C115 | src/repl/repl.c:796-800 | a search replaces the line being typed without saving it; Down leaves an empty line |
| C116 | src/repl/repl.c:760, 661 | a recalled line is in a block without spare room, so Tab never completes it |
| C117 | src/repl/repl.c:629-640 | Escape swallows the two bytes typed after it; Delete (`ESC [ 3 ~`) types a tilde |
| C117 | src/repl/repl.c:624 | the end of the input is handed back as an empty line; the session never ends |
| C118 | src/repl/repl.c:2506-2532 | the clean-up is inside the loop: after the first entry the history is freed and used again |
| C118 | src/repl/repl.c:1194, 2504 | the body is under `if (NULL == input_buffer)`: the second line of an entry is dropped and the history freed, the third frees it again |
| C119 | src/repl/repl.c:2344-2463 | the last statement is in the program twice |
| C119 | src/repl/repl.c:14-67 | `user = 5` is taken for a `use` |
| C119 | src/repl/repl.c:1034-1044 | a brace in a string puts later definitions into `main` |
| C119 | src/repl/repl.c:2370 | `sizeof(check_buf)` of a pointer: an entry is classified by its first seven characters |
| C119 | src/repl/repl.c:990-1049 | a comment at the end of a statement takes the rest of the program along |
| C120 | src/repl/repl.c:2470-2475 | a watch of more than 480 characters overruns `wbuf` |
| C121 | src/repl/repl.c:2506-2518 | the history is not written on leaving; entries of two lines come back as two |
| C121 | src/repl/repl.c:1619-1678 | what `:save` writes gives two functions `main` when it is loaded |
| C122 | src/repl/repl.c:2257-2262 | the branch for unknown commands belongs to `:doc`: unknown commands are run as code |
| C122 | src/repl/repl.c:1508-1549 | `:edit` announces to run the entry and does not |
| C123 | src/parser/parser_type.c:1142-1190 | `as [char; n]` writes escapes and one quotation mark into braces |
| C123 | src/parser/parser_type.c:1142-1151 | the size of the array is ignored |
| C123 | src/parser/parser_type.c:1186-1206 | a string of a file with a NUL byte ends there, and its length is lost |
| C123 | src/parser/parser_decl.c:529 | `strncmp(..., "embed", 5)`: `embedding` is taken for `embed` |
| C124 | src/parser/parser_type.c:988-1010 | braces are not counted: the fields of a struct literal are elements |
| C124 | src/parser/parser_type.c:974-1024 | a literal that is not closed loops for ever |
| C125 | src/parser/parser_type.c:1012-1017 | the block is doubled once: an element of 256 characters overruns it |
| C125 | src/parser/parser_type.c:1026-1040, 1115-1117 | type names of 64 and file names of 256 characters overrun their buffers |
| C126 | plugins/forth.c: `/`, `%` | with a zero divisor the dividend is not taken from the stack |
| C126 | plugins/forth.c: numbers by strtol with base 0 | `010` is 8 |
| C127 | plugins/forth.c: skip_until | conditionals do not nest: the inner `then` ends the outer conditional |
| C128 | plugins/forth.c:538-597 | words are bound when called; `: sq sq 1 + ;` recurses for ever; names are cut at 31 characters, texts at 511, without a message |
| C128 | plugins/forth.c:599-608 | the prelude is never loaded |
| C128 | plugins/forth.c:610-630 | the stack and the dictionary are kept from block to block |
| C129 | plugins/forth.c: `@`, `!` | addresses are not checked |
| C129 | plugins/forth.c:461-492, 586-593 | names of variables and texts of definitions overrun their buffers; so does output of 8192 characters |
| C131 | plugins/lisp.c:120-147 | the operands of `+ - * /` beyond the second are skipped |
| C131 | plugins/lisp.c:149-170 | `>`, `==`, `!=` call l_gt and l_eq, which the runtime lacks |
| C131 | plugins/lisp.c:195-198, 49-61 | `list` and strings are nil |
| C131 | plugins/lisp.c:378-393 | a list ends at the next parenthesis, also at that of an operand that was not read |
| C131 | plugins/lisp.c:316-357, 49-61 | `(defun f` and a string that ends in a backslash are read beyond the text |
| C132 | plugins/lisp.c:260-314 | `(let (x 5) x)` is read for ever; bindings are sequential and in their own scope |
| C132 | plugins/lisp.c:316-357 | nested functions of C: no forward calls |
| C133 | parser_stmt.c:3099-3110 | `struct T *f(void);` is not known |
| C133 | parser_stmt.c:3120-3128 | `int f(void); // comment` is not known |
| C133 | parser_stmt.c:3290-3300 | `typedef struct Tag Alias;` is not known, against the comment |
| C133 | parser_stmt.c:3452-3455 | commented out and `#if 0` declarations are known |
| C134 | parser_stmt.c:3331-3342 | headers cut off at depth 16 count as read |
| C135 | parser_utils.c:139 | `#define MASK 0xFFFFFFFF` is -1 |
| C135 | parser_utils.c:128-141 | `#ifdef` is ignored: the first definition counts |
| C136 | parser_stmt.c:3477-3486 | `include <...>` overflows `buf[256]`, or never ends |
| C137 | plugins/sql.c:406-409 | `DELETE FROM t;`, `UPDATE`, `WHERE`, `LIMIT` and further rows are skipped silently; `-- INSERT ...` is executed |
| C137 | plugins/sql.c:118,310 | `SELECT *FROM t` is refused |
| C137 | plugins/sql.c:334-341 | a table of another block is accepted, and the C does not compile |
| C138 | plugins/sql.c:251 | the 129th row is dropped silently |
| C138 | plugins/sql.c:216-217 | rows stay when the block runs again |
| C138 | plugins/sql.c:262-269 | a backslash at the end is read beyond the text |
| C138 | plugins/sql.c:277-280 | calls in values are cut off |
| C139 | plugins/sql.c:158-203 | `PRIMARY KEY` is a column; `VARCHAR(10)` drops the columns behind it |
| C139 | plugins/sql.c:139,43 | long names overflow `table_name[64]` and `Col.name[32]` |
| C140 | src/plugins/plugin_manager.c:16 | a plugin with the name of another takes its place in blocks of both |
| C140 | src/codegen/codegen.c:1375-1391 | `plugin NAME ... end` knows no alias; an unknown name becomes a comment |
| C141 | src/parser/parser_stmt.c:2092-2211 | blanks, empty lines and comments are lost; tokens beyond 8191 characters are dropped silently |
| C141 | src/parser/parser_stmt.c:4106-4166 | the first `end` ends the block, lines are lost |
| C142 | src/parser/parser_stmt.c:4018-4031 | `@comptime` functions are written latest first, so one that calls another above it uses an undeclared function |
| C142 | src/parser/parser_stmt.c:3998-4014 | `impl` in a comptime block is dropped |
| C143 | src/parser/parser_expr.c:1793 | in a match inside an expression `Shape::Circle(r)`, `1..5` and `1 || 2` are errors |
| C143 | src/parser/parser_stmt.c:219 | negative numbers are no patterns |
| C143 | src/parser/parser_stmt.c:298, src/parser/parser_expr.c:1821 | a ninth variable is written beyond an array of eight |
| C144 | src/codegen/codegen_stmt.c:435 | the payload of a variant `Big_Rect` is read from the member `Rect` |
| C144 | src/codegen/codegen_stmt.c:237-243 | `match self` reads a pointer with a dot |
| C145 | src/codegen/codegen_stmt.c:278-325 | variants in alternatives are reported missing; guarded arms count as complete |
| C146 | src/codegen/codegen_stmt.c:493-497 | a string literal as the value of an arm is printed |
| C146 | src/codegen/codegen_stmt.c:490-523 | `return` in an arm of a match inside an expression, and blocks alone, are not C; a later arm is converted to the type of the first |
| C147 | src/parser/parser_type.c:587-602, 643-659 | in `Vec<Vec<int >>` the blank counts as the first `>`, and a `>` is left over |
| C147 | src/parser/parser_type.c:881 | `let p: T*= q` loses the `=` |
| C147 | src/parser/parser_type.c:643-659 | `let v: T<U>= x` is an error |
| C147 | src/parser/parser_type.c:559-561 | `Vec<>` is accepted as a type |
| C148 | src/parser/parser_expr.c:2304, src/parser/parser_type.c:919 | `a < v[i]` is an error: the size of an array must be constant |
| C148 | src/parser/parser_expr.c:2304, src/parser/parser_type.c:766 | `a < (x + y)` is an error: `)` expected |
| C148 | src/parser/parser_type.c:557 | `a < v << 1` is an error: `<<` counts as `<` |
| C148 | src/parser/parser_expr.c:2296-2428 | `f(a < b, c > d)` is an error: unknown generic `a` |
| C148 | src/parser/parser_expr.c:2324 | a ninth type argument is written beyond an array of eight |
| C149 | src/parser/parser_expr.c:2501-2507 | `if done { outer: loop { … } }` is read as a literal |
| C149 | src/parser/parser_expr.c:2464-2496 | `if ring_empty {}` is read as a literal if there is a struct `ring` |
| C150 | src/parser/parser_expr.c:2737 | only the first type parameter is found for a literal |
| C150 | src/parser/parser_expr.c:2767-2820 | no type argument is found in fields of type `Vec<T>` or `T**`, nor from a string for `T*` |
| C151 | src/lsp/lsp_analysis.c:329-382 | an outer variable of the same name decides the fields offered |
| C151 | src/lsp/lsp_analysis.c:466-477 | behind `a.b.` the fields of a variable `b` are offered |
| C151 | src/lsp/lsp_analysis.c:508-521 | a value of type `const S` has no fields |
| C151 | src/lsp/lsp_analysis.c:457, 474-476 | a column behind the end of the text is read outside of it; a name of 256 characters overruns `var_name[256]` |
| C152 | src/lsp/lsp_analysis.c:646, src/parser/parser_stmt.c:2481-2484 | the node of a `let` has no line, so variables below the cursor are offered; `autofree let` is off by one line |
| C152 | src/lsp/lsp_analysis.c:628-682 | variables of `loop`, `for … in`, `match` are not offered, those of blocks that have ended are |
| C152 | src/lsp/lsp_analysis.c:623 | in a function of 1023 statements no variable is offered |
| C152 | src/lsp/lsp_analysis.c:423-440 | behind the end of a function and in methods the variables of the function above are offered |
| C152 | src/parser/parser_stmt.c:3854-3891 | functions of an imported file take the place of the function around the cursor |
| C152 | src/lsp/lsp_project.c:142-181 | names are offered once for each change of the file, and stay when they are removed |
| C153 | src/parser/parser_struct.c:1016, src/parser/parser_decl.c:908 | structs, enums, constants and fields have no place in the outline |
| C153 | src/parser/parser_stmt.c:3854-3891 | declarations of imported files are in the outline of the file |
| C154 | src/parser/parser_expr.c:4742-4765 | a prompt without variables calls `readln`, which only `std/io.zc` defines (read off the source) |
| C155 | src/parser/parser_expr.c:2890-2924, 4663-4699 | `bool`, `i16` and `u16` are scanned with `%d`: four bytes are written |
| C155 | src/parser/parser_expr.c:2916-2919 | `i64`, `u64`, `usize` are scanned with `%d`: the upper half keeps its old value |
| C155 | src/parser/parser_expr.c:2910-2914 | `i8`, `u8`, `byte` get the code of a character |
| C155 | src/parser/parser_expr.c:2906-2909 | `readln(s)` scans a `string` with `%s` over the pointer itself |
| C155 | src/parser/parser_expr.c:2849, 4635 | a seventeenth argument is written past `args[16]` |
| C155 | src/codegen/codegen_decl.c:194-199 | a blank line gives -1 instead of 0 |
| C156 | src/repl/repl.c:949-952 | the column of the cursor is counted in bytes, not characters |
| C156 | src/repl/repl.c:945-948 | lines wider than the terminal are repeated with every key |
| C157 | src/repl/repl.c:220-238 | brackets in strings and comments are counted |
| C158 | src/repl/repl.c:165-173 | keywords and types of the language are missing in the tables |
| C159 | src/diagnostics/diagnostics.c:118-126, 224-232 | the caret is moved by one space per byte, and the number of the line is padded to three digits only |
| C159 | src/diagnostics/diagnostics.c:214-221 | the line begins `col - 1` bytes before the token, also when the column is wrong |
| C160 | src/utils/colors.c:19-42, src/codegen/codegen.c:39 | escape sequences of string literals are removed from the generated program |
| C161 | src/parser/parser_utils.c:4402-4408, src/codegen/codegen_stmt.c:993-1011 | arrays and enums are not looked into |
| C161 | src/codegen/codegen_main.c:319-331 | all members of a union are destroyed |
| C161 | src/parser/parser_utils.c:4387-4420, 3146-3162 | flags are not propagated to instances of generic structs |
| C161 | src/parser/parser_struct.c:348-365 | `impl Drop` before the struct, or behind the use of an instance, sets no flag |
| C161 | src/parser/parser_utils.c:2825-2846 | the name of a generic struct is taken to end at the first `_` |
| C162 | std/result.zc:48-54 | `expect` copies the socket; both copies close it.  (A `Result` that is never unwrapped keeps its socket open: see C161, members of instances.) |
| C163 | std/sys/net.zc:64, 83, 100, 145 | ports are cut to 16 bits |
| C164 | src/lsp/cJSON.c:2046-2076 | an item with a `next` of its own is linked in with all that follows it |
| C165 | src/parser/parser_utils.c:2488-2662 | an instance is registered only after its own body was looked through: a recursive generic function is instantiated for ever |
| C165 | src/parser/parser_utils.c:2419-2482 | calls in `for x in a..b`, `loop`, `repeat`, `unless`, `guard`, `defer`, lambdas, `?:` and array literals of generic functions get no instance |
| C165 | src/parser/parser_utils.c:2394-2417 | names are compared by prefix: `get_all_int` is made from `get`, a variable `swap_count` makes `swap<count>` |
| C166 | src/parser/parser_utils.c:3023-3081 | a method of `Box<T>` that returns `Box<Box<T>>` is instantiated for ever; every generic struct whose name the return type begins with gets an instance |
| C166 | src/parser/parser_utils.c:3272-3366 | structs with several parameters get no methods when they are used after the `impl` block |
| C166 | src/parser/parser_type.c:654-671 | `Vec<Opt<T>>` in generic code makes an instance `Vec_Opt_T` |
| C167 | src/parser/parser_struct.c:534-541, 1057 | the count of type parameters goes below zero for `impl Into<T> for Box<T>` and `struct P<T, T>`: the next parameter is written before the array |
| C167 | src/parser/parser_struct.c:837-850 | the parameters of `struct List<T>;` stay in force |
| C168 | src/codegen/codegen.c:1219-1249 | the result of an `if` expression has the type of the end of the first branch, taken outside the branch: values of the second are truncated, own variables are undeclared |
| C168 | src/codegen/codegen.c:1255-1290, codegen_stmt.c:841-846 | `defer` in a branch of an `if` expression runs at the end of the function, taken or not |
| C168 | src/parser/parser_stmt.c:2259-2310 | a string literal at the end of a branch is a statement that prints it, and the C code is not valid |
| C169 | src/codegen/codegen_utils.c:43-110, src/ast/ast.c:619-732 | pointers to arrays, arrays of function pointers and function pointers that return function pointers are not valid C |
| C169 | src/codegen/codegen_utils.c:827-842 | the result type `fn**(…)` is not recognised, and the function is not valid C |
| C170 | std/json.zc:254-259, std/map.zc:119-145 | `set` with a key that is there already overwrites the pointer: the old value and everything in it is lost |
| C170 | std/json.zc:427-459 | `free` leaves the pointers: a variable that was freed by hand is freed again by its destructor (docs/std/json.md:62-72 does this) |
| C171 | std/regex.zc:77-79 | `match_full` is true for texts that only contain a match |
| C171 | std/regex.zc:81-112 | `find_at` and `match_at` search a text that begins at the offset: `^` matches there, positions are counted from there, and `find_at` refuses the end of the text |
| C171 | std/regex.zc:54-56 | the default flags `1` and `2` contain `REG_ICASE`: expressions ignore case |
| C172 | codegen_utils.c:952-980 | `f(x.n, x)` with a destructor for the type of `x` is accepted, and passes 0 for `x.n` if the second argument is evaluated first |
| C172 | codegen_utils.c:929, 970; move_check.c:177 | values are zeroed when they are handed on if their type has a destructor, also when it is `Copy` and the checker allows further uses |
| C172 | codegen.c:428-432, 1408-1419 | `i++ + i++` is accepted and printed as it is: undefined in C; calls in operands are made in any order |
| C174 | os.c:265-273 | backslashes before a quote or at the end of a quoted argument are not doubled: `C:\\My Dir\\` is received with a quote at its end, and swallows the next argument |
| C174 | os.c:247-250 | an empty argument is not quoted and is lost |
| C175 | codegen.c:820-830 | any imported path with `/std/` in it switches off the report of undefined functions in the whole program |
| C175 | codegen.c:781-794 | calls with named arguments are not checked |
| C176 | parser_decl.c:743-746, 786-816 | a `defer` after `let y = v;` is taken for that of the declaration: a variable called `it` in it becomes `y` |
| C176 | parser_decl.c:277-322 | `it` inside an index, cast, conditional or initialiser is not replaced |
| C176 | parser_decl.c:800 | a deferred string after a declaration is an expression and prints nothing |
| C177 | codegen.c:147-214 | a value with a destructor captured by value is moved into a context that is neither destroyed nor freed |
| C177 | codegen_decl.c:315-411 | parameters of lambdas with destructors are moved from the caller and never destroyed |
| C177 | codegen_utils.c:933-934 | moving a capture or parameter inside a lambda emits a flag that does not exist: the C code is not compiled |
| C178 | std/json.zc:50-56 | the escapes for backspace, form feed and code points are read as their letter |
| C179 | parser_expr.c:1996, parser_stmt.c:333 | the guard of a case that ends in a name is read as a lambda with the body of the case |
| C179 | parser_expr.c:3932 | `[&]() -> e` is rejected |
| C179 | parser_expr.c:3613, 1953 | types with commas or parentheses in the parameters of arrow lambdas are misread |
| C179 | parser_expr.c:810, 875, 3582, 3930 | arrays of 16 parameters and 32 captures are written without a check |
| C180 | std/mem.zc:11 | `alloc_n`: the product of size and count wraps around |
| C180 | std/mem.zc:45-49 | `Box::free` keeps the pointer: `is_null` is false and a second `free` is undefined |
| C180 | std/mem.zc:61 | `mem_copy` uses `memcpy` also for overlapping ranges |
| C181 | codegen_main.c:548, 576 | a raw text or directive that occurs again is dropped: of several `#endif` one is left |
| C181 | codegen_main.c:533-583 | directives are moved in front of the raw blocks and functions between them |
| C181 | token.c:57, codegen_main.c:541 | carriage returns: continuation lines of directives are lost, blocks that begin with a directive are put behind the structs |
| C182 | codegen_stmt.c:701-708 | `@section` with a custom attribute and no flag: no comma between the two, the C does not compile |
| C182 | parser_core.c:236-239 | `@align(0x10)`: `atoi` gives 0, the alignment is dropped silently; so is one given by a name |
| C182 | codegen_decl.c:443-455 | a `@vector` struct loses its other attributes |
| C182 | parser_core.c:568-599 | a custom attribute with `()` is rejected |
| C183 | env.zc:25-32 | the text of `Env::get` is given up by the next `Env::set` of the same variable |
| C183 | sys/env.zc:10 | Windows: setting the empty text removes the variable |
| C183 | sys/env.zc:18-23 | Windows: `Env::unset("A=B")` sets `A` to `B=` and reports OK |
| C184 | ast.c:287, parser_type.c:397 | `alias Big = u128` is kept as `unsigned __int128` and read as `u32` |
| C184 | ast.c:281-285 | aliases of `i128` and `isize` are read as structs of unknown name |
| C184 | parser_stmt.c:3258, 3302; parser_type.c:33-53 | a struct of an imported header is registered for its own name; using it as a type recurses without end |
| C184 | parser_decl.c:922-950 | `alias A = B; alias B = A;` likewise |
| C184 | ast.c:345-455 | function types, `T*[]`, `[T; N]*`, `restrict` and `fn**` are read back as other types |
| C184 | codegen_decl.c:257 | `typedef int32_t[4] A;`, `typedef fn*(..) A;` and `typedef c_int A;` are not C |
| C185 | parser_expr.c:1510, parser_type.c (array suffix) | `sizeof(x[0])` is `sizeof(Slice_x)` |
| C185 | parser_expr.c:1510 | `sizeof(x[i])` stops the compiler: the index must be a constant |
| C185 | codegen.c:1523, 1588 | `sizeof(c_int*)` and `typeof(c_int)` are not C |
| C186 | typecheck.c:1614 | the body of a closure is checked with an empty state that is dropped: a captured value may be given away in every call |
| C186 | typecheck.c:1589 | what is captured by reference may be given away while the closure lives |
| C187 | cmd.c:116, 124 | `-lm` and `-lpthread` stand before the libraries of the user: static ones that use them do not link |
| C187 | main.c:713 | `zc run -o /tmp/x` runs `.//tmp/x` |
| C188 | parser_expr.c:2512-2519 | `f32x4{x, y, z, w}` is not taken for a value: the first token is a name without a colon |
| C188 | codegen.c:1729-1737 | `f32x4{v: f()}` calls `f` four times |
| C188 | typecheck.c:1043 | with `--typecheck`, `f32x4{1.0, 2.0, 3.0, 4.0}` is an error: no field is called `_v0` |
| C188 | codegen.c:1107-1112 | `v[4]` of four lanes is not checked, as `a[4]` of an array is |
| C189 | parser_stmt.c:126, parser_decl.c:779 | a loop over an array in a function, parsed before the first import of `std/core.zc`, imports it and drops its tree: `#define panic` and `__zen_hash_seed` are gone for the whole program |
| C189 | parser_stmt.c:41, parser_struct.c:33 | automatic imports do not search `ZC_ROOT` or the include paths |
| C190 | parser_struct.c:680, parser_decl.c:216-227 | the first loop over an array in a method closes its `impl`: this method and those behind it are defined twice in C, a generic one makes the compiler read through `NULL` |
| C191 | parser_decl.c:196, parser_stmt.c:1037, parser_type.c:1049 | behind the first loop over an array a function no longer knows that it returns a tuple, a lambda takes the tuple type of the function it is in, `return (f<a, b>(x))` is cut at the comma, `return (a, b` at the end of a file never ends |
| C192 | parser_expr.c:7229-7299, 7318-7369, typecheck.c:632 | arrow lambdas return `int` unless the type of a single `return` is seen: fractions are cut; the first call fixes the types of the parameters; `x -> { return; }` crashes the compiler |
| C193 | codegen.c:1598-1639, parser_utils.c:1915-2202 | `@fields` of a union or of a struct with a bit field does not compile; in generic functions `@type_name(T)` is "T" and `@fields(T)` is null |
| C194 | utils.c:94-132 | `load_file` takes the size of `ftell` unchecked: pipes and directories overrun its block or overflow, `/proc` files are empty; files are cut at a NUL, paths at 1023 bytes |
| C195 | lsp_project.c:174, parser_utils.c:4347, json_rpc.c:288 | use after free in the language server: tokens of unknown types point into the JSON message, which is released, and are read again at the next edit |
| C196 | json_rpc.c:98, lsp_project.c:69, lsp_project.c:90 | URIs are not decoded or encoded, so a workspace with a space in its path is not found; a directory whose path fills the 1024 bytes is scanned as its own entries until descriptors run out, at every level |
| C197 | zen_facts.c:243, zen_facts.c:306, zen_facts.c:176 | only the first ten tips of a trigger can be shown (47 shipped ones never are); a facts.json in the current directory is read, and an element without a message is printed as a null pointer |
