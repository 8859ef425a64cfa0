# Machine-checked model of kdevelop-pg-qt

The project under study is `/repo` (KDE kdevelop-pg-qt, C++): a parser and lexer generator and the small run-time library its output uses. It is read as
text; nothing is built or executed. The model and the proofs are in `lean/Verif/` (Lean 4.33.0, Mathlib modules imported one at a time).

## Trusted base

- Lean's kernel. No axioms of our own, no `sorry`, no `native_decide`/`bv_decide`. Every theorem of `MANIFEST.json` depends on a subset of `propext`,
  `Classical.choice`, `Quot.sound`; the last section lists the axioms of each theorem as printed by `#print axioms`.
- The reading of the C++ source. Every model definition cites the file and lines it follows and says where it simplifies. Nothing checks mechanically that the
  model is the code.
- The specifications (files `Spec.lean` and the `structure`/`inductive` definitions named in the statements): they say what the English claim means.
- C++, Qt and STL library behaviour is modelled by its documented contract: `std::vector`, `QMap`/`QHash`/`QSet` (iteration order of hashes is a
  parameter where it is observable), `std::lower_bound`, `std::stable_sort`/`std::sort`, `operator new` (fresh, disjoint blocks), `QString::fromUtf8`.
- Bison's translation of `kdev-pg-parser.yy` (only single semantic actions are modelled); that Flex translates `kdev-pg-lexer.ll` as its manual says (longest match, first rule, trailing context, `yymore`, REJECT).

## Conventions

- Each area is a directory `Verif/<Area>/` with a model (`Model.lean`: definitions following the code), a specification written without the model's helpers
  (`Spec.lean` or the head of the property file), lemma files, and property files (`Props.lean`, `…Props.lean`) with the theorems of `MANIFEST.json`. Beside
  each theorem an `example` shows a concrete case that meets its hypotheses.
- Undefined behaviour (reads past the end, failed assertions, invalid pointers, shifts by the word width) and endless recursion are a separate outcome (`none`), not
  default values. Loops without evident bound take fuel; termination is then a theorem of its own.
- Where the code violates a property, the negation is proved with a concrete witness, and the part that does hold is proved under a name ending in `_partial`
  (or as a complete characterisation).
- `seeded/LOG.jsonl` records the mutation tests: edits of the model as a realistic bug would make them, the claims they break and the theorems that failed.

## What is modelled

| Area | Code | Left out |
|---|---|---|
| `RtList` | `include/kdev-pg-list.h` complete; the emitted visitor loop (`kdev-pg-default-visitor-bits-gen.cpp`) | `int` overflow of indices |
| `MemPool` | `include/kdev-pg-memory-pool.h` complete, with `int` truncation of block sizes | content of the bytes after they are handed out |
| `Alloc` | `include/kdev-pg-allocator.h`: `allocate`, `deallocate`, `contains`, `max_size` | `rebind`, construct/destroy |
| `LocTable` | `include/kdev-pg-location-table.h` complete | `size_t`/`qint64` overflow |
| `TokStream` | `include/kdev-pg-token-stream.h`: `TokenStreamBase` | `LocationTable` member (see `LocTable`), type erasure |
| `BitArr` | `kdev-pg-bit-array.h` complete | |
| `Utf` | `include/kdev-pg-char-sets.h`: all decoding iterators, `plain()`, `begin()` | the `QString` file constructors |
| `CharSet` | `kdev-pg-regexp-helper.h`: `SeqCharSet`, `TableCharSet`, `CharSetCondition` (as a decision tree / switch) | the text of the printed code |
| `Auto` | `kdev-pg-regexp.cpp`: NFA and DFA classes (all operations), `minLength`, `maxLength`, `isEmpty`, `acceptsEpsilon` | `inspect`, dot output |
| `Enc` | `kdev-pg-regexp.cpp` 1155-1490, `generated-kdev-utf8-tuples.h` | |
| `Text` | `unescaped`, `T_RANGE`, `SET_CHAR`, encoding directives | the rest of the Unicode loader (property names) |
| `Lexer` | `codegen` and `nextAction`; lookahead and barrier rules of `kdev-pg-parser.yy` | the surrounding class text, user actions |
| `Grammar` | items, `World` tables, rule lookup, BNF rewriting, `reducesToEpsilon`, FIRST, FOLLOW | texts, `followDeps`, `AliasItem` |
| `Check` | inline checker, conflict checkers, undefined symbols, undeclared tokens, empty operators, empty FIRST | message texts |
| `Gen` | `kdev-pg-code-gen.cpp`: the code generator and the meaning of what it emits | AST members and declarations (see `Vars`), arguments of calls |
| `Vars` | `kdev-pg-ast-gen.cpp` (members), declarations, parameters, initialisation and annotations in `kdev-pg-code-gen.cpp`; the trees the emitted code builds | values of arguments, `startToken` moved by node arguments, user code |
| `Visit` | `kdev-pg-default-visitor-bits-gen.cpp`, `kdev-pg-debug-visitor-gen.cpp`: the members visited, the nodes a visit meets, the lines printed | the text in brackets of the debug output; nodes of operator rules |
| `Read` | `kdev-pg-generate.cpp` (lexer part): `read`, the macros for actions, rule sets; what `kdev-pg-parser.yy` puts into actions | user code other than the macros, references to tokens, `clear()` |
| `Ops` | the tree the emitted operator parser builds (nodes, stack, spans) | conditions and code of operators |
| `Tables` | token, AST kind and visitor enumerations and tables; order of AST structures; own visitor table | the text |
| `Clone` | `CloneTree`, separated lists | texts (copied as they are) |
| `GLex` | `kdev-pg-lexer.ll`: all rules and start conditions as data, longest match, `yymore`, `REJECT`, positions, `#line` directives | `%include` (`yyrestart`), buffer limits, the message texts |
| `Syntax` | `kdev-pg-parser.yy` lines 469-692 (rules, items, operator rules, declarations of variables): productions with values, Bison's preference for shifting; `kdev-pg-pretty-printer.cpp` | the parse tables Bison makes |
| `LexSyn` | `kdev-pg-parser.yy` lines 185-445, 576-579 (lexer sections, regular expressions): productions with values, Bison's choices; the actions: definitions, use of names, tables of rules and actions | warnings; the parse tables Bison makes; `loadUnicodeData` is a parameter (see `Unidata`) |
| `Unidata` | `kdev-pg-unicode-loader.cpp`: reading of lines, tables and names, `num` and the two ranges | opening of files (they are compiled in); the content of the tables is a variable |
| `LexFile` | `kdev-pg-main.cpp` lines 448-454 (automata of rule sets), `kdev-pg-regexp.cpp` lines 90-115 (actions), `kdev-pg-generate.cpp` lines 572-580, 640-678 (macros, numbers of rule sets) | C++: only texts made of the macros, of stepping back, blanks and semicolons have a meaning; `Generated` relates a lexer of `Read` to automata and action texts |
| `Whole` | `kdev-pg-code-gen.cpp` lines 1082-1092 (`LA`, `yylex`, `rewind`), 1100-1105, 1170-1176, and the lines emitting statements given for `Gen` | As `Gen` and `Read`; tokens are compared through their numbers; a call of `read` gets enough steps (C87) |
| `Front` | the actions in `kdev-pg-parser.yy` lines 462-653; `kdev-pg-follow.cpp` line 75; joined with `Syntax`, `Grammar`, `Clone`, `Whole`, `LexFile` | `EOF` is entered before FIRST is computed (in the code after it), which adds the pair (`EOF`, `EOF`) only; texts of code, arguments, labels and operators are not kept in nodes |
| `Top` | the productions and actions of `kdev-pg-parser.yy` lines 80-187, 448-472, 576-579; settings of `KDevPG::World` (`kdev-pg.h`); `EACH_TYPE`; joined with `GLex`, `LexSyn`, `Syntax`, `Front`, `LexFile` | the LALR automaton (a file is what the productions derive, with the conflicts resolved as Bison does); use of the settings by the generators |
| `Out` | `generateOutput` and `generateLexer` of `kdev-pg-generate.cpp`: names of files, guards, includes, namespaces, macros, where the code of the user stands; a C preprocessor for these lines | the texts of declarations (each is one abstract part with a list of needed parts in `Spec`); what headers of libraries include; tokens of C++; the body of `generateVisitor` (see `VisGen`) |
| `Literal` | `GenerateTokenTexts`, the literal of `generateTokenTest`, descriptions in `pushTerminal` and `terminal`; C++ string literals | conversions between UTF-8 and UTF-16; escapes left to the implementation |
| `OpRule` | texts recorded by `kdev-pg-parser.yy` lines 582-653; tests with conditions in `kdev-pg-code-gen.cpp` (`visitAlternative`, `visitEvolve`, `visitOperator`); `astBaseClasses` of operator rules; a part of the expressions of C++ | `new`/`free` of operators is taken to match; code with open comments; side effects of conditions |
| `VisGen` | texts of `kdev-pg-default-visitor-gen.cpp`, `-bits-gen.cpp`, `kdev-pg-new-visitor-gen.cpp`, `-bits-gen.cpp`, `kdev-pg-visitor-gen.cpp` (methods) as tokens of C++ | layout; the order of symbols in `QMap` and members of nodes are variables (see `Tables`, `Ast`) |
| `GenText` | `kdev-pg-code-gen.cpp` lines 22-559, 804-915, 1215-1240: the text of parse functions as tokens of C++, a part of C++, and its rules for names and jumps | `visitOperator`, tests of arguments that are members; comments and layout; values of the syntax tree |
| `Main` | `main`: options, phases, exit code, written files; `ProblemSummaryPrinter` | message texts, file system failures |

Not modelled: `kdev-pg-beautifier.cpp` and `3rdparty/libastyle` (layout of the output), the text inside declarations of
`kdev-pg-generate.cpp`, the serialise generators, the LALR tables generated by Bison, the CMake files, the
Unicode data files, `regexp*.cpp` (experiments that are not part of the program).

## Per property

Each entry: what is modelled and how it is proved; then status and theorems. `Cxx_fails_…` / `…_wrong` theorems are negations of the claim with a concrete witness.

- **C01 AST sequences keep order, count and ends** (proved) — Heap of list nodes (index-addressed); `snoc`, `front`, `back`, `at`, traversal on the heap. Any program of `snoc` calls with any handles; invariant: what is reachable from a node is the ring of the appended list.
  Theorems: `RtList.C01_sequence`, `RtList.C01_snoc_all`.
- **C02 Memory pool allocations never overlap** (partial) — Block list with start, size and bump pointer; new blocks are disjoint by contract of `operator new`. Invariant over request sequences. `int` narrowing is modelled: a request above 2^30 bytes never returns.
  Theorems: `MemPool.C02_regions_partial`, `MemPool.C02_returns_partial`, `MemPool.C02_large_request_never_returns`.
- **C03 Offsets map to the right line and column** (proved) — Line starts and cached line; `positionAt` branch for branch. Refinement to 'last line start ≤ offset', independent of the cache.
  Theorems: `LocTable.C03_positions`, `LocTable.C03_answer_unique`, `LocTable.C03_shrink_undefined`.
- **C04 Token stream replay** (proved) — Token list and cursor; calls outside the contract give `none`. Refinement to list replay for all operation sequences.
  Theorems: `TokStream.C04_cursor`, `TokStream.C04_stored`, `TokStream.C04_reads`, `TokStream.C04_push_order`, `TokStream.C04_replay`, `TokStream.C04_eof`, `TokStream.C04_reset_keeps_tokens`.
- **C05 Bit sets behave as sets of indices** (proved) — Words as `BitVec 64`; sizes that are multiples of 64 are undefined in the constructor. Refinement to `Nat → Bool`; equality, hash and order.
  Theorems: `BitArr.C05_contents`, `BitArr.C05_equality`, `BitArr.C05_order`, `BitArr.C05_new_undefined`, `BitArr.C05_shrink_stale`.
- **C06 UTF-8 input decodes to its code points** (partial) — Byte-level iterator with reading past the end as `none`; the encoder is written separately. Round trip for all lists of scalar values, minus the noncharacters the code drops (exact).
  Theorems: `Utf.C06_utf8_to_ucs4`, `Utf.C06_decodes_partial`, `Utf.C06_nonchar_lost`.
- **C07 UTF-16 input decodes to its code points** (proved) — As C06 for UTF-16 input; lone surrogates at the end read past the end.
  Theorems: `Utf.C07_utf16_to_ucs4`, `Utf.C07_lone_surrogate`.
- **C08 UTF-8 input transcodes to UTF-16 code units** (partial) — As C06 with the pending surrogate; exact result, and the lost low surrogate at the end as a witness.
  Theorems: `Utf.C08_utf8_to_utf16`, `Utf.C08_transcodes_partial`, `Utf.C08_last_surrogate_lost`.
- **C09 Range-list character sets implement set algebra** (proved) — Range lists over `Nat`; loops as recursive functions. Expressions over the public operations denote sets; membership agrees pointwise.
  Theorems: `CharSet.C09_seq_algebra`, `CharSet.C09_seq_inside`, `CharSet.C09_unite`.
- **C10 Equal range-list sets compare equal** (partial) — Canonical form is an invariant of all operations but `negate`; witness for `negate`.
  Theorems: `CharSet.C10_equality_partial`, `CharSet.C10_negate_not_canonical`.
- **C100 From the text of the grammar to the accepted texts** (partial) — Composition: C99 gives the conditions of C97 (well-formed, operator rules without ternary operators and alone for their symbol, start symbol) and its language in terms of names; C44 the numbers; C96 the lexer. `C100_accepted_partial` does not need one token of lookahead to decide and allows `try` and bare code. `C100_written_partial` and `C100_written_file_partial` replace the condition on nodes and sets (`LL1`) by `Look`, which speaks of sentences of the rules as written (C113).
  Theorems: `Front.C100_accepted_partial`, `Front.C100_exactly_partial`, `Front.C100_file_partial`, `Front.C100_numbers`, `Front.C100_written_partial`, `Front.C100_written_file_partial`.
- **C101 A grammar file has one reading** (proved) — `Top.System` has one clause for each production of lines 80-187 and 448-472, over the tokens of `GLex.scan`; inside sections and rules `LexSyn.Ds` and `Syntax.Rs`. Declarations are separated by the tokens they begin with, which occur nowhere else (`Declares.not_rule`); the pieces are unique by C91, C88. Fuel does not matter (`C101_fuel`, with C73).
  Theorems: `Top.C101_tokens`, `Top.C101_bytes`, `Top.C101_fuel`, `Top.C101_code`, `Top.C101_signs`.
- **C102 Every lexer section can be ended** (partial) — `Inside` is an invariant of the scanner from `->` on: only the rule with trailing semicolons leaves it, and then the next token is `;` again (`inside_scan`). By the productions (`NoPair`) two semicolons in a row stand only behind a section whose last declaration ends with one. So `C102_closed`, and the negations `C102_fails_empty`, `C102_fails_code`.
  Theorems: `Top.C102_closed`, `Top.C102_fails_empty`, `Top.C102_fails_code`.
- **C103 The settings of a file are as its declarations say** (proved) — `World.exec` is the switch of actions on a record of the settings. For each field a fold over the declarations is turned into the description of `Top.Spec`, which mentions only the declarations for this setting (`fold_field`, `last_field`, `list_field`). `run_some` for the exits; `C103_type` for the type at each section.
  Theorems: `Top.C103_settings`, `Top.C103_goes_on`, `Top.C103_type`.
- **C104 From the bytes of the grammar file to the accepted texts** (partial) — Composition of C101-C103 with C99 and C100; `Alphabet` is `EACH_TYPE`. The example starts from the bytes of a file with a lexer and ends with an accepted text.
  Theorems: `Top.C104_accepted_partial`, `Top.C104_written_partial`.
- **C105 The generated files can be compiled on their own and together** (partial) — `Out.run` is a preprocessor on the lines of the generated files (include, ifndef/define/endif, define, undef, and abstract parts), with names of macros cut as in C; the files are those of `generateOutput` and `generateLexer`. `Inv` is an invariant of the list of emitted parts, kept by each include by induction over the order of headers; `Sound` is stated on the result. Missing: the debug visitor when the token stream is not that of the library (`C105_fails_debug`), names that are no identifiers (`C105_fails_digit`, `C105_fails_lexer_guard`), operators without nodes (`C105_fails_operators`), token texts without a header for `QString` (`C105_fails_tokentext`), two grammars in one program (`C105_fails_two_languages`).
  Theorems: `Out.C105_headers_partial`, `Out.C105_sources_partial`, `Out.C105_fails_digit`, `Out.C105_fails_lexer_guard`, `Out.C105_fails_two_languages`, `Out.C105_fails_tokentext`, `Out.C105_fails_debug`, `Out.C105_fails_operators`, `Out.C105_balanced`.
- **C106 Code of the grammar appears exactly once** (partial) — Counts in the invariant of C105. `C106_fails_decl`: the code at the beginning is in `tokentype.h` and again in `ast.h`, or in `parser.h` without nodes; `parser.cpp` includes both, for all settings.
  Theorems: `Out.C106_headers_partial`, `Out.C106_sources_partial`, `Out.C106_fails_decl`.
- **C107 The macros of the lexer end with the lexer** (partial) — The macro table at the end of `lexer.cpp` is computed for all settings from the lists of `#define` and `#undef`; includes only add guards.
  Theorems: `Out.C107_left`.
- **C108 Every generated file that is included is written** (proved) — `Closed` on a list of files with their lines. `C108_written` is an equivalence for the lists of the generators; `C108_run` puts it behind `main` with C53. The negations are `C108_fails_lexer_only`, `C108_fails_no_lexer`, `C108_fails_no_ast`.
  Theorems: `Out.C108_written`, `Out.C108_run`, `Out.C108_fails_lexer_only`, `Out.C108_fails_no_lexer`, `Out.C108_fails_no_ast`.
- **C109 The text of a token is its description** (partial) — `Literal.Spec.Lit` reads C++ string literals (all escapes), shown to be deterministic. `tokenText` is the generated switch over the numbers of C44; `C109_texts` for all descriptions without line ends, `C109_file` for all files that are read, since the strings of the scanner have none (`scan_fine`). For messages, which are not escaped, `C109_message_partial` gives the exact condition; `C109_fails_message`: with a backslash the two texts differ; `C109_fails_code`: the literal may even end early.
  Theorems: `Literal.C109_texts`, `Literal.C109_file`, `Literal.C109_message_partial`, `Literal.C109_fails_message`, `Literal.C109_fails_code`, `Literal.C109_undeclared`.
- **C11 Table character sets implement set algebra** (proved) — Tables as arrays with access outside as `none`; the same expressions as C09; agreement with the sequence implementation.
  Theorems: `CharSet.C11_table_algebra`, `CharSet.C11_table_equality`.
- **C110 Priorities and associativities are those written** (partial) — `OpRule.record` runs the actions on texts, with the buffer of `calloc(yyleng+7)` and both `strcpy` as partial operations on memory; `C110_record` gives the result by kind. Integer literals of C++ are specified by `IntLit`. `C110_priority_partial`: numbers without leading zero below 2^32; `C110_fails_octal` (exact for leading zeros), `C110_fails_large` (2^32 - 1: null pointer in the model of C50), `C110_fails_wrap`.
  Theorems: `OpRule.C110_record`, `OpRule.C110_runs`, `OpRule.C110_priority_partial`, `OpRule.C110_fails_octal`, `OpRule.C110_fails_large`, `OpRule.C110_fails_wrap`.
- **C111 Conditions bind as written** (partial) — `OpRule.E` is the part of the expression grammar of C++ from the comma to equality, with values; expressions have one value (descent parser, `run_complete`). `C111_rule` holds for all expressions, as conditions of rules are put into brackets; `C111_operator_partial` for conditions at the level of `&&`; `C111_fails_or` says what happens with `||`. `C111_assoc_partial`, `C111_fails_assoc` for `%isLeft`, `%isRight`.
  Theorems: `OpRule.C111_rule`, `OpRule.C111_operator_partial`, `OpRule.C111_fails_or`, `OpRule.C111_assoc_partial`, `OpRule.C111_fails_assoc`.
- **C112 Operands are nodes of the expression's class** (partial) — `OpRule.bases` is `astBaseClasses` behind the rules; `C112_base` gives its values; `Derived` follows the base classes. `C112_operand_partial` for the first operator rule of a base without `%ast_base`, `C112_fails_two` for any later one.
  Theorems: `OpRule.C112_base`, `OpRule.C112_operand_partial`, `OpRule.C112_fails_two`.
- **C113 Lookahead sets by the rules as written** (partial) — `Look`, `Begins`, `After`, `At` (LookSpec) are written with sentences of the rules only. A place of a node is followed back to a place in a rule (`Full`, `fol_place`: induction over positions behind which FOLLOW looks, `FollowPos`); what FIRST and FOLLOW hold is derivable (C36 and `FollowPos`), and sentences are derivations (C99), so each condition of `LL1` comes from one of `Look`. Back: contexts of items by induction over `At` (`at_context`), then C35 and C37.
  Theorems: `Front.C113_sets_partial`, `Front.C113_lookahead_partial`.
- **C114 New visitors are classes whose source defines their methods** (partial) — `VisGen` writes the generators as lists of tokens of C++. `Defines`, `Declares` (Spec) are a small grammar of C++: definitions of methods with bodies of statements, classes with virtual methods. Positive part by following the emitted text; `C114_fails_new`: up to the first brace a body of statements has a semicolon, the emitted one has none. Names: prefixes of operator structures are not prefixes of each other. The files: as C106, with the new header on the disk; `C114_fails_source` reads the includes of the source.
  Theorems: `VisGen.C114_abstract`, `VisGen.C114_class`, `VisGen.C114_names`, `VisGen.C114_fails_new`, `VisGen.C114_fails_class`, `Out.C114_header_partial`, `Out.C114_fails_source`.
- **C115 The emitted text of parse functions is C++ that does what the grammar says** (partial) — `GenText.Spec` is a part of C++ apart from the generator: `Reads` (tokens to statements; `&&` before `||`, `else` to the nearest `if`) and `Run` (big steps with jumps to labels, also into blocks). `GenText.Model` writes the tokens line by line as the code generator does. By induction over the items: the text is a series of statements (`Series`, `One`), its labels lie between the counters before and after, and what `Gen.exec` does the statements do (`Sim`); then over the fuel of `exec` for calls. Reading and running are deterministic (`Reads.unique`, `Run.unique`), so nothing else can happen. With C48: sentences are accepted by the text.
  Theorems: `GenText.C115_reads`, `GenText.C115_runs_partial`, `GenText.C115_grammar_partial`, `GenText.C115_sentences_partial`.
- **C116 Variables and labels in the emitted text are declared, unique and not jumped over** (partial) — `GenText.ScopeSpec` scans the tokens from left to right with a stack of blocks, the labels set and the jumps that wait for their label with the variables in force at the jump; a label refuses a jump that did not have all variables in force at the label. By induction over the items (`text_fine`): all names in force are older than the counters, new ones lie between the counters, and each waiting jump goes to the current catch id and had at least the variables of the item's beginning. `GenText.OpModel` adds the text of operator rules. `C116_names_partial` is an equivalence: the names are in order unless the symbol has an operator rule and no syntax tree is made or the first rule of the symbol is another one; `C116_fails_no_ast` and `C116_fails_mixed` are grammars where they are not.
  Theorems: `GenText.C116_names_partial`, `GenText.C116_plain`, `GenText.C116_fails_no_ast`, `GenText.C116_fails_mixed`.
- **C117 The generated parser returns on every input** (partial) — `Gen.ReturnSpec` reads off the grammar which items can be passed without a token (`Idle`) and which symbol may come first (`Lead`). Induction on the tokens left, then on the relation 'may begin with' (well-founded, as the grammar is finite and has no left recursion), then on the depth of the item: each statement ends, not before its start and not past the end, and if it ends well without progress its item can be passed at the token there (`Stays`, finer than `Idle`: it knows which alternative and which rule is taken, that a loop is not left at its own tokens, and that after an error a try/recover has read a token unless it is `EOF`) (`ret_all`). Loops make progress as their body is not idle or cannot be passed at a token with which the loop begins (`Guarded`; examples `( try/recover(A B) )*`, `( (A|0) (B|0) )*`, `s*` with rules `0 -> s` and `A -> s`, and `( @s )*`); the operator loop reads a token in every second round. With C47 and C48 the function of a start symbol decides its language. For texts (`Whole.ReturnProps`): a lexer that advances gives `EOF` for ever from the n-th token of a text of n characters on (`tokens_end`), so with C97 the parser on the lexer returns for every text, and decides whether its tokens are a sentence. With C96, C99 and C113 the same from the text of the lexer and the rules of a grammar file (`C117_file_partial`). If one token of lookahead decides (`LL1`) and every symbol has a sentence, there is neither left recursion nor a loop over something that may be empty (`C117_look_partial`): an item that can be empty never begins with a token which may follow it (`clash`, induction on the derivation); the symbols of a left recursion would begin with a common token, and the shortest way to it contradicts the lookahead conditions of the choice, the rule or the operator it passes (`no_left`). So such a grammar without `EOF` in its rules has a parser that decides its language (`C117_look_decides_partial`). For rules as written `Look` and the absence of the token `EOF` are enough (`C117_written_partial`). Four grammars show that the conditions are needed: left recursion, a loop over code alone, a loop over `EOF`, a loop over a symbol whose empty rule is written last and so tried first.
  Theorems: `Gen.C117_returns_partial`, `Gen.C117_decides_partial`, `Gen.C117_fails_left`, `Gen.C117_fails_loop`, `Whole.C117_text_partial`, `Whole.C117_text_decides_partial`, `Front.C117_file_partial`, `Gen.C117_look_partial`, `Front.C117_written_partial`, `Gen.C117_fails_eof`, `Gen.C117_fails_order`, `Gen.C117_look_decides_partial`.
- **C12 Generated character dispatch picks the right transition** (proved) — The printed code is a syntax of conditions/switches with a meaning; generation follows the recursion of the template.
  Theorems: `CharSet.C12_seq_dispatch`, `CharSet.C12_table_dispatch`.
- **C13 Union of regular expressions** (proved) — NFA records (states, transitions, accepting states), runs as an inductive relation; language of `|=` for all well-formed automata.
  Theorems: `Auto.C13_union`, `Auto.C13_optional`, `Auto.C13_primitive`.
- **C14 Concatenation of regular expressions** (proved) — The same for `<<=`.
  Theorems: `Auto.C14_concatenation`.
- **C15 Kleene star** (partial) — The same for `*`: exact language for all automata (`(L ∪ loops at the start)*`), right iff the loops are in `L*`; right for expressions whose iterated parts are fresh.
  Theorems: `Auto.C15_star_exact`, `Auto.C15_star_iff`, `Auto.C15_star_complete`, `Auto.C15_expression_partial`, `Auto.C15_star_unsound`.
- **C16 Determinisation preserves the language and the rule priority** (proved) — `closure`, `follow`, `dfa` with their work lists; the order in which a hash set is enumerated is an arbitrary permutation. Termination, determinism, language and the index of the first accepting state.
  Theorems: `Auto.C16_determinisation`.
- **C17 First lexer rule wins** (proved) — Constructor from a list of automata, with C16.
  Theorems: `Auto.C17_combined`, `Auto.C17_first_rule_wins`.
- **C18 Complement, intersection and difference of regular expressions** (proved) — `negate` by completion of the DFA, `&=` and `^=` by De Morgan as coded.
  Theorems: `Auto.C18_complement`, `Auto.C18_intersection`, `Auto.C18_difference`.
- **C19 Minimisation preserves the automaton's behaviour** (partial) — Partition refinement as coded, with its early end; witnesses; right if all actions are useful.
  Theorems: `Auto.C19_minimize_partial`, `Auto.C19_minimize_wrong`, `Auto.C19_minimize_unused_rule`, `Auto.C19_minimize_nothing`.
- **C20 Removing useless states preserves behaviour** (proved) — `filterStates` with both keep sets; behaviour of every word.
  Theorems: `Auto.C20_unarrivable`, `Auto.C20_inactive`.
- **C21 Converting a DFA back to an NFA preserves the language** (proved) — `DFA::nfa` as coded; round trip through `dfa`.
  Theorems: `Auto.C21_back`, `Auto.C21_round_trip`.
- **C22 Empty-word and emptiness warnings are right** (partial) — Work-list searches as coded. Emptiness counts transitions with empty sets (witness).
  Theorems: `Auto.C22_acceptsEpsilon`, `Auto.C22_isEmpty`, `Auto.C22_expression_partial`, `Auto.C22_isEmpty_wrong`.
- **C23 Shortest and longest match length** (partial) — Queues as coded, fuel; what is answered is exact, `maxLength` may not end (witness proved for all fuel).
  Theorems: `Auto.C23_min_tidy`, `Auto.C23_min`, `Auto.C23_min_untidy`, `Auto.C23_max_partial`, `Auto.C23_fixed_length`, `Auto.C23_max`, `Auto.C23_max_hangs`, `Auto.C23_max_hangs_concrete`, `Auto.C23_max_overreported`.
- **C24 Longest match** (partial) — State machine with jumps as a loop; spec is the longest accepted prefix with the first rule. From rules to the lexer through C16–C20.
  Theorems: `Lexer.C24_sequence_lexer`, `Lexer.C24_table_lexer`, `Lexer.C24_nextAction`, `Lexer.C24_lexer_partial`.
- **C25 A quoted word matches exactly itself** (partial) — `word` as iterated concatenation over the iterator of each encoding.
  Theorems: `Enc.C25_utf8`, `Enc.C25_ucs4_partial`, `Enc.C25_ucs2_partial`, `Enc.C25_ascii`, `Enc.C25_latin1_iff`, `Enc.C25_utf16_iff`, `Enc.C25_past_end`.
- **C26 Character ranges in fixed-width encodings** (partial) — Cutting of bounds as coded, per encoding.
  Theorems: `Enc.C26_range`, `Enc.C26_character`, `Enc.C26_ucs4_partial`, `Enc.C26_ucs4_character`, `Enc.C26_ucs4_wrong`.
- **C27 Character ranges in UTF-8** (partial) — Byte tuples as coded; exact condition on the bounds for being right.
  Theorems: `Enc.C27_range_iff`, `Enc.C27_character`, `Enc.C27_range_partial`, `Enc.C27_wrong`.
- **C28 Character ranges in UTF-16** (partial) — Surrogate arithmetic as coded; exact condition on the bounds.
  Theorems: `Enc.C28_range_iff`, `Enc.C28_range_partial`, `Enc.C28_character`, `Enc.C28_wrong`.
- **C29 The dot matches any single character** (partial) — As coded per encoding; exact languages.
  Theorems: `Enc.C29_fixed`, `Enc.C29_utf16_partial`, `Enc.C29_utf16_wrong`, `Enc.C29_utf8_lang`, `Enc.C29_utf8_partial`, `Enc.C29_utf8_wrong`.
- **C30 Choosing the input encoding** (partial) — Arithmetic on the enum as coded for each directive; all sequences of directives.
  Theorems: `Text.C30_step`, `Text.C30_names`, `Text.C30_name_iff`, `Text.C30_modes`, `Text.C30_directives_partial`, `Text.C30_wrong`.
- **C31 Escape sequences in lexer strings** (partial) — Byte loop as coded with reading past the end; the spec is a list of items (characters, escapes) with their texts and values.
  Theorems: `Text.C31_unescaped_partial`, `Text.C31_every_text`, `Text.C31_plain`, `Text.C31_trailing`, `Text.C31_utf8_wrong`, `Text.C31_wraps`.
- **C32 Grammar symbols and start symbols** (proved) — Symbol and terminal tables as association lists, all sequences of calls.
  Theorems: `Grammar.C32_start_symbols`, `Grammar.C32_same_symbol`, `Grammar.C32_terminal_description`, `Grammar.C32_same_terminal`, `Grammar.C32_kinds`.
- **C33 Looking up the rule of a symbol** (proved) — `lower_bound` on the rules sorted by symbol.
  Theorems: `Grammar.C33_search_rule`, `Grammar.C33_first_of_several`, `Grammar.C33_needs_sorting`.
- **C34 Nullability of grammar items** (partial) — Recursion with the visited set as coded; derivations as an inductive relation (`Der`). The visited set makes the answer wrong for shared items (witness).
  Theorems: `Grammar.C34_nullable_partial`, `Grammar.C34_exact_partial`, `Grammar.C34_fails_shared_token`, `Grammar.C34_fails_bare_action`.
- **C35 FIRST sets contain every token that can start an item** (partial) — Heap of items; one pass of `NextFirst` with its block flag and visited set; rounds until nothing changes. Every token that can be first is found by induction over derivations.
  Theorems: `Grammar.C35_tokens_partial`, `Grammar.C35_symbols_partial`, `Grammar.C35_empty_partial`, `Grammar.C35_fails_nested_empty`, `Grammar.C35_fails_undeclared`.
- **C36 FIRST sets contain only tokens that can start an item** (partial) — The same; invariant over the passes: each element starts a sentential form (`Leads`).
  Theorems: `Grammar.C36_sound_partial`, `Grammar.C36_fails_shared_operator`.
- **C37 FOLLOW sets contain every token that can follow a symbol** (partial) — The same for `NextFollow`; contexts in sentential forms as an inductive relation.
  Theorems: `Grammar.C37_follow_partial`, `Grammar.C37_fails_bare_action`.
- **C38 FIRST and FOLLOW computation terminates** (proved) — Each round adds an element; the number of elements is bounded by items × terminals; the recursion depth by the number of nodes.
  Theorems: `Grammar.C38_first`, `Grammar.C38_follow`.
- **C39 FIRST/FIRST conflicts are reported** (partial) — Conflict checker over the computed sets; reports as a list of (item, tokens). Completeness per pair of alternatives and of rules; with C35/C36 the tokens are real.
  Theorems: `Check.C39_alternatives_partial`, `Check.C39_rules_partial`, `Check.C39_real_partial`, `Check.C39_fails_guarded`, `Check.C39_fails_spurious`.
- **C40 FIRST/FOLLOW conflicts are reported** (partial) — The same for FIRST/FOLLOW.
  Theorems: `Check.C40_star_partial`, `Check.C40_nullable_partial`, `Check.C40_ends_partial`, `Check.C40_real_partial`, `Check.C40_fails_optional`, `Check.C40_fails_symbol`, `Check.C40_fails_plus`, `Check.C40_fails_bare_action`.
- **C41 Undefined symbols are errors** (partial) — Traversal of all rules with counters; every kind of error exactly characterised.
  Theorems: `Check.C41_symbols_partial`, `Check.C41_defined_accepted`, `Check.C41_tokens_partial`, `Check.C41_empty_operator_partial`, `Check.C41_empty_first_partial`, `Main.C41_errors_partial`, `Main.C41_refused_partial`, `Main.C41_checks_end`, `Main.C41_fails_operator`, `Main.C41_fails_eof`, `Main.C41_fails_declaration`.
- **C42 Recursive inlining is refused** (proved) — Depth-first search with visiting/visited sets and cutting, as coded; no error iff inlining has no cycle, and then the generator's recursion ends.
  Theorems: `Check.C42_check_ends`, `Check.C42_refused_iff_cyclic`, `Check.C42_generation_ends`, `Check.C42_fails_knot`.
- **C43 BNF rewriting preserves the language** (proved) — `BnfVisitor` on the heap; every node derives the same before and after, and the made nodes derive the same as what they replace.
  Theorems: `Grammar.C43_nodes`, `Grammar.C43_plus`, `Grammar.C43_star`, `Grammar.C43_operator`, `Grammar.C43_rewriting`, `Grammar.C43_well_formed`.
- **C44 Token numbering** (proved) — Numbering fold over the terminals in any key order.
  Theorems: `Tables.C44_numbering`, `Tables.C44_fails_size`.
- **C45 Visitor dispatch matches AST node kinds** (partial) — Two numbering folds (AST kinds, visitor table/switch) and the lookups.
  Theorems: `Tables.C45_kinds`, `Tables.C45_table`, `Tables.C45_switch`, `Tables.C45_fails_names`.
- **C46 AST base classes are generated before their users** (partial) — Emission with the set of generated names, for any iteration order of the hash.
  Theorems: `Tables.C46_all`, `Tables.C46_order_partial`, `Tables.C46_fails_chain`.
- **C47 Generated parsers accept only sentences of the grammar** (partial) — `gen` produces a small statement language standing for the emitted C++; `exec` runs it with fuel, any FIRST/FOLLOW sets, any results of user conditions. If a function returns true, what it consumed is derivable.
  Theorems: `Gen.C47_accepts_sentences_partial`, `Gen.C47_fails_inlined`, `Gen.C47_fails_ternary`.
- **C48 Generated parsers accept the sentences of conflict-free grammars** (partial) — The same interpreter; for grammars decided by one token (LL1, a specification written with derivations only) every sentence is accepted. A second theorem derives LL1 from the absence of reports and the conditions no checker examines. Negations: seven grammars without any report whose parsers refuse a sentence.
  Theorems: `Gen.C48_accepts_partial`, `Gen.C48_start_partial`, `Check.C48_no_report_partial`, `Gen.C48_fails_nullable`, `Gen.C48_fails_empty_first`, `Gen.C48_fails_empty_rule`, `Gen.C48_fails_paren`, `Check.C48_fails_plus`, `Check.C48_fails_optional`, `Check.C48_fails_symbol`, `Check.C48_fails_no_report`.
- **C49 Rollback restores the input position** (proved) — From the interpreter: position, user state and blocking around try/rollback.
  Theorems: `Gen.C49_rollback`.
- **C50 Operator expressions honour priority and associativity** (partial) — Operator stack machine on a heap of nodes, with `unsigned` arithmetic. The expression in accordance with priorities is unique, and the nodes built are those of this expression.
  Theorems: `Ops.C50_determined`, `Ops.C50_tree_partial`, `Ops.C50_run_partial`, `Ops.C50_fails_postfix`, `Ops.C50_fails_ternary`, `Ops.C50_fails_chain`.
- **C51 Separated lists** (partial) — `CloneTree` on the heap with its stack of results; the copy derives the same; `item @ sep`.
  Theorems: `Clone.C51_language`, `Clone.C51_copy_partial`, `Clone.C51_total_partial`, `Clone.C51_separated`, `Clone.C51_fails_condition`, `Clone.C51_fails_bare_action`.
- **C52 Node allocator** (proved) — Block bump allocator on abstract addresses.
  Theorems: `Alloc.C52_disjoint`, `Alloc.C52_contains`, `Alloc.C52_large_request_overflows`, `Alloc.C52_contains_before_allocation`.
- **C53 Command-line decisions** (partial) — All options, the phases of `main`, and what is written; exit code and files as a function of options and of the counts of errors and conflicts.
  Theorems: `Main.C53_about`, `Main.C53_success`, `Main.C53_written`, `Main.C53_unread`, `Main.C53_refused`, `Main.C53_order_partial`, `Main.C53_style`, `Main.C53_ends`, `Main.C53_fails_order`, `Main.C53_fails_no_name`, `Main.C53_fails_empty_name`, `Main.C53_fails_automata`.
- **C54 Lookahead rules match without consuming the lookahead** (partial) — C14, C23 and C24 combined with the actions emitted for lookahead rules.
  Theorems: `Lexer.C54_lookahead`, `Lexer.C54_ignored`, `Lexer.C54_decision_partial`, `Lexer.C54_position`, `Lexer.C54_decoding_wrong`.
- **C55 Default visitor visits every child once, in order** (proved) — The emitted `do … while` loop on the ring of C01.
  Theorems: `RtList.C55_visit_sequence`.
- **C56 UTF-8 input for narrow lexers** (proved) — As C06 with skipping of what is not representable.
  Theorems: `Utf.C56_utf8_to_ucs2`, `Utf.C56_utf8_to_ascii`.
- **C57 Stepping back restores the input** (partial) — State of the iterators after stepping back, for all seven iterators.
  Theorems: `Lexer.C57_step_back_partial`, `Lexer.C57_iterators`, `Lexer.C57_stale_surrogate`.
- **C58 Barrier rules stop before the barrier** (proved) — Barrier automaton as coded, over C13–C18, C24.
  Theorems: `Lexer.C58_barrier`.
- **C59 A collection matches each of its characters** (partial) — `collection` with ranges per encoding.
  Theorems: `Enc.C59_fixed`, `Enc.C59_ucs4`, `Enc.C59_utf8_partial`, `Enc.C59_utf16_partial`.
- **C60 Bounds of a character range** (proved) — Byte decoding of `b-e` as coded.
  Theorems: `Text.C60_bounds`.
- **C61 Numbers in the Unicode tables** (proved) — Digit loop as coded.
  Theorems: `Text.C61_number`.
- **C62 FOLLOW sets contain nothing else** (partial) — Invariant over the passes of FOLLOW.
  Theorems: `Grammar.C62_sound_partial`, `Grammar.C62_fails_shared_token`.
- **C63 try/recover resynchronises and makes progress** (proved) — From the interpreter, for the code emitted for try/recover.
  Theorems: `Gen.C63_recover`, `Gen.C63_fails_silent`.
- **C64 Error blocking is balanced and effective** (partial) — Invariant over all executions of the interpreter.
  Theorems: `Gen.C64_blocking_partial`, `Gen.C64_fails_operator`.
- **C65 The generator's own visitor dispatches by kind** (proved) — The table as a list; by cases on kinds.
  Theorems: `Tables.C65_dispatch`, `Tables.C65_numbers`.
- **C66 Operator nodes cover their tokens** (partial) — Spans are part of what C50 proves about the nodes; for the returned node in all cases without ternary operators.
  Theorems: `Ops.C66_span_partial`, `Ops.C50_tree_partial`, `Ops.C50_run_partial`.
- **C67 Embedded code is copied verbatim and keeps its position** (partial) — Patterns as data with all match lengths, longest match, first rule (`Verif/GLex`); matches equal the usual language of the pattern (`mem_ends`). Induction over the code for the scanner's loop. The colon pattern swallows the colon of `::]`, so the claim holds for codes whose last byte is not a colon (negation with `[: a ::]`). Positions: a separate function of the text.
  Theorems: `GLex.C67_code_partial`, `GLex.C67_fails_colon`.
- **C68 Arguments of rule calls are copied verbatim** (partial) — As C67, for argument texts without nested brackets; negations: `f[a[0]+1]` passes `+1`; the column is that of the last code block.
  Theorems: `GLex.C68_arguments_partial`, `GLex.C68_fails_nested`, `GLex.C68_fails_column`.
- **C69 The scanner knows the line and the column** (partial) — Invariant of all steps of the scanner. Lines: for files where each CR is followed by LF. Columns: as long as the rule with `countNewlines` and `REJECT` are not used; negations for both.
  Theorems: `GLex.C69_line_partial`, `GLex.C69_column_partial`, `GLex.C69_fails_line`, `GLex.C69_fails_column`, `GLex.C69_fails_reject`.
- **C70 String literals end at their closing quote** (partial) — The longest match ends at the last quote of the line that can close the literal; for texts without a backslash at their end this is the first unescaped one; negation for the literal with an escaped backslash at its end.
  Theorems: `GLex.C70_string_partial`, `GLex.C70_fails_backslash`.
- **C71 Names and keywords are told apart** (proved) — All rules of INITIAL are classified by their first byte; longest match gives the token.
  Theorems: `GLex.C71_word`.
- **C72 Declared types are read without surrounding blanks** (partial) — Induction over the text collected with `yymore`: for texts of two bytes or more nothing is stripped behind the type, shorter ones give undefined behaviour (both negations for all texts).
  Theorems: `GLex.C72_type_partial`, `GLex.C72_fails_blanks`, `GLex.C72_fails_short`.
- **C73 The scanner terminates and loses no text** (partial) — Each step consumes a byte, which bounds the fuel of `lex` and `scan`; a table argument for the only rule that can be undefined; in four of seven conditions the default rule is never selected, in the others bytes vanish (negations).
  Theorems: `GLex.C73_yylex_terminates`, `GLex.C73_scan_terminates`, `GLex.C73_undefined`, `GLex.C73_nothing_lost_partial`, `GLex.C73_fails_lost`, `GLex.C73_fails_header`, `GLex.C73_accepted_complete`.
- **C74 Every member the parser assigns is declared** (partial) — The generators as functions over items (`Verif/Vars`), variables of a rule as an inductive relation; what they visit equals this relation (`visited_iff`), and what emitted code assigns is part of it (`emit_assigns`). Negations: a name with and without `#`, a name ending in `Sequence`, several rules, operator rules.
  Theorems: `Vars.C74_members_partial`, `Vars.C74_fails_mixed`, `Vars.C74_fails_suffix`, `Vars.C74_fails_rules`, `Vars.C74_fails_operator`.
- **C75 Every temporary variable is declared where it is used** (partial) — As C74, with the set of names passed from parameters to the function's beginning to the blocks; the negation holds for all grammars with two such rules.
  Theorems: `Vars.C75_locals_partial`, `Vars.C75_fails_rules`.
- **C76 Token members start as -1** (partial) — The visitor of the initialisation sees all annotations and nothing else than what C74's visitor sees; negations for three kinds of declarations.
  Theorems: `Vars.C76_initialised_partial`, `Vars.C76_fails_temporary`, `Vars.C76_fails_declared`, `Vars.C76_fails_inlined`.
- **C77 Recursive calls of operator functions fit the signature** (partial) — `GenerateRecursiveDelegation` is constructed but never called, so the calls have no arguments: equivalent to the absence of declared arguments.
  Theorems: `Vars.C77_recursive_partial`, `Vars.C77_fails_argument`.
- **C78 The syntax tree shows the derivation** (partial) — Emitted statements run with arbitrary results of all tests; induction over the execution gives a derivation (`Built`) with the values of annotations in order, and the members collect them (`sound`).
  Theorems: `Vars.C78_tree_partial`, `Vars.C78_fails_rollback`.
- **C79 Nodes nest, siblings are ordered** (partial) — From the derivation of C78: ranges by induction (`fine`), members are sublists of the values (`collected_sublist`), all depths by induction over `Inside`.
  Theorems: `Vars.C79_nesting_partial`, `Vars.C79_fails_rollback`.
- **C80 The default visitor visits every node once** (partial) — Trees of the emitted code (C78) are well typed: each member holds what its declaration says (`exec_fine`, induction over executions). Induction over trees gives the list of nodes visited (`visit_some`), stated with an inductive relation for ways to nodes (`At`). Operator rules: negation.
  Theorems: `Visit.C80_visits_partial`, `Visit.C80_members_partial`, `Visit.C80_operands`, `Visit.C80_fails_operator`.
- **C81 The parameter of a visit method has a name if the body uses it** (partial) — Comparison of the two visitors over the same items (`allSeen_sub`, `allSeen_has`); negation for a second declaration.
  Theorems: `Visit.C81_named_partial`, `Visit.C81_operator`, `Visit.C81_fails_second`.
- **C82 The debug visitor prints each node with its depth** (partial) — As C80, for lines with indentation; the counter `m_indent` is threaded through all calls (`debug_some`).
  Theorems: `Visit.C82_debug_partial`.
- **C83 Tokens are the consecutive lexemes of the input** (proved) — Lexers as rules with a separate inductive description of lexemes and tokens (`Lexeme`, `Tokens`, `Verif/Read/Spec.lean`). Induction over the recursion of `read` with the beginning of the pending lexeme as parameter (`step_gives`), then over histories (`run_good`). The longest matches come from C57/C24.
  Theorems: `Read.C83_tokens`, `Read.C83_order`, `Read.C83_longest`.
- **C84 Going back does not change the tokens** (proved) — `Tokens` determines each token by its index (`Tokens.unique`), then C83.
  Theorems: `Read.C84_same`, `Read.C84_reads`.
- **C85 Rule sets are entered and left in turns** (partial) — Invariant of all statements (`calls_step`) for arbitrary code; negations with a lexer of two changes, and for all lexers for the start.
  Theorems: `Read.C85_calls_partial`, `Read.C85_fails_twice`, `Read.C85_fails_start`.
- **C86 lxLENGTH is the length of the lexeme** (partial) — Arithmetic on the members the macro reads, with a lexer for which the value shows.
  Theorems: `Read.C86_length_partial`, `Read.C86_fails_length`.
- **C87 Reading always returns** (partial) — Each match needs five units of fuel and advances (`reads`); the negations hold for all fuel.
  Theorems: `Read.C87_returns_partial`, `Read.C87_automata_partial`, `Read.C87_fails_empty`, `Read.C87_fails_tokens`.
- **C88 Rules of a grammar have one reading** (proved) — The productions of `parser.yy` as an inductive relation, with a parameter for Bison's preference for shifting (`Verif/Syntax`). A recursive descent parser is sound and complete for it (`sound`, `complete`), so the value is unique; any derivation can be turned into one with the preference (`resolve`). Trusted: that Bison's tables realise this preference.
  Theorems: `Syntax.C88_one_reading`, `Syntax.C88_nothing_lost`, `Syntax.C88_descent`, `Syntax.C88_grammar_ambiguous`, `Syntax.C88_keywords`.
- **C89 Operators in rules bind as documented** (partial) — One derivation each and C88. Sentences of `@`: copies have the same sentences unless an operand has a piece of code as an item (negation: its copy has an invalid pointer, C51).
  Theorems: `Syntax.C89_code`, `Syntax.C89_repetition`, `Syntax.C89_separator`, `Syntax.C89_condition`, `Syntax.C89_parentheses`, `Syntax.C89_separator_sentences_partial`, `Syntax.C89_fails_separator_code`.
- **C90 Printed rules read back with the same meaning** (partial) — Printer (text), scanner (C71 and single tokens, `Lexes`), and parser composed: the text is scanned as the tokens `toks` (`lexes_print`), these are read as an item with the same sentences `W` (`reads`). For rules without parts that consist of code alone; this holds for every rule written without code (`C90_written`). Negation: `[:c:] -> s` is shown as ` -> s`.
  Theorems: `Syntax.C90_printed_partial`, `Syntax.C90_written`, `Syntax.C90_fails_code`.
- **C91 Regular expressions and lexer sections have one reading** (proved) — The productions of `parser.yy` lines 189-445 as inductive relations `D` and `Ds` (`Verif/LexSyn`), with a parameter for Bison's choices. A recursive descent parser is sound and complete for `D` (`sound`, `complete`), hence one reading; any derivation can be changed to one that respects the choices (`resolve`). Trusted: that Bison's tables realise these choices; informally checked by constructing the LALR(1) tables with a script and comparing on many texts.
  Theorems: `LexSyn.C91_one_reading`, `LexSyn.C91_nothing_lost`, `LexSyn.C91_ambiguous`, `LexSyn.C91_section`, `LexSyn.C91_empty_rule`, `LexSyn.C91_descent`.
- **C92 Every expression can be written; operators bind in a fixed order** (proved) — A printer from a table of strengths (`Spec.text`) is read back (`written`), then C91. Position of prefixes: induction over derivations (`placed`).
  Theorems: `LexSyn.C92_written`, `LexSyn.C92_prefix`, `LexSyn.C92_juxtaposition`, `LexSyn.C92_no_complement`.
- **C93 The automata of a file match what its expressions say** (partial) — `build` threads the table of definitions through the actions; it agrees with building the expression with definitions in place of names (`build_agrees`), so C15 applies; texts by C25-C29, C59, C60 for each encoding (`faithful_*`). Sections and files by induction (`file_matches`). Missing: rules with lookahead or barrier (see C54, C58, C94), iterations beginning with iterations (negation `C93_fails_star`), texts for which the encodings are wrong.
  Theorems: `LexSyn.C93_names`, `LexSyn.C93_known`, `LexSyn.C93_file_partial`, `LexSyn.C93_ascii`, `LexSyn.C93_latin1_partial`, `LexSyn.C93_ucs2_partial`, `LexSyn.C93_ucs4_partial`, `LexSyn.C93_utf8_partial`, `LexSyn.C93_utf16_partial`, `LexSyn.C93_fails_star`.
- **C94 The tables of rules and actions correspond** (proved) — Induction over declarations and sections (`execAll_env`, `file_holds`); any expressions, lookaheads and barriers.
  Theorems: `LexSyn.C94_tables`, `LexSyn.C94_numbers`.
- **C95 Classes from the Unicode tables** (partial) — Lines and tables as relations from the format described at the head of the files (`Unidata.Spec.Line`, `Table`); `scanLine` reads every such line (`scan_line`), loading by induction over lines and files (`table_spec`, `files_spec`, `load_spec`), languages by C14 and C25-C28. Full for ASCII, Latin-1, UCS-2, UCS-4. For UTF-8 and UTF-16 the ranges must be such that C27 and C28 hold; negations with real ranges (Han, Deseret). The six tables in `/repo/src/unidata` were checked by a script to consist of lines in the format.
  Theorems: `Unidata.C95_line`, `Unidata.C95_load`, `Unidata.C95_class`, `Unidata.C95_fixed`, `Unidata.C95_ucs4`, `Unidata.C95_utf8_partial`, `Unidata.C95_utf16_partial`, `Unidata.C95_file_partial`, `Unidata.C95_fails_dots`, `Unidata.C95_fails_utf16`, `Unidata.C95_fails_utf8`, `Unidata.C95_fails_script`, `Unidata.C95_fails_named`.
- **C96 The lexer made from a file cuts the input as the file says** (partial) — Composition of C93/C94 (sections to automata and actions), C54/C58 (lookahead, barrier), C17/C20 (one automaton per rule set, minimized), C12/C13 (dispatch) and C83/C87 (reading). The specification (`LexFile.Spec`) has languages, longest match and first rule only. `automaton` models main.cpp 448-454; `meaning` reads the text of an action back as statements of `Read`. Lookaheads and barriers need lengths that C23 gets right (`Measured`), for ASCII, Latin-1, UCS-2 and UCS-4 reduced to conditions on the expression (`Sized`).
  Theorems: `LexFile.C96_lexer_partial`, `LexFile.C96_picks`, `LexFile.C96_unique`, `LexFile.C96_ascii`, `LexFile.C96_latin1_partial`, `LexFile.C96_ucs2_partial`, `LexFile.C96_ucs4_partial`.
- **C97 The generated parser with the generated lexer accepts the texts of the language** (partial) — `Whole.Model` runs the statements of C45-C48 on the members of the parser (`yytoken`, the stream of the lexer of C83) instead of a position in a sequence. A simulation (`Rel`, `exec_rel`) shows that each statement does the same as on the sequence of tokens that `Read.Spec` describes; with C47 and C48 this gives both directions, with C96 the theorem from the lexer sections on. `C97_fails_rest`: where no rule matches and the failure action does nothing, the rest of the text is ignored.
  Theorems: `Whole.C97_simulates`, `Whole.C97_accepted_partial`, `Whole.C97_accepts_partial`, `Whole.C97_exactly_partial`, `Whole.C97_file_partial`, `Whole.C97_all_text`, `Whole.C97_fails_rest`.
- **C98 LA(k) looks ahead without consequences** (proved) — `PState.la` models the body of `LA` with its two calls of `rewind`. By the invariant of C83 (`Good`) all that is read is a part of the tokens of the text; transparency follows from the simulation of C97: the states before and after the call are related to the same abstract state.
  Theorems: `Whole.C98_ahead`, `Whole.C98_sync`, `Whole.C98_transparent`.
- **C99 The nodes made for the rules say what the rules say** (partial) — `Front.Act` runs the actions of lines 474-552 on a heap of nodes and the tables of C39, one clause for each production beside the clause of `Syntax.D`; `Clone.sepList` (C51) makes the copies. The specification is the language of the written rules (`Sen`; for operator rules any nesting of the operators). An invariant (`Inv`, `Built`, `Rep`: node represents item) is kept by each action; `Counts` relates the start symbols to the uses. Derivations of nodes and sentences of items are then translated into each other, with C43 for the rewritten loops. `C99_fails_at`: code below `@`.
  Theorems: `Front.C99_runs`, `Front.C99_well_formed`, `Front.C99_sentences`, `Front.C99_terminals`, `Front.C99_start`, `Front.C99_fails_at`.

## Findings

Where the code does something other than what the claim (or the documentation) says. Unless marked otherwise there is a theorem with a concrete witness.

Run-time library
- `MemoryPool`: block sizes are computed in `int`; a first request above 2^30 bytes never returns (C02).
- `LocationTable::resize` below the number of lines: later queries read freed entries (C03).
- `BitArray(size)` with a size that is a multiple of 64 shifts by the word width; shrinking leaves stale bits (C05).
- UTF-8 to UCS-4 drops some noncharacters from well-formed input (C06); UTF-8 to UTF-16 loses the final low surrogate because `hasNext` ignores the pending one (C08); stepping
  back does not clear the pending surrogate (C57).
- `Allocator::contains` before the first allocation dereferences null; requests above the block size run over the end of the block (C52).

Regular expressions and lexers
- `SeqCharSet::negate` may leave an empty range, so equal sets compare different (C10).
- `operator*` adds transitions to the start state: `(a*b)*` matches `a` (C15).
- `minimize` groups by action and ends early; wrong with rules that never win, with a rule written twice, with the empty language (C19). C24 inherits this.
- `isEmpty` counts transitions on empty sets (C22); `maxLength` hangs or answers -2 for bounded languages (C23).
- Ranges: UCS-4 is not cut at 0x110000 (C26); UTF-8 and UTF-16 ranges are wrong for the bounds characterised in C27 and C28; the dot omits U+007F and admits ill-formed sequences in UTF-8, and is
  restricted to the BMP in UTF-16 (C29).
- Words outside ASCII are wrong in Latin-1, those outside the BMP in UTF-16 (C25).
- `%input_encoding` after `%table_lexer` selects the wrong type (`type / 4 * 4` with six encodings, C30).
- `unescaped` reads source bytes as Latin-1 and wraps numbers beyond 32 bits (C31).
- Lookahead steps back by code units where the iterator yields characters (C54).

Grammar files
- Code that ends with a colon (`[: a ::]`) is not closed (C67). Argument texts with brackets lose what stands before the last one; their column is that of the last code block (C68).
- A bare carriage return is counted as a line in some conditions only; the separator of lexer rules does not reset the column; REJECT counts its byte twice (C69).
- A string literal ending with an escaped backslash runs on to a later quote of the line (C70).
- The loop that strips blanks behind a type runs only for texts of less than two bytes, then reads before the text (C72).
- Unknown characters vanish after `%parserclass`, in parameter lists (the rest of the list is then read with the wrong rules) and in lexer rules (C73).

Grammar analysis
- `reducesToEpsilon` shares its visited set between the two sides of a choice: with a token that starts both, as in `(A | A)`, the choice counts as possibly empty; a symbol that is empty by a bare action alone
  does not count as possibly empty (C34).
- FIRST lacks the end marker for nested nullable items and tokens that are not declared (C35); has wrong tokens if an item starts both sides of a choice, e.g. a token that is prefix and binary operator (C36).
- FOLLOW lacks tokens behind bare actions (C37), has too many with shared tokens (C62).
- FIRST/FIRST: a condition hides conflicts though the generated code evaluates it elsewhere or not at all; the same alternative may conflict with itself (C39). FIRST/FOLLOW: options, nullable symbols, `+`, and
  an action in last place are not covered (C40).
- Operator tokens and base symbols, EOF, and second declarations are not checked (C41).
- After an inlining error has been reported, the next checker may recurse without end (C42).
- The first pass of the empty-operator checker runs before FIRST is computed and can never report (no theorem).
- A symbol ceases to be a start symbol on its second mention; a token used before it is declared gets a node per use (C32, C35).

Generated code
- `TokenTypeSize` may equal a token's number (C44); `binaryExpr` beside operators of `expr` gives one enumerator name twice (C45); bases of bases are emitted in hash order (C46).
- Inlined rules have no `else`: a function may succeed without consuming a sentence; a ternary operator below the root is treated as a binary one (C47).
- An alternative that can be empty but can also start with a token is not chosen when empty; an empty alternative before others, or an empty rule after others, is always chosen: sentences of grammars that are LL(1) in the usual
  sense are refused. The function called for parentheses in the operator expression of a start symbol expects EOF. None of the checkers reports any of these grammars; `A+ A`, which the
  parser treats as LL(1), is refused (C48).
- Failures directly in the body of try/recover are not reported (C63); the operator loop reports errors even while they are blocked (C64).
- A postfix operator behind a ternary operator's third operand overwrites the first operand; a ternary operator below the root does not read its third operand (C50).
- A member used as `x=` and `#x=` is declared only once; `#x=` beside `xSequence=` is declared twice; several rules of a symbol give several structures of one name; only the prefix structure of an operator
  rule has the declared members (C74). A temporary annotated in two rules is declared in the first only (C75). `t:TOKEN` sets the undeclared member `t` to -1; members declared in brackets start as 0, a valid
  token number (C76). Operator functions with arguments call themselves without (C77). What an abandoned `try/rollback` has put into members stays there (C78, C79).
- The default visitor does not visit node members declared in brackets of operator rules (C80). The parameter of a visit method has no name though the body needs it, if a node member is declared
  after something else in brackets (C81). In the debug visitor's text (no theorem), for texts of more than 31 characters the last character and one of the count are missing, as token ends are inclusive.
- With a `%fail` action that does nothing, text behind a place where no rule matches is never read and the parser still succeeds (C97).
- Two `lxSET_RULE_SET` in one action leave the wrong rule set; the first rule set is left without having been entered (C85). `lxLENGTH` is the distance from the beginning of the input (C86).
  Rules that match the empty word make `read()` recurse without end (C87). `TokenStreamBase::reset()` does not clear the stream, as its comment says, but goes back to its beginning (no theorem).
- What the pretty printer shows for rules or alternatives that consist of code alone is no rule (C90); conditions and code are not shown. `(a ([:c:])) @ b` loses its second `a` (C89).
- `a ~b` is a syntax error; `[^abc]` matches the empty word only (C92); a rule with neither expression nor code nor action ends the section (C91). `( a* b )*` matches `a` (C93).
- Names in several Unicode tables are merged: `{arabic}` is the union of block, script and script extension. Classes cannot be used if the first lexer section is named. A class in UTF-16 matches no character of Deseret, in UTF-8 classes with
  CJK ideographs match ill-formed bytes (C95). Without theorem: `ascii-range` and `latin1-range` contain a hyphen, so cannot be written in braces; values in ScriptExtensions are lists but give one name (`arab_syrc_thaa`).
- A lexer section that is empty or ends with `%fail`, `%enter` or `%leave` cannot be written: one semicolon does not end it for the scanner, two are one too many for the parser (C102).
- The code at the beginning of the grammar appears twice in `parser.cpp` (C106). Seven macros of the lexer stay defined, one because of `#undef lxFAIl` (C107).
- `debugvisitor.h` uses the token stream of the grammar without including it; `tokentext.h` uses `QString` without a header; operators without nodes use undeclared structures; a language whose name begins with a digit
  gives no macro names, `-` in the name cuts the guard of the lexer; the guards of `foo_visitor` and of the visitor of `foo` are equal (C105). `lexer.h` of a grammar without rules includes a file that is not written (C108).
  Without theorem: `tokentext.h` defines a function that is not inline.
- Descriptions of tokens are escaped for `tokenText` but not for messages: `"\\""` is shown as `\\"` by one and as `"` by the other, and code can be put into the parser (C109).
- Priorities are copied as text: `010` is 8, `08` is no C++, `4294967296` is 0, and 4294967295 makes the parser follow a null pointer (C110). `%post X 0` without associativity frees a literal (C99, C110).
- Conditions of operators are not put into brackets: with `a || b` the operator is recognised at any token if `b` holds (C111).
- The second operator rule with the same base gives code that does not compile: the base class is set by the first (C112).
- With `--new-visitor=X --inherit-default-visitor` the source is no C++: the call in each method lacks its semicolon, and the methods are those of classes named after symbols, since a variable of the
  generator hides the name of the visitor (C114). The source of every new visitor includes `defaultvisitor.h` and not its own header.
- With `--no-ast` (kdev-pg-main.cpp 197) the text of an operator rule uses `opStack`, which is declared only with a syntax tree (kdev-pg-code-gen.cpp 818-821); so it is if another rule of the symbol comes before the operator rule, as `isOperatorSymbol` (kdev-pg.cpp 296-300) looks at the first rule only. The generated parser does not compile (C116).
- Left recursion is not refused (a conflict is reported at most); the generated parser then calls itself for ever. A loop over code alone, `[: .. :]*`, becomes `while (true)` (C117). In `s*` with the rules `A -> s` and `0 -> s`, in this order, the empty rule is tried first and always taken, and the loop does not end; in the other order it does (C117).
- Copies lose conditions; copying a bare action takes the top of an empty stack (C51).
- The order of clashing options matters; without an output name the program fails though there is no error, or writes files with an empty name if something is dumped; `--automata --no-lexer` crashes (C53).
- Without theorem: an operator item with only prefix or parenthesis operators yields text that is no C++; an operator base that is a terminal is cast to the
  wrong type; the macro `O(name)` of the new-visitor bits shadows a member; the serialise visitor dereferences `start.begin()` of an empty set; the `QSet` of bases is changed during iteration.

## Axioms per theorem

As printed by `#print axioms`, for all theorems of `MANIFEST.json`.

- No axioms: `Lexer.C57_iterators`, `Tables.C65_numbers`, `TokStream.C04_reset_keeps_tokens`.

- `propext`: `Alloc.C52_contains_before_allocation`, `BitArr.C05_new_undefined`, `Clone.C51_fails_condition`, `LexSyn.C91_ambiguous`, `Lexer.C54_decoding_wrong`, `Read.C85_calls_partial`, `Read.C85_fails_start`, `Read.C85_fails_twice`, `Read.C86_fails_length`, `Syntax.C88_grammar_ambiguous`, `Syntax.C89_fails_separator_code`, `Tables.C65_dispatch`, `Top.C101_signs`, `Vars.C74_fails_suffix`, `Vars.C76_fails_inlined`, `Vars.C77_fails_argument`, `Visit.C80_operands`, `Visit.C81_fails_second`.

- `Quot.sound, propext`: `Alloc.C52_large_request_overflows`, `BitArr.C05_order`, `BitArr.C05_shrink_stale`, `CharSet.C09_unite`, `CharSet.C12_table_dispatch`, `Check.C39_rules_partial`, `Clone.C51_copy_partial`, `Clone.C51_fails_bare_action`, `Clone.C51_language`, `Clone.C51_separated`, `Enc.C26_ucs4_wrong`, `Gen.C63_fails_silent`, `Grammar.C32_same_terminal`, `Grammar.C33_first_of_several`, `Grammar.C33_needs_sorting`, `Grammar.C33_search_rule`, `Grammar.C35_empty_partial`, `Grammar.C35_fails_nested_empty`, `Grammar.C35_symbols_partial`, `Grammar.C35_tokens_partial`, `Grammar.C37_follow_partial`, `Grammar.C43_nodes`, `Grammar.C43_operator`, `Grammar.C43_plus`, `Grammar.C43_rewriting`, `Grammar.C43_star`, `LexFile.C96_picks`, `LexFile.C96_unique`, `LexSyn.C91_descent`, `LexSyn.C91_nothing_lost`, `LexSyn.C91_one_reading`, `LexSyn.C92_juxtaposition`, `LexSyn.C92_no_complement`, `LexSyn.C92_prefix`, `LexSyn.C92_written`, `Lexer.C24_nextAction`, `Lexer.C57_stale_surrogate`, `Lexer.C57_step_back_partial`, `Literal.C109_fails_code`, `Literal.C109_message_partial`, `Literal.C109_undeclared`, `LocTable.C03_answer_unique`, `LocTable.C03_shrink_undefined`, `OpRule.C110_fails_octal`, `OpRule.C110_priority_partial`, `OpRule.C111_assoc_partial`, `OpRule.C111_fails_assoc`, `OpRule.C111_fails_or`, `OpRule.C111_operator_partial`, `OpRule.C111_rule`, `Ops.C50_determined`, `Ops.C50_fails_chain`, `Ops.C50_fails_postfix`, `Ops.C50_fails_ternary`, `Read.C83_longest`, `Read.C87_fails_empty`, `Read.C87_fails_tokens`, `Syntax.C88_descent`, `Syntax.C88_nothing_lost`, `Syntax.C88_one_reading`, `Syntax.C89_code`, `Syntax.C89_condition`, `Syntax.C89_parentheses`, `Syntax.C89_repetition`, `Syntax.C89_separator`, `Syntax.C89_separator_sentences_partial`, `Text.C60_bounds`, `TokStream.C04_push_order`, `TokStream.C04_reads`, `TokStream.C04_stored`, `Vars.C74_fails_operator`, `Vars.C75_fails_rules`, `Vars.C76_fails_declared`, `Vars.C76_fails_temporary`, `Vars.C76_initialised_partial`, `Vars.C78_fails_rollback`, `Vars.C79_fails_rollback`, `Visit.C80_fails_operator`, `Visit.C80_visits_partial`, `Visit.C81_named_partial`, `Visit.C81_operator`, `Visit.C82_debug_partial`, `Whole.C97_all_text`, `Whole.C97_fails_rest`.

- `Classical.choice, Quot.sound, propext`: `Alloc.C52_contains`, `Alloc.C52_disjoint`, `Auto.C13_optional`, `Auto.C13_primitive`, `Auto.C13_union`, `Auto.C14_concatenation`, `Auto.C15_expression_partial`, `Auto.C15_star_complete`, `Auto.C15_star_exact`, `Auto.C15_star_iff`, `Auto.C15_star_unsound`, `Auto.C16_determinisation`, `Auto.C17_combined`, `Auto.C17_first_rule_wins`, `Auto.C18_complement`, `Auto.C18_difference`, `Auto.C18_intersection`, `Auto.C19_minimize_nothing`, `Auto.C19_minimize_partial`, `Auto.C19_minimize_unused_rule`, `Auto.C19_minimize_wrong`, `Auto.C20_inactive`, `Auto.C20_unarrivable`, `Auto.C21_back`, `Auto.C21_round_trip`, `Auto.C22_acceptsEpsilon`, `Auto.C22_expression_partial`, `Auto.C22_isEmpty`, `Auto.C22_isEmpty_wrong`, `Auto.C23_fixed_length`, `Auto.C23_max`, `Auto.C23_max_hangs`, `Auto.C23_max_hangs_concrete`, `Auto.C23_max_overreported`, `Auto.C23_max_partial`, `Auto.C23_min`, `Auto.C23_min_tidy`, `Auto.C23_min_untidy`, `BitArr.C05_contents`, `BitArr.C05_equality`, `CharSet.C09_seq_algebra`, `CharSet.C09_seq_inside`, `CharSet.C10_equality_partial`, `CharSet.C10_negate_not_canonical`, `CharSet.C11_table_algebra`, `CharSet.C11_table_equality`, `CharSet.C12_seq_dispatch`, `Check.C39_alternatives_partial`, `Check.C39_fails_guarded`, `Check.C39_fails_spurious`, `Check.C39_real_partial`, `Check.C40_ends_partial`, `Check.C40_fails_bare_action`, `Check.C40_fails_optional`, `Check.C40_fails_plus`, `Check.C40_fails_symbol`, `Check.C40_nullable_partial`, `Check.C40_real_partial`, `Check.C40_star_partial`, `Check.C41_defined_accepted`, `Check.C41_empty_first_partial`, `Check.C41_empty_operator_partial`, `Check.C41_symbols_partial`, `Check.C41_tokens_partial`, `Check.C42_check_ends`, `Check.C42_fails_knot`, `Check.C42_generation_ends`, `Check.C42_refused_iff_cyclic`, `Check.C48_fails_no_report`, `Check.C48_fails_optional`, `Check.C48_fails_plus`, `Check.C48_fails_symbol`, `Check.C48_no_report_partial`, `Clone.C51_total_partial`, `Enc.C25_ascii`, `Enc.C25_latin1_iff`, `Enc.C25_past_end`, `Enc.C25_ucs2_partial`, `Enc.C25_ucs4_partial`, `Enc.C25_utf16_iff`, `Enc.C25_utf8`, `Enc.C26_character`, `Enc.C26_range`, `Enc.C26_ucs4_character`, `Enc.C26_ucs4_partial`, `Enc.C27_character`, `Enc.C27_range_iff`, `Enc.C27_range_partial`, `Enc.C27_wrong`, `Enc.C28_character`, `Enc.C28_range_iff`, `Enc.C28_range_partial`, `Enc.C28_wrong`, `Enc.C29_fixed`, `Enc.C29_utf16_partial`, `Enc.C29_utf16_wrong`, `Enc.C29_utf8_lang`, `Enc.C29_utf8_partial`, `Enc.C29_utf8_wrong`, `Enc.C59_fixed`, `Enc.C59_ucs4`, `Enc.C59_utf16_partial`, `Enc.C59_utf8_partial`, `Front.C100_accepted_partial`, `Front.C100_exactly_partial`, `Front.C100_file_partial`, `Front.C100_numbers`, `Front.C100_written_file_partial`, `Front.C100_written_partial`, `Front.C113_lookahead_partial`, `Front.C113_sets_partial`, `Front.C117_file_partial`, `Front.C117_written_partial`, `Front.C99_fails_at`, `Front.C99_runs`, `Front.C99_sentences`, `Front.C99_start`, `Front.C99_terminals`, `Front.C99_well_formed`, `GLex.C67_code_partial`, `GLex.C67_fails_colon`, `GLex.C68_arguments_partial`, `GLex.C68_fails_column`, `GLex.C68_fails_nested`, `GLex.C69_column_partial`, `GLex.C69_fails_column`, `GLex.C69_fails_line`, `GLex.C69_fails_reject`, `GLex.C69_line_partial`, `GLex.C70_fails_backslash`, `GLex.C70_string_partial`, `GLex.C71_word`, `GLex.C72_fails_blanks`, `GLex.C72_fails_short`, `GLex.C72_type_partial`, `GLex.C73_accepted_complete`, `GLex.C73_fails_header`, `GLex.C73_fails_lost`, `GLex.C73_nothing_lost_partial`, `GLex.C73_scan_terminates`, `GLex.C73_undefined`, `GLex.C73_yylex_terminates`, `Gen.C117_decides_partial`, `Gen.C117_fails_eof`, `Gen.C117_fails_left`, `Gen.C117_fails_loop`, `Gen.C117_fails_order`, `Gen.C117_look_decides_partial`, `Gen.C117_look_partial`, `Gen.C117_returns_partial`, `Gen.C47_accepts_sentences_partial`, `Gen.C47_fails_inlined`, `Gen.C47_fails_ternary`, `Gen.C48_accepts_partial`, `Gen.C48_fails_empty_first`, `Gen.C48_fails_empty_rule`, `Gen.C48_fails_nullable`, `Gen.C48_fails_paren`, `Gen.C48_start_partial`, `Gen.C49_rollback`, `Gen.C63_recover`, `Gen.C64_blocking_partial`, `Gen.C64_fails_operator`, `GenText.C115_grammar_partial`, `GenText.C115_reads`, `GenText.C115_runs_partial`, `GenText.C115_sentences_partial`, `GenText.C116_fails_mixed`, `GenText.C116_fails_no_ast`, `GenText.C116_names_partial`, `GenText.C116_plain`, `Grammar.C32_kinds`, `Grammar.C32_same_symbol`, `Grammar.C32_start_symbols`, `Grammar.C32_terminal_description`, `Grammar.C34_exact_partial`, `Grammar.C34_fails_bare_action`, `Grammar.C34_fails_shared_token`, `Grammar.C34_nullable_partial`, `Grammar.C35_fails_undeclared`, `Grammar.C36_fails_shared_operator`, `Grammar.C36_sound_partial`, `Grammar.C37_fails_bare_action`, `Grammar.C38_first`, `Grammar.C38_follow`, `Grammar.C43_well_formed`, `Grammar.C62_fails_shared_token`, `Grammar.C62_sound_partial`, `LexFile.C96_ascii`, `LexFile.C96_latin1_partial`, `LexFile.C96_lexer_partial`, `LexFile.C96_ucs2_partial`, `LexFile.C96_ucs4_partial`, `LexSyn.C91_empty_rule`, `LexSyn.C91_section`, `LexSyn.C93_ascii`, `LexSyn.C93_fails_star`, `LexSyn.C93_file_partial`, `LexSyn.C93_known`, `LexSyn.C93_latin1_partial`, `LexSyn.C93_names`, `LexSyn.C93_ucs2_partial`, `LexSyn.C93_ucs4_partial`, `LexSyn.C93_utf16_partial`, `LexSyn.C93_utf8_partial`, `LexSyn.C94_numbers`, `LexSyn.C94_tables`, `Lexer.C24_lexer_partial`, `Lexer.C24_sequence_lexer`, `Lexer.C24_table_lexer`, `Lexer.C54_decision_partial`, `Lexer.C54_ignored`, `Lexer.C54_lookahead`, `Lexer.C54_position`, `Lexer.C58_barrier`, `Literal.C109_fails_message`, `Literal.C109_file`, `Literal.C109_texts`, `LocTable.C03_positions`, `Main.C41_checks_end`, `Main.C41_errors_partial`, `Main.C41_fails_declaration`, `Main.C41_fails_eof`, `Main.C41_fails_operator`, `Main.C41_refused_partial`, `Main.C53_about`, `Main.C53_ends`, `Main.C53_fails_automata`, `Main.C53_fails_empty_name`, `Main.C53_fails_no_name`, `Main.C53_fails_order`, `Main.C53_order_partial`, `Main.C53_refused`, `Main.C53_style`, `Main.C53_success`, `Main.C53_unread`, `Main.C53_written`, `MemPool.C02_large_request_never_returns`, `MemPool.C02_regions_partial`, `MemPool.C02_returns_partial`, `OpRule.C110_fails_large`, `OpRule.C110_fails_wrap`, `OpRule.C110_record`, `OpRule.C110_runs`, `OpRule.C112_base`, `OpRule.C112_fails_two`, `OpRule.C112_operand_partial`, `Ops.C50_run_partial`, `Ops.C50_tree_partial`, `Ops.C66_span_partial`, `Out.C105_balanced`, `Out.C105_fails_debug`, `Out.C105_fails_digit`, `Out.C105_fails_lexer_guard`, `Out.C105_fails_operators`, `Out.C105_fails_tokentext`, `Out.C105_fails_two_languages`, `Out.C105_headers_partial`, `Out.C105_sources_partial`, `Out.C106_fails_decl`, `Out.C106_headers_partial`, `Out.C106_sources_partial`, `Out.C107_left`, `Out.C108_fails_lexer_only`, `Out.C108_fails_no_ast`, `Out.C108_fails_no_lexer`, `Out.C108_run`, `Out.C108_written`, `Out.C114_fails_source`, `Out.C114_header_partial`, `Read.C83_order`, `Read.C83_tokens`, `Read.C84_reads`, `Read.C84_same`, `Read.C86_length_partial`, `Read.C87_automata_partial`, `Read.C87_returns_partial`, `RtList.C01_sequence`, `RtList.C01_snoc_all`, `RtList.C55_visit_sequence`, `Syntax.C88_keywords`, `Syntax.C90_fails_code`, `Syntax.C90_printed_partial`, `Syntax.C90_written`, `Tables.C44_fails_size`, `Tables.C44_numbering`, `Tables.C45_fails_names`, `Tables.C45_kinds`, `Tables.C45_switch`, `Tables.C45_table`, `Tables.C46_all`, `Tables.C46_fails_chain`, `Tables.C46_order_partial`, `Text.C30_directives_partial`, `Text.C30_modes`, `Text.C30_name_iff`, `Text.C30_names`, `Text.C30_step`, `Text.C30_wrong`, `Text.C31_every_text`, `Text.C31_plain`, `Text.C31_trailing`, `Text.C31_unescaped_partial`, `Text.C31_utf8_wrong`, `Text.C31_wraps`, `Text.C61_number`, `TokStream.C04_cursor`, `TokStream.C04_eof`, `TokStream.C04_replay`, `Top.C101_bytes`, `Top.C101_code`, `Top.C101_fuel`, `Top.C101_tokens`, `Top.C102_closed`, `Top.C102_fails_code`, `Top.C102_fails_empty`, `Top.C103_goes_on`, `Top.C103_settings`, `Top.C103_type`, `Top.C104_accepted_partial`, `Top.C104_written_partial`, `Unidata.C95_class`, `Unidata.C95_fails_dots`, `Unidata.C95_fails_named`, `Unidata.C95_fails_script`, `Unidata.C95_fails_utf16`, `Unidata.C95_fails_utf8`, `Unidata.C95_file_partial`, `Unidata.C95_fixed`, `Unidata.C95_line`, `Unidata.C95_load`, `Unidata.C95_ucs4`, `Unidata.C95_utf16_partial`, `Unidata.C95_utf8_partial`, `Utf.C06_decodes_partial`, `Utf.C06_nonchar_lost`, `Utf.C06_utf8_to_ucs4`, `Utf.C07_lone_surrogate`, `Utf.C07_utf16_to_ucs4`, `Utf.C08_last_surrogate_lost`, `Utf.C08_transcodes_partial`, `Utf.C08_utf8_to_utf16`, `Utf.C56_utf8_to_ascii`, `Utf.C56_utf8_to_ucs2`, `Vars.C74_fails_mixed`, `Vars.C74_fails_rules`, `Vars.C74_members_partial`, `Vars.C75_locals_partial`, `Vars.C77_recursive_partial`, `Vars.C78_tree_partial`, `Vars.C79_nesting_partial`, `VisGen.C114_abstract`, `VisGen.C114_class`, `VisGen.C114_fails_class`, `VisGen.C114_fails_new`, `VisGen.C114_names`, `Visit.C80_members_partial`, `Whole.C117_text_decides_partial`, `Whole.C117_text_partial`, `Whole.C97_accepted_partial`, `Whole.C97_accepts_partial`, `Whole.C97_exactly_partial`, `Whole.C97_file_partial`, `Whole.C97_simulates`, `Whole.C98_ahead`, `Whole.C98_sync`, `Whole.C98_transparent`.
