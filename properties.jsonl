{"id": "C01", "title": "AST sequences keep order, count and ends", "statement": "A sequence built by repeatedly appending with KDevPG::snoc (starting from null and passing any node of the list as the handle) has exactly the appended elements, in order: count() is the number of appends, front()/back() are the first and last appended, at(i) is the i-th, and following next from front() visits each element once and returns to front().", "quantifier": "for every list of elements, and every choice of handle node at each append", "why_tests_cant": "Tests can only build a few short lists; order and circularity must hold for every length and every handle.", "anchors": ["src/include/kdev-pg-list.h: ListNode, snoc"]}
{"id": "C02", "title": "Memory pool allocations never overlap", "statement": "Every MemoryPool::allocate(n) returns n zeroed bytes that lie inside one block owned by the pool and overlap no region returned earlier, for any sequence of requests.", "quantifier": "for every finite sequence of allocation sizes", "why_tests_cant": "Overlap depends on the whole history of sizes; the shipped test only makes 10000 equal requests and checks nothing.", "anchors": ["src/include/kdev-pg-memory-pool.h: BlockType::allocate, MemoryPool::allocate"]}
{"id": "C03", "title": "Offsets map to the right line and column", "statement": "After any sequence of newline() calls with increasing offsets, positionAt(offset) gives the last line whose start is not after the offset, and line start + column = offset; the answer does not depend on earlier queries, and negative offsets give (-1,-1).", "quantifier": "for every increasing newline sequence interleaved with every sequence of queries", "why_tests_cant": "The lookup caches the last line, so a wrong answer may need a particular query history that no finite test list covers.", "anchors": ["src/include/kdev-pg-location-table.h: LocationTable::positionAt, newline, resize"]}
{"id": "C04", "title": "Token stream replay", "statement": "Tokens come back from read() in push order; rewind(i) followed by reading gives the same tokens again; reading past the end gives a token of kind 1000 (EOF) and never disturbs stored tokens; no operation in its contract leaves the cursor outside 0..size.", "quantifier": "for every sequence of push/read/rewind/reset/clear operations in contract", "why_tests_cant": "try/rollback and lookahead rely on replay for every interleaving.", "anchors": ["src/include/kdev-pg-token-stream.h: TokenStreamBase::push, read, rewind, reset, clear, at, curr, back"]}
{"id": "C05", "title": "Bit sets behave as sets of indices", "statement": "A BitArray of size n>0 built empty and then assigned through operator[] reads back the last value written at each index; two arrays of equal size compare equal (and hash equal) exactly when they hold the same indices; operator< is a strict total order compatible with equality.", "quantifier": "for every size and every sequence of writes in range", "why_tests_cant": "Word-boundary behaviour (multiples of 64) and equality of the unused tail bits depend on size and history.", "anchors": ["src/kdev-pg-bit-array.h: BitArray"]}
{"id": "C06", "title": "UTF-8 input decodes to its code points", "statement": "Reading a well-formed UTF-8 buffer with the UTF-8 to UCS-4 iterator until hasNext() is false yields exactly the encoded scalar values, without reading past the end.", "quantifier": "for every sequence of Unicode scalar values", "why_tests_cant": "There are 1.1 million scalars and unboundedly many sequences; error skipping and end of buffer interact.", "anchors": ["src/include/kdev-pg-char-sets.h: Utf8ToUcs4Iterator"]}
{"id": "C07", "title": "UTF-16 input decodes to its code points", "statement": "Reading a well-formed UTF-16 string with the UTF-16 to UCS-4 iterator yields exactly its scalar values and never reads past the end.", "quantifier": "for every sequence of Unicode scalar values", "why_tests_cant": "Surrogate handling at every position of every string.", "anchors": ["src/include/kdev-pg-char-sets.h: QUtf16ToUcs4Iterator"]}
{"id": "C08", "title": "UTF-8 input transcodes to UTF-16 code units", "statement": "Reading a well-formed UTF-8 buffer through the UTF-8 to UTF-16 iterator until hasNext() is false yields exactly the UTF-16 encoding of the same scalars.", "quantifier": "for every sequence of Unicode scalar values", "why_tests_cant": "The pending low surrogate at the end of input is a state that ordinary samples do not reach.", "anchors": ["src/include/kdev-pg-char-sets.h: QUtf8ToUtf16Iterator"]}
{"id": "C09", "title": "Range-list character sets implement set algebra", "statement": "For SeqCharSet, accepts() after intersection, difference, union and negation is the Boolean combination of accepts() of the operands, for every character of the code space.", "quantifier": "for all well-formed operand sets and all characters", "why_tests_cant": "The operations merge sorted range lists with many relative positions; the number of cases is unbounded.", "anchors": ["src/kdev-pg-regexp-helper.h: SeqCharSet::accepts, intersection, difference, getUnion, negate"]}
{"id": "C10", "title": "Equal range-list sets compare equal", "statement": "Two SeqCharSets produced by the public operations compare equal exactly when they accept the same characters, and empty() holds exactly when nothing is accepted.", "quantifier": "for all sets built by the public operations", "why_tests_cant": "Minimisation compares sets with ==; a non-canonical representation of one set is invisible to a membership test.", "anchors": ["src/kdev-pg-regexp-helper.h: SeqCharSet::operator==, empty, negate"]}
{"id": "C11", "title": "Table character sets implement set algebra", "statement": "TableCharSet intersection, difference, union, negation, range and equality agree with Boolean set operations on the code space, and the sequence and table implementations of the same expression accept the same characters.", "quantifier": "for all sets and all characters", "why_tests_cant": "Needs every subset of the code space.", "anchors": ["src/kdev-pg-regexp-helper.h: TableCharSet"]}
{"id": "C12", "title": "Generated character dispatch picks the right transition", "statement": "The if/else decision tree (sequence lexer) and the switch (table lexer) generated from the transitions of one state jump, for every character, to the target of the unique transition whose set contains the character, and to the end label when there is none.", "quantifier": "for every list of pairwise disjoint character sets with targets and every character", "why_tests_cant": "The tree shape depends on all ranges of all transitions.", "anchors": ["src/kdev-pg-regexp-helper.h: CharSetCondition"]}
{"id": "C13", "title": "Union of regular expressions", "statement": "a | b matches exactly the words matched by a or by b.", "quantifier": "for every pair of automata built by the public operations and every word", "why_tests_cant": "Languages are infinite.", "anchors": ["src/kdev-pg-regexp.cpp: NFA::operator|=, adjust"]}
{"id": "C14", "title": "Concatenation of regular expressions", "statement": "a b matches exactly the words that split into a word of a followed by a word of b.", "quantifier": "for every pair of automata built by the public operations and every word", "why_tests_cant": "Languages are infinite.", "anchors": ["src/kdev-pg-regexp.cpp: NFA::operator<<="]}
{"id": "C15", "title": "Kleene star", "statement": "a* matches exactly the finite concatenations of words of a (and a+ those with at least one factor).", "quantifier": "for every automaton built by the public operations and every word", "why_tests_cant": "Languages are infinite; a wrong loop edge only shows on particular nestings.", "anchors": ["src/kdev-pg-regexp.cpp: NFA::operator*", "src/kdev-pg-parser.yy: regexp6"]}
{"id": "C16", "title": "Determinisation preserves the language and the rule priority", "statement": "dfa() accepts a word with action k exactly when the NFA can reach its k-th accepting state on that word and no earlier one; no character leads from a DFA state to two different states, and the construction terminates.", "quantifier": "for every NFA and every word", "why_tests_cant": "Subset construction and the splitting of overlapping character sets range over unbounded state spaces.", "anchors": ["src/kdev-pg-regexp.cpp: NFA::dfa, follow, closure"]}
{"id": "C17", "title": "First lexer rule wins", "statement": "The automaton combined from a list of rules accepts a word iff one of the rules does, and reports the smallest index of a matching rule.", "quantifier": "for every list of rules and every word", "why_tests_cant": "Ambiguities between rules are infinite in number.", "anchors": ["src/kdev-pg-regexp.cpp: NFA(const std::vector<NFA>&), dfa"]}
{"id": "C18", "title": "Complement, intersection and difference of regular expressions", "statement": "~a matches exactly the words over the code space not matched by a; a & b the words matched by both; a ^ b the words matched by a and not by b.", "quantifier": "for all automata built by the public operations and all words over the code space", "why_tests_cant": "Complement quantifies over all non-members.", "anchors": ["src/kdev-pg-regexp.cpp: NFA::negate, operator&=, operator^=, DFA::nfa"]}
{"id": "C19", "title": "Minimisation preserves the automaton's behaviour", "statement": "minimize() changes neither the set of accepted words nor the action reported for each.", "quantifier": "for every DFA and every word", "why_tests_cant": "A wrong merge of two states may only show on long words of particular automata.", "anchors": ["src/kdev-pg-regexp.cpp: DFA::minimize, sameGroup"]}
{"id": "C20", "title": "Removing useless states preserves behaviour", "statement": "Eliminating states that cannot be reached, or from which no accepting state can be reached, changes no word's action.", "quantifier": "for every DFA and every word", "why_tests_cant": "Renumbering of states must be right for every automaton.", "anchors": ["src/kdev-pg-regexp.cpp: DFA::filterStates, eliminateUnarrivableStates, eliminateInactiveStates"]}
{"id": "C21", "title": "Converting a DFA back to an NFA preserves the language", "statement": "dfa().nfa() accepts a word exactly when the DFA does (and the same action is recovered by determinising again).", "quantifier": "for every DFA and every word", "why_tests_cant": "Named regular expressions are stored this way, so the whole lexer depends on it.", "anchors": ["src/kdev-pg-regexp.cpp: DFA::nfa"]}
{"id": "C22", "title": "Empty-word and emptiness warnings are right", "statement": "acceptsEpsilon() holds iff the empty word is matched; isEmpty() holds iff no word is matched.", "quantifier": "for every automaton built by the public operations", "why_tests_cant": "Emptiness is a statement about all words.", "anchors": ["src/kdev-pg-regexp.cpp: NFA::acceptsEpsilon, isEmpty"]}
{"id": "C23", "title": "Shortest and longest match length", "statement": "minLength() is the length of a shortest matched word (-1 if none); maxLength() the length of a longest one, -2 when unbounded; so when they agree every matched word has that length (what lookahead and barrier rules rely on to step back).", "quantifier": "for every automaton built by the public operations", "why_tests_cant": "Minimum and maximum over infinite languages.", "anchors": ["src/kdev-pg-regexp.cpp: NFA::minLength, maxLength, isUnbounded", "src/kdev-pg-parser.yy: lexer_declaration_rest"]}
{"id": "C24", "title": "Longest match", "statement": "The generated lexer (and DFA::nextAction) reports the longest prefix of the remaining input accepted by some rule, with the action of the first rule accepting it, and leaves the position right after that prefix; if no prefix matches it runs the fail action with the position unchanged.", "quantifier": "for every automaton and every input", "why_tests_cant": "Needs all inputs, including those that run far past the last accepting state before failing.", "anchors": ["src/kdev-pg-regexp.cpp: DFA::nextAction, codegen", "src/kdev-pg-generate.cpp: LEXER_CORE_IMPL"]}
{"id": "C25", "title": "A quoted word matches exactly itself", "statement": "word(s) matches exactly one code-unit sequence: the encoding of s in the selected encoding.", "quantifier": "for every string s", "why_tests_cant": "Unboundedly many strings.", "anchors": ["src/kdev-pg-regexp.cpp: GNFA::word"]}
{"id": "C26", "title": "Character ranges in fixed-width encodings", "statement": "For ASCII, Latin-1, UCS-2 and UCS-4, range(b,e) matches exactly the one-character words c with b <= c < e inside the code space, and character(c) exactly c if representable.", "quantifier": "for all bounds and all words", "why_tests_cant": "Clipping at the code-space limit for all pairs of bounds.", "anchors": ["src/kdev-pg-regexp.cpp: GNFA::range, character"]}
{"id": "C27", "title": "Character ranges in UTF-8", "statement": "In UTF-8 mode range(b,e) matches exactly the byte sequences encoding a scalar c with b <= c < e.", "quantifier": "for all bounds and all byte sequences", "why_tests_cant": "The bounds split into many byte-level sub-ranges; 10^12 pairs of bounds.", "anchors": ["src/kdev-pg-regexp.cpp: addUtf8Range", "src/generated-kdev-utf8-tuples.h: getUtf8Tuples"]}
{"id": "C28", "title": "Character ranges in UTF-16", "statement": "In UTF-16 mode range(b,e) matches exactly the code-unit sequences encoding a scalar c with b <= c < e.", "quantifier": "for all bounds and all code-unit sequences", "why_tests_cant": "The surrogate split depends on both bounds.", "anchors": ["src/kdev-pg-regexp.cpp: GNFA::range (UTF16_IMPL)"]}
{"id": "C29", "title": "The dot matches any single character", "statement": "anyChar() matches exactly the encodings of a single character in the selected encoding.", "quantifier": "for every word over the code units", "why_tests_cant": "Quantifies over all code-unit sequences.", "anchors": ["src/kdev-pg-regexp.cpp: GNFA::anyChar"]}
{"id": "C30", "title": "Choosing the input encoding", "statement": "%input_encoding selects the named encoding and keeps the table/sequence choice, %table_lexer and %sequence_lexer change only that choice, in whatever order they appear.", "quantifier": "for every sequence of these directives", "why_tests_cant": "Order of directives is free; tests use one order.", "anchors": ["src/kdev-pg-parser.yy: declaration (T_TABLE_LEXER, T_SEQUENCE_LEXER, T_INPUT_ENCODING)", "src/kdev-pg-regexp.h: AutomatonType"]}
{"id": "C31", "title": "Escape sequences in lexer strings", "statement": "unescaped() leaves text without backslashes unchanged and replaces each documented escape (named, octal, hexadecimal, decimal) by the character it denotes.", "quantifier": "for every byte string", "why_tests_cant": "All positions and values of escapes, including the end of the string.", "anchors": ["src/kdev-pg.cpp: unescaped"]}
{"id": "C32", "title": "Grammar symbols and start symbols", "statement": "A symbol is a start symbol exactly when it is mentioned once (its defining rule only); pushing the same symbol or terminal name again returns the same item, and a terminal keeps its first description.", "quantifier": "for every sequence of pushSymbol/pushTerminal calls", "why_tests_cant": "Depends on the whole order of mentions.", "anchors": ["src/kdev-pg.h: World::pushSymbol, pushTerminal, terminal"]}
{"id": "C33", "title": "Looking up the rule of a symbol", "statement": "After the rules are sorted, searchRule(s) returns a rule defining s exactly when there is one.", "quantifier": "for every list of rules and every symbol", "why_tests_cant": "Binary search over every arrangement.", "anchors": ["src/kdev-pg.h: World::searchRule, ruleComp, finishedParsing"]}
{"id": "C34", "title": "Nullability of grammar items", "statement": "reducesToEpsilon(item) holds exactly when the item derives the empty token sequence.", "quantifier": "for every grammar and every item of it", "why_tests_cant": "Nullability is about all derivations.", "anchors": ["src/kdev-pg.cpp: reducesToEpsilon"]}
{"id": "C35", "title": "FIRST sets contain every token that can start an item", "statement": "When FIRST computation finishes, for every item, if the item derives a token sequence starting with t then t is in FIRST(item); if it derives the empty sequence the end marker (zero) is in FIRST(item).", "quantifier": "for every grammar, item and derivation", "why_tests_cant": "Derivations are unbounded; missing one token makes generated parsers reject valid input.", "anchors": ["src/kdev-pg-first.cpp: initializeFirst, NextFirst, computeFirst"]}
{"id": "C36", "title": "FIRST sets contain only tokens that can start an item", "statement": "Every token in FIRST(item) starts some sequence derivable from the item by expanding rules (sentential form).", "quantifier": "for every grammar and item", "why_tests_cant": "A spurious token is a statement about the absence of any derivation.", "anchors": ["src/kdev-pg-first.cpp: NextFirst"]}
{"id": "C37", "title": "FOLLOW sets contain every token that can follow a symbol", "statement": "When FOLLOW computation finishes, whenever a derivation from a start symbol contains symbol s immediately followed by token t, t is in FOLLOW(s).", "quantifier": "for every grammar and derivation", "why_tests_cant": "Unbounded derivations.", "anchors": ["src/kdev-pg-follow.cpp: NextFollow, computeFollow"]}
{"id": "C38", "title": "FIRST and FOLLOW computation terminates", "statement": "The fixed-point loops for FIRST and FOLLOW stop for every grammar.", "quantifier": "for every grammar", "why_tests_cant": "Termination.", "anchors": ["src/kdev-pg-first.cpp: computeFirst", "src/kdev-pg-follow.cpp: computeFollow"]}
{"id": "C39", "title": "FIRST/FIRST conflicts are reported", "statement": "If two alternatives of one choice have a common token in their FIRST sets, a FIRST/FIRST conflict listing that token is reported for the choice, unless the first alternative is guarded by a condition; otherwise none is.", "quantifier": "for every grammar", "why_tests_cant": "All pairs of alternatives of all grammars.", "anchors": ["src/kdev-pg-checker.cpp: FirstFirstConflictChecker"]}
{"id": "C40", "title": "FIRST/FOLLOW conflicts are reported", "statement": "If a nullable symbol or repetition has a token both in FIRST and FOLLOW, a FIRST/FOLLOW conflict is reported.", "quantifier": "for every grammar", "why_tests_cant": "All grammars.", "anchors": ["src/kdev-pg-checker.cpp: FirstFollowConflictChecker"]}
{"id": "C41", "title": "Undefined symbols are errors", "statement": "Code generation is refused exactly when some symbol reachable in a rule has no defining rule (or some used token is not declared); conflicts alone refuse it only in strict mode.", "quantifier": "for every grammar and option setting", "why_tests_cant": "All grammars.", "anchors": ["src/kdev-pg-checker.cpp: UndefinedSymbolChecker, ProblemSummaryPrinter", "src/kdev-pg-main.cpp: main"]}
{"id": "C42", "title": "Recursive inlining is refused", "statement": "The inline check succeeds only if no rule can be reached from itself through inlined non-terminals, so inlining terminates.", "quantifier": "for every grammar", "why_tests_cant": "Cycles of any length.", "anchors": ["src/kdev-pg-inline-checker.cpp: InlineChecker"]}
{"id": "C43", "title": "BNF rewriting preserves the language", "statement": "Replacing item+ and item* by recursive choices, as the BNF visitor does before FIRST/FOLLOW, keeps the set of derivable token sequences of every item.", "quantifier": "for every grammar and item", "why_tests_cant": "All derivations.", "anchors": ["src/kdev-pg-bnf-visitor.cpp: BnfVisitor"]}
{"id": "C44", "title": "Token numbering", "statement": "Generated token kinds are pairwise distinct, EOF is 1000 and no other token is 1000, so they agree with the token stream's end-of-input token.", "quantifier": "for every set of declared terminals", "why_tests_cant": "All token sets.", "anchors": ["src/kdev-pg-token-type-gen.cpp: GenerateToken", "src/include/kdev-pg-token-stream.h: read"]}
{"id": "C45", "title": "Visitor dispatch matches AST node kinds", "statement": "The table-driven Visitor::visitNode calls the visit function of the node's own kind for every kind that the generated AST can contain.", "quantifier": "for every set of symbols, each operator or plain", "why_tests_cant": "Two separately generated numberings must agree for every grammar.", "anchors": ["src/kdev-pg-ast-gen.cpp: GenerateAst", "src/kdev-pg-visitor-bits-gen.cpp: GenerateVisitorBits"]}
{"id": "C46", "title": "AST base classes are generated before their users", "statement": "If %ast_base makes one AST struct derive from the struct of another symbol, the base struct's definition is emitted first.", "quantifier": "for every set of symbols and acyclic base-class map", "why_tests_cant": "All maps and all hash iteration orders.", "anchors": ["src/kdev-pg-ast-gen.cpp: GenerateAst, GenerateAstRule"]}
{"id": "C47", "title": "Generated parsers accept only sentences of the grammar", "statement": "If a parse function returns true (no error recovery), the tokens it consumed form a sequence derivable from its symbol.", "quantifier": "for every grammar, every input, and every accepted run", "why_tests_cant": "Unbounded inputs and recursion.", "anchors": ["src/kdev-pg-code-gen.cpp: CodeGenerator, GenerateParserRule"]}
{"id": "C48", "title": "Generated parsers accept the sentences of conflict-free grammars", "statement": "For a grammar without reported conflicts, the parse function of a symbol succeeds on every sentence of the symbol followed by a token of its FOLLOW set, consuming exactly the sentence.", "quantifier": "for every conflict-free grammar and every sentence", "why_tests_cant": "Completeness quantifies over all sentences.", "anchors": ["src/kdev-pg-code-gen.cpp: visitAlternative, visitStar, visitPlus, visitEvolve"]}
{"id": "C49", "title": "Rollback restores the input position", "statement": "When the body of try/rollback fails, the catch part starts at the token where the body started; when it succeeds the catch part has no effect.", "quantifier": "for every body, catch part and input", "why_tests_cant": "All failure points.", "anchors": ["src/kdev-pg-code-gen.cpp: visitTryCatch"]}
{"id": "C50", "title": "Operator expressions honour priority and associativity", "statement": "For an expression grammar with binary, prefix, postfix and ternary operators, the tree built has the input tokens as its in-order token sequence, and every operator node's operands respect priority and associativity.", "quantifier": "for every operator table and every expression", "why_tests_cant": "All expressions.", "anchors": ["src/kdev-pg-code-gen.cpp: visitOperator"]}
{"id": "C51", "title": "Separated lists", "statement": "item @ sep derives exactly item (sep item)*, using independent copies of the items, and copying a grammar item preserves its language.", "quantifier": "for every item", "why_tests_cant": "All items and derivations.", "anchors": ["src/kdev-pg-parser.yy: postfix_item", "src/kdev-pg-clone-tree.cpp: CloneTree"]}
{"id": "C52", "title": "Node allocator", "statement": "Allocator<T>::allocate never hands out overlapping memory for requests up to the block size, and contains(p) holds exactly for addresses it handed out blocks for.", "quantifier": "for every sequence of requests", "why_tests_cant": "History dependent.", "anchors": ["src/include/kdev-pg-allocator.h: Allocator"]}
{"id": "C53", "title": "Command-line decisions", "statement": "The generator exits successfully and writes output exactly when no error was found and not (strict and conflicts), whatever other options are given and in whatever order.", "quantifier": "for every option list and every error/conflict count", "why_tests_cant": "Combinatorial.", "anchors": ["src/kdev-pg-main.cpp: main", "src/kdev-pg-checker.cpp: ProblemSummaryPrinter"]}
{"id": "C54", "title": "Lookahead rules match without consuming the lookahead", "statement": "A lexer rule `r %la(l)` with l of fixed length n>0 matches at a position exactly when some prefix matches r followed by a word of l, and leaves the position n code units before the end of the match; otherwise (l nullable, unbounded, or of varying length) the lookahead is ignored.", "quantifier": "for every r, l and input", "why_tests_cant": "All inputs.", "anchors": ["src/kdev-pg-parser.yy: lexer_declaration_rest (T_LOOKAHEAD)"]}
{"id": "C55", "title": "Default visitor visits every child once, in order", "statement": "The generated default visitor calls visitNode for each element of a sequence member exactly once in order, and terminates.", "quantifier": "for every AST sequence", "why_tests_cant": "All lengths.", "anchors": ["src/kdev-pg-default-visitor-bits-gen.cpp: visitVariableDeclaration", "src/include/kdev-pg-list.h"]}
{"id": "C56", "title": "UTF-8 input for narrow lexers", "statement": "Reading a well-formed UTF-8 buffer through the UTF-8 to UCS-2 (or ASCII) iterator yields exactly the scalars representable in UCS-2 (ASCII) that are not dropped noncharacters, in order; it never reads past the end unless the last scalar is not representable.", "quantifier": "for every sequence of Unicode scalar values", "why_tests_cant": "Infinitely many texts; tests only see single samples and miss the cases where the last character is skipped.", "anchors": ["src/include/kdev-pg-char-sets.h: QUtf8ToUcs2Iterator, QUtf8ToAsciiIterator"]}
{"id": "C57", "title": "Stepping back restores the input", "statement": "When the generated lexer has read past the end of the match and steps back with plain() = lpos, the iterator is in the state it had right behind the match, so the next call reads exactly the rest of the input.", "quantifier": "for all input iterators, automata and inputs", "why_tests_cant": "It depends on how far past the match the automaton looked and on what the iterator had decoded there; the failing inputs have a character outside the BMP right behind a token.", "anchors": ["src/kdev-pg-regexp.cpp: DFA::codegen", "src/include/kdev-pg-char-sets.h: plain(), QUtf8ToUtf16Iterator"]}
{"id": "C58", "title": "Barrier rules stop before the barrier", "statement": "A lexer rule `r %ba(b)` with b of fixed length n>0 matches the words of r that contain no word of b, and, where a word of r is followed by a word of b and no word of b ends earlier, matches up to the end of b and steps back by n; otherwise (b nullable or of varying length) the barrier is ignored.", "quantifier": "all regular expressions r and b, all inputs (encodings with one unit per character)", "why_tests_cant": "Quantifies over all pairs of regular expressions and all words.", "anchors": ["src/kdev-pg-parser.yy: lexer_declaration_rest (T_BARRIER)"]}
{"id": "C59", "title": "A collection matches each of its characters", "statement": "Inside brackets, an unquoted string matches exactly the encodings of its single characters in the selected encoding.", "quantifier": "for every string and every word over the code units", "why_tests_cant": "All strings and all encodings; errors sit at block boundaries of the encodings.", "anchors": ["src/kdev-pg-regexp.cpp: GNFA::collection, character", "src/kdev-pg-parser.yy: aregexp7"]}
{"id": "C60", "title": "Bounds of a character range", "statement": "The text b-e of a range denotes exactly the two characters b and e, for characters inside and outside the BMP.", "quantifier": "for all scalar values b and e", "why_tests_cant": "Four combinations of one and two code units over all characters.", "anchors": ["src/kdev-pg-parser.yy: aregexp7 (T_RANGE)"]}
{"id": "C61", "title": "Numbers in the Unicode tables", "statement": "SET_CHAR reads exactly the hexadecimal number at its position and stops at the first character that is no digit.", "quantifier": "for every number below 2^28 in any spelling and any following text", "why_tests_cant": "All numbers and spellings.", "anchors": ["src/kdev-pg-unicode-loader.cpp: SET_CHAR"]}
{"id": "C62", "title": "FOLLOW sets contain nothing else", "statement": "Every element of the computed FOLLOW set of a symbol follows the symbol in some form derived from a symbol of the grammar, or is the end of input and the symbol can end what a start symbol derives.", "quantifier": "all grammars with well-formed items, all symbols and tokens", "why_tests_cant": "Spurious FOLLOW elements only cause wrong conflict reports and wrong look-ahead in particular combinations of nullable items; each grammar tested says nothing about the others.", "anchors": ["src/kdev-pg-follow.cpp: NextFollow, computeFollow"]}
{"id": "C63", "title": "try/recover resynchronises and makes progress", "statement": "When the body of try/recover fails, the user's parser state is restored, tokens are skipped up to the end of the input or a token of the FOLLOW set of the item, and at least one token is skipped if nothing was consumed before, so the parser cannot loop without progress; when the body succeeds nothing else happens.", "quantifier": "for every item, every generated body, every input and every run", "why_tests_cant": "The failure can happen at any position of any input in any nesting of calls; progress must hold for each of them.", "anchors": ["src/kdev-pg-code-gen.cpp: CodeGenerator::visitTryCatch, generateRecovery"]}
{"id": "C64", "title": "Error blocking is balanced and effective", "statement": "A parse function leaves mBlockErrors as it found it, whatever the outcome; while errors are blocked by a try/rollback none is reported; the token position never ends before the start of the function.", "quantifier": "for every grammar, every input and every run, also failing ones", "why_tests_cant": "A single path that leaves the flag set, or reports while it is set, among all nestings of try blocks and calls would be enough to break it.", "anchors": ["src/kdev-pg-code-gen.cpp: CodeGenerator::visitTryCatch, generateParserCall, generateTokenTest, CodeGenerator::visitOperator, GenerateParserDeclarations"]}
{"id": "C65", "title": "The generator's own visitor dispatches by kind", "statement": "For every kind of grammar item, the entry of Visitor::sTable at the number of the kind is the visit function for this kind, and the numbers of the kinds are different.", "quantifier": "for every node kind (all eighteen)", "why_tests_cant": "A table with two swapped entries is only noticed by a grammar that has an item of such a kind and a visitor for which it matters; the enumeration and the table are in different files.", "anchors": ["src/kdev-pg-visitor.cpp: Visitor::sTable", "src/kdev-pg-ast.h: NodeKind"]}
{"id": "C66", "title": "Operator nodes cover their tokens", "statement": "The node returned for an operator expression starts with the first and ends with the last token of the expression, parentheses included, and all its tokens are consumed; the same holds for the node of each operand.", "quantifier": "for every operator table and every expression", "why_tests_cant": "The end tokens are set late, in three different loops, as operators are closed; which loop sets which end depends on the priorities of all operators that are open.", "anchors": ["src/kdev-pg-code-gen.cpp: visitOperator", "src/kdev-pg-code-gen.cpp: GenerateParserRule (endToken loop)"]}
{"id": "C67", "title": "Embedded code is copied verbatim and keeps its position", "statement": "The text between `[:` and the next `:]` reaches the generated parser byte for byte; with line numbers switched on it is preceded by a line directive and by blanks such that the compiler attributes every character of the code to the line and the column it has in the grammar file.", "quantifier": "for every grammar text before the code, every code and every text after it", "why_tests_cant": "The end of a code block is found by three patterns that compete by length, and the position is kept by a buffer updated for each piece; errors show only for particular sequences of colons, brackets, line ends and lengths.", "anchors": ["src/kdev-pg-lexer.ll: <CODE>", "src/kdev-pg-lexer.ll: COPY_CODE_TO_YYLVAL", "src/kdev-pg-lexer.ll: appendLineBuffer"]}
{"id": "C68", "title": "Arguments of rule calls are copied verbatim", "statement": "The text between the bracket behind a symbol and the bracket that closes it (brackets in string literals do not count) is what is passed to the generated function, with the position it has in the grammar file.", "quantifier": "for every balanced argument text", "why_tests_cant": "Nesting depth is unbounded; the pieces are glued by yymore in most but not all of the actions.", "anchors": ["src/kdev-pg-lexer.ll: <RULE_ARGUMENTS>"]}
{"id": "C69", "title": "The scanner knows the line and the column", "statement": "Whenever the scanner is between two tokens, yyLine is one more than the number of line ends it has read, and the start of the token in the line buffer is the column of the token.", "quantifier": "for every grammar file and every prefix of it the scanner has consumed", "why_tests_cant": "Line ends are counted in eight places, among them one that counts characters instead of line ends; a mistake shifts all positions behind it.", "anchors": ["src/kdev-pg-lexer.ll: newline", "src/kdev-pg-lexer.ll: countNewlines", "src/kdev-pg-lexer.ll: appendLineBuffer"]}
{"id": "C70", "title": "String literals end at their closing quote", "statement": "A string literal is the text up to the first quote that is not escaped, and T_STRING carries this text without the quotes.", "quantifier": "for every text of a literal without line ends and every text behind it", "why_tests_cant": "The pattern has two alternatives that overlap in the backslash; the longest match picks whichever reaches a later quote, which depends on the rest of the line.", "anchors": ["src/kdev-pg-lexer.ll: String"]}
{"id": "C71", "title": "Names and keywords are told apart", "statement": "A maximal run of letters, digits and underscores that does not start with a digit is one token: T_TERMINAL if it has only capital letters and underscores, the keyword `catch`, otherwise T_IDENTIFIER, with the run as text; `try/recover` and `try/rollback` are the only exceptions.", "quantifier": "for every run and every text behind it", "why_tests_cant": "More than sixty patterns compete for each run; a new keyword or a reordering of the rules may capture some names.", "anchors": ["src/kdev-pg-lexer.ll: rules without start condition"]}
{"id": "C72", "title": "Declared types are read without surrounding blanks", "statement": "The type in a declaration `member node name: Type;` is the text between the colon and the semicolon without blanks at its ends.", "quantifier": "for every type text without semicolon", "why_tests_cant": "The loop that strips blanks has a wrong condition; whether it runs, and over which memory, depends on the length of the text.", "anchors": ["src/kdev-pg-lexer.ll: <RULE_PARAMETERS_VARNAME>"]}
{"id": "C73", "title": "The scanner terminates and loses no text", "statement": "For every file the scanner ends: at the end of the file, with an error, or (only in a declaration with a type shorter than two characters) in undefined behaviour; each byte of the file is part of a token, a comment, white space or embedded code, or is reported.", "quantifier": "for every grammar file", "why_tests_cant": "Patterns that match the empty text, REJECT and yymore could each make the scanner stay in place; and the default rule of flex silently drops what no rule matches, which has to be looked for in each start condition.", "anchors": ["src/kdev-pg-lexer.ll: all rules"]}
{"id": "C74", "title": "Every member the parser assigns is declared", "statement": "For every grammar the structure emitted for a symbol declares each AST member of the symbol's rules (in brackets, by annotation, or from inlined rules) exactly once under its identifier and with its type, so every member the symbol's parser function assigns exists.", "quantifier": "for every grammar and every symbol", "why_tests_cant": "The generator remembers names, not identifiers or types, and walks rules, inlined rules and operator structures with one set of names; which combinations lose or double a member needs an argument over all items.", "anchors": ["src/kdev-pg-ast-gen.cpp: GenerateAstRule", "src/kdev-pg-code-gen.cpp: CodeGenerator::visitAnnotation, GenerateVariableDeclarationImpl"]}
{"id": "C75", "title": "Every temporary variable is declared where it is used", "statement": "In each emitted parser function every temporary variable used by the code of a rule is a parameter or is declared exactly once in a scope around its use.", "quantifier": "for every grammar, every symbol and every rule of it", "why_tests_cant": "Declarations are placed at the beginning of the function and at the beginning of each rule's block, with one set of names for all of them; that each use is in scope depends on all rules together.", "anchors": ["src/kdev-pg-code-gen.cpp: GenerateParserRule, GenerateLocalDeclarations, GenerateParseMethodSignature, CodeGenerator::visitEvolve"]}
{"id": "C76", "title": "Token members start as -1", "statement": "Every plain token member of a node is set to -1 before its rule is parsed, and only members that exist are set.", "quantifier": "for every grammar and every symbol", "why_tests_cant": "The initialisation is generated by a visitor of its own, which sees other declarations than the generator of the structures; the difference shows only for particular grammars.", "anchors": ["src/kdev-pg-code-gen.cpp: GenerateTokenVariableInitialization"]}
{"id": "C77", "title": "Recursive calls of operator functions fit the signature", "statement": "The calls an operator parser function makes to itself pass as many arguments as the function has parameters.", "quantifier": "for every grammar and every operator symbol", "why_tests_cant": "The arguments are generated by a class of their own; whether it is used at all can only be seen from grammars with arguments at operator rules.", "anchors": ["src/kdev-pg-code-gen.cpp: CodeGenerator::visitOperator, GenerateRecursiveDelegation, GenerateParseMethodSignature"]}
{"id": "C78", "title": "The syntax tree shows the derivation", "statement": "Whenever a parser function succeeds, its node has the kind of the symbol and the first and last token of the text read, and each member holds exactly what its annotations stand for in the derivation: sequences all values in the order of the text, plain members the last one.", "quantifier": "for every grammar, every token sequence and every result of the tests", "why_tests_cant": "A tree can be wrong only in rare executions (loops, rollback, recovery, nested calls); a test compares single trees.", "anchors": ["src/kdev-pg-code-gen.cpp: CodeGenerator, GenerateParserRule", "include/kdev-pg-list.h: snoc"]}
{"id": "C79", "title": "Nodes nest, siblings are ordered", "statement": "In the tree of a successful parse the range of every node at any depth contains the ranges of its members, and the values of a sequence follow each other without overlap.", "quantifier": "for every grammar, every token sequence, every result of the tests and every node of the tree", "why_tests_cant": "Tools rely on ranges for lookup; the statement is about every node of every tree.", "anchors": ["src/kdev-pg-code-gen.cpp: CodeGenerator::visitAnnotation, GenerateParserRule"]}
{"id": "C80", "title": "The default visitor visits every node once", "statement": "Applied to a tree the parser has built, the default visitor visits every node of the tree exactly once, and each node before the nodes below it; the visit method of a symbol visits every node member of its structure.", "quantifier": "for every grammar, every tree of a successful parse and every node in it", "why_tests_cant": "Members come from annotations, brackets and inlined rules of several alternatives, which three generators collect separately; a test sees the trees of one grammar.", "anchors": ["src/kdev-pg-default-visitor-bits-gen.cpp: GenerateDefaultVisitorBitsRule", "src/kdev-pg-ast-gen.cpp: GenerateAstRule"]}
{"id": "C81", "title": "The parameter of a visit method has a name if the body uses it", "statement": "The parameter of a visit method of the default visitor is named if and only if the body of the method mentions it.", "quantifier": "for every grammar and every symbol", "why_tests_cant": "Whether the name is needed is decided by a visitor of its own, which comes across other declarations than the one that writes the body; otherwise the generated code does not compile (or warns).", "anchors": ["src/kdev-pg-default-visitor-bits-gen.cpp: HasMemberNodes, GenerateDefaultVisitorBitsRule"]}
{"id": "C82", "title": "The debug visitor prints each node with its depth", "statement": "The debug visitor prints every node of a tree once under its own name, indented by its depth, and every node below the root once more as a member, with the indentation of its parent; afterwards the indentation is as before.", "quantifier": "for every grammar, every tree of a successful parse and every node in it", "why_tests_cant": "Indentation is a counter shared by mutually recursive methods; the statement is about all trees.", "anchors": ["src/kdev-pg-debug-visitor-gen.cpp: GenerateDebugVisitorRule"]}
{"id": "C83", "title": "Tokens are the consecutive lexemes of the input", "statement": "Reading a generated lexer gives, one after the other, the tokens of consecutive lexemes: each lexeme begins where the one before ended, consists of longest matches in the current rule set (several if rules say %continue), and its token has the position of its first and its last character; skipped lexemes give no token; at the end of the input or where no rule matches the token is EOF, again and again. Tokens are nonempty, in order and do not overlap.", "quantifier": "for every lexer, input, and history of reading and going back", "why_tests_cant": "The stream of tokens depends on an unbounded history: pending continuations, rule sets changed by earlier matches, lookahead steps, tokens kept in the stream.", "anchors": ["src/kdev-pg-generate.cpp: generateLexer (LEXER_CORE_IMPL, lx macros)", "src/kdev-pg-regexp.cpp: DFA::codegen", "src/kdev-pg-parser.yy: lexer_declaration_rest, opt_lexer_action"]}
{"id": "C84", "title": "Going back does not change the tokens", "statement": "The token read at an index does not depend on how a client has read and rewound before; a client that only reads gets the tokens in order.", "quantifier": "for every lexer, every input and any two histories of calls of read and rewind", "why_tests_cant": "Histories are unbounded, and the lexer produces tokens lazily in between.", "anchors": ["src/kdev-pg-generate.cpp: generateLexer (read)", "src/include/kdev-pg-token-stream.h: TokenStreamBase"]}
{"id": "C85", "title": "Rule sets are entered and left in turns", "statement": "When the rule set of a lexer is changed, the code for leaving is run for the current rule set and then the code for entering the next one; every rule set that is left has been entered.", "quantifier": "for every lexer, any user code made of the macros, and every history of calls", "why_tests_cant": "lxSET_RULE_SET takes the rule set to leave from where the macro is expanded, not from the state.", "anchors": ["src/kdev-pg-generate.cpp: lxSET_RULE_SET, setRuleSet, constructor"]}
{"id": "C86", "title": "lxLENGTH is the length of the lexeme", "statement": "In an action, lxLENGTH is the number of positions from lxBEGIN_IDX to lxCURR_IDX.", "quantifier": "for every lexeme", "why_tests_cant": "The macro is right for the first lexeme of an input.", "anchors": ["src/kdev-pg-generate.cpp: lxLENGTH"]}
{"id": "C87", "title": "Reading always returns", "statement": "Every call of read() returns.", "quantifier": "for every lexer, every input and every history of calls", "why_tests_cant": "Rules that match the empty word make it recurse without end; the generator only warns.", "anchors": ["src/kdev-pg-generate.cpp: lxSKIP, lxCONTINUE, read", "src/kdev-pg-parser.yy: lexer_declaration_rest"]}
{"id": "C88", "title": "Rules of a grammar have one reading", "statement": "The text of the rules of a grammar is read in one way only; everything the grammar of the grammar language allows is read, and nothing else, whatever alternatives its productions leave open.", "quantifier": "for every sequence of tokens", "why_tests_cant": "parser.yy is ambiguous (a piece of code behind an item can belong to it or be an item of its own), Bison resolves this silently by shifting, and sequences of tokens are unbounded.", "anchors": ["src/kdev-pg-parser.yy: rules, item, option_item, conditional_item, item_sequence, postfix_item, unary_item, primary_item, primary_atom, try_item, variableDeclarations, operatorRule, operatorDeclaration, operator, priority, assoc"]}
{"id": "C89", "title": "Operators in rules bind as documented", "statement": "Code belongs to the item before it, `+`, `*`, `?` to one item, `@` to the items beside it, a condition to its alternative, `|` to whole sequences, and parentheses make one item of alternatives; `a @ b` means `a`, or several `a` with `b` between them.", "quantifier": "for all items and contexts", "why_tests_cant": "The places where operators can meet are unbounded; `@` copies its operands.", "anchors": ["src/kdev-pg-parser.yy: option_item, conditional_item, item_sequence, postfix_item, unary_item", "src/kdev-pg-clone-tree.cpp: CloneTree"]}
{"id": "C90", "title": "Printed rules read back with the same meaning", "statement": "What the pretty printer shows for a rule is again the text of a rule (with a semicolon behind it): for the same symbol, with the same sentences, labels included.", "quantifier": "for all rules and names", "why_tests_cant": "Needs printer, scanner and parser together, for items of any depth; parentheses are left out wherever the printer deems them superfluous.", "anchors": ["src/kdev-pg-pretty-printer.cpp: PrettyPrinter", "src/kdev-pg-lexer.ll", "src/kdev-pg-parser.yy: item"]}
{"id": "C91", "title": "Regular expressions and lexer sections have one reading", "statement": "The tokens of a lexer section are read in at most one way, as one list of definitions, rules and codes, each with one regular expression, and the `;` that ends the section is determined; no text the productions derive is lost by Bison's choices.", "quantifier": "for all token lists", "why_tests_cant": "The productions are ambiguous (an expression may be empty): Bison reports conflicts and resolves them silently; whether all resolutions together leave one reading for every text is a statement about all texts.", "anchors": ["src/kdev-pg-parser.yy: lexer_declaration_rest, regexp, aregexp"]}
{"id": "C92", "title": "Every expression can be written; operators bind in a fixed order", "statement": "`|`, `&`, `^`, the prefixes `~` and `?`, juxtaposition, `@` and the suffixes bind in this order, inside and outside brackets; with parentheses where the order demands them every expression can be written and is read as itself. Prefixes are refused elsewhere; juxtaposition concatenates outside brackets and unites inside.", "quantifier": "for all expressions", "why_tests_cant": "Expressions nest without bound and brackets change the meaning of what is inside.", "anchors": ["src/kdev-pg-parser.yy: regexp, aregexp"]}
{"id": "C93", "title": "The automata of a file match what its expressions say", "statement": "After reading all lexer sections of a file, the automaton of each rule matches exactly the words its expression denotes, where a name stands for its last definition before; it makes no difference whether a name was used before; unknown names end the program.", "quantifier": "for all files, encodings and orders of visiting sets of states", "why_tests_cant": "Composes scanner texts, escapes, encodings, automata constructions, and a table of definitions that is changed by using them.", "anchors": ["src/kdev-pg-parser.yy: regexp, aregexp, lexer_declaration_rest", "src/kdev-pg-regexp.cpp: GNFA", "src/kdev-pg.h: World::regexpById, World::dfaForNfa"]}
{"id": "C94", "title": "The tables of rules and actions correspond", "statement": "After reading all sections, each rule set has one action more than rules: action 0 is the last `%fail` or the default, and action i+1 consists of the code of the rule that made automaton i (with stepping back in front for lookaheads and barriers); the codes for entering and leaving are the last given; a rule set without section is empty.", "quantifier": "for all files", "why_tests_cant": "Sections for several rule sets may be mixed in any order, and rules make one or two entries.", "anchors": ["src/kdev-pg-parser.yy: declaration, lexer_declaration_rest", "src/kdev-pg.h: World::lexerEnvs, World::lexerActions, World::enteringCode, World::leavingCode"]}
{"id": "C95", "title": "Classes from the Unicode tables", "statement": "Loading tables in the format of the Unicode character database succeeds; afterwards exactly the names listed in the tables are known (and `num`, `ascii-range`, `latin1-range`), and `{name}` matches exactly the encodings of the characters listed under it, names differing neither in case nor in spaces and hyphens.", "quantifier": "for all tables in the format, encodings, and files of lexer sections", "why_tests_cant": "The tables are exchanged with each version of Unicode and have thousands of lines; names and ranges of several tables are merged, and each encoding builds other automata for a range.", "anchors": ["src/kdev-pg-unicode-loader.cpp: SET_CHAR, standardFormat, loadUnicodeData", "src/kdev-pg-parser.yy: declaration", "src/kdev-pg-regexp.cpp: GNFA::range"]}
{"id": "C96", "title": "The lexer made from a file cuts the input as the file says", "statement": "The lexer generated from the lexer sections of a file reads each input as the sections say: at each position the longest piece any rule of the current rule set matches, by the first of the rules that match it, with lookaheads and barriers taken off; the tokens given out, in any order of reading and rewinding, are those of these lexemes; and reading returns unless a rule matches the empty word.", "quantifier": "for all files of lexer sections with the listed conditions, all inputs and all histories of calls", "why_tests_cant": "Composes reading of expressions, construction and minimization of automata, tables of actions, the generated dispatch and the run-time loop; an error in any of them shows only on particular combinations of rules and inputs.", "anchors": ["src/kdev-pg-main.cpp: main", "src/kdev-pg-parser.yy: lexer_declaration_rest", "src/kdev-pg-regexp.cpp: GDFA::setActions, GDFA::codegen", "src/kdev-pg-generate.cpp: GenerateLexer"]}
{"id": "C97", "title": "The generated parser with the generated lexer accepts the texts of the language", "statement": "The parse function of a start symbol, working on yytoken and the token stream of the generated lexer, accepts a text exactly if the pieces into which the lexer rules of the file cut the text give a sentence of the start symbol, followed by the end or by text that no rule matches; all its effects are those it has on the sequence of these tokens.", "quantifier": "for all grammars of the listed form, all lexer sections of the form in C96, all texts and all user code", "why_tests_cant": "The parser reads, rewinds and reads again through yytoken and the stream; the lexer reads lazily and reports EOF again and again. That the two agree for every text needs an invariant relating the parser's members, the buffer of the stream and the text.", "anchors": ["src/kdev-pg-code-gen.cpp: GenerateParserDeclarations (yylex, rewind, constructor)", "src/kdev-pg-code-gen.cpp: CodeGenerator", "src/include/kdev-pg-token-stream.h: TokenStreamBase"]}
{"id": "C98", "title": "LA(k) looks ahead without consequences", "statement": "LA(k) gives the token k-1 behind the current one, reading the lexer as far as needed; afterwards the index, the tokens and yytoken are as before, and every statement of the parser does the same as without the call.", "quantifier": "for all k, all histories of reading and rewinding, all states the parser gets into, and all statements", "why_tests_cant": "LA moves the stream to its end, reads and moves it back; that no state of parser and lexer makes this visible later quantifies over all continuations.", "anchors": ["src/kdev-pg-code-gen.cpp: GenerateParserDeclarations (LA)", "src/include/kdev-pg-token-stream.h: TokenStreamBase::rewind"]}
{"id": "C99", "title": "The nodes made for the rules say what the rules say", "statement": "The semantic actions of the rules, run on a text derivable from the grammar of grammar files, leave nodes, symbol tables and start symbols such that: the nodes are well-formed as the analyses require; each symbol and declared token has one node; a word of terminals is derived from the node of a symbol exactly if it is a sentence of the symbol by the written rules; the start symbols with rules are those with one rule that no rule mentions. The actions follow no invalid pointer and free no literal exactly if no bare code stands below `@`, the base of each operator rule is a symbol, and no postfix operator has the priority 0 without associativity.", "quantifier": "for all token declarations, all rules of any size and nesting and all sentences; whatever the order in which finishedParsing leaves the rules and BnfVisitor meets the loops", "why_tests_cant": "The actions share one zero node, one node per terminal and per symbol, copy subtrees for `@` and count uses of symbols; that the resulting graph derives exactly the written language is an induction over all derivations of grammar texts.", "anchors": ["src/kdev-pg-parser.yy: declared_tokens, rules, primary_item, primary_atom, try_item, unary_item, postfix_item, item_sequence, conditional_item, option_item, item, operatorRule, operatorDeclaration, operator", "src/kdev-pg.h: World::pushSymbol, pushTerminal, terminal, zero", "src/kdev-pg-clone-tree.cpp: CloneTree", "src/kdev-pg-follow.cpp: NextFollow (pushTerminal EOF)"]}
{"id": "C100", "title": "From the text of the grammar to the accepted texts", "statement": "For a grammar given by its text - token declarations, rules without inlined symbols and ternary operators, lexer sections - a text is accepted by the generated parser of the start symbol with the generated lexer exactly if the lexer rules cut it into tokens whose names are a sentence by the rules as written; and what it accepts without error recovery is always such a sentence.", "quantifier": "for all declarations, rules and lexer sections of the listed form and all texts", "why_tests_cant": "The claim composes the actions of the grammar parser, the rewriting and the FIRST/FOLLOW sets, the generated parser, the automata, the token stream and the token numbers; it quantifies over grammars and texts.", "anchors": ["src/kdev-pg-parser.yy", "src/kdev-pg-code-gen.cpp: CodeGenerator", "src/kdev-pg-token-type-gen.cpp: GenerateToken", "src/kdev-pg-regexp.cpp"]}
{"id": "C101", "title": "A grammar file has one reading", "statement": "The bytes of a file are scanned into one list of tokens, and this list has at most one reading as code, declarations, rules and code: the same declarations in the same order, the same rules with the same items, the same code before and behind. This holds although `;` ends rules, token lists, sections, and declarations inside brackets, and code may begin an item or end the file.", "quantifier": "for all bytes, all token lists and all readings", "why_tests_cant": "Uniqueness of a parse is a statement about all derivations of all token lists; a test sees one parse tree.", "anchors": ["src/kdev-pg-parser.yy: system, declarations, declaration, declared_tokens, lexer_declaration_rest, rules", "src/kdev-pg-lexer.ll"]}
{"id": "C102", "title": "Every lexer section can be ended", "statement": "What the grammar allows as the content of a lexer section can be written in a file: the scanner leaves the section where the parser expects its end. In fact the scanner needs two semicolons with blanks between them, so sections that are empty or end with `%fail`, `%enter` or `%leave` cannot be written at all.", "quantifier": "for all files, all sections and all contents", "why_tests_cant": "That no bytes whatever are read as such a section quantifies over all files; each test that fails might have been written wrongly.", "anchors": ["src/kdev-pg-lexer.ll: <RULE_LEXER> lines 195-206, rulePosition", "src/kdev-pg-parser.yy: lexer_declaration_rest, declaration (T_LEXER)"]}
{"id": "C103", "title": "The settings of a file are as its declarations say", "statement": "After the declarations of a file, of each setting with one value the last value given counts, or the default; headers, bits, members, tokens and lexer sections are those of the file in its order; each class of nodes has the base class given last for it; the type of the automata follows from the directives alone and is the same for all sections. The program gets so far exactly if no such directive stands behind a lexer section and every encoding is known.", "quantifier": "for all lists of declarations", "why_tests_cant": "Independence of the settings from each other and from the order of the other declarations concerns all interleavings of twenty-odd declarations.", "anchors": ["src/kdev-pg-parser.yy: system, declaration, member_declaration_rest, declared_tokens", "src/kdev-pg.h: KDevPG::World"]}
{"id": "C104", "title": "From the bytes of the grammar file to the accepted texts", "statement": "If the bytes of a file are read and its declarations carried out, then the actions of its rules make nodes, and the parser generated for the start symbol, with the lexer generated from the sections for the selected encoding, accepts a text exactly if the lexer rules cut it into tokens whose names are a sentence by the rules in the file.", "quantifier": "for all files whose rules and sections are of the listed forms, and all texts", "why_tests_cant": "It composes scanner, grammar, actions, automata, analyses and generated code, for all files and all texts.", "anchors": ["src/kdev-pg-lexer.ll", "src/kdev-pg-parser.yy", "src/kdev-pg-regexp.cpp: EACH_TYPE", "src/kdev-pg-code-gen.cpp: CodeGenerator"]}
{"id": "C105", "title": "The generated files can be compiled on their own and together", "statement": "Whatever generated headers a translation unit includes, in whatever order and however often, and also in each generated source file: every include is found or is a header of the user or a library, no declaration occurs twice, all that a declaration needs comes before it, headers are included outside of the namespace of the grammar, and the declaration the header is for is there.", "quantifier": "for all settings, all lists of includes and all disk contents, with the stated conditions on names", "why_tests_cant": "The orders and repetitions of includes, times the settings that switch files and includes on and off, are infinitely many; a test compiles a few.", "anchors": ["src/kdev-pg-generate.cpp: generateOutput, generateLexer", "src/kdev-pg-code-gen.cpp", "src/kdev-pg-ast-gen.cpp"]}
{"id": "C106", "title": "Code of the grammar appears exactly once", "statement": "In each translation unit, the code that the grammar gives for the namespace, the nodes, the end of the parser and the lexer appears at most once, and exactly where it belongs. The code at the beginning of the grammar does not: parser.cpp sees it twice.", "quantifier": "for all settings, all lists of includes", "why_tests_cant": "The code may reach a source file on several paths of includes; only a proof covers all combinations.", "anchors": ["src/kdev-pg-generate.cpp: generateOutput, generateLexer", "src/kdev-pg.h: World::decl, bits, lexerBits, namespaceCode, astCode"]}
{"id": "C107", "title": "The macros of the lexer end with the lexer", "statement": "No macro defined for the code of lexer rules is still defined at the end of the generated lexer. In fact exactly seven are: lxNAMED_TOKEN, lxDONE, lxEOF, lxFINISH, yytoken, lxFAIL, lxSKIP, whatever the settings; one because of a misspelt #undef.", "quantifier": "for all settings and rule sets", "why_tests_cant": "Which macros survive depends on the settings and on the number of rule sets; the proof gives the list for all of them.", "anchors": ["src/kdev-pg-generate.cpp: generateLexer lines 645-760"]}
{"id": "C108", "title": "Every generated file that is included is written", "statement": "If a run succeeds with an output name, then each include between generated files names a file that the run has written, exactly if: the lexer is generated when the grammar has one and a parser is generated, a parser is generated when a lexer is, and nodes are generated when visitors for them are asked for.", "quantifier": "for all command lines, files and settings", "why_tests_cant": "It concerns all combinations of about a dozen options with the contents of the grammar.", "anchors": ["src/kdev-pg-main.cpp: main", "src/kdev-pg-generate.cpp: generateOutput, generateLexer"]}
{"id": "C109", "title": "The text of a token is its description", "statement": "The generated tokenText gives, for the number of each token, exactly the description in the grammar, whatever quotes and backslashes it has, and \"unknown token\" for all other numbers; the messages of the parser about a missing token use the same text. The latter is false for descriptions with a backslash, and so with a quote.", "quantifier": "for all grammar files, all token lists and all numbers", "why_tests_cant": "It quantifies over all descriptions and over all sequences of C++ escapes they might form inside a literal.", "anchors": ["src/kdev-pg-code-gen.cpp: GenerateTokenTexts, generateTokenTest", "src/kdev-pg.h: pushTerminal, terminal", "src/kdev-pg-follow.cpp: line 75"]}
{"id": "C110", "title": "Priorities and associativities are those written", "statement": "The actions of operator rules record the operators of each kind in the order of writing with the texts of priority and associativity, writing only into memory they have; in the generated parser the priority of an operator is the number written. The latter is false for numbers with leading zeros and for numbers from 2^32 - 2 on.", "quantifier": "for all lists of operator declarations, all code and all numbers", "why_tests_cant": "The buffer for the associativity is sized by hand for all lengths of code; the numbers are copied as text and read again by C++, so the claim is about all digit strings.", "anchors": ["src/kdev-pg-parser.yy: operatorDeclaration, priority, assoc, operator", "src/kdev-pg-ast.h: OperatorItem::pushBin, pushTern, pushPre, pushPost, pushParen", "src/kdev-pg-code-gen.cpp: visitOperator"]}
{"id": "C111", "title": "Conditions bind as written", "statement": "The test generated for a rule, an alternative or an operator with a condition holds exactly if the next token is one of its tokens and the condition holds; a computed associativity is 1 or 0 as its code says. This is false for operators whose condition has || (or ? or a comma) outside of brackets, and for associativities with ? outside of brackets.", "quantifier": "for all token sets, all expressions and all values of their operands", "why_tests_cant": "It is a claim about how any expression of the user is grouped with the text around it.", "anchors": ["src/kdev-pg-code-gen.cpp: visitAlternative, visitEvolve, visitOperator, generateConditionFromStrings", "src/kdev-pg-parser.yy: assoc, operator"]}
{"id": "C112", "title": "Operands are nodes of the expression's class", "statement": "The structure of a symbol is derived from the class given by %ast_base, else from the structure of the first operator rule with this base, else from AstNode; so the operand of an operator rule can be put into a pointer to the structure of the rule. This is false for a second operator rule with the same base.", "quantifier": "for all %ast_base declarations and all sequences of operator rules", "why_tests_cant": "Which rule determines the base class depends on all rules before it; the generator itself never notices, only the compiler of the generated code.", "anchors": ["src/kdev-pg-parser.yy: operatorRule", "src/kdev-pg-ast-gen.cpp: GenerateAstRule::visitEvolve", "src/kdev-pg-code-gen.cpp: visitOperator (PUSH_UNARY)"]}
{"id": "C113", "title": "Lookahead sets by the rules as written", "statement": "In a grammar whose rules as written are decided by one token of lookahead, a token is in the FIRST set of a symbol exactly if a sentence of the symbol begins with it, and in its FOLLOW set exactly if it may come behind the symbol (operators behind operands, the end of input behind the start symbol); and the generated tests then decide every alternative, loop and option.", "quantifier": "for all token declarations and rules of the listed forms, all symbols and all tokens", "why_tests_cant": "It relates sets computed by iteration on rewritten nodes to sentences of the rules, for all grammars.", "anchors": ["src/kdev-pg-follow.cpp: NextFollow", "src/kdev-pg-first.cpp: NextFirst", "src/kdev-pg-bnf-visitor.cpp", "src/kdev-pg-parser.yy"]}
{"id": "C114", "title": "New visitors are classes whose source defines their methods", "statement": "With --new-visitor, the header written is a class derived from Visitor (or DefaultVisitor) with a method for every node of the grammar, no method twice, and the header can be included alone; the source written is a series of definitions of exactly these methods of this class. The same holds for the default visitor.", "quantifier": "for all names of visitors, all lists of symbols with all members, all settings of the grammar file", "why_tests_cant": "A test runs the option for some grammar; the claim is about the emitted text for every grammar, and no test compiles it.", "anchors": ["src/kdev-pg-generate.cpp: generateVisitor", "src/kdev-pg-new-visitor-gen.cpp", "src/kdev-pg-new-visitor-bits-gen.cpp", "src/kdev-pg-default-visitor-gen.cpp", "src/kdev-pg-default-visitor-bits-gen.cpp"]}
{"id": "C115", "title": "The emitted text of parse functions is C++ that does what the grammar says", "statement": "The text of each generated parse function is one statement of C++ and can be read in one way only. Run as C++, with goto, labels inside of if (false) blocks, return and calls of the other functions, it gives the same result, position, reports, blocking and user state as the parser whose properties are C47 to C49, C63 and C64, and nothing else; so the text accepts the sentences of the grammar.", "quantifier": "for all grammars, all inputs, all user conditions and user code, all settings (with or without syntax tree, with or without state management), all states of the parser at the call", "why_tests_cant": "A test compiles the text for some grammars and parses some inputs. Dangling else, a condition with || inside of &&, a jump into the wrong handler or a missing brace only shows in grammars that nest these.", "anchors": ["src/kdev-pg-code-gen.cpp: CodeGenerator", "src/kdev-pg-code-gen.cpp: GenerateParserRule", "src/kdev-pg-code-gen.cpp: generateParserCall, generateTokenTest, generateRecovery, generateCondition"]}
{"id": "C116", "title": "Variables and labels in the emitted text are declared, unique and not jumped over", "statement": "In the text of each generated parse function every variable made by the generator (__node_i, try_startToken_i, try_startState_i, blockErrors_i; in operator rules also opStack, expectOperator, priority, last, olast, br, ref, node) is declared in an open block before it is used and once in that block; every goto has its label later in the function, each label is set once, no jump enters the scope of a variable past its declaration, and every block that is opened is closed.", "quantifier": "for all grammars, all settings (with or without syntax tree and state management), all first numbers of variables and labels", "why_tests_cant": "A C++ compiler checks this for the grammars it is given. Nested try blocks, handlers with calls, inlined rules and annotations can be combined without end.", "anchors": ["src/kdev-pg-code-gen.cpp: generateParserCall", "src/kdev-pg-code-gen.cpp: CodeGenerator::visitTryCatch", "src/kdev-pg-code-gen.cpp: CodeGenerator::visitAnnotation", "src/kdev-pg-code-gen.cpp: CodeGenerator::visitOperator", "src/kdev-pg-code-gen.cpp: GenerateParserRule"]}
{"id": "C117", "title": "The generated parser returns on every input", "statement": "If the grammar has no left recursion and no loop whose body can be passed without a token where the condition of the loop holds, the parse function of every symbol returns, whatever the tokens are, and never reads past the end of the input. For a grammar decided by one token of lookahead it returns true exactly for the sentences of the start symbol.", "quantifier": "for all such grammars (operators of all kinds, inlined symbols, try/recover and try/rollback included), all finite token series whether sentences or not, all positions, all user conditions and user code", "why_tests_cant": "A parser that hangs does so on some wrong input nobody thought of; tests can only show that it returned on the inputs tried.", "anchors": ["src/kdev-pg-code-gen.cpp: CodeGenerator::visitStar", "src/kdev-pg-code-gen.cpp: CodeGenerator::visitPlus", "src/kdev-pg-code-gen.cpp: CodeGenerator::visitTryCatch", "src/kdev-pg-code-gen.cpp: CodeGenerator::visitOperator", "src/kdev-pg-code-gen.cpp: GenerateParserRule"]}
