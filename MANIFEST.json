{
 "claims": [
  {
   "property": "C01",
   "status": "proved",
   "theorems": [
    "Verif.RtList.C01_sequence",
    "Verif.RtList.C01_snoc_all"
   ],
   "note": "Heap model of ListNode; any program of snoc calls with any handles, several sequences in one pool. int index taken unbounded."
  },
  {
   "property": "C02",
   "status": "partial",
   "theorems": [
    "Verif.MemPool.C02_regions_partial",
    "Verif.MemPool.C02_returns_partial",
    "Verif.MemPool.C02_large_request_never_returns"
   ],
   "note": "Safety for every history; returns whenever the total requested is at most 2^30 bytes; proved that larger requests on a fresh pool never return (int truncation)."
  },
  {
   "property": "C03",
   "status": "proved",
   "theorems": [
    "Verif.LocTable.C03_positions",
    "Verif.LocTable.C03_answer_unique",
    "Verif.LocTable.C03_shrink_undefined"
   ],
   "note": "For newline offsets in increasing order; shrinking below the contents is proved undefined."
  },
  {
   "property": "C04",
   "status": "proved",
   "theorems": [
    "Verif.TokStream.C04_cursor",
    "Verif.TokStream.C04_stored",
    "Verif.TokStream.C04_reads",
    "Verif.TokStream.C04_push_order",
    "Verif.TokStream.C04_replay",
    "Verif.TokStream.C04_eof",
    "Verif.TokStream.C04_reset_keeps_tokens"
   ],
   "note": ""
  },
  {
   "property": "C05",
   "status": "proved",
   "theorems": [
    "Verif.BitArr.C05_contents",
    "Verif.BitArr.C05_equality",
    "Verif.BitArr.C05_order",
    "Verif.BitArr.C05_new_undefined",
    "Verif.BitArr.C05_shrink_stale"
   ],
   "note": "For sizes that are no multiple of 64 (else the constructor is proved undefined) and growing resizes."
  },
  {
   "property": "C06",
   "status": "partial",
   "theorems": [
    "Verif.Utf.C06_utf8_to_ucs4",
    "Verif.Utf.C06_decodes_partial",
    "Verif.Utf.C06_nonchar_lost"
   ],
   "note": "Complete characterisation proved; the claim as stated holds exactly without dropped noncharacters, counterexample proved."
  },
  {
   "property": "C07",
   "status": "proved",
   "theorems": [
    "Verif.Utf.C07_utf16_to_ucs4",
    "Verif.Utf.C07_lone_surrogate"
   ],
   "note": ""
  },
  {
   "property": "C08",
   "status": "partial",
   "theorems": [
    "Verif.Utf.C08_utf8_to_utf16",
    "Verif.Utf.C08_transcodes_partial",
    "Verif.Utf.C08_last_surrogate_lost"
   ],
   "note": "Complete characterisation proved; a final non-BMP character loses its low surrogate (counterexample proved)."
  },
  {
   "property": "C09",
   "status": "proved",
   "theorems": [
    "Verif.CharSet.C09_seq_algebra",
    "Verif.CharSet.C09_seq_inside",
    "Verif.CharSet.C09_unite"
   ],
   "note": "All expressions over the public operations with arguments in the code space (strings without repeated characters)."
  },
  {
   "property": "C10",
   "status": "partial",
   "theorems": [
    "Verif.CharSet.C10_equality_partial",
    "Verif.CharSet.C10_negate_not_canonical"
   ],
   "note": "Proved for all expressions whose complements are tidy (includes every use in the generator); the full claim is false: negate() of a set lacking 0 and containing the last character leaves an empty range."
  },
  {
   "property": "C11",
   "status": "proved",
   "theorems": [
    "Verif.CharSet.C11_table_algebra",
    "Verif.CharSet.C11_table_equality"
   ],
   "note": "Tables never accessed out of bounds, denote the expression, agree with the sequence implementation; == and empty() extensional."
  },
  {
   "property": "C12",
   "status": "proved",
   "theorems": [
    "Verif.CharSet.C12_seq_dispatch",
    "Verif.CharSet.C12_table_dispatch"
   ],
   "note": "Printed code modelled as an if/switch syntax with semantics; all characters below the code space size."
  },
  {
   "property": "C13",
   "status": "proved",
   "theorems": [
    "Verif.Auto.C13_union",
    "Verif.Auto.C13_optional",
    "Verif.Auto.C13_primitive"
   ],
   "note": "Union for all well-formed automata; every constructor and operation yields well-formed automata."
  },
  {
   "property": "C14",
   "status": "proved",
   "theorems": [
    "Verif.Auto.C14_concatenation"
   ],
   "note": "All well-formed automata, all words."
  },
  {
   "property": "C15",
   "status": "partial",
   "theorems": [
    "Verif.Auto.C15_star_exact",
    "Verif.Auto.C15_star_iff",
    "Verif.Auto.C15_star_complete",
    "Verif.Auto.C15_expression_partial",
    "Verif.Auto.C15_star_unsound"
   ],
   "note": "The code's star is exactly (L or start-state loops)*; right iff start loops are in L*. False in general: (a*b)* matches a (proved). Right for every expression whose iterated parts do not begin with another iteration."
  },
  {
   "property": "C16",
   "status": "proved",
   "theorems": [
    "Verif.Auto.C16_determinisation"
   ],
   "note": "For any enumeration order of the hash set; termination, no out-of-bounds access, determinism, language and priority."
  },
  {
   "property": "C17",
   "status": "proved",
   "theorems": [
    "Verif.Auto.C17_combined",
    "Verif.Auto.C17_first_rule_wins"
   ],
   "note": "For nonempty rule lists."
  },
  {
   "property": "C18",
   "status": "proved",
   "theorems": [
    "Verif.Auto.C18_complement",
    "Verif.Auto.C18_intersection",
    "Verif.Auto.C18_difference"
   ],
   "note": "Words range over the code space of the character set."
  },
  {
   "property": "C19",
   "status": "partial",
   "theorems": [
    "Verif.Auto.C19_minimize_partial",
    "Verif.Auto.C19_minimize_wrong",
    "Verif.Auto.C19_minimize_unused_rule",
    "Verif.Auto.C19_minimize_nothing"
   ],
   "note": "Right when every action 0..numActions is useful; false otherwise: three machine-checked counterexamples (?a, a rule written twice, the empty language)."
  },
  {
   "property": "C20",
   "status": "proved",
   "theorems": [
    "Verif.Auto.C20_unarrivable",
    "Verif.Auto.C20_inactive"
   ],
   "note": ""
  },
  {
   "property": "C21",
   "status": "proved",
   "theorems": [
    "Verif.Auto.C21_back",
    "Verif.Auto.C21_round_trip"
   ],
   "note": ""
  },
  {
   "property": "C22",
   "status": "partial",
   "theorems": [
    "Verif.Auto.C22_acceptsEpsilon",
    "Verif.Auto.C22_isEmpty",
    "Verif.Auto.C22_expression_partial",
    "Verif.Auto.C22_isEmpty_wrong"
   ],
   "note": "acceptsEpsilon exact for every automaton; isEmpty exact when no transition carries an empty set, and refuted otherwise; at expression level for expressions without names"
  },
  {
   "property": "C23",
   "status": "partial",
   "theorems": [
    "Verif.Auto.C23_min_tidy",
    "Verif.Auto.C23_min",
    "Verif.Auto.C23_min_untidy",
    "Verif.Auto.C23_max_partial",
    "Verif.Auto.C23_fixed_length",
    "Verif.Auto.C23_max",
    "Verif.Auto.C23_max_hangs",
    "Verif.Auto.C23_max_hangs_concrete",
    "Verif.Auto.C23_max_overreported"
   ],
   "note": "minLength exact for all expressions without names and empty sets; every nonnegative or -1 answer of maxLength exact, unbounded always reported; exact and terminating for useful strict expressions; refuted otherwise (loops for ever, -2 for bounded languages)"
  },
  {
   "property": "C24",
   "status": "partial",
   "theorems": [
    "Verif.Lexer.C24_sequence_lexer",
    "Verif.Lexer.C24_table_lexer",
    "Verif.Lexer.C24_nextAction",
    "Verif.Lexer.C24_lexer_partial"
   ],
   "note": "State machine, both kinds of dispatch and nextAction: proved for every well-formed automaton. From rule lists to the lexer: proved when minimisation is right (C19); the rest is false because of C19."
  },
  {
   "property": "C25",
   "status": "partial",
   "theorems": [
    "Verif.Enc.C25_utf8",
    "Verif.Enc.C25_ucs4_partial",
    "Verif.Enc.C25_ucs2_partial",
    "Verif.Enc.C25_ascii",
    "Verif.Enc.C25_latin1_iff",
    "Verif.Enc.C25_utf16_iff",
    "Verif.Enc.C25_past_end"
   ],
   "note": "Proved for UTF-8 and ASCII; UCS-2/UCS-4 except code points the iterator drops; Latin-1 right iff the word is ASCII; UTF-16 right iff the word is in the BMP."
  },
  {
   "property": "C26",
   "status": "partial",
   "theorems": [
    "Verif.Enc.C26_range",
    "Verif.Enc.C26_character",
    "Verif.Enc.C26_ucs4_partial",
    "Verif.Enc.C26_ucs4_character",
    "Verif.Enc.C26_ucs4_wrong"
   ],
   "note": "Proved for ASCII, Latin-1, UCS-2. UCS-4 is not cut at 0x110000: proved for bounds within Unicode, counterexample beyond."
  },
  {
   "property": "C27",
   "status": "partial",
   "theorems": [
    "Verif.Enc.C27_range_iff",
    "Verif.Enc.C27_character",
    "Verif.Enc.C27_range_partial",
    "Verif.Enc.C27_wrong"
   ],
   "note": "The claim fails for many bounds. C27_range_iff: for all b<e<=0x110000 the automaton accepts exactly the encodings iff the bounds satisfy the explicit condition Utf8Ok; C27_wrong gives concrete counterexamples; single characters are right except four noncharacters. Surrogates are not excluded by the code."
  },
  {
   "property": "C28",
   "status": "partial",
   "theorems": [
    "Verif.Enc.C28_range_iff",
    "Verif.Enc.C28_range_partial",
    "Verif.Enc.C28_character",
    "Verif.Enc.C28_wrong"
   ],
   "note": "The claim fails for some bounds outside the BMP. C28_range_iff: for all bounds the automaton accepts exactly the encodings iff the explicit condition Utf16Ok holds; C28_wrong gives counterexamples."
  },
  {
   "property": "C29",
   "status": "partial",
   "theorems": [
    "Verif.Enc.C29_fixed",
    "Verif.Enc.C29_utf16_partial",
    "Verif.Enc.C29_utf16_wrong",
    "Verif.Enc.C29_utf8_lang",
    "Verif.Enc.C29_utf8_partial",
    "Verif.Enc.C29_utf8_wrong"
   ],
   "note": "Proved for fixed-width encodings. UTF-16: only the BMP is matched (exact language proved). UTF-8: misses U+007F and accepts ill-formed sequences (exact language proved)."
  },
  {
   "property": "C30",
   "status": "partial",
   "theorems": [
    "Verif.Text.C30_step",
    "Verif.Text.C30_names",
    "Verif.Text.C30_name_iff",
    "Verif.Text.C30_modes",
    "Verif.Text.C30_directives_partial",
    "Verif.Text.C30_wrong"
   ],
   "note": "The claim fails: %input_encoding is right iff the current type is one of the first four. Proved for one %input_encoding before any %table_lexer."
  },
  {
   "property": "C31",
   "status": "partial",
   "theorems": [
    "Verif.Text.C31_unescaped_partial",
    "Verif.Text.C31_every_text",
    "Verif.Text.C31_plain",
    "Verif.Text.C31_trailing",
    "Verif.Text.C31_utf8_wrong",
    "Verif.Text.C31_wraps"
   ],
   "note": "Proved for all texts made of escapes and Latin-1 characters with numbers in Unicode; non-ASCII source text (UTF-8) is misread, numbers beyond 32 bits wrap."
  },
  {
   "property": "C32",
   "status": "proved",
   "theorems": [
    "Verif.Grammar.C32_start_symbols",
    "Verif.Grammar.C32_same_symbol",
    "Verif.Grammar.C32_terminal_description",
    "Verif.Grammar.C32_same_terminal",
    "Verif.Grammar.C32_kinds"
   ],
   "note": "all sequences of calls of pushSymbol, pushTerminal, terminal, push; names as keys with decidable equality"
  },
  {
   "property": "C33",
   "status": "proved",
   "theorems": [
    "Verif.Grammar.C33_search_rule",
    "Verif.Grammar.C33_first_of_several",
    "Verif.Grammar.C33_needs_sorting"
   ],
   "note": "lower_bound on the list sorted by main; for several rules of a symbol the first one is found; unsorted lists may miss rules"
  },
  {
   "property": "C34",
   "status": "partial",
   "theorems": [
    "Verif.Grammar.C34_nullable_partial",
    "Verif.Grammar.C34_exact_partial",
    "Verif.Grammar.C34_fails_shared_token",
    "Verif.Grammar.C34_fails_bare_action"
   ],
   "note": "exact only if no item starts both sides of a choice and no symbol is empty by bare actions alone; the code is wrong otherwise, with witnesses"
  },
  {
   "property": "C35",
   "status": "partial",
   "theorems": [
    "Verif.Grammar.C35_tokens_partial",
    "Verif.Grammar.C35_symbols_partial",
    "Verif.Grammar.C35_empty_partial",
    "Verif.Grammar.C35_fails_nested_empty",
    "Verif.Grammar.C35_fails_undeclared"
   ],
   "note": "tokens for all items of the grammar, the end marker for symbols; the code omits the end marker for nested items and misses undeclared tokens (witnesses)"
  },
  {
   "property": "C36",
   "status": "partial",
   "theorems": [
    "Verif.Grammar.C36_sound_partial",
    "Verif.Grammar.C36_fails_shared_operator"
   ],
   "note": "if no item starts both sides of a choice; a token used as prefix and binary operator puts wrong tokens into FIRST (witness)"
  },
  {
   "property": "C37",
   "status": "partial",
   "theorems": [
    "Verif.Grammar.C37_follow_partial",
    "Verif.Grammar.C37_fails_bare_action"
   ],
   "note": "For grammars without operator items with an empty base and without symbols that are empty by bare actions only (with the latter it is false: witness). Tokens must be declared (globalSystem.terminals)."
  },
  {
   "property": "C38",
   "status": "proved",
   "theorems": [
    "Verif.Grammar.C38_first",
    "Verif.Grammar.C38_follow"
   ],
   "note": "recursion and rounds bounded for every well-formed grammar"
  },
  {
   "property": "C39",
   "status": "partial",
   "theorems": [
    "Verif.Check.C39_alternatives_partial",
    "Verif.Check.C39_rules_partial",
    "Verif.Check.C39_real_partial",
    "Verif.Check.C39_fails_guarded",
    "Verif.Check.C39_fails_spurious"
   ],
   "note": "Every token common to the FIRST sets of two alternatives (or of two rules of one symbol) without guard is listed, and under the conditions of C35 (no early bare actions, lead condition) listed tokens are real conflicts. Fails: a condition at the first alternative hides a conflict the generated code ignores the condition for; conflicts of the same alternative with itself."
  },
  {
   "property": "C40",
   "status": "partial",
   "theorems": [
    "Verif.Check.C40_star_partial",
    "Verif.Check.C40_nullable_partial",
    "Verif.Check.C40_ends_partial",
    "Verif.Check.C40_real_partial",
    "Verif.Check.C40_fails_optional",
    "Verif.Check.C40_fails_symbol",
    "Verif.Check.C40_fails_plus",
    "Verif.Check.C40_fails_bare_action"
   ],
   "note": "Repetitions and nullable alternatives met on the way through a rule are reported; four witnesses where a real conflict is not (options as written, nullable symbols, plus, bare action last)."
  },
  {
   "property": "C41",
   "status": "partial",
   "theorems": [
    "Verif.Check.C41_symbols_partial",
    "Verif.Check.C41_defined_accepted",
    "Verif.Check.C41_tokens_partial",
    "Verif.Check.C41_empty_operator_partial",
    "Verif.Check.C41_empty_first_partial",
    "Verif.Main.C41_errors_partial",
    "Verif.Main.C41_refused_partial",
    "Verif.Main.C41_checks_end",
    "Verif.Main.C41_fails_operator",
    "Verif.Main.C41_fails_eof",
    "Verif.Main.C41_fails_declaration"
   ],
   "note": "The errors are counted exactly for rules that are not acceptable (inlining cycles, undefined symbols, undeclared tokens, empty operands, unproductive rules). Witnesses: operator tokens and base symbols, EOF, second declarations are not checked."
  },
  {
   "property": "C42",
   "status": "proved",
   "theorems": [
    "Verif.Check.C42_check_ends",
    "Verif.Check.C42_refused_iff_cyclic",
    "Verif.Check.C42_generation_ends",
    "Verif.Check.C42_fails_knot"
   ],
   "note": "The check ends, reports no error exactly if no symbol is inlined in itself and no operator expression is inlined, and then generating all parse functions ends (OpsLoop: every operator item has an operator after its first operand; without one the emitted text is not valid). C42_fails_knot: after reported errors the next checker may recurse for ever, so the program crashes instead of printing the summary."
  },
  {
   "property": "C43",
   "status": "proved",
   "theorems": [
    "Verif.Grammar.C43_nodes",
    "Verif.Grammar.C43_plus",
    "Verif.Grammar.C43_star",
    "Verif.Grammar.C43_operator",
    "Verif.Grammar.C43_rewriting",
    "Verif.Grammar.C43_well_formed"
   ],
   "note": "Rewriting keeps what every item derives, the made nodes derive the same, and the rewritten grammar is well-formed (the hypothesis Wf of C34-C38, C62) if the parsed one has what the parser guarantees."
  },
  {
   "property": "C44",
   "status": "proved",
   "theorems": [
    "Verif.Tables.C44_numbering",
    "Verif.Tables.C44_fails_size"
   ],
   "note": "Each declared token and EOF has exactly one number, numbers differ, exactly EOF has 1000; for every list of declarations and every key order. TokenTypeSize can collide with a token (fails theorem); nothing uses it."
  },
  {
   "property": "C45",
   "status": "partial",
   "theorems": [
    "Verif.Tables.C45_kinds",
    "Verif.Tables.C45_table",
    "Verif.Tables.C45_switch",
    "Verif.Tables.C45_fails_names"
   ],
   "note": "Table and switch call the function of the kind, for every list of symbols whose enumerator names are distinct; names of operator structs can coincide with those of other symbols (fails theorem)."
  },
  {
   "property": "C46",
   "status": "partial",
   "theorems": [
    "Verif.Tables.C46_all",
    "Verif.Tables.C46_order_partial",
    "Verif.Tables.C46_fails_chain"
   ],
   "note": "Bases without a base of their own come first, for every iteration order of the set; with chains of bases the order depends on the hash order (fails theorem), because mGenerated never receives the names of the structs."
  },
  {
   "property": "C47",
   "status": "partial",
   "theorems": [
    "Verif.Gen.C47_accepts_sentences_partial",
    "Verif.Gen.C47_fails_inlined",
    "Verif.Gen.C47_fails_ternary"
   ],
   "note": "Proved for every well-formed grammar without inlined non-terminals and ternary operators, for arbitrary FIRST/FOLLOW sets, user conditions and user code. With inlined non-terminals or ternary operators the claim is false of the code: witnesses proved."
  },
  {
   "property": "C48",
   "status": "partial",
   "theorems": [
    "Verif.Gen.C48_accepts_partial",
    "Verif.Gen.C48_start_partial",
    "Verif.Check.C48_no_report_partial",
    "Verif.Gen.C48_fails_nullable",
    "Verif.Gen.C48_fails_empty_first",
    "Verif.Gen.C48_fails_empty_rule",
    "Verif.Gen.C48_fails_paren",
    "Verif.Check.C48_fails_plus",
    "Verif.Check.C48_fails_optional",
    "Verif.Check.C48_fails_symbol",
    "Verif.Check.C48_fails_no_report"
   ],
   "note": "Proved for grammars decided by one token of lookahead (LL1 in Gen/Spec.lean): any sentence of a symbol followed by a FOLLOW token is accepted and consumed; code generation terminates. C48_no_report_partial: it is enough that the two conflict checkers report nothing and that the grammar meets the conditions they do not look at (Unchecked in Check/ParserProps.lean). Missing: inlined non-terminals, ternary operators, catch parts, user conditions that do not hold. The C48_fails_ theorems are grammars without any report whose parsers refuse a sentence."
  },
  {
   "property": "C49",
   "status": "proved",
   "theorems": [
    "Verif.Gen.C49_rollback"
   ],
   "note": "For the code emitted for every try/rollback item; grammars as the parser and the inline check leave them (Tame: operator items are whole rules, inlined symbols are neither start symbols nor operator expressions), inlined non-terminals and ternary operators included."
  },
  {
   "property": "C50",
   "status": "partial",
   "theorems": [
    "Verif.Ops.C50_determined",
    "Verif.Ops.C50_tree_partial",
    "Verif.Ops.C50_run_partial",
    "Verif.Ops.C50_fails_postfix",
    "Verif.Ops.C50_fails_ternary",
    "Verif.Ops.C50_fails_chain"
   ],
   "note": "Proved for all expressions without ternary operators (C50_run_partial) and for all expressions with them where no right operand starts with a ternary operator's first operand and no third operand with a postfix operator's (C50_tree_partial); the nodes are exactly those of the one expression in accordance with priority and associativity. Outside of this the code is wrong: C50_fails_postfix, C50_fails_ternary, C50_fails_chain."
  },
  {
   "property": "C51",
   "status": "partial",
   "theorems": [
    "Verif.Clone.C51_language",
    "Verif.Clone.C51_copy_partial",
    "Verif.Clone.C51_total_partial",
    "Verif.Clone.C51_separated",
    "Verif.Clone.C51_fails_condition",
    "Verif.Clone.C51_fails_bare_action"
   ],
   "note": "Copies derive the same and are fresh; item @ sep derives exactly item (sep item)*. Conditions are lost in copies, and copying a bare action takes the top of an empty stack (fails theorems)."
  },
  {
   "property": "C52",
   "status": "proved",
   "theorems": [
    "Verif.Alloc.C52_disjoint",
    "Verif.Alloc.C52_contains",
    "Verif.Alloc.C52_large_request_overflows",
    "Verif.Alloc.C52_contains_before_allocation"
   ],
   "note": "contains() needs one earlier allocation (otherwise proved to dereference null)."
  },
  {
   "property": "C53",
   "status": "partial",
   "theorems": [
    "Verif.Main.C53_about",
    "Verif.Main.C53_success",
    "Verif.Main.C53_written",
    "Verif.Main.C53_unread",
    "Verif.Main.C53_refused",
    "Verif.Main.C53_order_partial",
    "Verif.Main.C53_style",
    "Verif.Main.C53_ends",
    "Verif.Main.C53_fails_order",
    "Verif.Main.C53_fails_no_name",
    "Verif.Main.C53_fails_empty_name",
    "Verif.Main.C53_fails_automata"
   ],
   "note": "Exact exit code and files for all argument lists and grammars. The claim as stated fails: the order matters for clashing options, output without a name is a failure, --automata --no-lexer crashes."
  },
  {
   "property": "C54",
   "status": "partial",
   "theorems": [
    "Verif.Lexer.C54_lookahead",
    "Verif.Lexer.C54_ignored",
    "Verif.Lexer.C54_decision_partial",
    "Verif.Lexer.C54_position",
    "Verif.Lexer.C54_decoding_wrong"
   ],
   "note": "exact for lexers over code units; the decision is exact for the expressions of C23_max; refuted for iterators that decode (steps back by code units instead of characters)"
  },
  {
   "property": "C55",
   "status": "proved",
   "theorems": [
    "Verif.RtList.C55_visit_sequence"
   ],
   "note": "The emitted do/while loop on the ring."
  },
  {
   "property": "C56",
   "status": "proved",
   "theorems": [
    "Verif.Utf.C56_utf8_to_ucs2",
    "Verif.Utf.C56_utf8_to_ascii"
   ],
   "note": ""
  },
  {
   "property": "C57",
   "status": "partial",
   "theorems": [
    "Verif.Lexer.C57_step_back_partial",
    "Verif.Lexer.C57_iterators",
    "Verif.Lexer.C57_stale_surrogate"
   ],
   "note": "Proved for all iterators but QUtf8ToUtf16Iterator, for which it is false (machine-checked counterexample)."
  },
  {
   "property": "C58",
   "status": "proved",
   "theorems": [
    "Verif.Lexer.C58_barrier"
   ],
   "note": "barrier of known fixed length, encodings with one code unit per character"
  },
  {
   "property": "C59",
   "status": "partial",
   "theorems": [
    "Verif.Enc.C59_fixed",
    "Verif.Enc.C59_ucs4",
    "Verif.Enc.C59_utf8_partial",
    "Verif.Enc.C59_utf16_partial"
   ],
   "note": "Proved for fixed-width encodings; for UTF-8 and UTF-16 except the characters for which ranges are wrong (C27, C28)."
  },
  {
   "property": "C60",
   "status": "proved",
   "theorems": [
    "Verif.Text.C60_bounds"
   ],
   "note": "For all pairs of scalar values."
  },
  {
   "property": "C61",
   "status": "proved",
   "theorems": [
    "Verif.Text.C61_number"
   ],
   "note": "For all digit spellings of numbers below 2^28."
  },
  {
   "property": "C62",
   "status": "partial",
   "theorems": [
    "Verif.Grammar.C62_sound_partial",
    "Verif.Grammar.C62_fails_shared_token"
   ],
   "note": "For grammars where no item starts both sides of a choice; without this it is false (witness)."
  },
  {
   "property": "C63",
   "status": "proved",
   "theorems": [
    "Verif.Gen.C63_recover",
    "Verif.Gen.C63_fails_silent"
   ],
   "note": "For the code emitted for every try/recover item, under the same conditions as C49. Besides: failures directly in the body are not reported (C63_fails_silent)."
  },
  {
   "property": "C64",
   "status": "partial",
   "theorems": [
    "Verif.Gen.C64_blocking_partial",
    "Verif.Gen.C64_fails_operator"
   ],
   "note": "Balance and position for all grammars as the parser and the inline check leave them; silence while blocked for grammars without operator items; with operator items it is false of the code: witness proved."
  },
  {
   "property": "C65",
   "status": "proved",
   "theorems": [
    "Verif.Tables.C65_dispatch",
    "Verif.Tables.C65_numbers"
   ],
   "note": "All kinds by cases."
  },
  {
   "property": "C66",
   "status": "partial",
   "theorems": [
    "Verif.Ops.C66_span_partial",
    "Verif.Ops.C50_tree_partial",
    "Verif.Ops.C50_run_partial"
   ],
   "note": "Spans of the returned node for all expressions without ternary operators; spans of all operands as part of Shows in C50_run_partial and C50_tree_partial. With ternary operators as far as C50_tree_partial."
  },
  {
   "property": "C67",
   "status": "partial",
   "theorems": [
    "Verif.GLex.C67_code_partial",
    "Verif.GLex.C67_fails_colon"
   ],
   "note": "Holds for every code that does not end with a colon (and, for the position, as long as neither the separator of lexer rules with line ends nor a rejected byte came before). Missing: code ending with a colon, for which the scanner overruns the end (C67_fails_colon)."
  },
  {
   "property": "C68",
   "status": "partial",
   "theorems": [
    "Verif.GLex.C68_arguments_partial",
    "Verif.GLex.C68_fails_nested",
    "Verif.GLex.C68_fails_column"
   ],
   "note": "Proved for argument texts without brackets outside of string literals. Nested brackets lose everything before the last closing one (C68_fails_nested); the column in the directive is that of the last code block (C68_fails_column)."
  },
  {
   "property": "C69",
   "status": "partial",
   "theorems": [
    "Verif.GLex.C69_line_partial",
    "Verif.GLex.C69_column_partial",
    "Verif.GLex.C69_fails_line",
    "Verif.GLex.C69_fails_column",
    "Verif.GLex.C69_fails_reject"
   ],
   "note": "Lines for files without bare carriage returns; columns as long as neither the multi-line separator nor REJECT has been used. The negations show each restriction is needed."
  },
  {
   "property": "C70",
   "status": "partial",
   "theorems": [
    "Verif.GLex.C70_string_partial",
    "Verif.GLex.C70_fails_backslash"
   ],
   "note": "Proved for literals that do not end with a backslash. Missing: a literal ending with an escaped backslash, which runs on to a later quote (C70_fails_backslash)."
  },
  {
   "property": "C71",
   "status": "proved",
   "theorems": [
    "Verif.GLex.C71_word"
   ],
   "note": "Which token each word becomes in the start condition INITIAL, for all words and all texts behind them."
  },
  {
   "property": "C72",
   "status": "partial",
   "theorems": [
    "Verif.GLex.C72_type_partial",
    "Verif.GLex.C72_fails_blanks",
    "Verif.GLex.C72_fails_short"
   ],
   "note": "Proved for types of two bytes or more without blanks before the semicolon. Blanks there stay (C72_fails_blanks), shorter types read before the buffer (C72_fails_short): both for all texts."
  },
  {
   "property": "C73",
   "status": "partial",
   "theorems": [
    "Verif.GLex.C73_yylex_terminates",
    "Verif.GLex.C73_scan_terminates",
    "Verif.GLex.C73_undefined",
    "Verif.GLex.C73_nothing_lost_partial",
    "Verif.GLex.C73_fails_lost",
    "Verif.GLex.C73_fails_header",
    "Verif.GLex.C73_accepted_complete"
   ],
   "note": "Termination and the only cause of undefined behaviour are proved in full. That nothing is lost holds in INITIAL, CODE, RULE_ARGUMENTS and RULE_PARAMETERS_VARNAME; in the other conditions unknown bytes vanish (C73_fails_lost, C73_fails_header)."
  },
  {
   "property": "C74",
   "status": "partial",
   "theorems": [
    "Verif.Vars.C74_members_partial",
    "Verif.Vars.C74_fails_mixed",
    "Verif.Vars.C74_fails_suffix",
    "Verif.Vars.C74_fails_rules",
    "Verif.Vars.C74_fails_operator"
   ],
   "note": "Holds for symbols with one rule that is no operator rule, when equal names have equal types and no name is another one with the suffix Sequence; the code violates the claim in each of the other cases (four negations)."
  },
  {
   "property": "C75",
   "status": "partial",
   "theorems": [
    "Verif.Vars.C75_locals_partial",
    "Verif.Vars.C75_fails_rules"
   ],
   "note": "Holds for symbols with one rule; for two rules that annotate with the same temporary the second block lacks the declaration (negation)."
  },
  {
   "property": "C76",
   "status": "partial",
   "theorems": [
    "Verif.Vars.C76_initialised_partial",
    "Verif.Vars.C76_fails_temporary",
    "Verif.Vars.C76_fails_declared",
    "Verif.Vars.C76_fails_inlined"
   ],
   "note": "Every annotated plain token member of the first rule is set; the code also sets temporaries as members, and does not set members declared in brackets or further declarations of inlined rules (negations)."
  },
  {
   "property": "C77",
   "status": "partial",
   "theorems": [
    "Verif.Vars.C77_recursive_partial",
    "Verif.Vars.C77_fails_argument"
   ],
   "note": "The call fits exactly if the rule declares no argument; otherwise it has too few arguments (negation)."
  },
  {
   "property": "C78",
   "status": "partial",
   "theorems": [
    "Verif.Vars.C78_tree_partial",
    "Verif.Vars.C78_fails_rollback"
   ],
   "note": "For all executions of grammars whose try bodies have no annotations; operator rules are in C50; inlined rules may be passed over (C47). With annotations in a try body the members of the abandoned attempt remain (negation)."
  },
  {
   "property": "C79",
   "status": "partial",
   "theorems": [
    "Verif.Vars.C79_nesting_partial",
    "Verif.Vars.C79_fails_rollback"
   ],
   "note": "As C78: for all nodes at any depth; negation for annotations in a try body."
  },
  {
   "property": "C80",
   "status": "partial",
   "theorems": [
    "Verif.Visit.C80_visits_partial",
    "Verif.Visit.C80_members_partial",
    "Verif.Visit.C80_operands",
    "Verif.Visit.C80_fails_operator"
   ],
   "note": "Every tree any parser function returns, every node once and parents first; every node member of a structure; the operands of operator nodes. Missing: members declared in brackets of operator rules (not visited: fails theorem), symbols whose alternatives disagree about a member."
  },
  {
   "property": "C81",
   "status": "partial",
   "theorems": [
    "Verif.Visit.C81_named_partial",
    "Verif.Visit.C81_operator",
    "Verif.Visit.C81_fails_second"
   ],
   "note": "A named parameter is used, for all grammars; a used one is named if node members are declared first in brackets, and always for operators; fails otherwise."
  },
  {
   "property": "C82",
   "status": "partial",
   "theorems": [
    "Verif.Visit.C82_debug_partial"
   ],
   "note": "Every tree any parser function returns: all lines, labels and indentations. Missing: nodes of operator rules; the text in brackets."
  },
  {
   "property": "C83",
   "status": "proved",
   "theorems": [
    "Verif.Read.C83_tokens",
    "Verif.Read.C83_order",
    "Verif.Read.C83_longest"
   ],
   "note": "For lexers of rules as the parser of grammar files makes them, including lookahead, %continue and changes of rule sets; C83_longest connects the matches with the automata (C24)."
  },
  {
   "property": "C84",
   "status": "proved",
   "theorems": [
    "Verif.Read.C84_same",
    "Verif.Read.C84_reads"
   ],
   "note": "For all histories of read and rewind; clear() is left out."
  },
  {
   "property": "C85",
   "status": "partial",
   "theorems": [
    "Verif.Read.C85_calls_partial",
    "Verif.Read.C85_fails_twice",
    "Verif.Read.C85_fails_start"
   ],
   "note": "Holds for arbitrary user code with one change per action; fails for two changes in one action, and the start rule set is left without having been entered."
  },
  {
   "property": "C86",
   "status": "partial",
   "theorems": [
    "Verif.Read.C86_length_partial",
    "Verif.Read.C86_fails_length"
   ],
   "note": "The macro is the distance from the beginning of the input: right exactly for the first lexeme."
  },
  {
   "property": "C87",
   "status": "partial",
   "theorems": [
    "Verif.Read.C87_returns_partial",
    "Verif.Read.C87_automata_partial",
    "Verif.Read.C87_fails_empty",
    "Verif.Read.C87_fails_tokens"
   ],
   "note": "Holds if no rule matches the empty word (or only its lookahead); otherwise read() never returns, or there is an endless row of empty tokens."
  },
  {
   "property": "C88",
   "status": "proved",
   "theorems": [
    "Verif.Syntax.C88_one_reading",
    "Verif.Syntax.C88_nothing_lost",
    "Verif.Syntax.C88_descent",
    "Verif.Syntax.C88_grammar_ambiguous",
    "Verif.Syntax.C88_keywords"
   ],
   "note": "For the productions with Bison's preference for shifting; C88_grammar_ambiguous shows that without the preference readings differ."
  },
  {
   "property": "C89",
   "status": "partial",
   "theorems": [
    "Verif.Syntax.C89_code",
    "Verif.Syntax.C89_repetition",
    "Verif.Syntax.C89_separator",
    "Verif.Syntax.C89_condition",
    "Verif.Syntax.C89_parentheses",
    "Verif.Syntax.C89_separator_sentences_partial",
    "Verif.Syntax.C89_fails_separator_code"
   ],
   "note": "Binding proved in full; the sentences of a @ b fail if an operand has a piece of code as an item (C89_fails_separator_code)."
  },
  {
   "property": "C90",
   "status": "partial",
   "theorems": [
    "Verif.Syntax.C90_printed_partial",
    "Verif.Syntax.C90_written",
    "Verif.Syntax.C90_fails_code"
   ],
   "note": "Fails for rules with parts that consist of code alone (C90_fails_code); holds for all others, in particular all written without code."
  },
  {
   "property": "C91",
   "status": "proved",
   "theorems": [
    "Verif.LexSyn.C91_one_reading",
    "Verif.LexSyn.C91_nothing_lost",
    "Verif.LexSyn.C91_ambiguous",
    "Verif.LexSyn.C91_section",
    "Verif.LexSyn.C91_empty_rule",
    "Verif.LexSyn.C91_descent"
   ],
   "note": "All token lists. That Bison's tables realise the choices is trusted."
  },
  {
   "property": "C92",
   "status": "proved",
   "theorems": [
    "Verif.LexSyn.C92_written",
    "Verif.LexSyn.C92_prefix",
    "Verif.LexSyn.C92_juxtaposition",
    "Verif.LexSyn.C92_no_complement"
   ],
   "note": "All expressions and contexts."
  },
  {
   "property": "C93",
   "status": "partial",
   "theorems": [
    "Verif.LexSyn.C93_names",
    "Verif.LexSyn.C93_known",
    "Verif.LexSyn.C93_file_partial",
    "Verif.LexSyn.C93_ascii",
    "Verif.LexSyn.C93_latin1_partial",
    "Verif.LexSyn.C93_ucs2_partial",
    "Verif.LexSyn.C93_ucs4_partial",
    "Verif.LexSyn.C93_utf8_partial",
    "Verif.LexSyn.C93_utf16_partial",
    "Verif.LexSyn.C93_fails_star"
   ],
   "note": "Whole files; names and sharing without condition. Missing: lookaheads and barriers (C54, C58), iterations that begin with an iteration (negation proved), texts for which the encodings are wrong (C25-C29)."
  },
  {
   "property": "C94",
   "status": "proved",
   "theorems": [
    "Verif.LexSyn.C94_tables",
    "Verif.LexSyn.C94_numbers"
   ],
   "note": "All files that are read without error."
  },
  {
   "property": "C95",
   "status": "partial",
   "theorems": [
    "Verif.Unidata.C95_line",
    "Verif.Unidata.C95_load",
    "Verif.Unidata.C95_class",
    "Verif.Unidata.C95_fixed",
    "Verif.Unidata.C95_ucs4",
    "Verif.Unidata.C95_utf8_partial",
    "Verif.Unidata.C95_utf16_partial",
    "Verif.Unidata.C95_file_partial",
    "Verif.Unidata.C95_fails_dots",
    "Verif.Unidata.C95_fails_utf16",
    "Verif.Unidata.C95_fails_utf8",
    "Verif.Unidata.C95_fails_script",
    "Verif.Unidata.C95_fails_named"
   ],
   "note": "Proved: reading of lines, names and ranges of all tables in the format; full for ASCII, Latin-1, UCS-2, UCS-4. Missing: UTF-8 and UTF-16 for ranges where the automata are wrong (negations C95_fails_utf8 with Han, C95_fails_utf16 with Deseret); in files, what C93 lacks. Negations: classes in named sections, merging of blocks and scripts."
  },
  {
   "property": "C96",
   "status": "partial",
   "theorems": [
    "Verif.LexFile.C96_lexer_partial",
    "Verif.LexFile.C96_picks",
    "Verif.LexFile.C96_unique",
    "Verif.LexFile.C96_ascii",
    "Verif.LexFile.C96_latin1_partial",
    "Verif.LexFile.C96_ucs2_partial",
    "Verif.LexFile.C96_ucs4_partial"
   ],
   "note": "Whole way from lexer sections to tokens, with lookaheads, barriers, rule sets and names. Missing: user code in actions other than a change of the rule set; failure actions that do something; decoding iterators; names, and collections or ranges in UTF-8/UTF-16, inside lookaheads and barriers; what is missing in C93."
  },
  {
   "property": "C97",
   "status": "partial",
   "theorems": [
    "Verif.Whole.C97_simulates",
    "Verif.Whole.C97_accepted_partial",
    "Verif.Whole.C97_accepts_partial",
    "Verif.Whole.C97_exactly_partial",
    "Verif.Whole.C97_file_partial",
    "Verif.Whole.C97_all_text",
    "Verif.Whole.C97_fails_rest"
   ],
   "note": "The simulation and the covering of the text are complete for lexers of the form Made. Exact acceptance is for LL(1) grammars without try, with the conditions of C47 and C48 (both are false without them) and lexers as in C96; if no rule matches a place and the failure action does nothing, the rest of the text is ignored (C97_fails_rest)."
  },
  {
   "property": "C98",
   "status": "proved",
   "theorems": [
    "Verif.Whole.C98_ahead",
    "Verif.Whole.C98_sync",
    "Verif.Whole.C98_transparent"
   ],
   "note": "For lexers of the form Made whose rules take no empty text."
  },
  {
   "property": "C99",
   "status": "partial",
   "theorems": [
    "Verif.Front.C99_runs",
    "Verif.Front.C99_well_formed",
    "Verif.Front.C99_sentences",
    "Verif.Front.C99_terminals",
    "Verif.Front.C99_start",
    "Verif.Front.C99_fails_at"
   ],
   "note": "Holds of all rules without bare code below @ (with it the actions follow an invalid pointer, C99_fails_at), operator rules included if their base is a symbol and no postfix operator has priority 0 without associativity."
  },
  {
   "property": "C100",
   "status": "partial",
   "theorems": [
    "Verif.Front.C100_accepted_partial",
    "Verif.Front.C100_exactly_partial",
    "Verif.Front.C100_file_partial",
    "Verif.Front.C100_numbers",
    "Verif.Front.C100_written_partial",
    "Verif.Front.C100_written_file_partial"
   ],
   "note": "Missing: inlined symbols, ternary operators, grammars for which one token of lookahead does not decide (for those the generated parser refuses sentences, C48), and what C96 lists. The written theorems have all conditions on the rules as written."
  },
  {
   "property": "C101",
   "status": "proved",
   "theorems": [
    "Verif.Top.C101_tokens",
    "Verif.Top.C101_bytes",
    "Verif.Top.C101_fuel",
    "Verif.Top.C101_code",
    "Verif.Top.C101_signs"
   ],
   "note": "operator rules included"
  },
  {
   "property": "C102",
   "status": "partial",
   "theorems": [
    "Verif.Top.C102_closed",
    "Verif.Top.C102_fails_empty",
    "Verif.Top.C102_fails_code"
   ],
   "note": "does not hold: sections that are empty or end with %fail, %enter or %leave cannot be written; the theorems give the exact form of the others as a necessary condition"
  },
  {
   "property": "C103",
   "status": "proved",
   "theorems": [
    "Verif.Top.C103_settings",
    "Verif.Top.C103_goes_on",
    "Verif.Top.C103_type"
   ],
   "note": "the values of the settings, not their use by the generators"
  },
  {
   "property": "C104",
   "status": "partial",
   "theorems": [
    "Verif.Top.C104_accepted_partial",
    "Verif.Top.C104_written_partial"
   ],
   "note": "for lexer sections as in C96 and rules as in C100; the fields K, U, num describe the generated parser and the user's code"
  },
  {
   "property": "C105",
   "status": "partial",
   "theorems": [
    "Verif.Out.C105_headers_partial",
    "Verif.Out.C105_sources_partial",
    "Verif.Out.C105_fails_digit",
    "Verif.Out.C105_fails_lexer_guard",
    "Verif.Out.C105_fails_two_languages",
    "Verif.Out.C105_fails_tokentext",
    "Verif.Out.C105_fails_debug",
    "Verif.Out.C105_fails_operators",
    "Verif.Out.C105_balanced"
   ],
   "note": "For all orders of includes and all generated sources, with names fit for macros; the failing cases are proved to fail."
  },
  {
   "property": "C106",
   "status": "partial",
   "theorems": [
    "Verif.Out.C106_headers_partial",
    "Verif.Out.C106_sources_partial",
    "Verif.Out.C106_fails_decl"
   ],
   "note": "All but the code at the beginning, which parser.cpp sees twice."
  },
  {
   "property": "C107",
   "status": "partial",
   "theorems": [
    "Verif.Out.C107_left"
   ],
   "note": "Exactly seven macros are left, for all settings."
  },
  {
   "property": "C108",
   "status": "proved",
   "theorems": [
    "Verif.Out.C108_written",
    "Verif.Out.C108_run",
    "Verif.Out.C108_fails_lexer_only",
    "Verif.Out.C108_fails_no_lexer",
    "Verif.Out.C108_fails_no_ast"
   ],
   "note": "Exact condition, for the lists of files and for runs of the program."
  },
  {
   "property": "C109",
   "status": "partial",
   "theorems": [
    "Verif.Literal.C109_texts",
    "Verif.Literal.C109_file",
    "Verif.Literal.C109_message_partial",
    "Verif.Literal.C109_fails_message",
    "Verif.Literal.C109_fails_code",
    "Verif.Literal.C109_undeclared"
   ],
   "note": "tokenText for all files; messages exactly for descriptions without quote and backslash."
  },
  {
   "property": "C110",
   "status": "partial",
   "theorems": [
    "Verif.OpRule.C110_record",
    "Verif.OpRule.C110_runs",
    "Verif.OpRule.C110_priority_partial",
    "Verif.OpRule.C110_fails_octal",
    "Verif.OpRule.C110_fails_large",
    "Verif.OpRule.C110_fails_wrap"
   ],
   "note": "records hold of all declarations; numbers with leading zeros or from 2^32 - 2 on are not taken as written"
  },
  {
   "property": "C111",
   "status": "partial",
   "theorems": [
    "Verif.OpRule.C111_rule",
    "Verif.OpRule.C111_operator_partial",
    "Verif.OpRule.C111_fails_or",
    "Verif.OpRule.C111_assoc_partial",
    "Verif.OpRule.C111_fails_assoc"
   ],
   "note": "rules: all expressions; operators: conditions without || ? , outside of brackets, with others the claim is false"
  },
  {
   "property": "C112",
   "status": "partial",
   "theorems": [
    "Verif.OpRule.C112_base",
    "Verif.OpRule.C112_operand_partial",
    "Verif.OpRule.C112_fails_two"
   ],
   "note": "false for later operator rules with the same base, or with another class given by %ast_base"
  },
  {
   "property": "C113",
   "status": "partial",
   "theorems": [
    "Verif.Front.C113_sets_partial",
    "Verif.Front.C113_lookahead_partial"
   ],
   "note": "Missing: inlined symbols, ternary operators, bare code, try; rules that one token does not decide (there C36, C37 speak about nodes)."
  },
  {
   "property": "C114",
   "status": "partial",
   "theorems": [
    "Verif.VisGen.C114_abstract",
    "Verif.VisGen.C114_class",
    "Verif.VisGen.C114_names",
    "Verif.VisGen.C114_fails_new",
    "Verif.VisGen.C114_fails_class",
    "Verif.Out.C114_header_partial",
    "Verif.Out.C114_fails_source"
   ],
   "note": "Proved for the default visitor and for new visitors without --inherit-default-visitor, except that the source of a new visitor includes defaultvisitor.h instead of its own header (C114_fails_source). With --inherit-default-visitor the source is no series of definitions (C114_fails_new, C114_fails_class). Missing: types of C++ beyond the classes named."
  },
  {
   "property": "C115",
   "status": "partial",
   "theorems": [
    "Verif.GenText.C115_reads",
    "Verif.GenText.C115_runs_partial",
    "Verif.GenText.C115_grammar_partial",
    "Verif.GenText.C115_sentences_partial"
   ],
   "note": "Missing: the text of operator rules, rules with arguments that are members of nodes, and that the text runs for ever if the parser of Gen does."
  },
  {
   "property": "C116",
   "status": "partial",
   "theorems": [
    "Verif.GenText.C116_names_partial",
    "Verif.GenText.C116_plain",
    "Verif.GenText.C116_fails_no_ast",
    "Verif.GenText.C116_fails_mixed"
   ],
   "note": "The code violates the full statement. The theorem is exact: it says for which grammars and settings it holds. It fails for symbols with an operator rule without syntax tree or behind a rule of another kind (opStack is not declared). Names chosen by the user are the subject of C74 and C75."
  },
  {
   "property": "C117",
   "status": "partial",
   "theorems": [
    "Verif.Gen.C117_returns_partial",
    "Verif.Gen.C117_decides_partial",
    "Verif.Gen.C117_fails_left",
    "Verif.Gen.C117_fails_loop",
    "Verif.Whole.C117_text_partial",
    "Verif.Whole.C117_text_decides_partial",
    "Verif.Front.C117_file_partial",
    "Verif.Gen.C117_look_partial",
    "Verif.Front.C117_written_partial",
    "Verif.Gen.C117_fails_eof",
    "Verif.Gen.C117_fails_order",
    "Verif.Gen.C117_look_decides_partial"
   ],
   "note": "Missing: EOF as a token in the rules (false for a loop over EOF: C117_fails_eof). The decision has the conditions of C47 and C48 (both are false without them); these imply that there is no left recursion and no loop over something that may be empty (C117_look_partial, without inlined symbols, ternary operators and try). Nothing in the generator refuses left recursion, a loop over code alone, or an empty rule that is tried first in a loop: the parsers do not return (C117_fails_left, C117_fails_loop, C117_fails_order)."
  }
 ]
}