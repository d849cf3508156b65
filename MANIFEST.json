{
 "claims": [
  {
   "property": "C01",
   "status": "proved",
   "theorems": [
    "Verif.Props.SetSymbol.C01_str_injective",
    "Verif.Props.SetSymbol.C01_table_bijective",
    "Verif.Props.SetSymbol.C01_first_appearance_order",
    "Verif.Props.SetSymbol.C01_stable"
   ],
   "note": ""
  },
  {
   "property": "C02",
   "status": "proved",
   "theorems": [
    "Verif.Props.SetSymbol.C02_queries",
    "Verif.Props.SetSymbol.C02_only_interned_matters"
   ],
   "note": ""
  },
  {
   "property": "C03",
   "status": "partial",
   "theorems": [
    "Verif.Props.SetSymbol.C03_refuted",
    "Verif.Props.SetSymbol.C03_byIdx_partial",
    "Verif.Props.SetSymbol.C03_negative"
   ],
   "note": "False at index = Size: ByIdx compares with > and returns a symbol whose String panics (C03_refuted). Holds for all other non-negative indices."
  },
  {
   "property": "C04",
   "status": "proved",
   "theorems": [
    "Verif.Props.SetSymbol.C04_cast_roundtrip",
    "Verif.Props.SetSymbol.C04_cast_idempotent"
   ],
   "note": ""
  },
  {
   "property": "C05",
   "status": "proved",
   "theorems": [
    "Verif.Props.Helpers.C05_production_iterator",
    "Verif.Props.Helpers.C05_productions_iterator",
    "Verif.Props.Helpers.C05_nil_iterators"
   ],
   "note": ""
  },
  {
   "property": "C06",
   "status": "proved",
   "theorems": [
    "Verif.Props.Helpers.C06_run_spec",
    "Verif.Props.Helpers.C06_spec_deterministic"
   ],
   "note": ""
  },
  {
   "property": "C07",
   "status": "proved",
   "theorems": [
    "Verif.Props.Helpers.C07_nil_reducers",
    "Verif.Props.Helpers.C07_reducers_compose",
    "Verif.Props.Helpers.C07_runner"
   ],
   "note": ""
  },
  {
   "property": "C08",
   "status": "proved",
   "theorems": [
    "Verif.Props.Helpers.C08_lexErrors"
   ],
   "note": ""
  },
  {
   "property": "C09",
   "status": "proved",
   "theorems": [
    "Verif.Props.Grammar.C09_history",
    "Verif.Props.Grammar.C09_record"
   ],
   "note": ""
  },
  {
   "property": "C10",
   "status": "proved",
   "theorems": [
    "Verif.Props.Grammar.C10_new",
    "Verif.Props.Grammar.C10_spec_total"
   ],
   "note": ""
  },
  {
   "property": "C11",
   "status": "proved",
   "theorems": [
    "Verif.Props.Grammar.C11_round_trip",
    "Verif.Props.Grammar.C11_round_trip_add",
    "Verif.Props.Grammar.C11_add_refuted"
   ],
   "note": "Proved for every text accepted by New. Extra: for grammars built with Add the round trip holds for printable names and fails otherwise."
  },
  {
   "property": "C12",
   "status": "proved",
   "theorems": [
    "Verif.Props.Topdown.C12_terminates_sound"
   ],
   "note": ""
  },
  {
   "property": "C13",
   "status": "partial",
   "theorems": [
    "Verif.Props.Topdown.C13_refuted",
    "Verif.Props.Topdown.C13_bounds_partial",
    "Verif.Props.Topdown.C13_first_exact",
    "Verif.Props.Topdown.gM_said",
    "Verif.Props.Topdown.C13_order_refuted",
    "Verif.Props.Topdown.C13_exact_partial",
    "Verif.Props.Topdown.C13_exact_noempty_partial"
   ],
   "note": "False: N -> ; B -> N B is left recursive and not reported (C13_refuted). Proved exact when no production has a symbol deriving the empty word followed by another symbol, in particular without empty productions. For every grammar: recursion through first symbols is always reported, and a report always means recursion behind symbols with an empty production of their own (C13_bounds_partial); between the two the answer depends on the order of the nonterminals (C13_order_refuted)."
  },
  {
   "property": "C14",
   "status": "proved",
   "theorems": [
    "Verif.Props.Topdown.C14_sound",
    "Verif.Props.Topdown.C14_terminal_kinds"
   ],
   "note": ""
  },
  {
   "property": "C15",
   "status": "proved",
   "theorems": [
    "Verif.Props.Topdown.C15_ordered_choice",
    "Verif.Props.Topdown.C15_unique"
   ],
   "note": ""
  },
  {
   "property": "C16",
   "status": "partial",
   "theorems": [
    "Verif.Props.Topdown.C16_refuted",
    "Verif.Props.Topdown.C16_terminates_partial",
    "Verif.Props.Topdown.C16_new_terminates_partial"
   ],
   "note": "False: New accepts S -> N B ; N -> ; B -> N B and Parse diverges on every input (C16_refuted). Proved for grammars that are not left recursive, and for all grammars accepted by New on which the check is exact."
  },
  {
   "property": "C17",
   "status": "partial",
   "theorems": [
    "Verif.Props.Topdown.C17_accepted_is_sentence",
    "Verif.Props.Topdown.C17_complete_partial",
    "Verif.Props.Topdown.C17_simple_exact",
    "Verif.Props.Topdown.C17_converse_refuted"
   ],
   "note": "First half proved in full. Converse proved when no symbol can match two different lengths at one position (and for simple grammars, where Parse accepts exactly the language); the unrestricted converse is refuted."
  },
  {
   "property": "C18",
   "status": "proved",
   "theorems": [
    "Verif.Props.Packrat.C18_terminates"
   ],
   "note": ""
  },
  {
   "property": "C19",
   "status": "proved",
   "theorems": [
    "Verif.Props.Packrat.C19_sound"
   ],
   "note": ""
  },
  {
   "property": "C20",
   "status": "proved",
   "theorems": [
    "Verif.Props.Packrat.C20_complete"
   ],
   "note": ""
  },
  {
   "property": "C21",
   "status": "partial",
   "theorems": [
    "Verif.Props.Packrat.C21_refuted",
    "Verif.Props.Packrat.C21_rejects_partial",
    "Verif.Props.Packrat.C21_empty_input"
   ],
   "note": "False for the empty input: Parse then always returns a tree rooted in the start symbol (C21_refuted, C21_empty_input). Proved for every non-empty input."
  },
  {
   "property": "C22",
   "status": "proved",
   "theorems": [
    "Verif.Props.Packrat.C22_first_production"
   ],
   "note": ""
  },
  {
   "property": "C23",
   "status": "partial",
   "theorems": [
    "Verif.Props.Packrat.C23_refuted",
    "Verif.Props.Packrat.C23_no_panic_partial",
    "Verif.Props.PackratKinds.C23_lead_partial",
    "Verif.Props.PackratKinds.C23_rejects_partial",
    "Verif.Props.PackratAsked.C23_asked_partial",
    "Verif.Props.PackratAsked.C23_panics_exact_partial"
   ],
   "note": "False: a lexeme whose kind is a nonterminal can make Parse panic (C23_refuted). Proved when no production of two or more symbols for the kind of a lexeme begins with a symbol that derives the empty word (C23_lead_partial), in particular when all lexeme kinds are terminals; such an input with a nonterminal among its kinds is rejected (C23_rejects_partial). More exactly, Parse returns unless some lexeme is a nonterminal asked for at its position that has such a production (C23_asked_partial), and if only first productions of lexeme kinds are like that, it panics exactly then (C23_panics_exact_partial). Missing: exactly which inputs panic when a later production of a lexeme kind is like that."
  },
  {
   "property": "C24",
   "status": "proved",
   "theorems": [
    "Verif.Props.Packrat.C24_positions"
   ],
   "note": ""
  },
  {
   "property": "C25",
   "status": "proved",
   "theorems": [
    "Verif.Props.Topdown.C25_topdown_packrat",
    "Verif.Props.Topdown.C25_topdown_packrat_all"
   ],
   "note": ""
  },
  {
   "property": "C26",
   "status": "partial",
   "theorems": [
    "Verif.Props.Tree.C26_in_range",
    "Verif.Props.Tree.C26_out_of_range",
    "Verif.Props.Tree.C26_out_of_range_value_partial",
    "Verif.Props.Tree.C26_value_below",
    "Verif.Props.Tree.C26_refuted",
    "Verif.Props.Tree.C26_cases"
   ],
   "note": "False for PromoteChildValue with an index from -2n to -n-1: the index is converted twice and a child is removed (C26_refuted, C26_value_below). Everything else proved."
  },
  {
   "property": "C27",
   "status": "proved",
   "theorems": [
    "Verif.Props.Tree.C27_removeChildren",
    "Verif.Props.Tree.C27_removeAll"
   ],
   "note": ""
  },
  {
   "property": "C28",
   "status": "proved",
   "theorems": [
    "Verif.Props.Tree.C28_promotions",
    "Verif.Props.Tree.C28_leaves"
   ],
   "note": ""
  },
  {
   "property": "C29",
   "status": "proved",
   "theorems": [
    "Verif.Props.Tree.C29_pass",
    "Verif.Props.Tree.C29_calls",
    "Verif.Props.Tree.C29_unrelated"
   ],
   "note": ""
  },
  {
   "property": "C30",
   "status": "proved",
   "theorems": [
    "Verif.Props.Tree.C30_merge",
    "Verif.Props.Tree.C30_order"
   ],
   "note": ""
  },
  {
   "property": "C31",
   "status": "proved",
   "theorems": [
    "Verif.Props.Tree.C31_chain",
    "Verif.Props.Tree.C31_if",
    "Verif.Props.Tree.C31_methods"
   ],
   "note": ""
  },
  {
   "property": "C32",
   "status": "partial",
   "theorems": [
    "Verif.Props.Tree.C32_clone_partial",
    "Verif.Props.Tree.C32_refuted"
   ],
   "note": "Shape, kinds and values proved; positions are not copied (C32_refuted)."
  },
  {
   "property": "C33",
   "status": "partial",
   "theorems": [
    "Verif.Props.TreeText.C33_round_trip_partial",
    "Verif.Props.TreeText.C33_refuted"
   ],
   "note": "Round trip proved exactly for values of printable characters and newlines; false for others, e.g. tab (C33_refuted). The matcher used is the expression in the source compiled (C80_expression)."
  },
  {
   "property": "C34",
   "status": "proved",
   "theorems": [
    "Verif.Props.TreeText.C34_sizes"
   ],
   "note": ""
  },
  {
   "property": "C35",
   "status": "proved",
   "theorems": [
    "Verif.Props.SimpleLexer.C35_lossless",
    "Verif.Props.SimpleLexer.C35_values"
   ],
   "note": ""
  },
  {
   "property": "C36",
   "status": "proved",
   "theorems": [
    "Verif.Props.SimpleLexer.C36_maximal_munch",
    "Verif.Props.SimpleLexer.C36_ascii"
   ],
   "note": "For leftmost searches of context-independent matchers. Choices are exact at every rune start; for ASCII input the cutting is the unique maximal-munch one."
  },
  {
   "property": "C37",
   "status": "proved",
   "theorems": [
    "Verif.Props.SimpleLexer.C35_lossless",
    "Verif.Props.SimpleLexer.C37_simple_terminates",
    "Verif.Props.StackLexer.C37_stack_terminates",
    "Verif.Props.StackLexer.C43_lossless"
   ],
   "note": "For the stack lexer terminating means returning or panicking; see C45 for panics. Error regions are never adjacent by C35_lossless and C43_lossless."
  },
  {
   "property": "C38",
   "status": "partial",
   "theorems": [
    "Verif.Props.SimpleLexer.C38_refuted",
    "Verif.Props.SimpleLexer.C38_exact",
    "Verif.Props.SimpleLexer.C38_positions_partial"
   ],
   "note": "False: newlines inside error regions are not counted (C38_refuted), and error lexemes carry no position. Proved: exact positions in general, and the claim when no error region contains a newline."
  },
  {
   "property": "C39",
   "status": "partial",
   "theorems": [
    "Verif.Props.SimpleLexer.C39_refuted"
   ],
   "note": "False on every non-empty input: in priority mode no rule is ever chosen and the whole input is one error lexeme. Nothing of the claim remains for non-empty input."
  },
  {
   "property": "C40",
   "status": "partial",
   "theorems": [
    "Verif.Props.SimpleLexer.C40_same_result",
    "Verif.Props.SimpleLexer.C40_exact",
    "Verif.Props.SimpleLexer.C40_histories",
    "Verif.Props.SimpleLexer.C40_no_panic_partial",
    "Verif.Props.SimpleLexer.C40_error_rule_partial",
    "Verif.Props.SimpleLexer.C40_refuted"
   ],
   "note": "Independence of earlier lexing proved. \"Never panics\" is false: Add of a new kind after an error was lexed leaves a gap (C40_refuted). Proved instead: exactly which histories panic (C40_exact, C40_histories)."
  },
  {
   "property": "C41",
   "status": "proved",
   "theorems": [
    "Verif.Props.SimpleLexer.C41_table",
    "Verif.Props.SimpleLexer.C41_duplicate"
   ],
   "note": ""
  },
  {
   "property": "C42",
   "status": "proved",
   "theorems": [
    "Verif.Props.SimpleLexer.C42_insert",
    "Verif.Props.StackLexerInsert.C42_stack"
   ],
   "note": ""
  },
  {
   "property": "C43",
   "status": "proved",
   "theorems": [
    "Verif.Props.StackLexer.C43_lossless",
    "Verif.Props.StackLexer.C43_values"
   ],
   "note": ""
  },
  {
   "property": "C44",
   "status": "partial",
   "theorems": [
    "Verif.Props.StackLexer.C44_longest_partial",
    "Verif.Props.StackLexer.C44_refuted",
    "Verif.Props.StackLexer.C44_empty_refuted"
   ],
   "note": "False after an error region that follows a token of the same sub-lexer: cached matches with different search offsets are compared by relative ends (C44_refuted); also for rules matching the empty string (C44_empty_refuted). Proved for all other tokens that start at a rune start, for leftmost searches of context-independent matchers."
  },
  {
   "property": "C45",
   "status": "partial",
   "theorems": [
    "Verif.Props.StackLexer.C43_lossless",
    "Verif.Props.StackLexer.C44_longest_partial",
    "Verif.Props.StackLexer.C45_no_panic_partial",
    "Verif.Props.StackLexer.C45_panic_causes",
    "Verif.Props.StackLexer.C45_panics_exact_partial",
    "Verif.Props.StackLexerExact.C45_default_exact",
    "Verif.Props.StackLexerExact.C45_priority_exact",
    "Verif.Props.StackLexer.C45_refuted"
   ],
   "note": "The stack discipline is proved (Run in C43_lossless, C44_longest_partial). \"Never panics\" is false: a pop rule in the outermost sub-lexer, a push of an undefined sub-lexer, or a rewriting with a group that took no part can panic (C45_refuted). Proved: no panic when the outermost sub-lexer has no pop rule, push targets are defined and rewritings use groups that take part. Whatever the lexer, every panic has one of these causes, at a place reached by lexing (C45_panic_causes). In priority mode, for context-independent regexps and safe rewritings, Lex panics exactly if lexing comes to such a place (C45_panics_exact_partial); for all rewritings and context-independent regexps, exactly if the outcome of C108 is that lexing cannot go on (C45_default_exact, C45_priority_exact)."
  },
  {
   "property": "C46",
   "status": "partial",
   "theorems": [
    "Verif.Props.StackLexerNew.C46_exact",
    "Verif.Props.StackLexerNew.C46_plain_partial",
    "Verif.Props.StackLexerNew.C46_contents_partial",
    "Verif.Props.StackLexerNew.C46_same_rules_partial",
    "Verif.Props.StackLexerNew.C46_refuted",
    "Verif.Props.StackLexerNew.C46_bad_refuted"
   ],
   "note": "False: the priority order of inherited rules is the order of their kind indices, which depends on map iteration order (C46_refuted); with a bad regexp even the set of rules depends on it (C46_bad_refuted). Proved for well-formed definitions: every sub-lexer has exactly the declared rules, in the declared order except within inherited blocks, and is the same for all iteration orders when it does not inherit. C46_exact says what the order within inherited blocks is, for every iteration order; C46_plain_partial that it is as declared if the sub-lexers inherited from do not inherit and share no kinds with others."
  },
  {
   "property": "C47",
   "status": "partial",
   "theorems": [
    "Verif.Props.StackLexerNew.C47_refuted",
    "Verif.Props.StackLexerNew.C47_cyclic",
    "Verif.Props.StackLexerNew.C47_regexp"
   ],
   "note": "False for every bad definition: New drops the errors of parse, so the error is nil for every definition whatsoever (C47_refuted, which also shows that New always returns). Nothing of the claim remains."
  },
  {
   "property": "C48",
   "status": "partial",
   "theorems": [
    "Verif.Props.StackLexer.C48_exact",
    "Verif.Props.StackLexer.C48_positions_partial",
    "Verif.Props.StackLexer.C48_refuted"
   ],
   "note": "False around error regions containing or followed by newlines (C48_refuted). Proved: the exact positions in general, and the claim for the other inputs."
  },
  {
   "property": "C49",
   "status": "partial",
   "theorems": [
    "Verif.Props.RegexGram.C49_returns",
    "Verif.Props.RegexGram.C49_grammar_partial",
    "Verif.Props.RegexGram.C49_words_partial",
    "Verif.Props.RegexGram.C49_sentences_partial",
    "Verif.Props.RegexGram.C49_group_refuted",
    "Verif.Props.RegexGram.C49_names_refuted"
   ],
   "note": "False for rules with an empty group (the production is dropped, C49_group_refuted) and when names of repetitions collide, as (A B)* and (A_B)* do (C49_names_refuted). Proved for all rules without these: termination, the exact grammar with the order of productions, and equality of languages; the conditions hold for all rules that can be written with names without underscores and without empty groups. From the reduced parse tree on; reading the text is not part of it."
  },
  {
   "property": "C50",
   "status": "proved",
   "theorems": [
    "Verif.Props.RegexGram.C50_merge",
    "Verif.Props.RegexGram.C50_reduce"
   ],
   "note": "Slices are values in the model; see the head of Model/RegexGram.lean on aliasing."
  },
  {
   "property": "C51",
   "status": "proved",
   "theorems": [
    "Verif.Props.RegexGram.C51_hide"
   ],
   "note": "For derivation trees of the grammar made, from symbols other than the helpers; symbols contain no star (the lexer makes words only)."
  },
  {
   "property": "C52",
   "status": "partial",
   "theorems": [
    "Verif.Props.Analyze.C52_exact_partial",
    "Verif.Props.Analyze.C52_exact_noempty_partial",
    "Verif.Props.Analyze.C52_sound_partial",
    "Verif.Props.Analyze.C52_complete_partial",
    "Verif.Props.Analyze.C52_scan",
    "Verif.Props.Analyze.C52_complete_refuted",
    "Verif.Props.Analyze.C52_nolr_refuted",
    "Verif.Props.Analyze.C52_sound_refuted",
    "Verif.Props.Analyze.C52_terminal_self"
   ],
   "note": "False in both directions: firsts are missed under left recursion (C52_complete_refuted) and even without it (C52_nolr_refuted), and symbols are reported that are not firsts (C52_sound_refuted). Proved exact for grammars that are not left recursive and whose symbols with leftmost chains to empty productions derive the empty word; each half separately under weaker conditions."
  },
  {
   "property": "C53",
   "status": "partial",
   "theorems": [
    "Verif.Props.Analyze.C53_sound",
    "Verif.Props.Analyze.C53_nonterminal_partial",
    "Verif.Props.Analyze.C53_terminal_partial",
    "Verif.Props.Analyze.C53_nonterminal_refuted",
    "Verif.Props.Analyze.C53_terminal_refuted"
   ],
   "note": "False: nonterminals with only empty productions and terminals that are not first symbols are denied. Proved: true answers are right for every grammar; exact for nonterminals of grammars without scan cycles whose nonterminals each have a non-empty production; for terminals Contains means beginning some sentential form."
  },
  {
   "property": "C54",
   "status": "partial",
   "theorems": [
    "Verif.Props.RemoveLR.C54_returns_iff_partial",
    "Verif.Props.RemoveLR.C54_result_partial",
    "Verif.Props.RemoveLR.C54_language_partial",
    "Verif.Props.RemoveLR.C54_C55_nonrecursive",
    "Verif.Props.RemoveLR.C54_C55_direct",
    "Verif.Props.RemoveLR.C54_returns_refuted",
    "Verif.Props.RemoveLR.C54_language_refuted",
    "Verif.Props.RemoveLR.C54_collision_refuted",
    "Verif.Props.RemoveLR.C54_grounded_refuted",
    "Verif.Props.RemoveLR.C54_unusable_refuted"
   ],
   "note": "False: it does not return on B -> B a | b ; C -> B x (C54_returns_refuted), drops words when a production begins with its own nonterminal twice (C54_language_refuted), merges A with a user symbol called like the new one (C54_collision_refuted), and mishandles nonterminals all of whose productions begin with themselves (C54_grounded_refuted, C54_unusable_refuted). Proved outside these cases: when exactly it returns, the exact grammar returned, equality of languages; unconditionally for grammars that are not left recursive."
  },
  {
   "property": "C55",
   "status": "partial",
   "theorems": [
    "Verif.Props.RemoveLR.C55_partial",
    "Verif.Props.RemoveLR.C55_noempty_partial",
    "Verif.Props.RemoveLR.C54_C55_nonrecursive",
    "Verif.Props.RemoveLR.C54_C55_direct",
    "Verif.Props.RemoveLR.C55_hidden_refuted",
    "Verif.Props.RemoveLR.C55_rest_refuted"
   ],
   "note": "False when symbols that derive the empty word lead productions or follow the leading symbol of a left recursive one. Proved otherwise, in particular for all grammars without empty productions on which it returns."
  },
  {
   "property": "C56",
   "status": "proved",
   "theorems": [
    "Verif.Props.Json.C56_only_whitespace",
    "Verif.Props.Json.C56_format",
    "Verif.Props.Json.C56_value"
   ],
   "note": "For all trees that stand for a JSON value (what the pipeline makes). C56_value adds that the text depends only on the value."
  },
  {
   "property": "C57",
   "status": "proved",
   "theorems": [
    "Verif.Props.ReducerDSL.C57_rule",
    "Verif.Props.ReducerDSL.C57_definition"
   ],
   "note": "Argument texts that are no integers count as 0; the periods between statements are skipped. From text on: C70."
  },
  {
   "property": "C58",
   "status": "proved",
   "theorems": [
    "Verif.Props.TreeHeap.C58_clone",
    "Verif.Props.TreeHeap.C58_new",
    "Verif.Props.TreeHeap.C58_packrat",
    "Verif.Props.TreeHeap.linked_links",
    "Verif.Props.TreeHeap.C58_parent_refuted",
    "Verif.Props.TreeHeap.C58_reduced_refuted",
    "Verif.Props.TreeHeap.C58_cycle_refuted"
   ],
   "note": "For the field P. Beyond the claim: the method Parent never returns nil, not even for the root (a nil pointer in an interface), contrary to its comment (C58_parent_refuted); results of RawReduce have no parent links (C58_reduced_refuted), and PromoteChild followed by ReplaceWithChild makes a node its own parent (C58_cycle_refuted)."
  },
  {
   "property": "C59",
   "status": "partial",
   "theorems": [
    "Verif.Props.TreeText.C59_refuted",
    "Verif.Props.TreeText.C59_balanced_partial",
    "Verif.Props.TreeDef.C59_exact"
   ],
   "note": "False: New panics on the empty text and on excess closing braces. Proved: with balanced closing braces no nil pointer is reached (C59_balanced_partial); exactly when it panics (C59_exact)."
  },
  {
   "property": "C60",
   "status": "proved",
   "theorems": [
    "Verif.Props.StackLexer.C60_priority"
   ],
   "note": "For leftmost searches of context-independent matchers; the choice is stated at rune starts, which for ASCII or byte-wise searches is every position."
  },
  {
   "property": "C61",
   "status": "proved",
   "theorems": [
    "Verif.Props.StackLexer.C61_same_result"
   ],
   "note": ""
  },
  {
   "property": "C62",
   "status": "proved",
   "theorems": [
    "Verif.Props.StackLexer.C43_lossless"
   ],
   "note": "The Found relation in the statement gives the value of each lexeme by Spec-level functions made and part."
  },
  {
   "property": "C63",
   "status": "partial",
   "theorems": [
    "Verif.Props.Analyze.C63_sound",
    "Verif.Props.Analyze.C63_exact_partial",
    "Verif.Props.Analyze.C63_refuted"
   ],
   "note": "True answers are right for every grammar; exact without scan cycles; false answers can be wrong with them (C63_refuted)."
  },
  {
   "property": "C64",
   "status": "proved",
   "theorems": [
    "Verif.Props.Analyze.C64_returns"
   ],
   "note": ""
  },
  {
   "property": "C65",
   "status": "proved",
   "theorems": [
    "Verif.Props.JsonFormat.C65_format",
    "Verif.Props.JsonFormat.C65_error",
    "Verif.Props.JsonFormat.C65_only_whitespace"
   ],
   "note": "From the lexemes on. The grammar and the reductions enter as the trees that reading their texts makes (any trees that show them). That punctuation lexemes have their text is a hypothesis of the last theorem. C71 goes from the texts on."
  },
  {
   "property": "C66",
   "status": "proved",
   "theorems": [
    "Verif.Props.TreeHeap.C66_operation",
    "Verif.Props.TreeHeap.C66_results",
    "Verif.Props.TreeHeap.C66_chains",
    "Verif.Props.TreeHeap.C66_reduce",
    "Verif.Props.TreeHeap.C66_input",
    "Verif.Props.TreeHeap.rep_fun"
   ],
   "note": "The model in memory has nodes and arrays with addresses, slices as array and length from offset 0 (the code never makes others that live on), and any growth policy."
  },
  {
   "property": "C67",
   "status": "partial",
   "theorems": [
    "Verif.Props.TreeHeap.C67_links_partial",
    "Verif.Props.TreeHeap.C67_promoteChildrenOf_refuted",
    "Verif.Props.TreeHeap.C67_replaceWithChild_refuted"
   ],
   "note": "False for PromoteChildrenOf, which does not relink the children promoted, and ReplaceWithChild, which takes over the link of the child and leaves its children linked to it. Proved for all other operations."
  },
  {
   "property": "C68",
   "status": "proved",
   "theorems": [
    "Verif.Props.RegexGramNew.C68_accepts",
    "Verif.Props.RegexGramNew.C68_reads",
    "Verif.Props.RegexGramNew.C68_rejects",
    "Verif.Props.RegexGramNew.C68_words",
    "Verif.Props.RegexGramNew.C68_grammar",
    "Verif.Props.RegexGramNew.C68_reducer"
   ],
   "note": "From lexemes on (from text on: C69). The grammar of definitions is the text in the source, read by the model of grammar.New."
  },
  {
   "property": "C69",
   "status": "proved",
   "theorems": [
    "Verif.Props.RegexGramText.C69_lexes",
    "Verif.Props.RegexGramText.C69_accepts",
    "Verif.Props.RegexGramText.C69_words",
    "Verif.Props.RegexGramText.C69_grammar",
    "Verif.Props.RegexGramText.C69_reducer",
    "Verif.Props.RegexGramText.C69_names_refuted"
   ],
   "note": "From the text of the lexer definition in the source on. Relies on the meaning of regular expressions in Spec/Regexp. With underscores in names the words can be wrong (C69_names_refuted), as two repetitions can get one name."
  },
  {
   "property": "C70",
   "status": "proved",
   "theorems": [
    "Verif.Props.ReducerText.C70_lexes",
    "Verif.Props.ReducerText.C70_reads",
    "Verif.Props.ReducerText.C70_parses",
    "Verif.Props.ReducerText.C70_rejects",
    "Verif.Props.ReducerText.C70_accepts",
    "Verif.Props.ReducerText.C70_reducer",
    "Verif.Props.ReducerText.C70_unique"
   ],
   "note": "From the texts of the lexer and grammar definitions in the source on. Relies on the meaning of regular expressions in Spec/Regexp. Argument texts that are no integers count as 0; integers are unbounded in the model."
  },
  {
   "property": "C71",
   "status": "proved",
   "theorems": [
    "Verif.Props.JsonText.C71_lexes",
    "Verif.Props.JsonText.C71_format",
    "Verif.Props.JsonText.C71_output",
    "Verif.Props.JsonText.C71_idempotent",
    "Verif.Props.JsonText.C71_same",
    "Verif.Props.JsonText.C71_unique"
   ],
   "note": "From the texts of the lexer, the grammar and the reductions in the source on. Relies on the meaning of regular expressions in Spec/Regexp."
  },
  {
   "property": "C72",
   "status": "proved",
   "theorems": [
    "Verif.Props.MathText.C72_lexes",
    "Verif.Props.MathText.C72_eval",
    "Verif.Props.MathText.C72_value",
    "Verif.Props.MathText.C72_reading",
    "Verif.Props.MathText.C72_unique"
   ],
   "note": "From the texts of the lexer and the grammar in the source on. Relies on the meaning of regular expressions in Spec/Regexp. Numbers and operations are parameters: strconv.ParseFloat and float64 arithmetic are any functions."
  },
  {
   "property": "C73",
   "status": "proved",
   "theorems": [
    "Verif.Props.ScalcText.C73_tokens",
    "Verif.Props.ScalcText.C73_eval",
    "Verif.Props.ScalcText.C73_no_panic"
   ],
   "note": "From the texts of the lexer and the grammar in the source on. Relies on the meaning of regular expressions in Spec/Regexp. Numbers and operations are parameters, and so are the conversions of numbers. Overflow of the Go stack by deep nesting is not modelled. What the stack returned is: C74."
  },
  {
   "property": "C74",
   "status": "partial",
   "theorems": [
    "Verif.Props.ScalcText.C74_runs_partial",
    "Verif.Props.ScalcText.C74_last_partial",
    "Verif.Props.ScalcText.C74_choice_partial",
    "Verif.Props.ScalcText.C74_substack_refuted",
    "Verif.Props.ScalcText.C74_manip_refuted",
    "Verif.Props.ScalcText.C74_choice_refuted",
    "Verif.Props.ScalcText.C74_fold_refuted"
   ],
   "note": "False: (1 2) 3 leaves 0 and 3, 1 2 swap swap leaves 0, 1 2 swap 3 is nil, 5 1 2 3 ? leaves 2, 1 2 3 ? 4 + leaves 4, 1--sum 2- leaves -1 and -2. Proved, with nil exactly when the machine fails, for texts of numbers, unary and binary operators, followed by stack operators, or by at most one manipulation between stack operators, and with parentheses around everything so far (Plain in Spec/Scalc); and for three values and a question mark. Missing is a description of all programs that work."
  },
  {
   "property": "C75",
   "status": "partial",
   "theorems": [
    "Verif.Props.PackratBest.C75_settled_partial",
    "Verif.Props.PackratBest.C75_root",
    "Verif.Props.PackratBest.C75_order_refuted"
   ],
   "note": "False as stated: in S -> A B, A -> C | a | a a, B -> a | a a, C -> a a on a a a a better tree than the one returned exists, because the comparison is not repeated after a child is improved. Proved: wherever one reading is better than every other whatever readings the parts end up with (Settled), at the root or below it, the tree returned has it."
  },
  {
   "property": "C76",
   "status": "partial",
   "theorems": [
    "Verif.Props.LexerDef.C76_stack",
    "Verif.Props.LexerDef.C76_simple",
    "Verif.Props.LexerDef.C76_contents_partial",
    "Verif.Props.LexerDef.C76_exact",
    "Verif.Props.StackLexerRex.C76_readme_refuted"
   ],
   "note": "Proved that both kinds of definition texts are read as a layout without regular expressions says, for all texts; for simple lexers with the rules of the lexer built; for stack lexers the rules are as declared except for the order within inherited blocks (C46_refuted), which C76_exact gives for every iteration order. The sample of the readme panics, as it pushes innerLexer and declares InnerLexer (C76_readme_refuted). Relies on the meaning of regular expressions in Spec/Regexp."
  },
  {
   "property": "C77",
   "status": "partial",
   "theorems": [
    "Verif.Props.StackLexerRex.C77_values",
    "Verif.Props.StackLexerRex.C77_readme_refuted",
    "Verif.Props.StackLexerRex.C77_absent_refuted"
   ],
   "note": "Proved for every lexer and every input for which Lex returns, with a list of groups in which parts that are not numbers stand for themselves, quotes included; so the value in the readme is wrong (C77_readme_refuted). A group that took no part in a match at the beginning of the input makes Lex panic (C77_absent_refuted)."
  },
  {
   "property": "C78",
   "status": "partial",
   "theorems": [
    "Verif.Props.SimpleLexerString.C78_copy",
    "Verif.Props.SimpleLexerString.C78_new",
    "Verif.Props.SimpleLexerString.C78_settings_refuted",
    "Verif.Props.SimpleLexerString.C78_slash_refuted",
    "Verif.Props.SimpleLexerString.C78_hole_refuted",
    "Verif.Props.SimpleLexer.C78_panics"
   ],
   "note": "False as stated: ByPriority and the kinds inserted at the ends are not written, a slash in an expression or a space in a name given to Add is not escaped, and after an error has been lexed a rule added later makes String panic (C78_panics: exactly which histories do). Proved for every lexer that New returns, and for lexers built with Add from plain names and expressions that can be written. Relies on the meaning of regular expressions in Spec/Regexp."
  },
  {
   "property": "C79",
   "status": "partial",
   "theorems": [
    "Verif.Props.ScalcMain.C79_session_partial",
    "Verif.Props.ScalcMain.C79_stuck_refuted",
    "Verif.Props.ScalcMain.C79_decimals_refuted",
    "Verif.Props.ScalcMain.C79_chunks_refuted",
    "Verif.Props.ScalcMain.C79_end_refuted"
   ],
   "note": "False as stated: an infinite number on the stack makes every later line bad input, a line starting with decimals continues the last number of the stack shown, lines delivered together are lost but for the first, and at the end of the input the program goes round for ever. Proved for sessions whose lines arrive one at a time, with numbers shown as numerals, lines not starting with decimals, of the form for which C74 describes the machine. The package cli and the printing of numbers are not modelled."
  },
  {
   "property": "C80",
   "status": "partial",
   "theorems": [
    "Verif.Props.TreeDef.C80_tree",
    "Verif.Props.TreeDef.C80_trees",
    "Verif.Props.TreeDef.C80_errors",
    "Verif.Props.TreeDef.C80_expression",
    "Verif.Props.TreeDef.C80_refuted"
   ],
   "note": "False as stated: without a closing brace New returns a child instead of the tree, and of several trees all but the first are dropped, without an error. Proved: a text that writes trees gives the first (C80_tree); exactly what is returned for which text (C80_trees), exactly when the error is returned (C80_errors), and when it panics (C59_exact). Relies on the meaning of regular expressions in Spec/Regexp; texts are valid UTF-8."
  },
  {
   "property": "C81",
   "status": "partial",
   "theorems": [
    "Verif.Props.LL1.C81_new",
    "Verif.Props.LL1.C81_exact",
    "Verif.Props.LL1.C81_unambiguous",
    "Verif.Props.LL1.C81_both",
    "Verif.Props.LL1.C81_order_refuted",
    "Verif.Props.LL1.C81_productive_refuted"
   ],
   "note": "False as stated: a production that can be empty hides those after it (C81_order_refuted). Proved if such productions come last; New accepts the grammars and derivation trees are unique without that. That every nonterminal derives a word is needed (C81_productive_refuted)."
  },
  {
   "property": "C82",
   "status": "partial",
   "theorems": [
    "Verif.Props.Lexeme.C82_string_partial",
    "Verif.Props.Lexeme.C82_kind_refuted",
    "Verif.Props.Lexeme.C82_column_refuted"
   ],
   "note": "False as stated: a kind may contain what looks like a value, and the column is not shown when the line is -1. Proved if kinds have no colons or blanks, up to that column. Which characters strconv.Quote keeps is a parameter."
  },
  {
   "property": "C83",
   "status": "partial",
   "theorems": [
    "Verif.Props.Lexeme.C83_lines_partial",
    "Verif.Props.Lexeme.C83_tells_partial",
    "Verif.Props.Lexeme.C83_kind_refuted",
    "Verif.Props.Lexeme.C83_position_refuted",
    "Verif.Props.Lexeme.C83_nil",
    "Verif.Props.Lexeme.C83_string_refuted"
   ],
   "note": "False as stated: kinds may contain line ends and colons, positions are left out unless positive, a nil kind panics, and LexemeString does not quote values. Proved of LexemeList for kinds without those characters. Which characters strconv.Quote keeps is a parameter."
  },
  {
   "property": "C84",
   "status": "partial",
   "theorems": [
    "Verif.Props.LexError.C84_simple_partial",
    "Verif.Props.LexError.C84_stack_partial",
    "Verif.Props.LexError.C84_simple_refuted",
    "Verif.Props.LexError.C84_stack_refuted"
   ],
   "note": "False as stated: errors of simple lexers always say -1:0, and those of stack lexers are counted from the end of the piece, so wrong if it contains or precedes line ends. Proved: the piece named for all inputs of simple lexers that compare by length then priority, and piece and position for stack lexers where errors have no line ends."
  },
  {
   "property": "C85",
   "status": "partial",
   "theorems": [
    "Verif.Props.StringSymbol.C85_production",
    "Verif.Props.StringSymbol.C85_productions",
    "Verif.Props.StringSymbol.C85_panics",
    "Verif.Props.StringSymbol.C85_again",
    "Verif.Props.StringSymbol.C85_string_partial",
    "Verif.Props.StringSymbol.C85_string_refuted",
    "Verif.Props.StringSymbol.C85_index_partial",
    "Verif.Props.StringSymbol.C85_index_refuted"
   ],
   "note": "Casts keep names and order, for everything; they panic exactly on nil symbols. False: names with blanks and the empty production are not told apart by String, and negative indices panic."
  },
  {
   "property": "C86",
   "status": "partial",
   "theorems": [
    "Verif.Props.Mains.C86_json_partial",
    "Verif.Props.Mains.C86_json_args",
    "Verif.Props.Mains.C86_math_partial",
    "Verif.Props.Mains.C86_math_args",
    "Verif.Props.Mains.C86_status_refuted",
    "Verif.Props.Mains.C86_blank_refuted"
   ],
   "note": "False as stated: the exit status is always 0, and parlexmath prints 0 for blanks. Proved for the rest, for all arguments. The texts of the errors are not modelled, nor is how numbers are printed."
  },
  {
   "property": "C87",
   "status": "partial",
   "theorems": [
    "Verif.Props.SetSymbolHeap.C87_values_partial",
    "Verif.Props.SetSymbolHeap.C87_taken_refuted",
    "Verif.Props.SetSymbolHeap.C87_set_refuted"
   ],
   "note": "False as stated: of two productions taken out of a set and extended the first gets the symbols of the second, and a production already in a set can be changed. Proved, however arrays grow, for calls in which AddSymbols is only called on productions than which none of the same origin is longer."
  },
  {
   "property": "C88",
   "status": "proved",
   "theorems": [
    "Verif.Props.TopdownCount.C88_linear",
    "Verif.Props.TopdownCount.C88_total",
    "Verif.Props.TopdownCount.C88_same",
    "Verif.Props.TopdownCount.C88_said",
    "Verif.Props.TopdownLeast.C88_least"
   ],
   "note": "From below, a tree costs two more calls than there are lexemes (C88_least). The bound holds for left recursive grammars too, for inputs on which Parse returns. The work of filling the set of symbols and of naming the tree is not counted."
  },
  {
   "property": "C89",
   "status": "proved",
   "theorems": [
    "Verif.Props.PackratCount.C89_polynomial",
    "Verif.Props.PackratCount.C89_total",
    "Verif.Props.PackratCount.C89_degree",
    "Verif.Props.PackratCount.C89_one_degree_refuted",
    "Verif.Props.PackratCount.C89_same",
    "Verif.Props.PackratCount.C89_said"
   ],
   "note": "Counts rounds of the main loop, not the work within a round (comparing priorities, looking for cycles): for that see C102."
  },
  {
   "property": "C90",
   "status": "proved",
   "theorems": [
    "Verif.Props.PackratOrder.C90_reaches",
    "Verif.Props.PackratOrder.C90_compare",
    "Verif.Props.PackratOrder.C90_memo",
    "Verif.Props.PackratOrder.C90_only_better",
    "Verif.Props.PackratOrder.C90_said"
   ],
   "note": "About the order of readings that the memo holds when they are compared; that the final tree is not the first of all trees is shown with C75."
  },
  {
   "property": "C91",
   "status": "proved",
   "theorems": [
    "Verif.Props.PackratShape.C91_no_repeat",
    "Verif.Props.PackratShape.C91_depth",
    "Verif.Props.PackratShape.C91_depth_reached",
    "Verif.Props.PackratShape.C91_nodes",
    "Verif.Props.PackratShape.C91_nodes_refuted",
    "Verif.Props.PackratWork.C91_nodes_linear",
    "Verif.Props.PackratShape.C91_said"
   ],
   "note": "The number of nodes can be exponential in the grammar (C91_nodes); for each grammar it is at most linear in the number of lexemes (C91_nodes_linear)."
  },
  {
   "property": "C92",
   "status": "proved",
   "theorems": [
    "Verif.Props.TopdownShape.C92_no_repeat",
    "Verif.Props.TopdownShape.C92_depth",
    "Verif.Props.TopdownShape.C92_nodes",
    "Verif.Props.TopdownSize.C92_nodes_linear"
   ],
   "note": "The number of nodes can be exponential in the grammar (C92_nodes); for each grammar it is at most linear in the number of lexemes (C92_nodes_linear)."
  },
  {
   "property": "C93",
   "status": "proved",
   "theorems": [
    "Verif.Props.TopdownLoop.C93_diverges",
    "Verif.Props.TopdownLoop.C93_returns",
    "Verif.Props.TopdownLoop.C93_leftRecursive",
    "Verif.Props.TopdownLoop.C93_said"
   ],
   "note": ""
  },
  {
   "property": "C94",
   "status": "proved",
   "theorems": [
    "Verif.Props.TopdownHeap.C94_tree",
    "Verif.Props.TopdownHeap.C94_owns",
    "Verif.Props.TopdownHeap.C94_noempty",
    "Verif.Props.TopdownHeap.C94_memory",
    "Verif.Props.TopdownHeap.C94_owns_refuted",
    "Verif.Props.TopdownHeap.C94_shared_said"
   ],
   "note": ""
  },
  {
   "property": "C95",
   "status": "partial",
   "theorems": [
    "Verif.Props.DirectLL1.C95_runs_partial",
    "Verif.Props.DirectLL1.C95_exact_partial",
    "Verif.Props.DirectLL1.C95_refuted"
   ],
   "note": "Refuted without the condition on lookahead: after the removal from S -> A a ; A -> A a | b the sentence b a is not accepted. Proved with the condition, for grammars whose only left recursion is direct."
  },
  {
   "property": "C96",
   "status": "partial",
   "theorems": [
    "Verif.Props.SimpleLexerSearch.C96_partial",
    "Verif.Props.SimpleLexerSearch.C96_refuted",
    "Verif.Props.SimpleLexerLeast.C96_least"
   ],
   "note": "The bounds on the number of searches and on the bytes passed over are proved. All the bytes looked at are bounded by k*m*(m+1)/2, and no linear bound holds: with the rules xa and (?s)a.* the match of the second is made again after each lexeme of xaxa... and never taken. From below: every token is the text found by some search, and tokens and rules together are at most one more than the searches (C96_least)."
  },
  {
   "property": "C97",
   "status": "partial",
   "theorems": [
    "Verif.Props.StackLexerSearch.C97_partial",
    "Verif.Props.StackLexerSearch.C97_refuted",
    "Verif.Props.StackLexerLeast.C97_least",
    "Verif.Props.StackLexerFlat.C97_flat"
   ],
   "note": "The bound on the number of searches is proved. No linear bound on the bytes passed over holds: each time a sub-lexer is left, rules without a match in the rest of the input are searched for again. From below: there are at least as many searches as tokens, and every token stands where one of them found a match. If no rule pushes or pops, the linear bound on the bytes passed over does hold."
  },
  {
   "property": "C98",
   "status": "partial",
   "theorems": [
    "Verif.Props.RemoveLRSize.C98_bound_partial",
    "Verif.Props.RemoveLRSize.C98_refuted"
   ],
   "note": "False: grammars with 2n+1 productions, not even left recursive, come out with 2^n, as leading nonterminals listed earlier are replaced whether or not they lead back (C98_refuted). Proved without empty productions and under the conditions of C54: n nonterminals with at most R productions each give at most n*(R^n+1)."
  },
  {
   "property": "C99",
   "status": "partial",
   "theorems": [
    "Verif.Props.RegexGramSize.C99_count_partial",
    "Verif.Props.RegexGramSize.C99_text_partial",
    "Verif.Props.RegexGramSize.C99_refuted",
    "Verif.Props.RegexGramSize.C99_text_refuted"
   ],
   "note": "False: a rule with n optional symbols makes 2^n productions, and a text of fewer than (n+3)^2 bytes does (C99_refuted, C99_text_refuted, for every n). Proved under the conditions of C49: the exact number of productions, a sum over the rules and the repeated expressions, and that a rule makes at most 2^k, k being the number of its subexpressions."
  },
  {
   "property": "C100",
   "status": "partial",
   "theorems": [
    "Verif.Props.SetSymbolString.C100_string_partial",
    "Verif.Props.SetSymbolString.C100_text",
    "Verif.Props.SetSymbolString.C100_nil",
    "Verif.Props.SetSymbolString.C100_panics",
    "Verif.Props.SetSymbolString.C100_cast",
    "Verif.Props.SetSymbolString.C100_refuted"
   ],
   "note": "False of names with commas or brackets and of the empty name (C100_refuted). Proved for names that are not empty and contain neither comma nor closing bracket, within one set or between two; nil and the exact condition for a panic are proved in full."
  },
  {
   "property": "C101",
   "status": "partial",
   "theorems": [
    "Verif.Props.JsonSize.C101_bound_partial",
    "Verif.Props.JsonSize.C101_refuted"
   ],
   "note": "False: n arrays in each other, 2n bytes, come out as 2n^2 bytes (C101_refuted). Proved: at most 2d+2 times as long if nested d deep, so at most quadratic."
  },
  {
   "property": "C102",
   "status": "partial",
   "theorems": [
    "Verif.Props.PackratWork.C102_check",
    "Verif.Props.PackratWork.C102_linear",
    "Verif.Props.PackratWork.C102_refuted",
    "Verif.Props.PackratWork.C102_same",
    "Verif.Props.PackratWork.C102_said",
    "Verif.Props.PackratWorkLeast.C102_least"
   ],
   "note": "False: on no lexemes, with m+2 nonterminals and a memo of at most as many entries, a check for cycles makes 2^(m+1) calls (C102_refuted). Proved: the calls are as many as the nodes of the trees of the parts, and for each grammar at most linear in the number of lexemes. From below: a comparison that finds no difference has made a call for all different parts in the same place, to any depth."
  },
  {
   "property": "C103",
   "status": "proved",
   "theorems": [
    "Verif.Props.PackratTotal.C103_total",
    "Verif.Props.PackratTotal.C103_polynomial",
    "Verif.Props.PackratTotal.C103_calls",
    "Verif.Props.PackratTotal.C103_same",
    "Verif.Props.PackratTotal.C103_said",
    "Verif.Props.PackratLeast.C103_least",
    "Verif.Props.PackratLeast.C103_degree",
    "Verif.Props.PackratLeast.C103_one_degree_refuted"
   ],
   "note": "For lexemes whose kinds are terminals. From below there are at least three calls for each round and one for each node of the tree (C103_least, for all lexemes), so the degree has to grow with the length of the longest production (C103_degree, C103_one_degree_refuted)."
  },
  {
   "property": "C104",
   "status": "partial",
   "theorems": [
    "Verif.Props.Must.C104_grammar",
    "Verif.Props.Must.C104_simple",
    "Verif.Props.Must.C104_stack_refuted",
    "Verif.Props.Must.C104_regexgram",
    "Verif.Props.Must.C104_reducer",
    "Verif.Props.Must.C104_topdown_partial",
    "Verif.Props.Must.C104_json",
    "Verif.Props.Must.C104_starts",
    "Verif.Props.Must.C104_said"
   ],
   "note": "False of Must of package stacklexer, which never panics as New drops its errors (C104_stack_refuted), and of MustParser with a top-down parser where the check for left recursion is wrong (C13_refuted). Proved of the others, and that all packages and programs start."
  },
  {
   "property": "C105",
   "status": "partial",
   "theorems": [
    "Verif.Props.Concurrent.C105_refuted",
    "Verif.Props.Concurrent.C105_simple_exact",
    "Verif.Props.Concurrent.C105_simple_safe",
    "Verif.Props.Concurrent.C105_simple_quiet",
    "Verif.Props.Concurrent.C105_stack_exact",
    "Verif.Props.Concurrent.C105_stack_safe",
    "Verif.Props.Concurrent.C105_stack_quiet",
    "Verif.Props.Concurrent.C105_packages_exact"
   ],
   "note": "False: Lex enters the name for errors in the shared set (C105_refuted). Proved exactly when there can be a race, for both lexers, and that otherwise every call returns what it returns alone."
  },
  {
   "property": "C106",
   "status": "proved",
   "theorems": [
    "Verif.Props.ConcurrentParse.C106_parse",
    "Verif.Props.ConcurrentParse.C106_text",
    "Verif.Props.ConcurrentParse.C106_query_exact"
   ],
   "note": "C106_query_exact: clients that ask for symbols the grammar does not know do race, so that it is up to the parsers not to."
  },
  {
   "property": "C107",
   "status": "partial",
   "theorems": [
    "Verif.Props.ConcurrentRun.C107_refuted",
    "Verif.Props.ConcurrentRun.C107_simple_exact",
    "Verif.Props.ConcurrentRun.C107_simple_safe",
    "Verif.Props.ConcurrentRun.C107_stack_exact",
    "Verif.Props.ConcurrentRun.C107_stack_safe"
   ],
   "note": "False as stated (C107_refuted): an input with an error races with every other that is not empty. The exact theorems say when calls can race; the safe theorems say that whenever they cannot, every call returns what it returns alone."
  },
  {
   "property": "C108",
   "status": "proved",
   "theorems": [
    "Verif.Props.StackLexerExact.C108_exact",
    "Verif.Props.StackLexerExact.C108_unique",
    "Verif.Props.StackLexerExact.C108_priority",
    "Verif.Props.StackLexerExact.C108_priority_unique",
    "Verif.Props.StackLexerExact.C108_longest"
   ],
   "note": ""
  }
 ]
}