# Formal model of AdamColton/parlex — design

The code in /repo (Go) is read as text and transcribed, function by function, into total
computable Lean 4 definitions under `lean/Verif/Model`. Specifications that do not mention the
model live in `lean/Verif/Spec`; helper lemmas in `lean/Verif/Proofs`; the theorems that count
as claims, and a non-trivial example for each, in `lean/Verif/Props`.

## Trusted base

* Lean 4.33.0's kernel. No axioms are added. Every theorem depends on at most `propext`,
  `Classical.choice`, `Quot.sound` (checked by `#print axioms`/the gate). No `sorry`, no
  `native_decide`, no `bv_decide`.
* The reading of the Go code: each model definition cites the file and lines it transcribes and
  says where it simplifies. Nothing connects the Lean text to the Go text mechanically.
* Go's semantics as understood for: slices, maps, integer arithmetic (modelled unbounded: no
  overflow; numbers read by `strconv.Atoi` are cut to 64 bits), closures, panics (index out of range, nil dereference), interface nil-ness.
* `regexp`: for lexers in general a user regexp is an arbitrary function satisfying a stated
  contract (bounds of matches, and for maximal munch that the match found at an offset depends only
  on the bytes from that offset on, so no `\b`, `^`, `$`). For the expressions written in this
  repository `regexp.Compile` is modelled (Model/Regexp: characters, escapes, classes, `.`, `$`,
  groups, captures, `|`, `*`, `+`, `?`, `{n}`) with the leftmost-first meaning of the package's documentation
  (Spec/Regexp: all matches in the order of a backtracking engine, over UTF-8 bytes; Spec/RegexpMarks:
  the same with the bounds of captures, for the rules of stack lexers); that this is what the package
  does is trusted. Expressions outside this syntax count as not compiling, about
  which nothing is claimed. The expression of `tree/parsetree.go` has a hand-written
  matcher in Model/TreeText, which is proved to be the compiled expression (C80).
* `strings`, `fmt`: the used functions (`Split`, `TrimSpace`, `Join`, `Count`, `LastIndex`, `%q`-free
  padding) are re-implemented over `List Char`/bytes, with the documented Go meaning.

## Modelling conventions

* Code that can panic or loop returns `Out α = ok a | panic | fuel`; loops without an obvious
  measure take a fuel argument, and termination is the theorem that enough fuel always gives `ok`
  with a result independent of the fuel.
* Go's `nil` slices/pointers are `Option` where the code tests them.
* Maps are functions or association lists; where code ranges over a map, the order is an explicit
  arbitrary parameter and theorems quantify over it.
* Symbols are strings at API level; inside the parsers they are indices into a modelled symbol set.
* A grammar (the `parlex.Grammar` interface) is an ordered list of nonterminals and a partial map
  from symbols to production lists.

## Plan per property

| id | model | how proved |
|----|-------|-----------|
| C01, C02 | `SetSymbol`: the two-way table as list + lookup | invariant by induction over histories |
| C03 | `byIdx` with its actual bound | refuted at `i = Size` by witness; `_partial`: all `i ≠ Size` |
| C04 | casts as folds over the table | induction over the production |
| C05 | iterator state machine | induction on number of calls |
| C06, C07, C08 | `run`, `lexErrors` | case analysis/induction on lexemes and reducers; spec given as an inductive stage relation |
| C09 | `Grammar` state machine with Add/query ops | refinement to the list of Adds |
| C10, C11 | char-level transcription of New/String | line-level spec; round-trip by induction |
| C12, C13 | `IsLeftRecursive` DFS with fuel | termination measure, soundness by path invariant; completeness refuted by witness, `_partial` for grammars without empty productions; `Spec/LeftStep.lean` gives a lower and an upper bound of the answer for every grammar |
| C14–C17 | top-down recognizer with memo and fuel | memo invariant against an inductive ordered-choice relation; refutations by witness for C16/C17 converse |
| C18–C25 | packrat worklist state machine over indices | invariants (memo, queue, partials), potential function for termination, induction over derivations for completeness; C23: which nonterminals are asked for where (`Spec/Asked.lean`), and an engine that reads other lexemes in place of nonterminals runs alike until one of these is misread; refutations for empty input and nonterminal lexeme kinds |
| C26–C34 | `PN` trees as inductive type; index helpers on Int | list lemmas, structural induction; refutation of the `-n-1` promotion |
| C35–C42 | simple lexer state machine over bytes, regexps abstract | loop invariants; refutations for C38 (newline in error), C39, C40 |
| C43–C48 | stack lexer state machine | loop invariants for coverage/termination; refutations by concrete rule sets; panics: the same invariants read in the other direction (`Spec/StackCrash.lean`); C46: `Spec/Inherit.lean` says what definitions with inheritance mean, and the order in which kinds are first met is an invariant of `parse` |
| C49–C51 | regex-grammar AST evaluation | language equality by induction on the AST, under explicit no-collision condition; refutations for collisions/empty groups |
| C52, C53, C63, C64 | `Analyze` and its queries | soundness of the scan, exactness under stated conditions, refutations by witness |
| C54, C55 | `RemoveLeftRecursion` transcription with both symbol tables | refinement to a table-free specification (expansion of leading symbols, then direct removal); exact termination condition; language equality by induction on derivation size; refutations by witness |
| C56 | `prettyPrint` | structural induction |
| C65 | `Format` from lexemes to text | composition of C49, C57, C15, C30, C56; ordered choice finds the tree since the grammar never needs to backtrack into a longer match |
| C68 | grammar text, reducer table and `New` of regexgram | `grammar.New` evaluated on the text by the kernel (strings are turned into lists by a simproc that only uses `String.toList_ofList`, Proofs/Lit); induction over derivation trees for what the reduction shows; unique readability of written definitions, so that the parser's choice does not matter |
| C69 | lexer definition of regexgram as text, `simplelexer.New` on it, `New` of regexgram on texts | the definition compiled by the kernel; cutting a text into tokens by a relation (Spec/Cut) that the lexer computes and that is the same as a layout of tokens (Spec/RegexGramLayout); then C68 |
| C57 | reducer DSL evaluation | structural induction |
| C70 | texts of lexer, grammar and reducer of tree/reducer, `Parse` on texts | as C68 and C69: grammar by C69 from its text; closed forms of the number and string expressions (Proofs/RegexpMore); induction over derivation trees; unique readability |
| C71 | texts of lexer, grammar and reductions of examples/parlexjson, `Format` from text to text | C69 and C70 for the variables, C65 for the rest; closed forms of expressions for the lexer; an explicit layout function; no two numbers stand side by side in a value, so the output is read as the same tokens |
| C72 | texts of lexer and grammar of examples/parlexmath, `Eval` from text to number | an invariant of the packrat loop on this grammar: which spans are expressions is settled by counting, and the best entry of a span splits it at its last operator of lowest precedence; the tree built from best entries is read off; the value by induction over a stratified reading of the tokens; lexing as in C71 |
| C73 | texts of lexer and grammar of examples/scalc, `Eval` from text to stack | the sentences of the grammar are the programs; whatever tree the parser keeps, reduction leaves a tree of a form that `evalStack` and `evalE` accept (induction over valid trees); texts that are not tokens lex to an error lexeme, which is in no sentence |
| C74 | the same | numbers and their operators: in any valid tree over such tokens only six productions occur, and reduction and evaluation of the tree follow the machine of Spec/Scalc. With operations on the stack last, and with a question mark, the grammar is ambiguous and it matters which tree the parser keeps: `Plain` and the choices have a reading better than all others at every node that matters, so C75 tells the production there; the grammar has no cycles, which C75 needs. Refutations by running the model in the kernel with fixed fuel, and monotonicity in the fuel |
| C75 | `parser/packrat` as for C20 | refuted by a grammar where a stale comparison keeps the worse tree; proved where the reading of a symbol is settled whatever the parts turn into (`Settled`, by depth): the memo keeps a settled reading once it is there, every reading of the input is offered to it, and the tree is built from the memo |
| C58 | heap of nodes with parent links (`Model/TreeHeap`) | invariant of construction; refinement to the model on values |
| C67 | the same heap | the simulation of C66 with parent links; refutations for two operations |
| C66 | the same heap, arrays and slices | simulation: each operation in memory against the one on values, with a frame |
| C76 | the expressions for headers and lines compiled, `New` of both lexers on texts | Spec/LexerDef describes the layout without regular expressions; closed forms of the expressions give that the first match is the layout; every text has one reading |
| C77 | stack lexer with compiled expressions | the loop theorem of C43 with the values read through a description of groups; refutations for the readme and for groups that took no part |
| C78 | `String` and `New` of simple lexers on texts, `Add` | the lines written are lines of the layout of C76, which `New` reads as the same rules; every lexer that `New` returns has names and expressions that can be written; refutations for settings, slashes and lexers after an error |
| C79 | the loop of the interactive program over the bytes delivered, on top of `Eval` of C73 | the text of a stack is a text of numbers (C74), so a line is run on the stack as shown; by induction over the lines; refutations with infinite numbers, lines starting with decimals, lines delivered together, end of input |
| C80 | `New` of package tree with its expression compiled | the matcher used so far is the compiled expression (all its parts by continuations); lines read as a layout without regular expressions says; what a text says is a list of tokens with braces, of which trees and unclosed braces are described without a cursor; results, errors and panics exactly |
| C81 | top-down and packrat parsers on LL(1) grammars | LL(1) by words of terminals, with following terminals as an inductive relation; derivations in contexts that can follow are found by ordered choice; chains of leftmost symbols contradict the conditions; two derivation trees of an input agree node by node |
| C82, C83 | `String` of lexemes, `LexemeString`, `LexemeList` | decimal numerals and quoted texts can be cut off what follows them; cutting at the first separator |
| C84 | texts of lexing errors | C38 and C48 give the lexemes as segments; the first segment that is an error |
| C85 | symbol/stringsymbol | induction over the loops; cutting at blanks |
| C86 | `main` of parlexjson and parlexmath | C71 and C72 on the arguments joined; layouts of tokens can be joined by a blank |
| C87 | productions of setsymbol with shared arrays | simulation of values by slices: arrays are labelled with the call they come from; writing beyond the longest slice of an origin changes no other |
| C88 | work of the top-down parser | potential: what trying all productions of the keys not in the memo would count. A call cannot meet its own key again below, since the match of least height has none of its own height within. From below: the lexemes read are in the memo, and calls pay for its entries |
| C89 | rounds of the packrat parser | the potential of the termination proof (C18), added up; from below: each round processes one pair, and every chain of keys is processed |
| C90 | what the packrat parser prefers | specification: `Spec/Preorder.lean` (order by the first difference) and `Code` (production numbers of the tree in the memo); that whole trees only improve is part of the engine's state order `Le` |
| C91 | the shape of packrat trees | specification: `Spec/Shape.lean` (descendants, depth, number of nodes); nodes of the tree are keys of the memo, nested keys of one width are equal, and the memo has no cycle |
| C92 | the shape of top-down trees | the same, from the ordered choice of C15: matching is deterministic, and no tree is below itself |
| C93 | when top-down Parse does not return | specification: `Spec/Calls.lean` (a symbol at a position needs the answer for another one); the symbols and positions are finitely many, so without a loop the answers can be found one after the other |
| C94 | what a top-down tree shares | every cell has a label with the lexemes that it covers; the children of a cell cover disjoint parts, so that one occurs twice only if its part is empty. Allocation is bounded by the work of C88 |
| C95 | removal of left recursion, then top-down parsing | specification: `Spec/DirectLL1.lean`; the grammar returned is shown to be LL(1) with empty productions last (what can follow a new symbol could follow the old one outside of its recursion), so that C81 applies |
| C96 | searches of the simple lexer | `Model/SimpleLexerSearch.lean` records the calls of `FindIndex`; what a search costs is in `Spec/Searches.lean` (bytes up to the end of the match, a lower bound of what a regular expression engine reads); refuted for all the bytes looked at; from below, every token was found by a search |
| C97 | searches of the stack lexer | the same in `Model/StackLexerSearch.lean`; refuted for the bytes passed over, unless no rule pushes or pops; from below, no fewer searches than tokens |
| C98 | size of grammars freed of left recursion | counting the expansions of C54, along the acyclic order of leading symbols; refuted by a family of grammars, for every size |
| C99 | size of the grammars of regexgram | counting the plain forms of C49 with a separate recursive count of ways; refuted by a family of rules, for every size |
| C100 | printing of the productions of a set | unique reading of the text from the left |
| C101 | length of what the JSON formatter returns | induction over values on the layout of C71, one gap for each token; refuted by a family of texts, for every size |
| C102 | calls of the packrat parser's checks | counted copies of the two functions; the count is the size of the tree, which without repeated nodes is linear in the input (induction with the set of kinds that may still occur at this width); refuted by a family of grammars, at the first round that replaces an empty reading |
| C103 | all calls of Parse of the packrat parser | counted copies of all functions; pushes are paid by the growth of the stack, the checks by C102, the productions by the markers not yet queued, the rounds by the potential of C89; from below, every element taken from the stack was pushed by a counted call |
| C104 | the Must functions and the initialisation of the packages | composed of C10, C13, C69, C70, C76 and the facts about the texts in the packages |
| C105 | `Lex` called by several goroutines | accesses to the set interleaved in any way (Spec/Concurrent); without a write alone no configuration changes the set; with a write, run the other to its first access and the writer to its write there |
| C106 | `Parse` called by several goroutines | every symbol asked for is in the set of the grammar: an invariant of the partials and the stack (packrat), of the productions (top-down) |
| C107 | `Run` called by several goroutines | memory in two parts; the second is never written to in any interleaving (`NoRight`), inputs that are empty never touch the first (`NoLeft`, `Still`) |
| C108 | stack lexer in both modes, exactly | lexing with the positions of the searches instead of cached matches (`Goes`, `Since`, `Furthest`, `Foremost` in Spec/StackExact); every cached match is that of the search that stands for the rule (`VHist`) |
| C60–C62 | stack lexer, as C43–C48 | same loop theorem |

A theorem named `_refuted` shows that a property as listed is false of the code, by a concrete run of
the model; `_partial` marks the part of a listed property that does hold.

## What is modelled

| source | model | left out |
|--------|-------|----------|
| symbol/setsymbol/set.go | Model/SetSymbol, with productions as values; Model/SetSymbolHeap (productions with their arrays); Model/SetSymbolString (`String`) | |
| helpers.go, parlex.go, errors.go | Model/Helpers; Model/Lexeme (printing lists of lexemes), Model/LexError (texts of errors) | |
| lexeme/lexeme.go | Model/Lexeme | which characters `strconv.Quote` keeps, a parameter |
| symbol/stringsymbol/symbol.go | Model/StringSymbol | symbols and productions of other packages are what their methods return; a nil slice is the empty one; the iterators are in Model/Helpers |
| parser/packrat/packrat.go | Model/Packrat; Model/PackratCount (the same with rounds counted); Model/PackratWork (the two checks with their calls counted); Model/PackratTotal (all of it with all calls counted); Model/TreeHeap for the nodes made and their parent links | |
| parser/topdown/topdown.go, leftrecursion.go | Model/Topdown; Model/TopdownCount (the same with calls counted); Model/TopdownHeap (the same with nodes in memory: C94 says what is shared, `C66_reduce` allows all of it) | |
| grammar/grammar.go | Model/Grammar | |
| tree/*.go | Model/Tree, Model/TreeText on values; Model/TreeRex (`New` with the expression compiled); Model/TreeHeap with pointers, arrays and parent links, related to them by C58 and C66 | nil children, and trees in which a node is its own descendant |
| tree/reducer/reducer.go | Model/ReducerDSL (evaluation), Model/ReducerText (lexer, grammar, reducer, `Parse`); Model/Int64 (numbers that `int`, of 64 bits, has no room for) | |
| lexer/simplelexer/*.go | Model/SimpleLexer, Model/SimpleLexerText (`New`: reading definitions), Model/SimpleLexerString (`String`), Model/SimpleLexerSearch (`Lex` with its searches recorded) | definitions with expressions outside Model/Regexp |
| parlex.go with a simple lexer | Model/Run (up to the errors of the lexer) | |
| `Lex` of both lexers in several goroutines | Model/Concurrent | memory other than the set, which `Lex` only reads; what Go does once there is a race |
| `Parse` of both parsers in several goroutines | Model/ConcurrentParse | the kinds of the lexemes, which may be symbols of the set of a lexer, are strings; names in productions are read when the packrat parser asks for the productions |
| `Run` in several goroutines | Model/ConcurrentRun | the names of the kinds of the lexemes are read before the grammar is loaded; reducers are functions of trees that no other goroutine has |
| helpers.go MustParser, MustLexer, MustGrammar; Must of regexgram, reducer and stacklexer; package variables | Model/Must | the expression in lexer/stacklexer/construct.go:58 is modelled by a function |
| lexer/stacklexer/lex.go | Model/StackLexer; Model/StackLexerSearch (the same with its searches recorded) | |
| lexer/stacklexer/construct.go | Model/StackLexerNew (from the parts of lines on), Model/StackLexerText (`New` from texts on: `subParserDef`, `subParserLine`), Model/StackLexerRex (compiled expressions with captures) | definitions with expressions outside Model/Regexp |
| grammar/regexgram/regexgram.go | Model/RegexGram (evaluation), Model/RegexGramNew (grammar text, reducer, `New` from lexemes on), Model/RegexGramText (lexer, `New` from text on) | the symbols made with `set` |
| analyze/analysis.go | Model/Analyze | the test for a grammar that is already analysed |
| grammar/left_recursion.go | Model/LeftRecursion | stack depth: endless recursion shows as `fuel` at every bound |
| examples/parlexjson/json.go | Model/Json (`prettyPrint`, `Format` from lexemes on, the package variables), Model/JsonText (the texts, the variables from them, `Format` from text to text) | nothing |
| examples/parlexmath/math.go | Model/MathText (the texts, the variables from them, `Eval` from text to number) | `strconv.ParseFloat` and float64 arithmetic, which are parameters |
| examples/scalc/scalc.go | Model/Scalc (the texts, the variables from them, `Parse` and `Eval` from text to stack; run on all cases of scalc_test.go it gives the results expected there, up to the precision of its integers) | `String` of the numbers; `strconv` and float64 arithmetic, which are parameters |
| examples/scalc/scalc/main.go | Model/ScalcMain (the interactive loop, reading from the terminal through `bufio`, the action on arguments) | the package `cli` and the command `parse`; the printing of numbers, which is a parameter |
| examples/parlexjson/parlexjson/main.go, examples/parlexmath/parlexmath/main.go | Model/Mains | the texts of errors; the printing of numbers, which is a parameter |

<!-- axioms: generated from `#print axioms` for the theorems of MANIFEST.json -->
## Axioms of the theorems

MANIFEST.json names 406 theorems. By `#print axioms`, 326 of them depend on `propext`, `Classical.choice` and `Quot.sound`: all that are not listed here. The others depend on less.

* On `propext` and `Quot.sound` (67): `Analyze.C52_complete_refuted`, `Analyze.C52_nolr_refuted`, `Analyze.C52_sound_refuted`, `Analyze.C52_terminal_self`, `Analyze.C53_nonterminal_refuted`, `Analyze.C53_terminal_refuted`, `Analyze.C63_refuted`, `Concurrent.C105_stack_quiet`, `Grammar.C09_record`, `Helpers.C05_production_iterator`, `Helpers.C05_productions_iterator`, `Helpers.C06_run_spec`, `Helpers.C06_spec_deterministic`, `Helpers.C07_nil_reducers`, `Helpers.C07_reducers_compose`, `Helpers.C08_lexErrors`, `LL1.C81_productive_refuted`, `LL1.C81_unambiguous`, `Packrat.C23_refuted`, `PackratCount.C89_said`, `PackratCount.C89_same`, `PackratLeast.C103_least`, `PackratShape.C91_said`, `PackratTotal.C103_said`, `PackratTotal.C103_same`, `PackratWork.C102_said`, `PackratWorkLeast.C102_least`, `RegexGram.C50_merge`, `RegexGram.C50_reduce`, `RemoveLR.C54_collision_refuted`, `SetSymbol.C01_stable`, `SetSymbol.C01_str_injective`, `SetSymbol.C02_only_interned_matters`, `SetSymbol.C03_byIdx_partial`, `SetSymbol.C03_negative`, `SetSymbol.C03_refuted`, `SetSymbol.C04_cast_idempotent`, `SetSymbol.C04_cast_roundtrip`, `SetSymbolHeap.C87_values_partial`, `StackLexerExact.C108_longest`, `StackLexerFlat.C97_flat`, `StackLexerInsert.C42_stack`, `StackLexerLeast.C97_least`, `StringSymbol.C85_again`, `StringSymbol.C85_index_partial`, `StringSymbol.C85_index_refuted`, `StringSymbol.C85_panics`, `StringSymbol.C85_production`, `StringSymbol.C85_productions`, `Topdown.C13_order_refuted`, `Topdown.C13_refuted`, `TopdownHeap.C94_owns_refuted`, `Tree.C26_cases`, `Tree.C29_calls`, `Tree.C29_pass`, `Tree.C30_merge`, `Tree.C30_order`, `Tree.C31_chain`, `Tree.C31_if`, `Tree.C31_methods`, `TreeHeap.C58_clone`, `TreeHeap.C58_new`, `TreeHeap.C58_parent_refuted`, `TreeHeap.C66_input`, `TreeHeap.C66_reduce`, `TreeHeap.linked_links`, `TreeText.C59_balanced_partial`.
* On `propext` (12): `Helpers.C05_nil_iterators`, `PackratOrder.C90_said`, `PackratWork.C102_same`, `SetSymbolHeap.C87_set_refuted`, `SetSymbolHeap.C87_taken_refuted`, `StringSymbol.C85_string_partial`, `TopdownCount.C88_same`, `TopdownHeap.C94_shared_said`, `Tree.C29_unrelated`, `Tree.C32_clone_partial`, `Tree.C32_refuted`, `TreeHeap.rep_fun`.
* On no axiom (1): `Helpers.C07_runner`.
<!-- end axioms -->
