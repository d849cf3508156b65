{"id": "C01", "title": "Symbol interning is a bijection", "statement": "After any history of interning calls on a symbol set, two strings get the same index exactly when they are the same string; the indices handed out are exactly 0..Size()-1 in order of first appearance; String() of an interned symbol is the interned string; and no later call changes the index or the string of an earlier symbol.", "quantifier": "every sequence of Str/Symbol/HasSymbol/Idx calls with arbitrary strings", "why_tests_cant": "Injectivity and stability concern every pair of strings and every continuation of the history; a test sees a handful of strings.", "anchors": ["symbol/setsymbol/set.go: New, Size, Str, Symbol, (*Symbol).String, (*Symbol).Idx"]}
{"id": "C02", "title": "Set queries reflect history and never add", "statement": "Has(s), HasSymbol(s) and Idx(s) succeed exactly when s was interned earlier in the history, return the index it was given then (Idx gives -1 otherwise), and leave the set unchanged.", "quantifier": "every history of interning calls, every queried string", "why_tests_cant": "Quantifies over all histories and all strings.", "anchors": ["symbol/setsymbol/set.go: Has, HasSymbol, Idx"]}
{"id": "C03", "title": "ByIdx hands out only usable symbols", "statement": "For every history and every index i, ByIdx(i) returns a symbol whose String() does not panic when i < Size(), and nil otherwise.", "quantifier": "every set history, every index", "why_tests_cant": "The failing case is one boundary value of an unbounded index; tests only use valid indices.", "anchors": ["symbol/setsymbol/set.go: ByIdx, (*Symbol).String"]}
{"id": "C04", "title": "Casting productions between symbol implementations preserves them", "statement": "Casting any production into a symbol set and reading it back symbol by symbol gives the same strings in the same order, whatever was in the set before; casting it again to string symbols is the identity on strings.", "quantifier": "every production, every prior set history", "why_tests_cant": "All lengths, all strings, all prior histories.", "anchors": ["symbol/setsymbol/set.go: CastProduction, Production, AddSymbols, (*Production).Symbol", "symbol/stringsymbol/symbol.go: CastProduction"]}
{"id": "C05", "title": "Production iterators visit everything once, in order, then stop", "statement": "Calling Next() on a fresh iterator over a production (or over a set of productions) with n elements returns true exactly n times, on the k-th call exposing element k with Idx = k, and every later call returns false.", "quantifier": "every production/productions of any length, every number of Next() calls", "why_tests_cant": "Length and number of calls are unbounded (the length doubles as the 'started' flag, so the empty case is special).", "anchors": ["helpers.go: ProductionIterator.Next, ProductionsIterator.Next"]}
{"id": "C06", "title": "Run reports the first failing stage", "statement": "Run returns ErrCouldNotLex iff the lexer returned nil; otherwise the first lex error in input order iff any lexeme is a LexError; otherwise ErrCouldNotParse iff the parser returned nil; otherwise ErrCouldNotReduce iff some non-nil reducer, applied in order, returned nil; otherwise the reduced tree and a nil error. A result is returned together with a nil error or not at all.", "quantifier": "every lexer, parser and reducer list, every input", "why_tests_cant": "Lexer, parser and reducers are arbitrary user code.", "anchors": ["parlex.go: Run, Runner.Run", "helpers.go: LexErrors"]}
{"id": "C07", "title": "Run composes reducers left to right, skipping nil ones", "statement": "When every stage succeeds the result of Run is the parse tree passed through the non-nil reducers in argument order; inserting or removing nil reducers changes nothing; Runner.Run is Run on the stored parts.", "quantifier": "every reducer list of any length, with nil entries anywhere", "why_tests_cant": "Unbounded list of arbitrary functions.", "anchors": ["parlex.go: Run, New, Runner.Run"]}
{"id": "C08", "title": "LexErrors returns exactly the error lexemes, in order", "statement": "LexErrors(ls) is the subsequence of ls consisting of exactly those lexemes that carry an error, in the original order; it is empty iff none does.", "quantifier": "every lexeme slice", "why_tests_cant": "Unbounded slices.", "anchors": ["helpers.go: LexErrors"]}
{"id": "C09", "title": "A grammar is the ordered record of its Add calls", "statement": "After any history of Add calls (interleaved with Productions and NonTerminals queries), Productions(A) is nil iff A was never the left side of an Add, and otherwise lists exactly the right sides added for A in call order; NonTerminals() lists each left side exactly once in order of its first Add.", "quantifier": "every sequence of Add/Productions/NonTerminals calls with arbitrary symbols", "why_tests_cant": "Productions() itself interns its argument, so reads mutate state; correctness must hold for every interleaving.", "anchors": ["grammar/grammar.go: Empty, Add, Productions, NonTerminals"]}
{"id": "C10", "title": "grammar.New reads a definition line by line", "statement": "New(text) fails exactly when some line contains two or more '->'; otherwise it equals adding, for each non-blank line in order, the production made of the line's blank-separated tokens right of '->' (or of the whole line if there is no '->') to the nonterminal left of '->', or to the most recent one if that side is blank, or to START if there is none.", "quantifier": "every definition text", "why_tests_cant": "Every text: any number of lines, tokens, blanks.", "anchors": ["grammar/grammar.go: New, productionFromLine, trimAndSplit"]}
{"id": "C11", "title": "Grammar.String() defines a copy of the grammar", "statement": "If New(text) succeeds with grammar g then New(g.String()) succeeds with a grammar with the same nonterminals in the same order and the same productions in the same order.", "quantifier": "every definition text accepted by New", "why_tests_cant": "Round-trip over all texts including odd whitespace, empty productions, nonterminals containing blanks.", "anchors": ["grammar/grammar.go: String, New"]}
{"id": "C12", "title": "IsLeftRecursive always answers, and 'true' is never wrong", "statement": "For every grammar IsLeftRecursive terminates, and if it answers true the grammar has a nonterminal that can derive a sentential form beginning with itself.", "quantifier": "every finite grammar", "why_tests_cant": "Termination and soundness for all grammars, including cyclic and nullable ones.", "anchors": ["leftrecursion.go: IsLeftRecursive, lrOp.check"]}
{"id": "C13", "title": "IsLeftRecursive detects all left recursion", "statement": "For every grammar, if some nonterminal can derive a sentential form beginning with itself, IsLeftRecursive answers true.", "quantifier": "every finite grammar", "why_tests_cant": "The failing grammars depend on the order in which nullable symbols are visited; no finite list of examples covers it.", "anchors": ["leftrecursion.go: IsLeftRecursive, lrOp.check"]}
{"id": "C14", "title": "Top-down parse results are derivations of the whole input", "statement": "If a top-down parser returns a tree for a lexeme sequence, the root is the start symbol, every inner node together with its children is a production of the grammar, and the leaves, left to right, are exactly the input lexemes with their values and positions.", "quantifier": "every grammar, every lexeme sequence", "why_tests_cant": "All grammars and all inputs.", "anchors": ["parser/topdown/topdown.go: Parse, accept, tryAccept, acceptProd"]}
{"id": "C15", "title": "Top-down memoisation is invisible: the parser is ordered choice", "statement": "Whenever Parse terminates, its result is the one given by memo-free ordered choice: each nonterminal at each position commits to its first production that matches there, the start symbol to its first production that matches the whole input.", "quantifier": "every grammar, every lexeme sequence, every state of the memo table reached during the parse", "why_tests_cant": "The memo key ignores the 'must consume everything' flag; showing that this is harmless needs all reachable memo states.", "anchors": ["parser/topdown/topdown.go: accept, tryAccept, acceptProd, Parse"]}
{"id": "C16", "title": "A grammar accepted by topdown.New can be parsed without divergence", "statement": "If topdown.New(g) returns no error then Parse terminates for every lexeme sequence.", "quantifier": "every grammar accepted by New, every input", "why_tests_cant": "Termination for all grammars and inputs.", "anchors": ["parser/topdown/topdown.go: New, Parse", "leftrecursion.go: IsLeftRecursive"]}
{"id": "C17", "title": "Top-down acceptance implies derivability; the converse fails only by committed choice", "statement": "If Parse returns a tree the input is in the language of the grammar. Conversely, an input in the language is accepted when, at every nonterminal and position, no production other than the last-resort one matches a proper alternative (the grammar is deterministic there).", "quantifier": "every grammar, every input", "why_tests_cant": "Language membership is over all inputs.", "anchors": ["parser/topdown/topdown.go: tryAccept"]}
{"id": "C18", "title": "Packrat parsing terminates for every grammar and input", "statement": "For every grammar, including left-recursive, ambiguous and cyclic ones, and every lexeme sequence whose kinds are not nonterminals, packrat Parse terminates without panicking.", "quantifier": "every finite grammar, every lexeme sequence", "why_tests_cant": "Termination over all grammars and inputs; cyclic grammars make the memo graph potentially cyclic.", "anchors": ["parser/packrat/packrat.go: Parse, addProds, update, addToMemo, createsCircularDep, comparePriority, toPN"]}
{"id": "C19", "title": "Packrat results are derivations of the whole input", "statement": "If packrat Parse returns a tree for a non-empty lexeme sequence, the root is the start symbol, every inner node with its children is a production of the grammar, and the leaves left to right are exactly the input lexemes with their values and positions.", "quantifier": "every grammar, every lexeme sequence whose kinds are terminals", "why_tests_cant": "All grammars, inputs and orders in which partial parses complete.", "anchors": ["parser/packrat/packrat.go: Parse, toPN, addToMemo, update"]}
{"id": "C20", "title": "Packrat accepts every sentence of the grammar", "statement": "If the lexeme kinds form a sentence of the grammar (left recursion, ambiguity, empty productions and cycles included) then packrat Parse returns a tree.", "quantifier": "every grammar, every sentence", "why_tests_cant": "Completeness of a worklist algorithm over all grammars and sentences.", "anchors": ["parser/packrat/packrat.go: Parse, addProds, addPartial, update, addToMemo"]}
{"id": "C21", "title": "Packrat rejects what the grammar does not derive", "statement": "For every lexeme sequence that is not a sentence of the grammar, the empty one included, packrat Parse returns nil.", "quantifier": "every grammar, every non-sentence", "why_tests_cant": "Rejection over all non-sentences; the failing case is the single input of length zero.", "anchors": ["parser/packrat/packrat.go: Parse (accept check)"]}
{"id": "C22", "title": "Earlier productions win in an ambiguous packrat parse", "statement": "In the tree returned by packrat Parse for a grammar without cyclic derivations, at every inner node the production used is the first production of that nonterminal, in grammar order, that can derive the words below the node.", "quantifier": "every cycle-free grammar, every sentence, every node of the result", "why_tests_cant": "The memo is overwritten as better parses complete in a schedule-dependent order; the claim is about the final state for every grammar and input.", "anchors": ["parser/packrat/packrat.go: addToMemo, comparePriority"]}
{"id": "C23", "title": "Packrat Parse never panics, whatever the lexemes", "statement": "For every grammar and every lexeme sequence, packrat Parse does not panic.", "quantifier": "every grammar, every lexeme sequence, including kinds that name nonterminals", "why_tests_cant": "Requires all inputs; the panic needs a lexeme kind equal to a nonterminal below a nullable prefix.", "anchors": ["parser/packrat/packrat.go: update, checkNonTerminal, comparePriority"]}
{"id": "C24", "title": "Packrat node positions come from the first child", "statement": "In the tree returned by packrat Parse every leaf has the position of its lexeme, every inner node with children has the position of its first child, and an inner node without children has the unset position (-1, 0).", "quantifier": "every grammar, every sentence, every node", "why_tests_cant": "Every node of every tree.", "anchors": ["parser/packrat/packrat.go: toPN"]}
{"id": "C25", "title": "Packrat accepts whatever top-down accepts", "statement": "If the top-down parser returns a tree for a lexeme sequence of terminals then the packrat parser built on the same grammar returns a tree for it too.", "quantifier": "every grammar, every lexeme sequence of terminal kinds", "why_tests_cant": "Relates two algorithms on all inputs.", "anchors": ["parser/packrat/packrat.go: Parse", "parser/topdown/topdown.go: Parse"]}
{"id": "C26", "title": "Child indices: negative counts from the end, out of range is a no-op", "statement": "For every node and every integer index, Child, ChildAt, ChildIs, RemoveChild, PromoteChild, PromoteChildrenOf, ReplaceWithChild and PromoteChildValue act on child i when 0 <= i < n, on child n+i when -n <= i < 0, and do nothing otherwise.", "quantifier": "every node, every integer index", "why_tests_cant": "All integers and all child counts; the failing case lies below -n.", "anchors": ["tree/node_reductions.go: GetIdx and its users", "tree/parsetree.go: Child, ChildAt"]}
{"id": "C27", "title": "RemoveChildren and RemoveAll delete exactly what was asked", "statement": "RemoveChildren(is...) deletes exactly the children selected by the in-range indices, each interpreted against the original list (duplicates and out-of-range ones ignored); RemoveAll(ks...) deletes exactly the children whose kind is in ks; both keep the remaining children in order.", "quantifier": "every node, every index list, every kind list", "why_tests_cant": "The loops delete while iterating; must hold for all lists.", "anchors": ["tree/node_reductions.go: RemoveChildren, RemoveAll, RemoveChild"]}
{"id": "C28", "title": "Promotions splice in place and lose no leaf", "statement": "PromoteChildrenOf replaces the selected child by its children in place, PromoteGrandChildren replaces every child by its children, PromoteChild gives the node the child's lexeme and splices the grandchildren at the child's position, PromoteSingleChild does so iff there is one child, ReplaceWithChild makes the node equal to the child.", "quantifier": "every tree, every index", "why_tests_cant": "All shapes of trees.", "anchors": ["tree/node_reductions.go: PromoteChildrenOf, PromoteGrandChildren, PromoteChild, PromoteSingleChild, ReplaceWithChild"]}
{"id": "C29", "title": "Reduce is one bottom-up pass and leaves unrelated nodes alone", "statement": "Reduce rebuilds the tree bottom up, applying to each rebuilt node the reduction registered for the node's original kind, exactly once per original node; with no registered reduction a node keeps kind, value, position and children. In particular the empty reducer returns an equal tree.", "quantifier": "every reducer (arbitrary functions), every tree", "why_tests_cant": "All trees and arbitrary reductions.", "anchors": ["tree/reducer.go: Reduce, RawReduce"]}
{"id": "C30", "title": "Merge runs the first reducer's rule then the second's on each node", "statement": "For every node kind the merged reducer behaves as running r1's reduction for that kind (if any) and then r2's (if any), independently of map iteration order, and Can is true iff it is for one of them.", "quantifier": "all reducers r1, r2, all iteration orders, all nodes", "why_tests_cant": "Go map iteration order is random: must hold for every order.", "anchors": ["tree/reducer.go: Merge, Can", "tree/chain_reductions.go: Chain"]}
{"id": "C31", "title": "Chains of reductions are sequential composition", "statement": "Chain is associative with nil as unit, a chained method call runs after everything chained before it, and If runs exactly the branch selected by the condition on the node as it is at that time.", "quantifier": "all reductions, conditions and nodes", "why_tests_cant": "Arbitrary user functions and chain lengths.", "anchors": ["tree/chain_reductions.go: Chain, If, (Reduction).If and chained methods"]}
{"id": "C32", "title": "Clone is a structural copy", "statement": "Clone(t) has the same shape, kinds and values as t, every cloned child's parent is its cloned parent, and positions are preserved.", "quantifier": "every tree", "why_tests_cant": "All trees.", "anchors": ["tree/parsetree.go: Clone"]}
{"id": "C33", "title": "Tree text round-trip", "statement": "tree.New(t.String()) succeeds and equals t (kinds, values, shape) for every tree whose kinds are non-empty and free of blanks, quotes, braces and colons.", "quantifier": "every such tree, every value string", "why_tests_cant": "All value strings (escaping) and all shapes.", "anchors": ["tree/parsetree.go: New, String, string, reTreeLine, handleSlash"]}
{"id": "C34", "title": "String() allocates exactly what it uses; Size counts nodes", "statement": "For every tree the capacity reserved by String equals the number of segments it appends, and Size equals the number of nodes.", "quantifier": "every tree", "why_tests_cant": "All trees.", "anchors": ["tree/parsetree.go: sliceReq, string, Size"]}
{"id": "C35", "title": "Simple lexer is lossless", "statement": "For every lexer in its default mode and every input, the input is the concatenation, in order, of the values of emitted lexemes, discarded matches and error lexemes; no byte is lost, duplicated or reordered. Without discard rules the values of the emitted lexemes concatenate to the input.", "quantifier": "every rule set, every regexp behaviour, every input", "why_tests_cant": "All inputs and arbitrary regular expressions.", "anchors": ["lexer/simplelexer/lexer.go: Lex, findNextMatch, updateNext, checkError"]}
{"id": "C36", "title": "Simple lexer is maximal munch with declaration-order ties", "statement": "In the default mode each emitted or discarded lexeme is, among all rules matching a non-empty prefix at that position, one of maximal length, and among those of maximal length the one declared first; an error region starts only where no rule has a non-empty match.", "quantifier": "every rule set of context-independent regexps, every input, every position", "why_tests_cant": "Cached match positions are reused across tokens; correctness must hold for every token history.", "anchors": ["lexer/simplelexer/lexer.go: findNextMatch, updateNext, populateNext, lengthThenPriority"]}
{"id": "C37", "title": "Lexing always terminates and error regions are maximal", "statement": "Lex terminates on every input for both lexers, and two error lexemes are never adjacent in the input.", "quantifier": "every rule set, every input", "why_tests_cant": "Termination over all inputs, including rules matching the empty string.", "anchors": ["lexer/simplelexer/lexer.go: Lex", "lexer/stacklexer/lex.go: lex"]}
{"id": "C38", "title": "Simple lexer positions point at the lexeme", "statement": "Each lexeme's position is (number of newlines before it in the input, 1-based distance from the preceding newline).", "quantifier": "every rule set, every input, every lexeme", "why_tests_cant": "All inputs; the failing ones have a newline inside an error region.", "anchors": ["lexer/simplelexer/lexer.go: findNextMatch"]}
{"id": "C39", "title": "ByPriority chooses the highest-priority match", "statement": "After ByPriority(), at each position the lexer takes the matching rule declared first.", "quantifier": "every rule set, every input", "why_tests_cant": "Claim about all inputs (it fails on every non-empty one).", "anchors": ["lexer/simplelexer/lexer.go: ByPriority, priorityThenLength, findNextMatch"]}
{"id": "C40", "title": "A lexer can be used repeatedly and extended between uses", "statement": "Lexing the same input with the same rules gives the same lexemes whatever was lexed before, and after any history of Add and Lex calls Lex does not panic.", "quantifier": "every history of Add and Lex calls", "why_tests_cant": "The history that fails needs an error lexeme before an Add.", "anchors": ["lexer/simplelexer/lexer.go: checkError, populateNext", "lexer/simplelexer/construct.go: Add, addRule"]}
{"id": "C41", "title": "Rules get priorities in declaration order and kinds are unique", "statement": "After any history of successful Add calls the priorities are 0,1,2,... in call order, adding a kind twice is an error and leaves the lexer unchanged.", "quantifier": "every history of Add calls", "why_tests_cant": "Unbounded histories.", "anchors": ["lexer/simplelexer/construct.go: addRule, Add, New"]}
{"id": "C42", "title": "Inserted lexemes bracket the result", "statement": "With InsertStart and/or InsertEnd set on a simple or a stack lexer the result is the inserted start lexeme, the lexemes of the plain lexer, and the inserted end lexeme, for every input including the empty one.", "quantifier": "every rule set, insert setting and input", "why_tests_cant": "All inputs.", "anchors": ["lexer/simplelexer/lexer.go: Lex", "lexer/simplelexer/construct.go: InsertStart, InsertEnd", "lexer/stacklexer/lex.go: Lex", "lexer/stacklexer/construct.go: InsertStart, InsertEnd"]}
{"id": "C43", "title": "Stack lexer is lossless", "statement": "For every stack lexer without sub-match rewriting and every input on which Lex returns, the input is the concatenation in order of the texts matched by emitted and discarded lexemes and of the error lexemes.", "quantifier": "every set of sub-lexers, every regexp behaviour, every input", "why_tests_cant": "All inputs and rule sets.", "anchors": ["lexer/stacklexer/lex.go: lex, findNextMatch, checkError, consumeRemainingAsError"]}
{"id": "C44", "title": "Stack lexer takes the longest match", "statement": "In the default mode each lexeme is one of maximal length among the rules of the current sub-lexer matching at that position, ties going to the higher-priority rule.", "quantifier": "every rule set of context-independent regexps, every input", "why_tests_cant": "Needs a particular history of cached matches with different search offsets to fail.", "anchors": ["lexer/stacklexer/lex.go: findNextMatch, updateNext"]}
{"id": "C45", "title": "Push and pop follow the stack discipline", "statement": "A push rule saves the current sub-lexer and switches to the named one, a rule with k carets returns to the sub-lexer k levels down (or the outermost one), an unmatched position pops one level before it is reported as an error, and no rule combination makes Lex panic.", "quantifier": "every rule set, every input", "why_tests_cant": "All nestings and inputs; the panics need a pop at the outermost level or an undefined push target.", "anchors": ["lexer/stacklexer/lex.go: lex, pop"]}
{"id": "C46", "title": "Stack lexer definitions have one meaning", "statement": "The lexer built from a definition does not depend on map iteration order: inherited rules keep the priority order in which they are declared.", "quantifier": "every definition, every map iteration order", "why_tests_cant": "Go map order is random; a test run sees one order.", "anchors": ["lexer/stacklexer/construct.go: New, parse, addHeir, addRule"]}
{"id": "C47", "title": "Bad stack lexer definitions are reported", "statement": "stacklexer.New returns an error when sub-lexers inherit from each other cyclically or a regexp does not compile.", "quantifier": "every definition", "why_tests_cant": "All definitions.", "anchors": ["lexer/stacklexer/construct.go: New, parse, ErrCyclic"]}
{"id": "C48", "title": "Stack lexer positions point at the lexeme", "statement": "Each non-error lexeme's position is (1 + number of newlines before it, 1-based distance from the preceding newline), and each error lexeme's position is that of its first byte.", "quantifier": "every rule set, every input", "why_tests_cant": "All inputs.", "anchors": ["lexer/stacklexer/lex.go: handleLineCol, checkError"]}
{"id": "C49", "title": "Regex-grammar expansion preserves the language", "statement": "For a grammar written with ?, *, | and groups, the plain grammar produced derives from each declared nonterminal exactly the words described by its regular right-hand sides.", "quantifier": "every regex grammar, every word", "why_tests_cant": "All nested operators and all words; naming collisions and empty groups are the corner cases.", "anchors": ["grammar/regexgram/regexgram.go: evalGrammar, evalProd, evalSymbol, addRepeatAsProduction, getName, mergeRules, reduce"]}
{"id": "C50", "title": "Alternative merging is the ordered cross product without aliasing", "statement": "mergeRules(a,b) lists a[i]++b[j] in lexicographic order of (i,j); reducing a group merges its parts left to right.", "quantifier": "all rule lists", "why_tests_cant": "All lists.", "anchors": ["grammar/regexgram/regexgram.go: mergeRules, ruleComb.reduce"]}
{"id": "C51", "title": "The regex-grammar reducer hides the helper nonterminals", "statement": "After the generated reducer runs, no node of a nonterminal that used * has a child of a helper kind, and the children are the repeated items in order.", "quantifier": "every regex grammar, every tree with helper nodes nested to any depth", "why_tests_cant": "All depths.", "anchors": ["grammar/regexgram/regexgram.go: bludgeon"]}
{"id": "C52", "title": "HasFirst is exact", "statement": "Analyze(g).HasFirst(A,t) for nonterminal A and terminal t is true exactly when A derives a sentential form beginning with t.", "quantifier": "every grammar, all A and t", "why_tests_cant": "All grammars; recursion order decides which facts are missed.", "anchors": ["analyze/analysis.go: Analyze, firsts, HasFirst"]}
{"id": "C53", "title": "Contains and NonTerminal agree with the grammar", "statement": "Contains(s) is true iff s occurs in the grammar; NonTerminal(s) is true iff s is a nonterminal.", "quantifier": "every grammar, every symbol", "why_tests_cant": "All grammars.", "anchors": ["analyze/analysis.go: Contains, NonTerminal, firsts"]}
{"id": "C54", "title": "Removing left recursion preserves the language", "statement": "RemoveLeftRecursion(g) terminates and the start symbol of the result derives the same words.", "quantifier": "every grammar, every word", "why_tests_cant": "All grammars and words.", "anchors": ["grammar/left_recursion.go: RemoveLeftRecursion, safeAdd, removeDirectLeftRecursion"]}
{"id": "C55", "title": "Removing left recursion removes it", "statement": "The grammar returned by RemoveLeftRecursion has no left recursion.", "quantifier": "every grammar", "why_tests_cant": "All grammars.", "anchors": ["grammar/left_recursion.go: RemoveLeftRecursion"]}
{"id": "C56", "title": "JSON formatting only changes white space", "statement": "For every JSON tree the text written by prettyPrint is the tree's token sequence in order with only blanks and newlines added between tokens.", "quantifier": "every tree, every nesting depth", "why_tests_cant": "All trees.", "anchors": ["examples/parlexjson/json.go: prettyPrint"]}
{"id": "C57", "title": "Reducer text means the chain it spells", "statement": "Evaluating a parsed reducer rule yields the reduction that runs the listed operations in order with the given arguments, If selecting a branch by ChildIs, and later rules for the same kind replace earlier ones.", "quantifier": "every parsed reducer tree", "why_tests_cant": "All chains and nestings.", "anchors": ["tree/reducer/reducer.go: evalRule, evalReduction, evalConditional"]}
{"id": "C58", "title": "Parent links are consistent in parser and clone output", "statement": "In trees produced by packrat Parse, tree.New and Clone every child's parent link is its parent and the root's is nil.", "quantifier": "every tree produced", "why_tests_cant": "All trees.", "anchors": ["parser/packrat/packrat.go: toPN", "tree/parsetree.go: New, Clone, Parent"]}
{"id": "C59", "title": "tree.New reports malformed text as an error", "statement": "tree.New returns a tree or ErrBadTreeString for every text; it never panics.", "quantifier": "every text", "why_tests_cant": "Every text; the panics occur on texts that define no node or close more nodes than they open.", "anchors": ["tree/parsetree.go: New"]}
{"id": "C60", "title": "Stack lexer priority mode takes the foremost rule", "statement": "In priority mode each lexeme is made by the rule of least priority number among the rules of the current sub-lexer matching at that position.", "quantifier": "every rule set of context-independent regexps matching only non-empty text, every input", "why_tests_cant": "All rule sets and inputs; depends on cached matches.", "anchors": ["lexer/stacklexer/lex.go: findNextMatch, updateNext", "lexer/stacklexer/construct.go: priorityThenLength, ByPriority"]}
{"id": "C61", "title": "A stack lexer can be reused", "statement": "What a stack lexer returns for an input does not depend on the inputs lexed with it before.", "quantifier": "every stack lexer, every pair of inputs", "why_tests_cant": "All histories of use.", "anchors": ["lexer/stacklexer/lex.go: Lex"]}
{"id": "C62", "title": "Rewritten values are made from the match", "statement": "The value of a lexeme of a rule with sub-match rewriting is the concatenation, in order, of its literal pieces and the texts of the named sections of that match.", "quantifier": "every rule set, every input on which Lex returns", "why_tests_cant": "All inputs, and matches found by an earlier search with a different offset.", "anchors": ["lexer/stacklexer/lex.go: findNextMatch"]}
{"id": "C63", "title": "HasNilInFirst is what its comment says", "statement": "Analyze(g).HasNilInFirst(A) is true exactly when an empty production can be reached from A through leftmost children only.", "quantifier": "every grammar, every symbol", "why_tests_cant": "All grammars; the order of the recursion decides which facts are missed.", "anchors": ["analyze/analysis.go: firsts, HasNilInFirst"]}
{"id": "C64", "title": "Analyze returns", "statement": "Analyze returns for every grammar, including left recursive ones, without a panic.", "quantifier": "every grammar", "why_tests_cant": "All grammars, all recursion patterns.", "anchors": ["analyze/analysis.go: Analyze, firsts"]}
{"id": "C65", "title": "The JSON formatter accepts exactly JSON and changes only white space", "statement": "With the grammar and reductions of parlexjson, for every list of lexemes: if they are a JSON value, Format returns text that is exactly these tokens in order with only blanks and newlines between them; if they are not, Format returns an error. It never panics and always terminates.", "quantifier": "every list of lexemes, every map iteration order in Merge", "why_tests_cant": "All inputs of all sizes and nestings, and the composition of regexgram, reducer definitions, top-down parsing, Merge, reduction and printing.", "anchors": ["examples/parlexjson/json.go: Format, grammarRules, reduceRules", "regexgram/regexgram.go", "tree/reducer.go: Merge", "topdown/topdown.go"]}
{"id": "C66", "title": "Tree operations are right though nodes are pointers and arrays are shared by slices", "statement": "The in-place operations on nodes (removals, promotions, replacements), the reductions made from them with Chain and If, and RawReduce, act on a tree in memory as they would on a tree that is a value, although append and reslicing change arrays in place: they change nothing outside the tree, keep its nodes and arrays unshared, and RawReduce leaves its input as it was.", "quantifier": "every tree in memory that shares no node or array within itself, every spare capacity and growth of arrays, every reduction; for RawReduce also trees that share nodes", "why_tests_cant": "Aliasing faults show only for certain capacities and sharing patterns.", "anchors": ["tree/node_reductions.go", "tree/chain_reductions.go", "tree/reducer.go: RawReduce", "tree/parsetree.go: Clone"]}
{"id": "C67", "title": "Operations on nodes keep parent links", "statement": "If every child's parent link is its parent, this is so again after each in-place operation on the root (removals, promotions, replacements), and the root's own link is unchanged.", "quantifier": "every tree in memory with consistent links, every operation and argument, every spare capacity of arrays", "why_tests_cant": "All trees and operations; links are not printed, so tests on printed trees do not see them.", "anchors": ["tree/node_reductions.go"]}
{"id": "C68", "title": "Regex grammar definitions are read as written", "statement": "From the lexemes of a definition on, regexgram.New accepts exactly the definitions: lines with a nonterminal, an arrow and a right side (further right sides without the nonterminal), right sides built from symbols with ?, *, | and parentheses, where ? and * bind to the symbol or group before them and | to its neighbours. A definition is read as the rules written, in order; the grammar returned has their words, and the reducer returned takes out the helper nodes. Anything else is an error.", "quantifier": "every non-empty list of lexemes of the kinds the lexer makes; every definition with any nesting; the words of the grammar where names of repetitions are their own and no group is empty", "why_tests_cant": "Nesting is unbounded, the grammar of definitions is ambiguous in form and read by a parser whose choice among parses has to be shown not to matter.", "anchors": ["grammar/regexgram/regexgram.go: grammarProductions, rdcr, New", "parser/packrat", "tree/reducer.go"]}
{"id": "C69", "title": "Regex grammar texts are read as written", "statement": "regexgram.New, given a text, splits it into names (longest runs of letters, digits and underscores), ->, *, ?, |, parentheses and line breaks, skips blanks and lines that hold only a comment, and accepts exactly the texts whose tokens, after a line break put in front, are those of a definition; the grammar returned has the words of the rules written and the reducer takes out the helper nodes. Any other text is an error. This does not depend on what New was called with before.", "quantifier": "every byte string; every state of the shared lexer reachable by calls of New; the words of the grammar where names have no underscore and no group is empty", "why_tests_cant": "All texts, including ones with any bytes, comments and line breaks anywhere, and all histories of the shared lexer.", "anchors": ["grammar/regexgram/regexgram.go: lexerProductions, lxr, New", "lexer/simplelexer/construct.go: New, addRule", "lexer/simplelexer/lexer.go: Lex", "parlex.go: Run"]}
{"id": "C70", "title": "Reducer definitions are read as written", "statement": "reducer.Parse, given a text, splits it into names (longest runs of letters, digits and underscores that are not all digits), of which twelve are operations, numbers with an optional sign and fraction, quoted strings, parentheses, commas and periods, skips white space and comments to the end of the line, and accepts exactly the texts whose tokens are those of a definition: any number of rules, each a name and one or more statements with periods between them, statements with the arguments their operation takes, conditionals nested to any depth. The reducer returned does for each name what the statements of the last rule of that name say, and nothing for other names. Any other text is an error. This does not depend on what Parse was called with before, nor on the order in which Go ranges over the maps when the package's own reducer is built.", "quantifier": "every byte string; every state of the shared lexer reachable by calls of Parse; every state of regexgram's lexer when the package is initialised; every map order", "why_tests_cant": "All texts and all histories of the shared lexer; map order is chosen by the runtime; unlimited nesting.", "anchors": ["tree/reducer/reducer.go: lexerRules, lxr, grammarRules, grmr, rdcr, runner, Parse, eval", "grammar/regexgram/regexgram.go: Must, New", "tree/reducer.go: Merge", "lexer/simplelexer/lexer.go: Lex"]}
{"id": "C71", "title": "The JSON formatter changes only white space, from text to text", "statement": "parlexjson.Format, given a text, splits it into numbers (digits with an optional fraction, as long as they can be), quoted strings, true, false, null and punctuation, skips white space, and accepts exactly the texts whose tokens are those of one JSON value; any other text is an error. What it returns is the value laid out by one rule that depends on the value alone: the same tokens in the same order with only blanks and line breaks between them. So the returned text is a JSON text of the same value, formatting it again returns it unchanged, and two texts with the same tokens give the same result. None of this depends on what Format was called with before, on what regexgram and reducer were used for before the package was initialised, or on map order.", "quantifier": "every byte string; every state of the three shared lexers reachable by calls of the packages' functions; every map order", "why_tests_cant": "All texts, nesting to any depth, all histories of the shared lexers, and idempotence for all inputs.", "anchors": ["examples/parlexjson/json.go: lexerRules, grammarRules, reduceRules, lxr, grmr, prsr, rdcr, runner, Format, prettyPrint", "grammar/regexgram/regexgram.go: Must, New", "tree/reducer/reducer.go: Must, Parse", "tree/reducer.go: Merge", "parser/topdown/topdown.go: New, Parse", "lexer/simplelexer/lexer.go: Lex"]}
{"id": "C72", "title": "Arithmetic texts are evaluated as arithmetic is written", "statement": "parlexmath.Eval, given a text, splits it into numbers (digits with an optional fraction, as long as they can be), the signs + - * / and parentheses, skips white space, and returns the value of every text whose tokens are an expression: * and / before + and -, operators that bind alike from the left, parentheses first, a number with at most one sign before it. The grammar is ambiguous and left recursive; among its many parses the packrat parser's is always the one with this value. A text without tokens gives zero and every other text is an error. A text has at most one value. None of this depends on what Eval was called with before.", "quantifier": "every byte string; every state of the shared lexer reachable by calls of Eval; every arithmetic (the numbers and operations are parameters, so no law of arithmetic is used)", "why_tests_cant": "The number of parses grows exponentially with the length of the text, and which of them the parser keeps depends on the order in which partial results arrive; all texts and all nestings.", "anchors": ["examples/parlexmath/math.go: lexerRules, grammarRules, lxr, grmr, prsr, reducer, runner, Eval, eval", "parser/packrat/packrat.go: Parse, addProds, update, addToMemo, comparePriority, toPN", "tree/reducer.go: Reduce, ReplaceWithChild", "lexer/simplelexer/lexer.go: Lex"]}
{"id": "C73", "title": "The stack calculator returns on every text", "statement": "scalc.Eval, given a text, splits it into whole numbers with an optional sign, decimals, operators, question marks and parentheses (a sign before a digit belongs to the number, two dashes are one operator, words need no space around them), skips white space, and returns a stack for every text whose tokens are a program as the readme describes them: values, unary, binary and stack operators, sub stacks in parentheses, manipulations of the stack, and choices between two things of one kind by the value before the question mark. For every other text it returns nil. It never panics; the panics by stack manipulation operators that the readme reports as a known error do not happen. None of this depends on what Eval was called with before.", "quantifier": "every byte string; every state of the shared lexer reachable by calls of Eval; every arithmetic (the numbers and operations are parameters)", "why_tests_cant": "All texts: the trees that the reductions leave are evaluated with unchecked indices and type switches, and which tree is left depends on which of many parses the parser keeps.", "anchors": ["examples/scalc/scalc.go: lexerRules, grammarRules, lxr, grmr, prsr, rdcr, stack, runner, Parse, Eval, evalStack, evalSmp, evalE, evalUop, evalBop, evalSop, maxPrecision", "examples/scalc/readme.md: Ternary Operator, Know Error", "parser/packrat/packrat.go: Parse", "tree/reducer.go: RawReduce, ChildAt, PromoteChild, PromoteChildrenOf, ReplaceWithChild, PromoteSingleChild, RemoveChild", "lexer/simplelexer/lexer.go: Lex"]}
{"id": "C74", "title": "The stack calculator computes what its readme describes", "statement": "If the tokens of a text, read from left to right by a stack machine, leave a stack, scalc.Eval returns that stack. The machine pushes numbers with the number of their decimals; unary and binary operators replace the top one or two values, with the greater number of decimals; stack operators replace the whole stack of the innermost parentheses by one value; manipulations change that stack; parentheses compute on a stack of their own, whose values are then pushed; a question mark chooses between the two values below the condition.", "quantifier": "every byte string; every state of the shared lexer reachable by calls of Eval; every arithmetic", "why_tests_cant": "All programs. The tests of the package have no program with two values in parentheses followed by another value, nor with anything after a manipulation or a choice.", "anchors": ["examples/scalc/scalc.go: grammarRules, rdcr, stack, Eval, evalStack, evalSmp, evalE, evalUop, evalBop, evalSop, maxPrecision", "examples/scalc/readme.md"]}
{"id": "C75", "title": "Ambiguity is settled by the order of comparePriority", "statement": "The tree the packrat parser returns is one that no other derivation tree of the input comes before in the order of comparePriority: an earlier production comes before a later one, and with the same production the first child that differs decides.", "quantifier": "every well-formed grammar without unit cycles, every non-empty input of terminals", "why_tests_cant": "A comparison looks at the children as the memo has them at that time, and children may be replaced later by better ones without their parents being compared again. Which comparisons are stale depends on the order of the agenda; the tests only have inputs where the choices do not interact.", "anchors": ["parser/packrat/packrat.go:180-227"]}
{"id": "C76", "title": "Lexer definitions are read as written", "statement": "The texts given to simplelexer.New and stacklexer.New declare exactly the rules that a plain description of the layout of headers and lines says they declare (name, expression, groups, move on the stack, discard mark), in that order; every text declares exactly one list; the lexer built has those rules.", "quantifier": "every list of definition texts, of any bytes", "why_tests_cant": "The layout is encoded in regular expressions whose optional parts can match in many ways; tests cover half a dozen tidy lines. Lines with missing parts, escaped slashes, trailing text, headers at the end of a text or non-ASCII bytes are not tried.", "anchors": ["lexer/simplelexer/construct.go:14-105", "lexer/stacklexer/construct.go:60-222"]}
{"id": "C77", "title": "Rules with groups report what the groups captured", "statement": "For a stack lexer rule with a list of groups, the value of a lexeme is the list with each number replaced by the text captured by that group of the expression, as the readme shows; other rules report the text matched.", "quantifier": "every lexer, every input", "why_tests_cant": "One test with one group. Groups that took no part in the match and parts that are not numbers are not tried; the readme has a sample that no test runs.", "anchors": ["lexer/stacklexer/lex.go:108-145", "lexer/stacklexer/construct.go:58-78", "lexer/stacklexer/readme.md:60-72"]}
{"id": "C78", "title": "String of a simple lexer can be read back", "statement": "For every simple lexer, New on the text returned by String gives a lexer that lexes every input in the same way.", "quantifier": "every lexer built with New or by calls of Add, ByPriority, InsertStart, InsertEnd", "why_tests_cant": "One test compares the text for one lexer with the text of the lexer built from it. Names and expressions with slashes, spaces or non-ASCII characters, settings other than rules, and lexers that have already been used are not tried.", "anchors": ["lexer/simplelexer/construct.go:105-133"]}
{"id": "C79", "title": "An interactive session keeps the stack as shown", "statement": "Each turn of the interactive stack calculator runs the line read on the stack shown before it, shows the resulting stack or says that the input is bad and keeps the stack; the session ends at a line that asks for it or at the end of the input.", "quantifier": "every sequence of lines, delivered in chunks of any size", "why_tests_cant": "The main program has no tests. The stack is carried from line to line as text, so what happens depends on how numbers are printed and on how the terminal delivers input.", "anchors": ["examples/scalc/scalc/main.go:49-75"]}
{"id": "C80", "title": "Texts of trees are read as written", "statement": "tree.New returns the tree that the text writes in the notation of the package (one node to a line, kind, value in quotes, braces around children, any white space), and an error if the text does not write a tree.", "quantifier": "every text", "why_tests_cant": "Tests read a few tidy texts. The notation is encoded in one regular expression with many optional parts; escapes, braces in front of nodes, missing and surplus braces and several trees are not tried.", "anchors": ["tree/parsetree.go:13-48"]}
{"id": "C81", "title": "Grammars decided by one symbol are parsed completely top-down", "statement": "If one symbol of lookahead decides which production to use (the grammar is LL(1)) and every nonterminal derives a word, the top-down parser accepts the grammar, returns a derivation tree for exactly the sentences, and that tree is the only one, so the packrat parser returns the same.", "quantifier": "every LL(1) grammar all of whose nonterminals derive words, every input", "why_tests_cant": "The condition is on words that productions derive, and a parser that commits to the first production that matches fails only for particular orders of productions and contexts.", "anchors": ["parser/topdown/topdown.go:22-140", "parser/packrat/packrat.go", "leftrecursion.go"]}
{"id": "C82", "title": "What String prints of a lexeme tells what it is", "statement": "The text String returns for a lexeme determines its kind, its value, and its position.", "quantifier": "every pair of lexemes", "why_tests_cant": "Tests print one or two lexemes. Whether two different lexemes can print alike depends on separators inside kinds, quoting of every character in values and the sign of numbers.", "anchors": ["lexeme/lexeme.go:72-81"]}
{"id": "C83", "title": "Lists of lexemes are printed so that they can be told apart", "statement": "LexemeList prints one line for each lexeme, in order, with position, kind and quoted value, from which the list can be told; LexemeString separates the lexemes of a list; neither panics.", "quantifier": "every list of lexemes", "why_tests_cant": "Values may contain line ends and quotes, kinds may contain the separators, and positions may be negative or of different widths; tests print tidy lists.", "anchors": ["helpers.go:14-50"]}
{"id": "C84", "title": "Lexing errors say what could not be lexed and where", "statement": "If some of the input is taken by no rule, the text of the error that Run returns names the first such piece and the line and column where it begins; otherwise there is no such error.", "quantifier": "every simple or stack lexer, every input", "why_tests_cant": "The position comes from counters kept while lexing, and the piece from bytes gathered one by one; tests look for the presence of an error, not at its text.", "anchors": ["parlex.go:9-12", "lexer/simplelexer/lexer.go:52-58", "lexer/simplelexer/lexer.go:114-123", "lexer/stacklexer/lex.go", "lexer/stacklexer/construct.go:257-263"]}
{"id": "C85", "title": "Symbols that are strings stand for the symbols they are cast from", "statement": "CastProduction and CastProductions keep the names of all symbols in order, and do not panic; String of a production determines its symbols; Symbol and Production return what is at an index and nil for indices out of range.", "quantifier": "every symbol, production, set of productions (of this or another package) and index", "why_tests_cant": "Tests cast a few productions. Nil symbols, negative indices and names with blanks are not tried.", "anchors": ["symbol/stringsymbol/symbol.go:18-119"]}
{"id": "C86", "title": "The command line programs print the result or fail", "statement": "parlexjson and parlexmath print the formatted value, or the number, that their arguments spell, wherever the arguments are cut between tokens; if the arguments spell none, they print nothing on standard output, an error on standard error, and exit with a status other than 0.", "quantifier": "every list of arguments", "why_tests_cant": "The main programs have no tests; which texts are accepted depends on the whole chain of lexer, parser and evaluation.", "anchors": ["examples/parlexjson/parlexjson/main.go:10-18", "examples/parlexmath/parlexmath/main.go:10-22"]}
{"id": "C87", "title": "Extending a production changes no other", "statement": "After any calls of Production, AddSymbols, Productions, AddProductions and Production(i) on one set, every production, and every production in a set of productions, has the symbols that it would have if productions were values: AddSymbols changes only the production it is called on.", "quantifier": "every sequence of calls", "why_tests_cant": "Productions share arrays when they are put into sets and taken out, and whether append writes into a shared array depends on capacities left by earlier calls; tests extend productions that are not shared.", "anchors": ["symbol/setsymbol/set.go:119-162", "symbol/setsymbol/set.go:223-277"]}
{"id": "C88", "title": "Top-down parsing is linear in the input", "statement": "Whenever Parse of the top-down parser returns, it has made at most 1 + (n + 2) * |G| calls of accept and acceptProd, where n is the number of lexemes and |G| the number of symbols in the productions plus the number of productions. It returns for every grammar that is not left recursive. If it returns a tree, it has made at least n + 2.", "quantifier": "every grammar, every list of lexemes", "why_tests_cant": "A memo that is missed for some keys gives the same trees, only later; how much later grows with inputs longer than tests have, and for grammars whose alternatives begin alike it doubles with each level.", "anchors": ["parser/topdown/topdown.go:32-51", "parser/topdown/topdown.go:80-137"]}
{"id": "C89", "title": "The rounds of the packrat parser are polynomial, with a degree that depends on the grammar", "statement": "On n lexemes the main loop of the packrat parser runs at most as many rounds as there are ways to lay a non-empty first part of a production on the input: the sum over productions p and j = 1..|p| of (n+1)^(j+1). The degree cannot be made independent of the grammar: with k times the same symbol in a production there are at least m^k rounds on k*m lexemes.", "quantifier": "every grammar, every list of lexemes without nonterminal kinds", "why_tests_cant": "The number of rounds shows only as time on long inputs of ambiguous grammars; that it is finite and how fast it grows needs an argument over all inputs.", "anchors": ["parser/packrat/packrat.go:76-116", "parser/packrat/packrat.go:118-178", "parser/packrat/packrat.go:229-261"]}
{"id": "C90", "title": "What the packrat parser prefers: the tree with the smaller production number at the first node that differs", "statement": "In every state of a packrat parse, comparing two readings of one symbol from one place returns 1, -1 or 0 as the first has the smaller, the larger or no different production number at the first node (nodes before children) where the two trees in the memo differ; 0 means that the readings are equal. A reading offered to the memo is stored if it is the first for its place, replaces the stored one exactly when it comes before it in that order and does not contain its own place, and touches no other entry. From state to state the tree of each place stays or comes earlier in that order.", "quantifier": "every grammar, every input without nonterminal kinds, every state of the main loop, every reading whose children are in the memo", "why_tests_cant": "The comparison recurses through a memo that changes during the parse, so trees compared earlier may have changed since; a test sees only the final tree.", "anchors": ["parser/packrat/packrat.go:180-191", "parser/packrat/packrat.go:193-200", "parser/packrat/packrat.go:202-227"]}
{"id": "C91", "title": "Packrat trees do not repeat a symbol on one part of the input, so their depth is bounded; their size is not", "statement": "In a tree that packrat Parse returns, for any grammar, cyclic ones included, no node stands below a node of the same kind that covers the same lexemes. On n lexemes and with m nonterminals the tree is therefore at most m(n+1) nodes deep, and there are grammars for every m and n where it is exactly that deep. The number of nodes is not bounded by a polynomial: with m nonterminals and productions of at most two symbols the tree for no lexemes can have 2^m - 1 nodes.", "quantifier": "every grammar, every list of lexemes without nonterminal kinds", "why_tests_cant": "Cyclic grammars have infinitely many trees for one input; that the parser never returns one with a cycle, and how deep or large the tree may become, cannot be seen from examples.", "anchors": ["parser/packrat/packrat.go:76-116", "parser/packrat/packrat.go:180-200", "parser/packrat/packrat.go:263-286"]}
{"id": "C92", "title": "Top-down trees do not repeat a symbol on one part of the input, so their depth is bounded; their size is not", "statement": "In a tree that top-down Parse returns no node stands below a node of the same kind that covers the same lexemes; on n lexemes and with m nonterminals the tree is at most m(n+1) nodes deep. This includes left recursive grammars for which Parse happens to return. The number of nodes can be exponential in the number of nonterminals even without lexemes.", "quantifier": "every grammar, every list of lexemes for which Parse returns a tree", "why_tests_cant": "The start symbol is matched differently from all others (it has to reach the end), so the same symbol may occur again at the same place; that it never covers the same lexemes is an argument over all grammars.", "anchors": ["parser/topdown/topdown.go:32-51", "parser/topdown/topdown.go:88-137"]}
{"id": "C93", "title": "When the top-down parser does not return", "statement": "Top-down Parse does not return exactly when some symbol that is tried at a position leads back to itself at the same position before its answer is known. Every such grammar is left recursive, but a left recursive grammar may be harmless for one input and not for another, and New accepts some of these grammars.", "quantifier": "every grammar, every list of lexemes", "why_tests_cant": "A run that does not end cannot be observed; which inputs make a grammar loop depends on which productions fail on which lexemes.", "anchors": ["parser/topdown/topdown.go:32-51", "parser/topdown/topdown.go:88-137"]}
{"id": "C94", "title": "What the tree of the top-down parser shares in memory", "statement": "With nodes and arrays in memory top-down Parse makes the same tree as on values; no node has a parent link; a node occurs more than once in the tree only if it covers no lexeme. So if no production is empty, every node and array occurs once and changes in place change nothing else. With empty productions a node can be the child in two places, and a change to one of them changes the other. The nodes and arrays allocated are linear in the number of lexemes.", "quantifier": "every grammar, every list of lexemes for which Parse returns", "why_tests_cant": "Sharing is invisible when a tree is printed or compared; it shows only when one part is changed in place.", "anchors": ["parser/topdown/topdown.go:32-71", "parser/topdown/topdown.go:84-137"]}
{"id": "C95", "title": "A grammar freed of left recursion can be parsed top-down", "statement": "If the only left recursion of a grammar without empty productions is direct, top-down New accepts what RemoveLeftRecursion makes of it, Parse returns on every input, and what it accepts are sentences of the grammar given. It accepts every sentence of it if one symbol of lookahead tells the productions apart once leading occurrences of a nonterminal in its own productions are read as repetition; without that it need not.", "quantifier": "every grammar that meets the conditions, every list of lexemes", "why_tests_cant": "The pipeline of two packages is exercised on a few grammars; that no sentence is lost between them is a statement about all grammars and inputs.", "anchors": ["grammar/left_recursion.go: RemoveLeftRecursion, removeDirectLeftRecursion", "parser/topdown/topdown.go:22-140"]}
{"id": "C96", "title": "The searches of the simple lexer are linear in the input", "statement": "Lex with k rules on m bytes makes at most k*max(1,m) searches, and both the bytes that they pass over before the matches they find and all the bytes that they look at are bounded by a multiple of k*m.", "quantifier": "every lexer, every input", "why_tests_cant": "A bound on the work for all rule sets and inputs; the inputs that break it are long.", "anchors": ["lexer/simplelexer/lexer.go: Lex, populateNext, updateNext"]}
{"id": "C97", "title": "The searches of the stack lexer are linear in the input", "statement": "If no sub-lexer has more than R rules, Lex on m bytes makes at most R*(2m+1) searches, and the bytes that they pass over before the matches they find are bounded by a multiple of R*m.", "quantifier": "every lexer, every input", "why_tests_cant": "A bound on the work for all rule sets and inputs; the inputs that break it are long.", "anchors": ["lexer/stacklexer/lex.go: lex, pop, populateNext, updateNext"]}
{"id": "C98", "title": "Removing left recursion does not blow up the grammar", "statement": "The number of productions of the grammar that RemoveLeftRecursion returns is bounded by a polynomial in the number of productions of the grammar given.", "quantifier": "every grammar on which it returns", "why_tests_cant": "A bound over all grammars; the growth shows only in families of growing grammars.", "anchors": ["grammar/left_recursion.go: safeAdd, removeDirectLeftRecursion"]}
{"id": "C99", "title": "A regex grammar does not blow up", "statement": "The number of productions of the grammar that regexgram makes is bounded by a polynomial in the number of expressions of the rules.", "quantifier": "every list of rules that a tree of the regex grammar parser can show", "why_tests_cant": "A count over all rules with any nesting; the growth shows only in families of growing rules.", "anchors": ["grammar/regexgram/regexgram.go: evalGrammar"]}
{"id": "C100", "title": "The text of productions tells the productions", "statement": "String of productions of a set never panics on what was cast into the set, and two lists of productions with the same text have the same symbols in the same order; nil has a text of its own.", "quantifier": "every set, every list of productions of it", "why_tests_cant": "Injectivity over all names and all lists of productions.", "anchors": ["symbol/setsymbol/set.go: (*Production).String, (*Productions).String"]}
{"id": "C101", "title": "The formatted text is not much longer than the text", "statement": "The text that the JSON formatter returns is longer than the text given by at most a constant factor.", "quantifier": "every text that Format accepts", "why_tests_cant": "A bound over all texts; indentation adds up only in deeply nested ones.", "anchors": ["examples/parlexjson/json.go: Format, prettyPrint"]}
{"id": "C102", "title": "The packrat parser's checks look at no entry of the memo twice", "statement": "When the packrat parser compares a reading with the one in its memo, or looks for cycles before it replaces it, it looks at every entry of the memo at most once, so that one such check takes at most as many calls as the memo has entries.", "quantifier": "every grammar, every input, every state that Parse goes through, every reading offered to the memo", "why_tests_cant": "A bound over all grammars and states; the calls multiply only where parts are shared many times.", "anchors": ["parser/packrat/packrat.go: createsCircularDep, comparePriority, addToMemo"]}
{"id": "C103", "title": "Packrat parsing takes a polynomial number of calls", "statement": "For every grammar there is a polynomial that bounds the number of function calls that the packrat parser's Parse makes, all recursive calls for comparing readings and looking for cycles included, in terms of the number of lexemes; its degree can be taken two more than the number of symbols of the longest production. No one degree is enough for all grammars.", "quantifier": "every grammar (left recursive, ambiguous, cyclic, with empty productions), every input of terminals", "why_tests_cant": "A bound over all inputs and all grammars; the number of rounds, the number of entries in the memo and the cost of each check have to be bounded together.", "anchors": ["parser/packrat/packrat.go: Parse, addProds, update, addToMemo, createsCircularDep, comparePriority, addPartial, checkNonTerminal, push, toPN"]}
{"id": "C104", "title": "The Must functions panic exactly on errors, and the packages start", "statement": "MustGrammar, MustLexer, MustParser and the Must functions of regexgram, reducer and stacklexer panic exactly if the definition they are given is bad, and otherwise give what it says. The definitions in the packages themselves are good, so none of the packages and none of the example programs panics when it is initialised, in whatever order maps are ranged over.", "quantifier": "every text of a definition, every state of the packages' lexers, every order of map iteration", "why_tests_cant": "Which texts are bad is a condition on all texts; the orders of map iteration at start differ from run to run.", "anchors": ["helpers.go: MustParser, MustLexer, MustGrammar", "grammar/regexgram/regexgram.go: Must", "tree/reducer/reducer.go: Must", "lexer/stacklexer/construct.go: Must", "examples/parlexjson/json.go: package variables"]}
{"id": "C105", "title": "Lexers can be used by several goroutines", "statement": "Lex of one simple lexer, or of one stack lexer, can be called by several goroutines at once: there is no data race, and every call returns what it returns alone.", "quantifier": "every lexer, every list of inputs, every interleaving of the accesses to the memory the calls share", "why_tests_cant": "The race needs an input with an error before any other had one (simple lexers) or two first calls (stack lexers), and a schedule in which they meet; which interleavings happen is up to the machine.", "anchors": ["lexer/simplelexer/lexer.go: Lex, checkError", "lexer/stacklexer/stacklexer.go: Lex", "symbol/setsymbol/set.go: Str", "examples/parlexjson/json.go: lxr"]}
{"id": "C106", "title": "Parsers can be used by several goroutines", "statement": "Parse of parsers of one grammar, top-down or packrat, can be called by several goroutines at once: there is no data race on the grammar, no call changes the grammar, and every call returns what it returns alone.", "quantifier": "every grammar made by any history of calls or from any text, every list of calls with any lexemes, every interleaving of the accesses to the set of the grammar", "why_tests_cant": "Productions enters symbols it does not know in the set of the grammar, so the claim holds only because the parsers never ask for such symbols, in no state they can get to; and which interleavings happen is up to the machine.", "anchors": ["parser/topdown/topdown.go: Parse, accept", "parser/packrat/packrat.go: Parse, addProds, update", "grammar/grammar.go: Productions", "symbol/setsymbol/set.go: LoadGrammar, Str"]}
{"id": "C107", "title": "A Runner can be used by several goroutines", "statement": "Run of one Runner, or of several with one lexer and one grammar, can be called by several goroutines at once: there is no data race, and every call returns what it returns alone.", "quantifier": "every simple lexer without gaps in its rules and every stack lexer, every grammar, both parsers, every list of reducers, every list of inputs, every interleaving of the accesses to the sets of the lexer and of the grammar", "why_tests_cant": "Races depend on the schedule; the set of the lexer is written to once in its life, so a test that has lexed an error before sees none.", "anchors": ["parlex.go: Run, Runner", "lexer/simplelexer/lexer.go: Lex, checkError", "lexer/stacklexer/lex.go: Lex", "symbol/setsymbol/set.go: Str, LoadLexemes"]}
{"id": "C108", "title": "The outcome of lexing with a stack lexer is determined by what the rules match", "statement": "Lex of a stack lexer returns, or panics, exactly as lexing without cached matches says: a rule is searched for where its sub-lexer becomes current and at the end of every token that leaves it current, the search that stands for it at a position is the one made there or else the first from which it does not match before, and the rule taken is, in the default mode, the one whose match ends furthest from its search, then the one of the higher priority, and in priority mode the other way round. There is one such outcome.", "quantifier": "every stack lexer, in either mode, whose rules search leftmost for what context-independent matchers match, never the empty string; for uniqueness, with different priorities within a sub-lexer; every input in which what the rules match begins at rune starts", "why_tests_cant": "Every lexer and input; which search stands for a rule matters only after an error that follows a token, and depends on everything lexed since the sub-lexer became current.", "anchors": ["lexer/stacklexer/lex.go: Lex, lex, findNextMatch, populateNext, updateNext, pop"]}
