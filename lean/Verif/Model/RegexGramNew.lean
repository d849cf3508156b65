import Verif.Model.Grammar
import Verif.Model.Packrat
import Verif.Model.RegexGram
/-
Model of grammar/regexgram/regexgram.go from the lexemes of a definition on: the grammar of regex
grammars (28-60), which is itself read by grammar.New, the reducer (62-101), parsing and reducing
(`runner.Run`, parlex.go:14-28, after lexing), and `New` (regexgram.go:304-311).
-/
namespace Verif.RegexGram
open Verif Verif.Spec

/-- `grammarProductions` (regexgram.go:28-60). -/
def grammarProductions : Str := "
  Grammar      -> NL Production Productions NL 
  Productions  -> Production Productions
               -> ContinueProd Productions
               -> 
  Production   -> nl symbol rarr Symbols
  ContinueProd -> nl rarr Symbols
  Symbols      -> Symbol Symbols
               ->
  Symbol       -> Group
               -> OrSymbol
               -> RepSymbol
               -> OptSymbol
               -> symbol
  Group        -> ( Symbols )
  OptSymbol    -> Group optional
               -> symbol optional
  RepSymbol    -> Group repeats
               -> symbol repeats
  OrSymbol     -> Group or MoreOr
               -> OptSymbol or MoreOr
               -> RepSymbol or MoreOr
               -> symbol or MoreOr
  MoreOr       -> Group or MoreOr
               -> OptSymbol or MoreOr
               -> RepSymbol or MoreOr
               -> symbol or MoreOr
               -> Group
               -> OptSymbol
               -> RepSymbol
               -> symbol
  NL           -> nl
               ->
".toList

/-- `parlex.MustGrammar` (helpers.go:72-77) on a result of grammar.New, and the grammar as the parser reads it. -/
def mustGrammar : Option (Grammar.Gram Str) → Out (Spec.Grammar Str)
  | none => .panic
  | some g => .ok (Grammar.view g)

/-- `grmr` (regexgram.go:105). -/
def grmr : Out (Spec.Grammar Str) := mustGrammar (Grammar.new grammarProductions)

/-- A method of `Reduction` used for chaining (chain_reductions.go:61-111). The loop of `RemoveAll` is not
used, so no bound is needed. -/
def andThen (r : Tree.Red Unit Str Str) (o : Tree.ROp Str) : Tree.Red Unit Str Str := o.then 0 r

/-- A reduction made by one of the functions (chain_reductions.go:52-56, 114-163). -/
def only (o : Tree.ROp Str) : Tree.Red Unit Str Str := o.red 0

/-- `rdcr` (regexgram.go:62-101). -/
def rdcr : Tree.Reducer Unit Str Str := fun k =>
  if k = "Grammar".toList then
    some (andThen (Tree.thenIf (Tree.ifRed (Tree.childIsC 0 "NL".toList) (only (.removeChild 0)) none)
      (Tree.childIsC (-1) "NL".toList) (only (.removeChild (-1))) none) (.promoteChildrenOf 1))
  else if k = "Productions".toList then some (only (.promoteChildrenOf 1))
  else if k = "Production".toList then
    some (andThen (andThen (only (.removeChildren [0, 2])) (.promoteChildValue 0)) (.promoteChildrenOf 0))
  else if k = "ContinueProd".toList then some (andThen (only (.removeChildren [0, 1])) (.promoteChildrenOf 0))
  else if k = "Symbols".toList then some (only (.promoteChildrenOf (-1)))
  else if k = "Symbol".toList then some (only .promoteSingleChild)
  else if k = "OptSymbol".toList then some (only (.removeChild (-1)))
  else if k = "RepSymbol".toList then some (only (.removeChild (-1)))
  else if k = "OrSymbol".toList then some (andThen (only (.removeChild 1)) (.promoteChildrenOf 1))
  else if k = "MoreOr".toList then some (andThen (only (.removeChild 1)) (.promoteChildrenOf 1))
  else if k = "Group".toList then some (andThen (only (.removeChildren [0, -1])) (.promoteChildrenOf 0))
  else none

/-- `runner.Run` (regexgram.go:106-108, parlex.go:14-28) after lexing: `none` is ErrCouldNotParse. -/
def readLexemes (fuel : Nat) (ls : List (Lexeme Str Str)) : Out (Option (PN Str Str)) :=
  grmr.bind fun g => (Packrat.parse [] g ls fuel).bind fun o => (Tree.reduce rdcr o ()).bind fun q => .ok q.1

/-- `New` (regexgram.go:304-311) after lexing: the grammar and, for each nonterminal, the helpers its
reduction unwraps (`reducerOf` makes the reducer of them); `none` is ErrCouldNotParse. -/
def newLexemes (fuel : Nat) (ls : List (Lexeme Str Str)) :
    Out (Option (Grammar.Gram Str × (Str → Option (List Str)))) :=
  (readLexemes fuel ls).bind fun o =>
    match o with
    | none => .ok none
    | some t => (evalGrammar fuel t).bind fun r => .ok (some r)

end Verif.RegexGram
