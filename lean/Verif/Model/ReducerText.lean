import Verif.Model.RegexGramText
import Verif.Model.ReducerDSL
/-
Model of tree/reducer/reducer.go as a whole: the lexer (13-37), the grammar (39-62), the reducer for the
definitions (65-72) and `Parse` (77-90). Lines cited as reducer.go are of that file. The evaluation is in
Model/ReducerDSL.lean.
-/
namespace Verif.ReducerDSL
open Verif Verif.Spec Verif.SimpleLexer

/-- `lexerRules` (reducer.go:13-35). -/
def lexerRules : Str := r#"
  If
  ChildIs
  PromoteChild
  PromoteChildrenOf
  PromoteChildValue
  PromoteGrandChildren
  RemoveAll
  RemoveChild
  RemoveChildren
  PromoteSingleChild
  ReplaceWithChild
  Nil
  number  /-?\d*\.?\d+/
  rule    /(\w+)/
  string  /\"([^\"\\]|(\\.))*\"/
  lp      /\(/
  rp      /\)/
  comma   /,/
  period  /\./
  comment /\/\/[^\n]*/ -
  space   /\s+/ -
"#.toList

/-- `lxr` (reducer.go:37) as it is at start. -/
def lxr : Out Lexer := (SimpleLexer.new SimpleLexer.compile [bytes lexerRules]).bind mustLexer

/-- `grammarRules` (reducer.go:39-60). -/
def grammarRules : Str := r"
  Rules        -> Rule*
  Rule         -> rule Chain
  Chain        -> (Reduction period)* Reduction
  Reduction    -> PromoteSingleChild NoArgs
               -> RemoveChildren VarNumArg
               -> PromoteChildValue OneNumArg
               -> RemoveChild OneNumArg
               -> ReplaceWithChild OneNumArg
               -> PromoteGrandChildren NoArgs
               -> PromoteSingleChild NoArgs
               -> PromoteChildrenOf OneNumArg
               -> PromoteChild OneNumArg
               -> RemoveAll VarStrArg
               -> Nil
               -> If lp Condition comma Chain comma Chain rp
  VarNumArg    -> lp (number comma)* number rp
  VarStrArg    -> lp (string comma)* string rp
  OneNumArg    -> lp number rp
  NoArgs       -> lp rp
  Condition    -> ChildIs lp number comma string rp
".toList

/-- `grmr, grmrRdcr` (reducer.go:62): `regexgram.Must` (grammar/regexgram/regexgram.go:316-322) panics on an
error. `rl` is the lexer of package regexgram as it is then. -/
def grmr (fuel : Nat) (rl : Lexer) : Out (Grammar.Gram Str × (Str → Option (List Str))) :=
  (RegexGram.newText fuel rl (bytes grammarRules)).bind fun q =>
    match q.1 with
    | none => .panic
    | some gb => .ok gb

/-- The second argument of `Merge` (reducer.go:65-72). -/
def table (fuel : Nat) : Tree.Reducer Unit Str Str := fun k =>
  if k = "Rule".toList then
    some (Tree.ROp.then fuel (Tree.ROp.then fuel (Tree.ROp.red fuel (.promoteChildValue 0)) (.promoteChildrenOf 0))
      (.removeAll ["period".toList]))
  else if k = "Reduction".toList then
    some (Tree.ROp.then fuel (Tree.ROp.red fuel (.removeAll ["comma".toList, "lp".toList, "rp".toList])) (.promoteChild 0))
  else if k = "VarNumArg".toList then
    some (Tree.ROp.then fuel (Tree.ROp.red fuel (.removeChildren [0, -1])) (.removeAll ["comma".toList]))
  else if k = "VarStrArg".toList then
    some (Tree.ROp.then fuel (Tree.ROp.red fuel (.removeChildren [0, -1])) (.removeAll ["comma".toList]))
  else if k = "OneNumArg".toList then some (Tree.ROp.red fuel (.removeChildren [0, -1]))
  else if k = "Condition".toList then
    some (Tree.ROp.then fuel (Tree.ROp.red fuel (.removeAll ["comma".toList, "lp".toList, "rp".toList])) (.promoteChild 0))
  else none

/-- `rdcr` (reducer.go:65-72); `o1` and `o2` are the orders in which `Merge` happens to range over the maps. -/
def rdcr (fuel : Nat) (b : Str → Option (List Str)) (o1 o2 : List Str) : Tree.Reducer Unit Str Str :=
  Tree.merge (RegexGram.reducerOf fuel b) (table fuel) o1 o2

/-- `runner.Run` (reducer.go:63, 74, parlex.go:14-28) after lexing: `none` is ErrCouldNotParse. -/
def readLexemes (fuel : Nat) (rl : Lexer) (o1 o2 : List Str) (ls : List (Lexeme Str Str)) : Out (Option (PN Str Str)) :=
  (grmr fuel rl).bind fun gb => (Packrat.parse [] (Grammar.view gb.1) ls fuel).bind fun o =>
    (Tree.reduce (rdcr fuel gb.2 o1 o2) o ()).bind fun q => .ok q.1

variable {σ : Type}

/-- `Parse` (reducer.go:77-90) after lexing: `none` is an error. -/
def parseLexemes (fuel : Nat) (rl : Lexer) (o1 o2 : List Str) (ls : List (Lexeme Str Str)) :
    Out (Option (Tree.Reducer σ Str Str)) :=
  (readLexemes fuel rl o1 o2 ls).bind fun o =>
    match o with
    | none => .ok none
    | some t => (eval fuel fuel t).bind fun r => .ok (some r)

/-- `Parse` (reducer.go:77-90) with the lexer in some state; returned are the reducer, `none` if there is an
error, and the lexer afterwards. -/
def parseText (fuel : Nat) (rl : Lexer) (o1 o2 : List Str) (l : Lexer) (b : Bytes) :
    Out (Option (Tree.Reducer σ Str Str) × Lexer) :=
  (lexText fuel l b).bind fun q =>
    match q.1 with
    | none => .ok (none, q.2)
    | some ls => (parseLexemes fuel rl o1 o2 ls).bind fun r => .ok (r, q.2)

end Verif.ReducerDSL
