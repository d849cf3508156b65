import Verif.Model.JsonText
import Verif.Model.MathText
import Verif.Model.Scalc
import Verif.Model.StackLexerText
import Verif.Model.TreeRex
/-
Model of the functions called Must, which panic on an error, and of the initialisation of the packages that use them.
-/
namespace Verif
open Verif.Spec Verif.SimpleLexer

/-- `parlex.MustParser` (helpers.go:54-59). -/
def mustParser {P : Type} : Option P → Out P
  | none => .panic
  | some p => .ok p

/-- `Must` of package regexgram (grammar/regexgram/regexgram.go:316-322) with the lexer in some state; returned are the grammar
and what makes the reducer, and the lexer afterwards. -/
def RegexGram.must (fuel : Nat) (l : Lexer) (b : Bytes) : Out ((Grammar.Gram Str × (Str → Option (List Str))) × Lexer) :=
  (RegexGram.newText fuel l b).bind fun q =>
    match q.1 with
    | none => .panic
    | some gb => .ok (gb, q.2)

/-- `Must` of package reducer (tree/reducer/reducer.go:93-99) with the lexer in some state; returned are the reducer and the lexer
afterwards. -/
def ReducerDSL.must {σ : Type} (fuel : Nat) (rl : Lexer) (o1 o2 : List Str) (l : Lexer) (b : Bytes) :
    Out (Tree.Reducer σ Str Str × Lexer) :=
  (ReducerDSL.parseText fuel rl o1 o2 l b).bind fun q =>
    match q.1 with
    | none => .panic
    | some r => .ok (r, q.2)

/-- `Must` of package stacklexer (lexer/stacklexer/construct.go:132-138). -/
def StackLexer.must (compile : Bytes → Option StackLexer.Re) (ord : List Bytes) (ts : List Bytes) (fuel : Nat) : Out StackLexer.Lexer :=
  (StackLexer.newText compile ord ts fuel).bind fun r => if r.2 then .panic else .ok r.1

/-- `parlex.MustLexer(simplelexer.New(definitions...))` (helpers.go:63-68). -/
def SimpleLexer.must (compile : Bytes → Option SimpleLexer.Re) (ts : List Bytes) : Out Lexer :=
  (SimpleLexer.new compile ts).bind mustLexer

/-- `parlex.MustGrammar(grammar.New(productions))` (helpers.go:72-77), the grammar as the parsers read it. -/
def Grammar.must (t : Str) : Out (Spec.Grammar Str) := RegexGram.mustGrammar (Grammar.new t)

/-- `parlex.MustParser(topdown.New(grammar))` (helpers.go:54-59, parser/topdown/topdown.go:22-29); the parser is as good as its
grammar. -/
def Topdown.must {α : Type} [DecidableEq α] (g : Spec.Grammar α) (fuel : Nat) : Out (Spec.Grammar α) :=
  (Topdown.new g fuel).bind fun ok => mustParser (if ok then some g else none)

/-- What the packages that examples/parlexjson is made of hold after they are initialised. -/
structure JsonVars where
  /-- `lxr` of package regexgram when package reducer is initialised, and after. -/
  gramLexer0 : Lexer
  gramLexer : Lexer
  /-- `lxr` of package reducer. -/
  redLexer : Lexer
  /-- `lxr` of package parlexjson. -/
  lexer : Lexer
  /-- `grmr` and `rdcr` of package parlexjson. -/
  grmr : Spec.Grammar Str
  rdcr : Tree.Reducer Unit Str Str

/-- The initialisation of the packages of the program in examples/parlexjson: regexgram (grammar/regexgram/regexgram.go:103-105), then
reducer (tree/reducer/reducer.go:37, 62-72), then parlexjson itself (examples/parlexjson/json.go:47-53). A package is initialised after
those that it imports. `p1`, `p2`, `o1` and `o2` are the orders in which `Merge` ranges over maps. The remaining packages have nothing
that can panic but the expressions compiled at start: those of simplelexer (lexer/simplelexer/construct.go:57) are compiled by `new` and
that of tree (tree/parsetree.go:13) here. -/
def startJson (fuel : Nat) (p1 p2 o1 o2 : List Str) : Out JsonVars :=
  match Regexp.compile TreeRex.reText with
  | none => .panic
  | some _ =>
    RegexGram.lxr.bind fun rl0 => RegexGram.grmr.bind fun _ =>
      ReducerDSL.lxr.bind fun pl => (RegexGram.must fuel rl0 (bytes ReducerDSL.grammarRules)).bind fun q =>
        Json.lxr.bind fun l => (Json.vars fuel rl0 q.2 pl p1 p2 o1 o2).bind fun v =>
          .ok ⟨rl0, q.2, pl, l, v.1, v.2⟩

/-- The initialisation of package parlexmath (examples/parlexmath/math.go:30-32). -/
def startMath : Out (Lexer × Spec.Grammar Str) := PMath.lxr.bind fun l => PMath.grmr.bind fun g => .ok (l, g)

/-- The initialisation of package scalc (examples/scalc/scalc.go:75-77). -/
def startScalc : Out (Lexer × Spec.Grammar Str) := Scalc.lxr.bind fun l => Scalc.grmr.bind fun g => .ok (l, g)

/-- The initialisation of package stacklexer (lexer/stacklexer/construct.go:80-81; the expression of line 58 is modelled by a function,
Model/StackLexerRex). -/
def startStack : Out Unit :=
  match Regexp.compile StackLexer.subParserDef, Regexp.compile StackLexer.subParserLine with
  | some _, some _ => .ok ()
  | _, _ => .panic

end Verif
