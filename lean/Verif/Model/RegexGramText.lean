import Verif.Model.RegexGramNew
import Verif.Model.Run
/-
Model of `New` of grammar/regexgram/regexgram.go on a text: with the lexer (15-26, 103-104).
-/
namespace Verif.RegexGram
open Verif Verif.Spec Verif.SimpleLexer

/-- `lexerProductions` (regexgram.go:15-26). -/
def lexerProductions : Str := r"
  rarr     /->/
  symbol   /\w+/
  repeats  /\*/
  optional /\?/
  or       /\|/
  (        /\(/
  )        /\)/
  comment  /[\n\r]\s*\/\/[^\n\r]*/ -
  nl       /[\n\r]\s*/
  space    /[ \t]+/ -
".toList

/-- `lxr` (regexgram.go:103-104) as it is at start. -/
def lxr : Out Lexer :=
  (SimpleLexer.new SimpleLexer.compile [bytes lexerProductions]).bind fun o => (mustLexer o).bind fun l =>
    .ok (insertStart l (bytes "nl".toList) [10])

/-- `New` (regexgram.go:304-311) with the lexer in some state; returned are the grammar and what makes the
reducer, `none` if there is an error, and the lexer afterwards. `runner.Run` stops at errors of the lexer
(parlex.go:9-12). -/
def newText (fuel : Nat) (l : Lexer) (b : Bytes) : Out (Option (Grammar.Gram Str × (Str → Option (List Str))) × Lexer) :=
  (lexText fuel l b).bind fun q =>
    match q.1 with
    | none => .ok (none, q.2)
    | some ls => (newLexemes fuel ls).bind fun r => .ok (r, q.2)

end Verif.RegexGram
