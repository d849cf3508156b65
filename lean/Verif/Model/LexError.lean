import Verif.Model.Lexeme
import Verif.Model.Run
import Verif.Model.StackLexer
/-
Model of the errors of lexers as `Run` returns them (parlex.go:9-12) and of their texts. Strings of Go are bytes; as `Str` they have
one character for each byte.
-/
namespace Verif.LexError
open Verif.Spec Verif.SimpleLexer

/-- `(*errLexeme).Error` (simplelexer/lexer.go:56-58, stacklexer/construct.go:261-263) of a lexeme. -/
def text (x : Lx) : Str := Lexeme.errorText ⟨none, chars x.val, x.line, x.col⟩

/-- `LexErrors` (helpers.go:100-107): lexemes that are errors. -/
def errors (lxs : List Lx) : List Lx := lxs.filter (·.err)

/-- The text of the error that `Run` returns for lexemes with errors (parlex.go:9-12). -/
def runText (lxs : List Lx) : Option Str := (errors lxs).head?.map text

end Verif.LexError
