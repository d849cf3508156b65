import Verif.Model.SimpleLexerText
import Verif.Spec.CFG
/-
Model of the first part of `Run` (parlex.go:4-14) with a simple lexer: lexing a text and looking for errors.
Lexemes become ones with kinds and values as strings, as the parsers see them. Strings of Go are bytes; as
`Str` they have one character for each byte (`chars`).
-/
namespace Verif.SimpleLexer
open Verif Verif.SetSymbol Verif.Spec

/-- `Kind().String()` of a lexeme (lexeme/lexeme.go:11, 14-18; symbol/setsymbol/set.go:107). -/
def kindStr (l : Lexer) (x : Lx) : Bytes :=
  match x.kind with
  | .idx i => (l.set.symb2str[i]?).getD []
  | .plain s => s

/-- A lexeme as the parsers see it (lexeme/lexeme.go:14-29). -/
def toLexeme (l : Lexer) (x : Lx) : Lexeme Str Str := ⟨chars (kindStr l x), chars x.val, x.line, x.col⟩

/-- `Run` up to the errors of the lexer (parlex.go:5-12): `none` if there are any. `Lex` never returns a nil
slice (lexer/simplelexer/lexer.go:77). The lexer is returned as it is afterwards. -/
def lexText (n : Nat) (l : Lexer) (b : Bytes) : Out (Option (List (Lexeme Str Str)) × Lexer) :=
  (lex n l b).bind fun r => .ok (if r.1.any (·.err) then none else some (r.1.map (toLexeme r.2)), r.2)

/-- `parlex.MustLexer` (helpers.go:63-68). -/
def mustLexer : Option Lexer → Out Lexer
  | none => .panic
  | some l => .ok l

end Verif.SimpleLexer
