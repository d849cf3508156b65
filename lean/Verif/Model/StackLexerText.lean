import Verif.Model.StackLexerNew
import Verif.Model.SimpleLexerText
/-
Model of `New` of lexer/stacklexer/construct.go from text on: finding the headers and reading the lines. `regexp.Compile` for
the expressions in the text is a parameter, as in Model/StackLexerNew.
-/
namespace Verif.StackLexer
open Verif Verif.SetSymbol Verif.Spec
open Verif.SimpleLexer (Bytes lines)

/-- `subParserDef` (construct.go:80). -/
def subParserDef : Str := r"==\s*([a-zA-Z_][a-zA-Z_0-9]*)\s*(?:==)?\s*\n".toList

/-- `subParserLine` (construct.go:81). -/
def subParserLine : Str :=
  r"([^\/\s]+)\s*(?:\/((?:[^\/\\]|(?:\\\/?))+)\/\s*(?:\(((?:[^\\\)]|(?:\\[^\n]))*)\))?)?\s*((?:\^+)|(?:[a-zA-Z_][a-zA-Z_0-9]*))?\s*(-?)".toList

/-- The first match in a text (for construct.go:95): what is before it, the captures, what is after it. -/
def splitFirst (re : Rex) : Nat → Bytes → Option (Bytes × Caps UInt8 × Bytes)
  | 0, s => (re.first decode s).map fun q => ([], q.2, q.1)
  | n + 1, s =>
    match re.first decode s with
    | some q => some ([], q.2, q.1)
    | none =>
      match decode s with
      | some (_, w) => (splitFirst re n (s.drop w)).map fun q => (s.take w ++ q.1, q.2)
      | none => none

/-- The matches of `FindAllStringSubmatchIndex` and the loop over them (construct.go:94-119): what is before the first header, and
for every header the name and what is after it. A match is never empty, so the next search starts where it ends. -/
def cutDefs (re : Rex) : Nat → Bytes → Bytes × List (Bytes × Bytes)
  | 0, t => (t, [])
  | n + 1, t =>
    match splitFirst re t.length t with
    | none => (t, [])
    | some (pre, k, rest) => (pre, (group k 1, (cutDefs re n rest).1) :: (cutDefs re n rest).2)

/-- The sub-matches of a line (construct.go:170-174); `none` if it does not match. -/
def lineOf (re : Rex) (line : Bytes) : Option Line :=
  (re.find decode line.length line).map fun m => ⟨group m.2 1, group m.2 2, group m.2 3, group m.2 4, decide (group m.2 5 = [45])⟩

/-- The sub-lexers of all definitions, with their lines (construct.go:93-120, 166-174). -/
def defsOf (d l : Rex) (ts : List Bytes) : Defs :=
  ts.flatMap fun t => (cutDefs d t.length t).2.map fun x => (x.1, (lines x.2).filterMap (lineOf l))

/-- `New` (construct.go:86-129) from text on. The expressions are compiled at start, with MustCompile (construct.go:80-81). -/
def newText (compile : Bytes → Option Re) (ord : List Bytes) (ts : List Bytes) (n : Nat) : Out (Lexer × Bool) :=
  match Regexp.compile subParserDef, Regexp.compile subParserLine with
  | some d, some l => newLexer compile ord (defsOf d l ts) n
  | _, _ => .panic

end Verif.StackLexer
