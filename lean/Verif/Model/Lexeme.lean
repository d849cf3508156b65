import Verif.Model.TreeText
/-
Model of lexeme/lexeme.go and of the printing functions of helpers.go. Text is `List Char` (valid UTF-8); `isPrint` stands for
`strconv.IsPrint`, of which only what theorems state is assumed.
-/
namespace Verif.Lexeme
open Verif.TreeText (quote)
open Verif.Spec

/-- Decimal digits of a natural number, with a bound on their count (for `%d` in lexeme.go:75 and helpers.go:44). -/
def decF : Nat → Nat → Str
  | 0, _ => []
  | f + 1, n => (if n < 10 then [] else decF f (n / 10)) ++ [TreeText.hex (n % 10)]

/-- `%d` (lexeme.go:75, helpers.go:44). -/
def dec : Int → Str
  | .ofNat n => decF (n + 1) n
  | .negSucc n => '-' :: decF (n + 2) (n + 1)

/-- `Lexeme` (lexeme.go:14-18): the kind by what its `String` returns; `none` is a nil kind. -/
structure Lx where
  kind : Option Str
  val : Str
  line : Int
  col : Int
  deriving DecidableEq

/-- `New` (lexeme.go:22-27). -/
def new (kind : Option Str) : Lx := ⟨kind, [], -1, 0⟩

/-- `String` (lexeme.go:31-36). -/
def ofString (str : Str) : Lx := ⟨some str, [], -1, 0⟩

/-- `Set` (lexeme.go:42-45). -/
def Lx.set (l : Lx) (v : Str) : Lx := { l with val := v }

/-- `At` (lexeme.go:51-54). -/
def Lx.at' (l : Lx) (line col : Int) : Lx := { l with line := line, col := col }

/-- `Copy` (lexeme.go:57-59). -/
def copy (l : Lx) : Lx := ((new l.kind).set l.val).at' l.line l.col

/-- `%s` of a kind (lexeme.go:78, 80): a nil interface is printed as fmt prints nil. -/
def kindText : Option Str → Str
  | some k => k
  | none => "%!s(<nil>)".toList

/-- ` (%d, %d)` (lexeme.go:75, helpers.go:44). -/
def posText (line col : Int) : Str := " (".toList ++ dec line ++ ", ".toList ++ dec col ++ ")".toList

/-- `(*Lexeme).String` (lexeme.go:72-81). -/
def string (isPrint : Char → Bool) (l : Lx) : Str :=
  let pos := if l.line ≠ -1 then posText l.line l.col else []
  if l.val = [] then "Lexeme{".toList ++ kindText l.kind ++ pos ++ "}".toList
  else "Lexeme{".toList ++ kindText l.kind ++ ":".toList ++ quote isPrint l.val ++ pos ++ "}".toList

/-- `l.Kind().String()` (helpers.go:20, 41): a nil kind panics. -/
def kindOf (l : Lx) : Out Str :=
  match l.kind with
  | some k => .ok k
  | none => .panic

/-- Loop of the printing functions (helpers.go:19-26, 40-48): one text for every lexeme. -/
def texts (f : Str → Lx → Str) : List Lx → Out (List Str)
  | [] => .ok []
  | l :: ls => (kindOf l).bind fun k => (texts f ls).bind fun ss => .ok (f k l :: ss)

/-- `LexemeString` (helpers.go:14-31). -/
def lexemeString (ls : List Lx) : Out Str :=
  if ls.length = 0 then .ok []
  else (texts (fun k l => if l.val = [] then k else k ++ ": ".toList ++ l.val) ls).bind fun strs =>
    match strs with
    | [s] => .ok s
    | _ => .ok ("[".toList ++ Grammar.join ", ".toList strs ++ "]".toList)

/-- `LexemeList` (helpers.go:35-50). -/
def lexemeList (isPrint : Char → Bool) (ls : List Lx) : Out Str :=
  if ls.length = 0 then .ok []
  else (texts (fun k l => if l.line > 0 ∨ l.col > 0 then k ++ ": ".toList ++ quote isPrint l.val ++ posText l.line l.col
      else k ++ ": ".toList ++ quote isPrint l.val) ls).bind fun strs => .ok (Grammar.join "\n".toList strs)

/-- `(*errLexeme).Error` (simplelexer/lexer.go:56-58; the same in stacklexer/construct.go:261-263). -/
def errorText (l : Lx) : Str := "Lex Error ".toList ++ dec l.line ++ ":".toList ++ dec l.col ++ ") ".toList ++ l.val

end Verif.Lexeme
