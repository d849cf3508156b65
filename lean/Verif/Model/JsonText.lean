import Verif.Model.Json
import Verif.Model.Run
import Verif.Model.RegexGramText
import Verif.Model.ReducerText
/-
The texts of examples/parlexjson/json.go, and `Format` from text to text.
-/
namespace Verif.Json
open Verif Verif.Spec Verif.SimpleLexer

/-- `lexerRules` (examples/parlexjson/json.go:15-27). -/
def lexerText : Str := r#"
		space  /\s+/ -
		number /\d*\.?\d+/
		string /(\"([^\"\\]|(\\.))*\")/
		bool   /(true)|(false)/
		null
		comma  /,/
		lcb    /\{/
		rcb    /\}/
		lb     /\[/
		rb     /\]/
		colon  /:/
	"#.toList

/-- `grammarRules` (examples/parlexjson/json.go:28-35). -/
def grammarText : Str := r"
 		Value       -> string | number | bool | null | Array | Object
 		Array       -> lb ( Value MoreVals* )? rb
 		MoreVals    -> comma Value
 		Object      -> lcb ( KeyVal MoreKeyVals* )? rcb
 		MoreKeyVals -> comma KeyVal
 		KeyVal      -> string colon Value
	 ".toList

/-- `reduceRules` (examples/parlexjson/json.go:36-45). -/
def reduceText : Str := r"
		Value PromoteSingleChild()
		Object      RemoveChildren(0, -1)  // remove { }
		Array       RemoveChildren(0, -1)  // remove [ ]
		KeyVal      PromoteChildValue(0)   // Promote key
					.RemoveChild(0) 		   // remove :
		MoreVals    ReplaceWithChild(1)	   // MoreVals -> {, Val} ==> Val
		MoreKeyVals ReplaceWithChild(1)	   // MoreKeyVals -> {, KeyVal} ==> KeyVal
	".toList

/-- `lxr` (examples/parlexjson/json.go:48) as it is at start. -/
def lxr : Out Lexer := (SimpleLexer.new SimpleLexer.compile [bytes lexerText]).bind mustLexer

/-- The bytes of a text that has one character for each byte, as the values of lexemes do (Model/Run.lean). -/
def packed (s : Str) : Bytes := s.map fun c => UInt8.ofNat c.toNat

/-- `grmr`, `prsr` and `rdcr` (examples/parlexjson/json.go:49-51): the grammar and the reducer. `rl` is the
lexer of package regexgram as it is then; `pl` is the lexer of package reducer, `rl0` was the lexer of package
regexgram when package reducer was initialised, and `p1` and `p2` are the orders in which `Merge` ranged over
the maps there; `o1` and `o2` are those orders here. `Must` panics if there is an error. -/
def vars (fuel : Nat) (rl0 rl pl : Lexer) (p1 p2 o1 o2 : List Str) : Out (Spec.Grammar Str × Tree.Reducer Unit Str Str) :=
  (RegexGram.newText fuel rl (bytes grammarText)).bind fun q =>
    match q.1 with
    | none => .panic
    | some gb => (Topdown.new (Grammar.view gb.1) fuel).bind fun ok =>
      if ok then
        (ReducerDSL.parseText fuel rl0 p1 p2 pl (bytes reduceText)).bind fun p =>
          match p.1 with
          | none => .panic
          | some r => .ok (Grammar.view gb.1, Tree.merge (RegexGram.reducerOf fuel gb.2) r o1 o2)
      else .panic

/-- `Format` (examples/parlexjson/json.go:56-65) with the lexer in some state; returned are the text, `none` if
there is an error, and the lexer afterwards. -/
def formatText (fuel : Nat) (rl0 rl pl : Lexer) (p1 p2 o1 o2 : List Str) (l : Lexer) (b : Bytes) : Out (Option Bytes × Lexer) :=
  (vars fuel rl0 rl pl p1 p2 o1 o2).bind fun v => (lexText fuel l b).bind fun q =>
    match q.1 with
    | none => .ok (none, q.2)
    | some ls => (formatLexemes fuel v.1 v.2 ls).bind fun r => .ok (r.map packed, q.2)

end Verif.Json
