import Verif.Model.Run
import Verif.Model.Grammar
import Verif.Model.Packrat
import Verif.Model.Tree
import Verif.Spec.Math
/-
Model of examples/parlexmath/math.go. The type of numbers and its operations are a parameter: float64, with
`strconv.ParseFloat` for the texts and the operators of Go (`Arith`).
-/
namespace Verif.PMath
open Verif Verif.Spec Verif.Spec.Math Verif.SimpleLexer

/-- `lexerRules` (examples/parlexmath/math.go:12-19). -/
def lexerText : Str := r#"
  space  /\s+/ -
  number /\d*\.?\d+/
  op1 /[\*\/]/
  op2 /[\+\-]/
  ( /\(/
  ) /\)/
"#.toList

/-- `grammarRules` (examples/parlexmath/math.go:21-28). -/
def grammarText : Str := r"
  E -> E op2 E
    -> E op1 E
    -> number
    -> op2 number
    -> P
  P -> ( E )
".toList

/-- `lxr` (examples/parlexmath/math.go:30) as it is at start. -/
def lxr : Out Lexer := (SimpleLexer.new SimpleLexer.compile [bytes lexerText]).bind mustLexer

/-- `grmr` (examples/parlexmath/math.go:31) as the parser sees it; `MustGrammar` panics if there is an error
(helpers.go:72-77). -/
def grmr : Out (Spec.Grammar Str) :=
  match Grammar.new grammarText with
  | none => .panic
  | some g => .ok (Grammar.view g)

/-- The function for `E` (examples/parlexmath/math.go:35-42). -/
def reduceE (p : PN Str Str) : Out (PN Str Str) :=
  if p.kids.length = 1 ∨ p.kids.length = 2 then (Tree.promoteChild p 0).bind fun r => .ok r.1
  else if p.kids.length = 3 then (Tree.promoteChild p 1).bind fun r => .ok r.1
  else .ok p

/-- `reducer` (examples/parlexmath/math.go:34-44). -/
def reducer : Tree.Reducer Unit Str Str := fun k =>
  if k = "E".toList then some (Tree.lift1 reduceE)
  else if k = "P".toList then some (Tree.ROp.red 0 (.replaceWithChild 1))
  else none

mutual
/-- `eval` (examples/parlexmath/math.go:58-87). -/
def eval {N : Type} (A : Arith N) : PN Str Str → Out N
  | .node l ks =>
    if l.kind = "number".toList then .ok (A.num l.val)
    else if l.kind = "op2".toList ∧ ks.length = 1 then
      (eval1 A ks).bind fun a => .ok (if l.val = "-".toList then A.neg a else a)
    else if l.kind = "op2".toList ∨ l.kind = "op1".toList then
      (eval2 A ks).bind fun r =>
        if l.val = "+".toList then .ok (A.add r.1 r.2)
        else if l.val = "*".toList then .ok (A.mul r.1 r.2)
        else if l.val = "/".toList then .ok (A.div r.1 r.2)
        else if l.val = "-".toList then .ok (A.sub r.1 r.2)
        else .ok A.zero
    else .ok A.zero
/-- `eval(node.Child(0))` (examples/parlexmath/math.go:65); `Child` returns nil if there is none, and the call panics. -/
def eval1 {N : Type} (A : Arith N) : List (PN Str Str) → Out N
  | [] => .panic
  | c :: _ => eval A c
/-- `eval(node.Child(0))` and `eval(node.Child(1))` (examples/parlexmath/math.go:73-74). -/
def eval2 {N : Type} (A : Arith N) : List (PN Str Str) → Out (N × N)
  | [] => .panic
  | c :: cs => (eval A c).bind fun a => (eval1 A cs).bind fun b => .ok (a, b)
end

/-- `Eval` (examples/parlexmath/math.go:50-56) after lexing: `Run` (parlex.go:14-28) with the parser for the grammar, the
reducer and `eval`. `none` is the error that the text could not be parsed, with which 0 is returned. -/
def evalLexemes {N : Type} (A : Arith N) (fuel : Nat) (ls : List (Lexeme Str Str)) : Out (Option N) :=
  grmr.bind fun g => (Packrat.parse [] g ls fuel).bind fun o => (Tree.reduce reducer o ()).bind fun q =>
    match q.1 with
    | none => .ok none
    | some t => (eval A t).bind fun v => .ok (some v)

/-- `Eval` (examples/parlexmath/math.go:50-56) with the lexer in some state; returned are the number, `none` if there is an
error, and the lexer afterwards. -/
def evalText {N : Type} (A : Arith N) (fuel : Nat) (l : Lexer) (b : Bytes) : Out (Option N × Lexer) :=
  (lexText fuel l b).bind fun q =>
    match q.1 with
    | none => .ok (none, q.2)
    | some ls => (evalLexemes A fuel ls).bind fun r => .ok (r, q.2)

end Verif.PMath
