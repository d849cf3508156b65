import Verif.Model.Basic
import Verif.Spec.CFG
import Verif.Spec.RegexGram
import Verif.Model.Topdown
import Verif.Model.Tree
import Verif.Model.RegexGram
import Verif.Model.ReducerDSL
/-
Model of `Format` after lexing, and of `prettyPrint`, in examples/parlexjson/json.go. The buffer is only appended to, so each function
returns the text it appends. `node.Child(i)` for `i` below `node.Children()` is the child itself
(tree/parsetree.go:71-77, Model/Tree.child).
-/
namespace Verif.Json
open Verif.Spec

/-- Kinds the code distinguishes (examples/parlexjson/json.go:69, 90, 113). -/
def kArray : Str := "Array".toList
/-- See `kArray`. -/
def kObject : Str := "Object".toList
/-- See `kArray`. -/
def kKeyVal : Str := "KeyVal".toList

mutual
/-- `prettyPrint` (examples/parlexjson/json.go:67-120). -/
def pp : PN Str Str → Str → Out Str
  | .node l ks, pad =>
    if l.kind = kArray then
      (ppArr ks true (pad ++ "  ".toList)).bind fun r =>
        .ok ("[".toList ++ r.1 ++ (if r.2 then "\n".toList ++ pad else []) ++ "]".toList)
    else if l.kind = kObject then
      if ks.length = 0 then .ok "{}".toList
      else if ks.length = 1 then (ppFst ks pad).bind fun s => .ok ("{".toList ++ s ++ "}".toList)
      else (ppObj ks true (pad ++ "  ".toList)).bind fun s =>
        .ok ("{\n".toList ++ s ++ "\n".toList ++ pad ++ "}".toList)
    else if l.kind = kKeyVal then
      (ppFst ks pad).bind fun s => .ok (l.val ++ ": ".toList ++ s)
    else .ok l.val
/-- `prettyPrint(node.Child(0), buf, pad)` (examples/parlexjson/json.go:97, 116): without children
`Child` returns nil and the call panics. -/
def ppFst : List (PN Str Str) → Str → Out Str
  | [], _ => .panic
  | c :: _, pad => pp c pad
/-- Loop over the children of an array (examples/parlexjson/json.go:73-84); `first` is `i == 0`, the flag
returned is `prepend`. -/
def ppArr : List (PN Str Str) → Bool → Str → Out (Str × Bool)
  | [], _, _ => .ok ([], false)
  | c :: cs, first, pad =>
    let nested := decide (c.kind = kArray) || decide (c.kind = kObject)
    (pp c pad).bind fun s => (ppArr cs false pad).bind fun r =>
      .ok ((if first then [] else ",".toList) ++ (if nested then "\n".toList ++ pad else []) ++ s ++ r.1,
        nested || r.2)
/-- Loop over the children of an object (examples/parlexjson/json.go:103-109). -/
def ppObj : List (PN Str Str) → Bool → Str → Out Str
  | [], _, _ => .ok []
  | c :: cs, first, pad =>
    (pp c pad).bind fun s => (ppObj cs false pad).bind fun r =>
      .ok ((if first then [] else ",\n".toList) ++ pad ++ s ++ r)
end

/-- `Format` (examples/parlexjson/json.go:56-65) from the lexemes on: `runner.Run` (parlex.go:14-28) with
the parser made for the grammar `G` and the reducer `r`, then `prettyPrint`; `none` is the error that the
text could not be parsed. `fuel` bounds the loops. -/
def formatLexemes (fuel : Nat) (G : Grammar Str) (r : Tree.Reducer Unit Str Str) (ls : List (Lexeme Str Str)) :
    Out (Option Str) :=
  (Topdown.parse [] G ls fuel).bind fun o => (Tree.reduce r o ()).bind fun q =>
    match q.1 with
    | none => .ok none
    | some t => (pp t []).bind fun s => .ok (some s)

/-- The variables (examples/parlexjson/json.go:48-54) and `Format`, from the reduced parse trees of
`grammarRules` and `reduceRules` and from the lexemes of the input on; `o1` and `o2` are the orders in which
`Merge` happens to range over the two maps. `Must` panics if `New` fails. -/
def format (fuel : Nat) (groot rroot : PN Str Str) (o1 o2 : List Str) (ls : List (Lexeme Str Str)) : Out (Option Str) :=
  (RegexGram.evalGrammar fuel groot).bind fun gb => (ReducerDSL.eval fuel fuel rroot).bind fun r2 =>
    (Topdown.new (Grammar.view gb.1) fuel).bind fun ok =>
      if ok then formatLexemes fuel (Grammar.view gb.1) (Tree.merge (RegexGram.reducerOf fuel gb.2) r2 o1 o2) ls else .panic

/-- The rules written in `grammarRules` (examples/parlexjson/json.go:28-35). -/
def grammarRules : RxRules :=
  [("Value".toList, [.or [.sym "string".toList, .sym "number".toList, .sym "bool".toList, .sym "null".toList,
      .sym "Array".toList, .sym "Object".toList]]),
   ("Array".toList, [.sym "lb".toList, .opt (.group [.sym "Value".toList, .rep (.sym "MoreVals".toList)]), .sym "rb".toList]),
   ("MoreVals".toList, [.sym "comma".toList, .sym "Value".toList]),
   ("Object".toList, [.sym "lcb".toList, .opt (.group [.sym "KeyVal".toList, .rep (.sym "MoreKeyVals".toList)]), .sym "rcb".toList]),
   ("MoreKeyVals".toList, [.sym "comma".toList, .sym "KeyVal".toList]),
   ("KeyVal".toList, [.sym "string".toList, .sym "colon".toList, .sym "Value".toList])]

end Verif.Json
