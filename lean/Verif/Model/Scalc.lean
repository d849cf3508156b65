import Verif.Model.Run
import Verif.Model.Grammar
import Verif.Model.Packrat
import Verif.Model.Tree
import Verif.Spec.Scalc
/-
Model of examples/scalc/scalc.go, from text to stack. Numbers and operations on them are parameters. Evaluation changes
the tree it is given; every node is evaluated at most once, so the model passes on trees as values.
-/
namespace Verif.Scalc
open Verif Verif.Spec Verif.Spec.Scalc Verif.SimpleLexer

/-- `lexerRules` (examples/scalc/scalc.go:15-26). -/
def lexerText : Str := r#"
  space /\s+/ -
  int   /(\+|-)?\d+/
  dec   /\.\d+/
  uop   /(--)|(abs)/
  bop   /(cmpr)|[\*\/+\-\^%><=]/
  sop   /(len)|(sum)|(avg)|(min)|(max)|(first)|(last)/
  smp   /(swap)|(drop)|(clear)/
  ?     /\?/
  (     /\(/
  )     /\)/
"#.toList

/-- `grammarRules` (examples/scalc/scalc.go:28-49). -/
def grammarText : Str := r"
  Stack  -> Stack Smp
         -> E Stack
         -> Stack P Stack
         ->
  E      -> Stack Sop
         -> E E E ?
         -> E Uop
         -> E E Bop
         -> Number
  Number -> int
         -> int dec
  P      -> ( Stack )
  Bop    -> bop
         -> Bop Bop E ?
  Uop    -> uop
         -> Uop Uop E ?
  Sop    -> sop
         -> Sop Sop E ?
  Smp    -> Smp Smp E ?
         -> smp
".toList

/-- `lxr` (examples/scalc/scalc.go:75) as it is at start. -/
def lxr : Out Lexer := (SimpleLexer.new SimpleLexer.compile [bytes lexerText]).bind mustLexer

/-- `grmr` (examples/scalc/scalc.go:76) as the parser sees it; `MustGrammar` panics if there is an error
(helpers.go:72-77). -/
def grmr : Out (Spec.Grammar Str) :=
  match Grammar.new grammarText with
  | none => .panic
  | some g => .ok (Grammar.view g)

/-- `stack` (examples/scalc/scalc.go:61-73). -/
def stack (p : PN Str Str) : Out (PN Str Str) :=
  (Tree.childAt p (-1) ["Stack".toList]).bind fun b =>
  (if b then (Tree.promoteChildrenOf p (-1)).bind fun r => .ok r.1 else .ok p).bind fun p =>
  (Tree.childAt p 0 ["Stack".toList]).bind fun b =>
  (if b then (Tree.promoteChildrenOf p 0).bind fun r => .ok r.1 else .ok p).bind fun p =>
  (Tree.childAt p (-1) ["smp".toList, "?".toList]).bind fun b =>
  if b then (Tree.promoteChild p (-1)).bind fun r => .ok r.1
  else (Tree.promoteSingleChild p).bind fun r => .ok r.1

/-- `rdcr` (examples/scalc/scalc.go:51-59). -/
def rdcr : Tree.Reducer Unit Str Str := fun k =>
  if k = "Stack".toList then some (Tree.lift1 stack)
  else if k = "E".toList then some (Tree.ROp.red 0 (.promoteChild (-1)))
  else if k = "P".toList then some (Tree.ROp.red 0 (.replaceWithChild 1))
  else if k = "Bop".toList then some (Tree.ROp.red 0 (.promoteChild (-1)))
  else if k = "Uop".toList then some (Tree.ROp.red 0 (.promoteChild (-1)))
  else if k = "Sop".toList then some (Tree.ROp.red 0 (.promoteChild (-1)))
  else if k = "Smp".toList then some (Tree.ROp.red 0 (.promoteChild (-1)))
  else none

variable {N : Type}

/-- `evalSmp` (examples/scalc/scalc.go:133-147): the node afterwards. -/
def evalSmp (op : PN Str Str) : PN Str Str :=
  let ks := op.kids
  let ln := ks.length
  if op.lx.val = "swap".toList then
    match ks[ln - 1]?, ks[ln - 2]? with
    | some a, some b => if ln > 1 then .node op.lx ((ks.set (ln - 1) b).set (ln - 2) a) else op
    | _, _ => op
  else if op.lx.val = "drop".toList then
    if ln > 0 then .node op.lx (ks.take (ln - 1)) else op
  else if op.lx.val = "clear".toList then .node op.lx []
  else op

/-- `maxPrecision` (examples/scalc/scalc.go:268-276). -/
def maxPrecision (pfs : List (PF N)) : Int := pfs.foldl (fun m p => if p.P > m then p.P else m) 0

/-- `evalUop` (examples/scalc/scalc.go:170-181) with the operand evaluated. -/
def evalUop (A : Arith N) (ae : PF N) (op : Str) : PF N :=
  if op = "--".toList then ⟨A.neg ae.V, ae.P⟩
  else if op = "abs".toList then if A.lt ae.V A.zero then ⟨A.neg ae.V, ae.P⟩ else ae
  else ae

/-- `evalBop` (examples/scalc/scalc.go:183-222) with the operands evaluated; `a > b` is `b < a`. -/
def evalBop (A : Arith N) (ae be : PF N) (op : Str) : PF N :=
  let p := maxPrecision [ae, be]
  if op = "+".toList then ⟨A.add ae.V be.V, p⟩
  else if op = "*".toList then ⟨A.mul ae.V be.V, p⟩
  else if op = "/".toList then ⟨A.div ae.V be.V, p⟩
  else if op = "-".toList then ⟨A.sub ae.V be.V, p⟩
  else if op = "^".toList then ⟨A.pow ae.V be.V, p⟩
  else if op = "%".toList then ⟨A.mod ae.V be.V, p⟩
  else if op = ">".toList then ⟨if A.lt be.V ae.V then A.one else A.zero, p⟩
  else if op = "<".toList then ⟨if A.lt ae.V be.V then A.one else A.zero, p⟩
  else if op = "=".toList then ⟨if A.eq ae.V be.V then A.one else A.zero, p⟩
  else if op = "cmpr".toList then
    ⟨if A.lt be.V ae.V then A.one else if A.lt ae.V be.V then A.minusOne else A.zero, p⟩
  else ⟨A.zero, p⟩

/-- `evalSop` (examples/scalc/scalc.go:224-266). -/
def evalSop (A : Arith N) (stack : List (PF N)) (op : Str) : PF N :=
  if op = "sum".toList ∨ op = "avg".toList then
    let s := stack.foldl (fun v p => A.add v p.V) A.zero
    ⟨if op = "avg".toList ∧ stack.length > 0 then A.div s (A.ofNat stack.length) else s, maxPrecision stack⟩
  else if op = "len".toList then ⟨A.ofNat stack.length, 0⟩
  else if op = "min".toList then
    match stack with
    | [] => ⟨A.zero, 0⟩
    | v :: ps => ps.foldl (fun v p => if A.lt p.V v.V then p else v) v
  else if op = "max".toList then
    match stack with
    | [] => ⟨A.zero, 0⟩
    | v :: ps => ps.foldl (fun v p => if A.lt v.V p.V then p else v) v
  else if op = "last".toList then stack.head?.getD ⟨A.zero, 0⟩
  else if op = "first".toList then stack.getLast?.getD ⟨A.zero, 0⟩
  else ⟨A.zero, 0⟩

/-- The loop of `evalStack` (examples/scalc/scalc.go:125-127); `f` is `evalE`. -/
def evalAll (f : PN Str Str → Out (PF N)) : List (PN Str Str) → Out (List (PF N))
  | [] => .ok []
  | t :: ts => (f t).bind fun v => (evalAll f ts).bind fun vs => .ok (v :: vs)

mutual
/-- `evalStack` (examples/scalc/scalc.go:105-131). -/
def evalStack (A : Arith N) : Nat → PN Str Str → Out (List (PF N))
  | 0, _ => .fuel
  | n + 1, node =>
    if node.kind = "?".toList then
      (Tree.child node (-1)).bind fun c =>
        match c with
        | none => .panic
        | some c => (evalE A n c).bind fun v => (Tree.removeChild node (-1)).bind fun r =>
          (Tree.removeChild r.1 (if A.lt A.zero v.V then -2 else -1)).bind fun r =>
            (Tree.promoteChild r.1 (-1)).bind fun r => evalStack A n r.1
    else if node.kind = "smp".toList then evalAll (evalE A n) (evalSmp node).kids
    else if node.kind = "Stack".toList then evalAll (evalE A n) node.kids
    else (evalE A n node).bind fun v => .ok [v]
/-- `evalE` (examples/scalc/scalc.go:149-168). -/
def evalE (A : Arith N) : Nat → PN Str Str → Out (PF N)
  | 0, _ => .fuel
  | n + 1, node =>
    if node.kind = "Number".toList then
      match node.kids with
      | [c0, c1] => .ok ⟨A.num (c0.lx.val ++ c1.lx.val), (c1.lx.val.length : Int) - 1⟩
      | [c0] => .ok ⟨A.num c0.lx.val, 0⟩
      | _ => .ok ⟨A.zero, 0⟩
    else if node.kind = "uop".toList then
      (Tree.index node.kids 0).bind fun a => (evalE A n a).bind fun ae => .ok (evalUop A ae node.lx.val)
    else if node.kind = "bop".toList then
      (Tree.index node.kids 0).bind fun a => (Tree.index node.kids 1).bind fun b =>
        (evalE A n a).bind fun ae => (evalE A n b).bind fun be => .ok (evalBop A ae be node.lx.val)
    else if node.kind = "sop".toList then
      (Tree.index node.kids 0).bind fun a => (evalStack A n a).bind fun s => .ok (evalSop A s node.lx.val)
    else .ok ⟨A.zero, 0⟩
end

/-- `Parse` (examples/scalc/scalc.go:80-82) after lexing; `none` is nil. -/
def parseLexemes (fuel : Nat) (ls : List (Lexeme Str Str)) : Out (Option (PN Str Str)) :=
  grmr.bind fun g => (Packrat.parse [] g ls fuel).bind fun o => (Tree.reduce rdcr o ()).bind fun q => .ok q.1

/-- `Eval` (examples/scalc/scalc.go:85-91) after lexing; `none` is nil. -/
def evalLexemes (A : Arith N) (fuel : Nat) (ls : List (Lexeme Str Str)) : Out (Option (List (PF N))) :=
  (parseLexemes fuel ls).bind fun o =>
    match o with
    | none => .ok none
    | some t => (evalStack A fuel t).bind fun s => .ok (some s)

/-- `Eval` (examples/scalc/scalc.go:85-91) with the lexer in some state; the lexer afterwards is returned too. Errors of
the lexer are passed to the parser as lexemes. -/
def evalText (A : Arith N) (fuel : Nat) (l : Lexer) (b : Bytes) : Out (Option (List (PF N)) × Lexer) :=
  (lex fuel l b).bind fun r => (evalLexemes A fuel (r.1.map (toLexeme r.2))).bind fun o => .ok (o, r.2)

end Verif.Scalc
