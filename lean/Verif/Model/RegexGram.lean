import Verif.Model.Tree
import Verif.Model.Grammar
/-
Model of the evaluation half of grammar/regexgram/regexgram.go: from the reduced parse tree of a regex
grammar to a grammar and a reducer. Parsing and reducing (lines 28-108, 304-311) are modelled in
Model/RegexGramNew.lean.

A `rule` is a list of symbol names, `rules` a list of those; nil and empty slices are not
distinguished, as the code only appends to them and ranges over them. A slice that is shared (the
entries of `done`) has no spare capacity, so that appending to it copies; slices are values here.
-/
namespace Verif.RegexGram
open Verif Verif.Spec

/-- `mergeRules` (regexgram.go:281-291). -/
def mergeRules (a b : List (List Str)) : List (List Str) := a.flatMap fun ra => b.map fun rb => ra ++ rb

/-- `reduce` (regexgram.go:293-302). -/
def reduce : List (List (List Str)) → List (List Str)
  | [] => []
  | ra :: rc => rc.foldl mergeRules ra

/-- `strings.Join` (regexgram.go:257, 263). -/
abbrev join := Grammar.join

mutual
/-- `getName` (regexgram.go:244-267); `node.C[0]` panics without children. -/
def getName : PN Str Str → Out Str
  | .node l ks =>
    if l.kind = "symbol".toList then .ok l.val
    else if l.kind = "OptSymbol".toList then
      match ks with
      | [] => .panic
      | c :: _ => (getName c).bind fun s => .ok (s ++ "?".toList)
    else if l.kind = "RepSymbol".toList then
      match ks with
      | [] => .panic
      | c :: _ => (getName c).bind fun s => .ok (s ++ "*".toList)
    else if l.kind = "OrSymbol".toList then (getNames ks).bind fun ss => .ok (join "|".toList ss)
    else if l.kind = "Group".toList then
      (getNames ks).bind fun ss => .ok ("(".toList ++ join "_".toList ss ++ ")".toList)
    else .ok []
/-- The loops of `getName` (regexgram.go:253-256, 259-262). -/
def getNames : List (PN Str Str) → Out (List Str)
  | [] => .ok []
  | t :: ts => (getName t).bind fun s => (getNames ts).bind fun ss => .ok (s :: ss)
end

/-- `evalOp` (regexgram.go:110-118). Of the symbols made with `set` only the strings are read (the
grammar interns them in its own set), so `set` is left out; `rdcr` is only written at the end. -/
structure Op where
  grammar : Grammar.Gram Str
  stack : List (PN Str Str)
  nonterm : Str
  bludgeons : Str → Option (List Str)
  done : Str → Option (List (List Str))

/-- `addRepeatAsProduction` (regexgram.go:194-231), without the parent links (215-217). -/
def addRepeatAsProduction (op : Op) (node : PN Str Str) : Out (Op × List (List Str)) :=
  (getName node).bind fun symName =>
    let op := { op with
      bludgeons := upd op.bludgeons op.nonterm (some ((op.bludgeons op.nonterm).getD [] ++ [symName])) }
    match op.done symName with
    | some rs => .ok (op, rs)
    | none =>
      let cp := Tree.clone node
      let symNode : PN Str Str := .node ⟨"symbol".toList, symName, 0, 0⟩ []
      let prod : PN Str Str := .node ⟨"Production".toList, symName, 0, 0⟩ (cp.kids ++ [symNode])
      let nilProd : PN Str Str := .node ⟨"Production".toList, symName, 0, 0⟩ []
      let rs := [[symName]]
      .ok ({ op with stack := op.stack ++ [prod] ++ [nilProd], done := upd op.done symName (some rs) }, rs)

mutual
/-- `evalSymbol` (regexgram.go:163-185). In the case of `OrSymbol` the rules are appended to each other
as they come (171-173); here they are collected first. -/
def evalSymbol (op : Op) : PN Str Str → Out (Op × List (List Str))
  | .node l ks =>
    if l.kind = "symbol".toList then .ok (op, [[l.val]])
    else if l.kind = "OptSymbol".toList then
      match ks with
      | [] => .panic
      | c :: _ => (evalSymbol op c).bind fun r => .ok (r.1, r.2 ++ [[]])
    else if l.kind = "OrSymbol".toList then (evalEach op ks).bind fun r => .ok (r.1, r.2.flatten)
    else if l.kind = "Group".toList then (evalEach op ks).bind fun r => .ok (r.1, reduce r.2)
    else if l.kind = "RepSymbol".toList then addRepeatAsProduction op (.node l ks)
    else .ok (op, [])
/-- The loops over children (regexgram.go:171-173, 177-179). -/
def evalEach (op : Op) : List (PN Str Str) → Out (Op × List (List (List Str)))
  | [] => .ok (op, [])
  | t :: ts => (evalSymbol op t).bind fun r => (evalEach r.1 ts).bind fun q => .ok (q.1, r.2 :: q.2)
end

/-- The first loop of `evalProd` (regexgram.go:153-155). -/
def evalMerge (op : Op) (rs : List (List Str)) : List (PN Str Str) → Out (Op × List (List Str))
  | [] => .ok (op, rs)
  | c :: cs => (evalSymbol op c).bind fun r => evalMerge r.1 (mergeRules rs r.2) cs

/-- The second loop of `evalProd` (regexgram.go:157-160) with `ruleToProd` (269-275): the symbols are of
a set other than the grammar's. -/
def addRules (nonterm : Str) : Grammar.Gram Str → List (List Str) → Out (Grammar.Gram Str)
  | g, [] => .ok g
  | g, r :: rs => (Grammar.add g (.other nonterm) (some (r.map .other))).bind fun g => addRules nonterm g rs

/-- `evalProd` (regexgram.go:150-161). -/
def evalProd (op : Op) (node : PN Str Str) : Out Op :=
  let op := { op with nonterm := node.lx.val }
  (evalMerge op [[]] node.kids).bind fun r =>
    (addRules r.1.nonterm r.1.grammar r.2).bind fun g => .ok { r.1 with grammar := g }

/-- The first loop of `evalGrammar` (regexgram.go:128-135): the stack; a node other than a Production
gets the value of the latest Production. -/
def initStack : Str → List (PN Str Str) → List (PN Str Str)
  | _, [] => []
  | nonterm, .node l ks :: cs =>
    if l.kind = "Production".toList then .node l ks :: initStack l.val cs
    else .node { l with val := nonterm } ks :: initStack nonterm cs

/-- The second loop of `evalGrammar` (regexgram.go:137-141). -/
def evalLoop : Nat → Op → Out Op
  | 0, _ => .fuel
  | n + 1, op =>
    match op.stack with
    | [] => .ok op
    | node :: stack => (evalProd { op with stack := stack } node).bind fun op => evalLoop n op

/-- The loop of the reduction made by `bludgeon` (regexgram.go:235-240) from index `i`; after a promotion
`i--` and `i++` cancel. -/
def bludgeonLoop (symbols : List Str) : Nat → PN Str Str → Nat → Out (PN Str Str)
  | 0, _, _ => .fuel
  | n + 1, p, i =>
    if i < p.kids.length then
      (Tree.childAt p i symbols).bind fun b =>
        if b then (Tree.promoteChildrenOf p i).bind fun r => bludgeonLoop symbols n r.1 i
        else bludgeonLoop symbols n p (i + 1)
    else .ok p

/-- `bludgeon` (regexgram.go:233-242). -/
def bludgeon (symbols : List Str) (fuel : Nat) (p : PN Str Str) : Out (PN Str Str) := bludgeonLoop symbols fuel p 0

/-- The reducer built at the end of `evalGrammar` (regexgram.go:143-145); each key is written once, so
the order of the iteration does not matter. `fuel` bounds the loops of the reductions. -/
def reducerOf {σ : Type} (fuel : Nat) (bludgeons : Str → Option (List Str)) : Tree.Reducer σ Str Str :=
  fun k => (bludgeons k).map fun symbols => Tree.lift1 (bludgeon symbols fuel)

/-- `evalGrammar` (regexgram.go:120-148): the grammar, and the map of which the reducer is made. -/
def evalGrammar (n : Nat) (node : PN Str Str) : Out (Grammar.Gram Str × (Str → Option (List Str))) :=
  (evalLoop n ⟨Grammar.empty, initStack [] node.kids, [], fun _ => none, fun _ => none⟩).bind fun op =>
    .ok (op.grammar, op.bludgeons)

end Verif.RegexGram
