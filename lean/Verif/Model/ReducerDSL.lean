import Verif.Model.Int64
import Verif.Model.Tree
import Verif.Spec.GrammarDef
/-
Model of the evaluation half of tree/reducer/reducer.go: from the reduced parse tree of a reducer
definition to a Reducer. Lines cited as reducer.go are of that file. Lexing, parsing and reducing the text use the packages modelled elsewhere.
-/
namespace Verif.ReducerDSL
open Verif.Spec Verif.Tree

/-- Value of decimal digits, most significant first (for `strconv.Atoi`, reducer/reducer.go:140, 159, 171). -/
def digits : Nat → Str → Option Nat
  | n, [] => some n
  | n, c :: cs => if '0' ≤ c ∧ c ≤ '9' then digits (10 * n + (c.toNat - 48)) cs else none

/-- The number that `strconv.Atoi` reads (reducer/reducer.go:140, 159, 171): 0 on a syntax error. -/
def readInt (s : Str) : Int :=
  match s with
  | [] => 0
  | c :: cs =>
    if c = '-' then (if cs = [] then 0 else match digits 0 cs with | some n => -(n : Int) | none => 0)
    else if c = '+' then (if cs = [] then 0 else match digits 0 cs with | some n => (n : Int) | none => 0)
    else match digits 0 (c :: cs) with | some n => (n : Int) | none => 0

/-- The first result of `strconv.Atoi` (reducer/reducer.go:140, 159, 171). -/
def atoi (s : Str) : Int := clampInt (readInt s)

/-- `evalVarNumArgs` (reducer.go:137-143). -/
def evalVarNumArgs (n : PN Str Str) : List Int := n.kids.map fun c => atoi c.lx.val

/-- `evalOneStrArg` (reducer.go:163-166) and line 149: `v[1 : len(v)-1]`. -/
def strip (v : Str) : Out Str := slice v 1 ((v.length : Int) - 1)

/-- Loop of `evalVarStrArgs` (reducer.go:147-151). -/
def strips : List (PN Str Str) → Out (List Str)
  | [] => .ok []
  | n :: ns => (strip n.lx.val).bind fun v => (strips ns).bind fun vs => .ok (v :: vs)

/-- `evalVarStrArgs` (reducer.go:145-153). -/
def evalVarStrArgs (n : PN Str Str) : Out (List Str) := strips n.kids

/-- `evalOneNumArg` (reducer.go:155-161). -/
def evalOneNumArg (n : PN Str Str) : Int :=
  match n.kids with
  | [] => 0
  | c :: _ => atoi c.lx.val

variable {σ : Type}

/-- `evalConditional` (reducer.go:168-175). -/
def evalConditional (n : PN Str Str) : Out (Cond σ Str Str) :=
  if n.kind = "ChildIs".toList then
    (index n.kids 0).bind fun a => (index n.kids 1).bind fun b => (strip b.lx.val).bind fun k =>
      .ok (childIsC (atoi a.lx.val) k)
  else .ok none

/-- The operation of a node other than If (reducer.go:109-127): `none` for kinds without a case. -/
def evalOp (n : PN Str Str) : Out (Option (ROp Str)) :=
  if n.kind = "PromoteSingleChild".toList then .ok (some .promoteSingleChild)
  else if n.kind = "RemoveChildren".toList then (index n.kids 0).bind fun a => .ok (some (.removeChildren (evalVarNumArgs a)))
  else if n.kind = "PromoteChildValue".toList then (index n.kids 0).bind fun a => .ok (some (.promoteChildValue (evalOneNumArg a)))
  else if n.kind = "RemoveChild".toList then (index n.kids 0).bind fun a => .ok (some (.removeChild (evalOneNumArg a)))
  else if n.kind = "ReplaceWithChild".toList then (index n.kids 0).bind fun a => .ok (some (.replaceWithChild (evalOneNumArg a)))
  else if n.kind = "PromoteGrandChildren".toList then .ok (some .promoteGrandChildren)
  else if n.kind = "PromoteChildrenOf".toList then (index n.kids 0).bind fun a => .ok (some (.promoteChildrenOf (evalOneNumArg a)))
  else if n.kind = "RemoveAll".toList then
    (index n.kids 0).bind fun a => (evalVarStrArgs a).bind fun ks => .ok (some (.removeAll ks))
  else if n.kind = "PromoteChild".toList then (index n.kids 0).bind fun a => .ok (some (.promoteChild (evalOneNumArg a)))
  else .ok none

/-- Loop of `evalReduction` (reducer.go:105-135) from the reduction `r`; the recursion into If is bounded
by `depth`, the loops of the resulting reductions by `fuel`. -/
def evalLoop (fuel : Nat) : Nat → Red σ Str Str → List (PN Str Str) → Out (Red σ Str Str)
  | 0, _, _ => .fuel
  | _ + 1, r, [] => .ok r
  | d + 1, r, n :: ns =>
    if n.kind = "If".toList then
      (index n.kids 0).bind fun cn => (evalConditional cn).bind fun c =>
        (index n.kids 1).bind fun tn => (evalLoop fuel d none tn.kids).bind fun t =>
          (index n.kids 2).bind fun en => (evalLoop fuel d none en.kids).bind fun e =>
            evalLoop fuel d (thenIf r c t e) ns
    else (evalOp n).bind fun o =>
      match o with
      | none => evalLoop fuel d r ns
      | some o => evalLoop fuel d (ROp.then fuel r o) ns

/-- `evalReduction` (reducer.go:105-135). -/
def evalReduction (fuel depth : Nat) (ns : List (PN Str Str)) : Out (Red σ Str Str) := evalLoop fuel depth none ns

/-- The loop of `Parse` (reducer.go:82-88) with `evalRule` (101-103). -/
def evalRules (fuel depth : Nat) : Reducer σ Str Str → List (PN Str Str) → Out (Reducer σ Str Str)
  | r, [] => .ok r
  | r, n :: ns =>
    if n.kind = "Rule".toList then
      (evalReduction fuel depth n.kids).bind fun v => evalRules fuel depth (upd r n.lx.val (some v)) ns
    else evalRules fuel depth r ns

/-- `Parse` (reducer.go:77-90) after a successful `Run` that returned `root`. -/
def eval (fuel depth : Nat) (root : PN Str Str) : Out (Reducer σ Str Str) := evalRules fuel depth (fun _ => none) root.kids

end Verif.ReducerDSL
