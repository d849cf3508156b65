import Verif.Model.Grammar
import Verif.Spec.CFG
/-
Model of grammar/left_recursion.go. The grammar given to `RemoveLeftRecursion` is any implementation
of the interface, seen by the names of its symbols. The code keeps two symbol sets, its own (`op.set`)
and that of the grammar it builds (`op.out.set`), and mixes their indices; so does the model.
Slices of productions are values: the only production changed in place (line 92) is one whose slice has
no other user, since `CastProduction` copied it (set.go:153-161).
-/
namespace Verif.LeftRecursion
open Verif.SetSymbol Verif.Spec Verif.Grammar

/-- `op.cur.String() + "'"` (left_recursion.go:81). -/
def prime (x : Str) : Str := x ++ ['\'']

/-- `lrOp` (left_recursion.go:8-15), without `in`, which does not change. `cur` is an index of `set`. -/
structure Op where
  out : Gram Str
  done : List Bool
  cur : Nat
  hasDirect : Bool
  set : SymSet Str

/-- `op.out.Add(op.cur, prod)` (left_recursion.go:55): the arguments belong to `op.set`, so the grammar
sees their strings. -/
def addOut (op : Op) (prod : List Nat) : Out Op :=
  (symString op.set op.cur).bind fun A => (readSyms op.set prod).bind fun xs =>
    (add op.out (.other A) (some (xs.map .other))).bind fun out => .ok { op with out := out }

/-- Loop of `safeAdd` over the productions of the leading symbol (left_recursion.go:59-68): `tail` is
`op.getTail(prod)`; `rec` is the recursive call. -/
def subLoop (rec : Op → List Nat → Out Op) (tail : List Nat) : Op → List (List Str) → Out Op
  | op, [] => .ok op
  | op, p :: ps =>
    let r := castSyms op.set p
    (rec { op with set := r.1 } (r.2 ++ tail)).bind fun op' => subLoop rec tail op' ps

/-- `safeAdd` (left_recursion.go:45-69). -/
def safeAdd (g : Spec.Grammar Str) : Nat → Op → List Nat → Out Op
  | 0, _, _ => .fuel
  | _ + 1, op, [] => addOut op []
  | n + 1, op, f :: tail =>
    if op.done[f]?.getD false = false then
      addOut { op with hasDirect := op.hasDirect || decide (f = op.cur) } (f :: tail)
    else
      (symString op.set f).bind fun F =>
        match g.prods F with
        | none => .panic
        | some ps => subLoop (safeAdd g n) tail op ps

/-- `directAdd` (left_recursion.go:107-121), for a production already cast to the grammar's set: like
`Add` but by index and without recording the symbol in `order`. -/
def directIdx (g : Gram Str) (f : Nat) (p : List Nat) : Gram Str :=
  let ps := if f < g.productions.length then g.productions
    else g.productions ++ List.replicate (1 + f - g.productions.length) none
  match ps[f]?.join with
  | none => { g with productions := ps.set f (some [p]) }
  | some qs => { g with productions := ps.set f (some (qs ++ [p])) }

/-- Loop of `removeDirectLeftRecursion` over the old productions of `cur` (left_recursion.go:89-103);
`name` and `ns` are the string and index of the new symbol. A production of the grammar's set is
extended in place (92-93); the others are rebuilt in `op.set` by `getTail` (95-97), which strips every
leading `cur`, and cast back by `directAdd` (99-100). -/
def rdLoop (name : Str) (ns : Nat) : Op → List (List Nat) → Out Op
  | op, [] => .ok op
  | op, prod :: prods =>
    if prod.head? ≠ some op.cur then
      let r := str op.out.set name
      rdLoop name ns { op with out := directIdx { op.out with set := r.1 } op.cur (prod ++ [r.2]) } prods
    else
      (readSyms op.out.set prod.tail).bind fun xs =>
        let r := castSyms op.set xs
        let p := r.2.dropWhile (· = op.cur)
        if p = [] then rdLoop name ns { op with set := r.1 } prods
        else (readSyms r.1 (p ++ [ns])).bind fun ys =>
          let q := castSyms op.out.set ys
          rdLoop name ns { op with set := r.1, out := directIdx { op.out with set := q.1 } ns q.2 } prods

/-- `removeDirectLeftRecursion` (left_recursion.go:80-105). -/
def removeDirect (op : Op) : Out Op :=
  (symString op.set op.cur).bind fun A =>
    let r := str op.set (prime A)
    let ns := r.2
    let order := if op.out.productions[ns]?.join = none then op.out.order ++ [ns] else op.out.order
    match op.out.productions[op.cur]? with
    | none => .panic
    | some prods =>
      let out : Gram Str := ⟨order, op.out.productions.set op.cur none, op.out.set⟩
      (rdLoop (prime A) ns { op with set := r.1, out := out } (prods.getD [])).bind fun op =>
        .ok { op with out := directIdx op.out ns [] }

/-- Loop over the productions of one nonterminal (left_recursion.go:30-32). -/
def prodLoop (g : Spec.Grammar Str) (fuel : Nat) : Op → List (List Str) → Out Op
  | op, [] => .ok op
  | op, p :: ps =>
    let r := castSyms op.set p
    (safeAdd g fuel { op with set := r.1 } r.2).bind fun op' => prodLoop g fuel op' ps

/-- The end of the loop body (left_recursion.go:36-40): mark the current symbol as done. -/
def markDone (op : Op) : Op :=
  let done := if op.done.length ≤ op.cur then
    op.done ++ List.replicate (1 + op.cur + op.done.length) false else op.done
  { op with done := done.set op.cur true }

/-- Loop over the nonterminals (left_recursion.go:27-41). Nil productions panic (method call on a nil
interface). -/
def ntLoop (g : Spec.Grammar Str) (fuel : Nat) : Op → List Str → Out Op
  | op, [] => .ok op
  | op, A :: As =>
    let r := str op.set A
    match g.prods A with
    | none => .panic
    | some ps =>
      (prodLoop g fuel { op with set := r.1, cur := r.2, hasDirect := false } ps).bind fun op =>
        (if op.hasDirect then removeDirect op else .ok op).bind fun op =>
          ntLoop g fuel (markDone op) As

/-- `RemoveLeftRecursion` (left_recursion.go:19-43). -/
def removeLeftRecursion (g : Spec.Grammar Str) (fuel : Nat) : Out (Gram Str) :=
  (ntLoop g fuel ⟨empty, List.replicate g.order.length false, 0, false, SetSymbol.new⟩ g.order).bind
    fun op => .ok op.out

end Verif.LeftRecursion
