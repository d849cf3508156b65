import Lean.Elab.Tactic.Simproc
import Lean.ToExpr
/-
A simproc that turns the list of characters of a string literal into a list literal, so that long texts
can be evaluated by the kernel. It only rewrites with `String.toList_ofList`; nothing is trusted.
-/
namespace Verif
open Lean

/-- `"abc".toList` is `['a', 'b', 'c']`. -/
simproc_decl litToList (String.toList _) := fun e => do
  match e.getArg! 0 with
  | .lit (.strVal s) =>
    let l := toExpr s.toList
    return .done { expr := l, proof? := some (mkApp (mkConst ``String.toList_ofList) l) }
  | _ => return .continue

end Verif
