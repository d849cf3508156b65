import Verif.Spec.RegexGram
/-
How large grammars and regex grammars are.
-/
namespace Verif.Spec

/-- The number of productions of a grammar. -/
def numProds (g : Grammar Str) : Nat := (g.order.map fun A => ((g.prods A).getD []).length).sum

mutual
/-- In how many ways an expression can be made plain: one more with `?`, the sum for alternatives, the
product for a group; a repetition is a name. -/
def Rx.ways : Rx → Nat
  | .sym _ => 1
  | .opt x => x.ways + 1
  | .or xs => Rx.waysAny xs
  | .group xs => Rx.waysAll xs
  | .rep _ => 1
/-- In how many ways one of the expressions can be made plain. -/
def Rx.waysAny : List Rx → Nat
  | [] => 0
  | x :: xs => x.ways + Rx.waysAny xs
/-- In how many ways all of the expressions can be made plain. -/
def Rx.waysAll : List Rx → Nat
  | [] => 1
  | x :: xs => x.ways * Rx.waysAll xs
end

end Verif.Spec
