import Verif.Spec.OrderedChoice
/-
Which symbol is tried where, in ordered choice without a memo table. `Calls` is one step of that,
`Loops` says that one of the steps from the start leads back to where it came from.
-/
namespace Verif.Spec
variable {α V : Type}

/-- Trying `A` at position `i` tries `B` at position `j`: the productions of `A` before one fail at
`i`, and what stands before `B` in that one matches from `i` up to `j`. -/
inductive Calls (g : Grammar α) (ev : V) (inp : List (Lexeme α V)) : α × Nat → α × Nat → Prop
  | mk {A i before xs B ys after j ts} : g.prods A = some (before ++ (xs ++ B :: ys) :: after) →
      (∀ q ∈ before, Match g ev inp (.seq q) i none) → Match g ev inp (.seq xs) i (some (j, ts)) →
      Calls g ev inp (A, i) (B, j)

/-- What is tried for the start symbol: here productions are passed over that do not match the whole
input. -/
inductive StartCalls (g : Grammar α) (ev : V) (inp : List (Lexeme α V)) : α × Nat → Prop
  | mk {S before xs B ys after j ts} : g.order.head? = some S →
      g.prods S = some (before ++ (xs ++ B :: ys) :: after) →
      (∀ q ∈ before, ∃ r, Match g ev inp (.seq q) 0 r ∧ ∀ ks, r ≠ some (inp.length, ks)) →
      Match g ev inp (.seq xs) 0 (some (j, ts)) → StartCalls g ev inp (B, j)

/-- Some symbol that is tried leads back to itself at the same position. -/
def Loops (g : Grammar α) (ev : V) (inp : List (Lexeme α V)) : Prop :=
  ∃ x y, StartCalls g ev inp x ∧ (x = y ∨ Grammar.Plus (Calls g ev inp) x y) ∧
    Grammar.Plus (Calls g ev inp) y y

end Verif.Spec
