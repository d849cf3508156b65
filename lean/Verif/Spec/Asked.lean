import Verif.Spec.CFG
/-
Which symbols are asked for at which positions while an input is read from the left.
-/
namespace Verif.Spec.Grammar
variable {α : Type}

/-- Reading `S` from the beginning, symbol `A` is asked for at position `i`: what precedes it in a production of a symbol
asked for has been read. -/
inductive Asked (g : Grammar α) (inp : List α) (S : α) : α → Nat → Prop
  | start : Asked g inp S S 0
  | next {A i k u Y v j} (h : Asked g inp S A i) (r : g.Rule A k (u ++ Y :: v)) (d : g.Der inp u i j) : Asked g inp S Y j

/-- A lexeme whose kind is a nonterminal asked for there, production `k` of which begins with a symbol that derives the
empty word and goes on. -/
def Misread (g : Grammar α) (kinds : List α) (S : α) (k : Nat) : Prop :=
  ∃ A i X Y p, kinds[i]? = some A ∧ g.Asked kinds S A i ∧ g.Rule A k (X :: Y :: p) ∧ g.Derives [X] []

end Verif.Spec.Grammar
