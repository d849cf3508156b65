import Verif.Spec.LL1
/-
Grammars that are left recursive, but of which one symbol of lookahead tells how to go on once the leading occurrences of a nonterminal
in its own productions are read as repetition.
-/
namespace Verif.Spec.Grammar

variable {α : Type}

/-- The terminal can follow the nonterminal where it is not the leading symbol of one of its own productions. -/
def Outer (g : Grammar α) (A t : α) : Prop :=
  ∃ B k x y, g.Rule B k (x ++ A :: y) ∧ (B = A → x ≠ []) ∧ ((∃ w, g.Derives y (t :: w)) ∨ (g.Derives y [] ∧ g.Follow B t))

/-- Of the productions of `A` that do not begin with `A`, different ones derive no words that begin with the same terminal; the same for
what stands after the leading `A` in the others; and none of the latter derives a word that begins with a terminal that can
follow `A` elsewhere. -/
structure DirectLL1 (g : Grammar α) : Prop where
  heads : ∀ {A k p k' p' t w w'}, g.Rule A k p → g.Rule A k' p' → p.head? ≠ some A → p'.head? ≠ some A →
    g.Derives p (t :: w) → g.Derives p' (t :: w') → k = k'
  rests : ∀ {A k x k' x' t w w'}, g.Rule A k (A :: x) → g.Rule A k' (A :: x') → g.Derives x (t :: w) → g.Derives x' (t :: w') → k = k'
  stop : ∀ {A k x t w}, g.Rule A k (A :: x) → g.Derives x (t :: w) → ¬ g.Outer A t

end Verif.Spec.Grammar
