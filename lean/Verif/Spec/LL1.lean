import Verif.Spec.CFG
import Verif.Spec.Tree
/-
Grammars for which one symbol of lookahead tells which production to use (LL(1)), as textbooks define
them, with words of terminals.
-/
namespace Verif.Spec.Grammar

variable {α : Type}

/-- The terminal can follow the nonterminal: it begins what stands after the nonterminal in a production,
or that can be empty and the terminal can follow the left side. -/
inductive Follow (g : Grammar α) : α → α → Prop
  | next {A B k x y t w} : g.Rule B k (x ++ A :: y) → g.Derives y (t :: w) → Follow g A t
  | last {A B k x y t} : g.Rule B k (x ++ A :: y) → g.Derives y [] → Follow g B t → Follow g A t

/-- Different productions of a nonterminal derive no words that begin with the same terminal; at most one
derives the empty word; and if one does, the others derive no word that begins with a terminal that can
follow. -/
structure LL1 (g : Grammar α) : Prop where
  first : ∀ {A k p k' p' t w w'}, g.Rule A k p → g.Rule A k' p' → g.Derives p (t :: w) → g.Derives p' (t :: w') → k = k'
  empty : ∀ {A k p k' p'}, g.Rule A k p → g.Rule A k' p' → g.Derives p [] → g.Derives p' [] → k = k'
  follow : ∀ {A k p k' p' t w}, g.Rule A k p → g.Rule A k' p' → g.Derives p [] → g.Derives p' (t :: w) → g.Follow A t → k = k'

/-- A production that derives the empty word is the last one of its nonterminal. -/
def EmptyLast (g : Grammar α) : Prop := ∀ A k p k' p', g.Rule A k p → g.Derives p [] → g.Rule A k' p' → k' ≤ k

/-- Every nonterminal derives a word. -/
def Productive (g : Grammar α) : Prop := ∀ A ps, g.prods A = some ps → ∃ w, g.Derives [A] w

/-- Same kinds everywhere, same lexemes at terminals. -/
def Agree {V : Type} (g : Grammar α) (l l' : Lexeme α V) : Prop := l.kind = l'.kind ∧ (g.Term l.kind → l = l')

end Verif.Spec.Grammar
