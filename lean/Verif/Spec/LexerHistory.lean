/-
What was said about kinds of lexemes to a lexer, in order: that a rule was added for a kind (`true`), or that a lexeme was reported
as an error with a kind (`false`).
-/
namespace Verif.Spec

variable {κ : Type}

/-- An error was reported with a kind that never gets a rule, and afterwards a rule was added for a kind not mentioned up to then. -/
def ErrorBeforeNew (tr : List (κ × Bool)) : Prop :=
  ∃ t1 t2 e k, tr = t1 ++ t2 ∧ (e, false) ∈ t1 ∧ (e, true) ∉ tr ∧ (k, true) ∈ t2 ∧ k ∉ t1.map Prod.fst

end Verif.Spec
