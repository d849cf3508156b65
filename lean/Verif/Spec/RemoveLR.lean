import Verif.Spec.First
import Verif.Spec.GrammarDef
/-
Specification of the removal of left recursion: what the leading nonterminals of a production expand
to, and the grammar that results. Independent of the code's symbol tables and of its order of work.
-/
namespace Verif.Spec.RemoveLR
open Verif.Spec

/-- Name of the new nonterminal for `A`. -/
def primed (A : Str) : Str := A ++ "'".toList

/-- Nonterminals listed before `A`. -/
def before (g : Grammar Str) (A : Str) : List Str := g.order.takeWhile (· ≠ A)

/-- `Expands g done ps qs`: the productions `ps` become `qs` when leading symbols from `done` are
replaced by each of their productions in `g`, again and again until no production begins with one.
There is no such `qs` if that has no end. -/
inductive Expands (g : Grammar Str) (done : List Str) : List (List Str) → List (List Str) → Prop
  | nil : Expands g done [] []
  | keep {p ps qs} : (∀ F, p.head? = some F → F ∉ done) → Expands g done ps qs →
      Expands g done (p :: ps) (p :: qs)
  | subst {F t rs ps qs} : F ∈ done → g.prods F = some rs →
      Expands g done (rs.map (· ++ t) ++ ps) qs → Expands g done ((F :: t) :: ps) qs

/-- `M` gives for every nonterminal what its productions expand to. -/
def Expanded (g : Grammar Str) (M : Str → List (List Str)) : Prop :=
  ∀ A ps, A ∈ g.order → g.prods A = some ps → Expands g (before g A) ps (M A)

/-- `A` has a production beginning with `A`. -/
def Direct (M : Str → List (List Str)) (A : Str) : Prop := ∃ q ∈ M A, q.head? = some A

instance (M : Str → List (List Str)) (A : Str) : Decidable (Direct M A) :=
  inferInstanceAs (Decidable (∃ q ∈ M A, q.head? = some A))

/-- New productions of a directly left recursive `A`: those that do not begin with `A`, followed by
the new nonterminal. -/
def heads (M : Str → List (List Str)) (A : Str) : List (List Str) :=
  ((M A).filter fun q => q.head? ≠ some A).map (· ++ [primed A])

/-- Productions of the new nonterminal: those that begin with `A`, without their leading `A`s and
followed by the new nonterminal, as far as anything is left of them; and the empty production. -/
def tails (M : Str → List (List Str)) (A : Str) : List (List Str) :=
  ((((M A).filter fun q => q.head? = some A).map fun q => q.dropWhile (· = A)).filter
    fun q => q ≠ []).map (· ++ [primed A]) ++ [[]]

/-- The grammar that results. -/
def removed (order : List Str) (M : Str → List (List Str)) : Grammar Str where
  order := order.flatMap fun A => if Direct M A then [A, primed A] else [A]
  prods x :=
    if x ∈ order then some (if Direct M x then heads M x else M x)
    else (order.find? fun A => decide (Direct M A) && decide (primed A = x)).map (tails M)

/-- The symbol can be rewritten to nothing by rules of the nonterminals `done` only. -/
inductive Vanishes (g : Grammar Str) (done : List Str) : Str → Prop
  | mk {F k p} : F ∈ done → g.Rule F k p → (∀ X ∈ p, Vanishes g done X) → Vanishes g done F

/-- `G`, from `done`, occurs in a production of `F` and everything before it vanishes. -/
def LeadStep (g : Grammar Str) (done : List Str) (F G : Str) : Prop :=
  G ∈ done ∧ ∃ k pre post, g.Rule F k (pre ++ G :: post) ∧ ∀ X ∈ pre, Vanishes g done X

open Grammar in
/-- Starting from any nonterminal and going through earlier nonterminals only, leading symbols never
come back to themselves. -/
def LeadsEnd (g : Grammar Str) : Prop :=
  ∀ A ∈ g.order, ∀ F, Plus (LeadStep g (before g A)) A F → ¬ Plus (LeadStep g (before g A)) F F

/-- Every nonterminal has a production. -/
def Full (g : Grammar Str) : Prop := ∀ A, g.prods A ≠ some []

/-- The names of the new nonterminals do not occur in the grammar. -/
def Fresh (g : Grammar Str) : Prop := ∀ A ∈ g.order, ¬ g.Occurs (primed A)

/-- Every directly left recursive nonterminal has a production that does not begin with itself. -/
def Grounded (g : Grammar Str) : Prop :=
  ∀ A ps qs, A ∈ g.order → g.prods A = some ps → Expands g (before g A) ps qs →
    (∃ q ∈ qs, q.head? = some A) → ∃ q ∈ qs, q.head? ≠ some A

/-- No production, leading earlier nonterminals replaced, begins with its own nonterminal twice. -/
def Single (g : Grammar Str) : Prop :=
  ∀ A ps qs, A ∈ g.order → g.prods A = some ps → Expands g (before g A) ps qs → ∀ t, A :: A :: t ∉ qs

/-- No production begins with a symbol that derives the empty word. -/
def SolidHeads (g : Grammar Str) : Prop := ∀ A k X t, g.Rule A k (X :: t) → ¬ g.Derives [X] []

/-- What follows the leading `A`s in a production of `A`, leading earlier nonterminals replaced, is
nothing or does not derive the empty word. -/
def SolidRests (g : Grammar Str) : Prop :=
  ∀ A ps qs, A ∈ g.order → g.prods A = some ps → Expands g (before g A) ps qs → ∀ q ∈ qs,
    q.head? = some A → q.dropWhile (· = A) ≠ [] → ¬ g.Derives (q.dropWhile (· = A)) []

end Verif.Spec.RemoveLR
