import Verif.Spec.CFG
/-
Specification of first symbols: sentential forms, and the leftmost chains that the documentation of
`HasNilInFirst` speaks of. Independent of the code in analyze.
-/
namespace Verif.Spec.Grammar

variable {α : Type}

/-- One rewriting step on sentential forms: one nonterminal is replaced by one of its productions. -/
inductive Step (g : Grammar α) : List α → List α → Prop
  | mk {A k p} (u v : List α) : g.Rule A k p → Step g (u ++ A :: v) (u ++ p ++ v)

/-- `Yields g x y`: the sentential form `y` comes from `x` by any number of steps. -/
inductive Yields (g : Grammar α) : List α → List α → Prop
  | refl {x} : Yields g x x
  | step {x y z} : Step g x y → Yields g y z → Yields g x z

/-- `A` derives a sentential form beginning with `t`. -/
def First (g : Grammar α) (A t : α) : Prop := ∃ w, g.Yields [A] (t :: w)

/-- An empty production can be reached from the symbol through leftmost children only. -/
inductive LeftNil (g : Grammar α) : α → Prop
  | empty {A k} : g.Rule A k [] → LeftNil g A
  | left {A k B p} : g.Rule A k (B :: p) → LeftNil g B → LeftNil g A

/-- Every symbol from which leftmost children lead to an empty production derives the empty word.
So it is in grammars without empty productions, for instance. -/
def LeftNilIsNullable (g : Grammar α) : Prop := ∀ A, g.LeftNil A → g.Derives [A] []

/-- `B` occurs in a production of `A` and everything before it is `LeftNil`. -/
def ScanStep (g : Grammar α) (A B : α) : Prop :=
  ∃ k pre post, g.Rule A k (pre ++ B :: post) ∧ ∀ X ∈ pre, g.LeftNil X

/-- No nonterminal reaches itself by such steps. -/
def ScanAcyclic (g : Grammar α) : Prop := ∀ A, ¬ Plus g.ScanStep A A

/-- The symbol occurs in the grammar, as a nonterminal or in a production. -/
def Occurs (g : Grammar α) (x : α) : Prop := x ∈ g.order ∨ ∃ A k p, g.Rule A k p ∧ x ∈ p

end Verif.Spec.Grammar
