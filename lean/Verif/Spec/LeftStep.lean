import Verif.Spec.CFG
/-
Two relations around "B can be leftmost after expanding A once" (`LeftStep`): a smaller one, where
B is the first symbol of the production, and one in between, where every symbol before B has an
empty production of its own. They bound what a check that does not compute all symbols deriving the
empty word can see.
-/
namespace Verif.Spec.Grammar
variable {α : Type}

/-- `B` is the first symbol of a production of `A`. -/
def FirstStep (g : Grammar α) (A B : α) : Prop := ∃ k post, g.Rule A k (B :: post)

/-- Every symbol before `B` in a production of `A` has an empty production. -/
def EmptyStep (g : Grammar α) (A B : α) : Prop :=
  ∃ k pre post, g.Rule A k (pre ++ B :: post) ∧ ∀ X ∈ pre, ∃ j, g.Rule X j []

theorem FirstStep.emptyStep {g : Grammar α} {A B} : g.FirstStep A B → g.EmptyStep A B
  | ⟨k, post, h⟩ => ⟨k, [], post, h, by simp⟩

theorem EmptyStep.leftStep {g : Grammar α} {A B} : g.EmptyStep A B → g.LeftStep A B := by
  rintro ⟨k, pre, post, h, he⟩
  refine ⟨k, pre, post, h, ?_⟩
  clear h
  induction pre with
  | nil => exact .nil
  | cons X pre ih =>
    obtain ⟨j, hj⟩ := he X (by simp)
    exact .nonterm (u := []) (v := []) hj .nil (ih fun Y hY => he Y (by simp [hY]))

theorem Plus.imp {β : Type} {R S : β → β → Prop} (h : ∀ a b, R a b → S a b) {a b} (hp : Plus R a b) :
    Plus S a b := by
  induction hp with
  | one h1 => exact .one (h _ _ h1)
  | step h1 _ ih => exact .step (h _ _ h1) ih

end Verif.Spec.Grammar
