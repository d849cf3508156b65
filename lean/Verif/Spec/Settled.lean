import Verif.Spec.CFG
/-
Ambiguity that is settled by the order of productions: one way of reading a word is better than all others, whichever ways
its parts are read. Nothing here refers to the model.
-/
namespace Verif.Spec
namespace Grammar
variable {α : Type}

/-- A way of reading `w` as `A`: production number `k`, and for each of its symbols the word it stands for. -/
structure Reading (g : Grammar α) (A : α) (k : Nat) (a : List (α × List α)) (w : List α) : Prop where
  rule : g.Rule A k (a.map (·.1))
  derives : ∀ x ∈ a, g.Derives [x.1] x.2
  word : (a.map (·.2)).flatten = w

/-- At the first symbol that stands for different words, `R` prefers the word on the left. -/
def Sooner (R : α → List α → List α → Prop) : List (α × List α) → List (α × List α) → Prop
  | x :: a, y :: b => (x.2 ≠ y.2 ∧ R x.1 x.2 y.2) ∨ (x.2 = y.2 ∧ Sooner R a b)
  | _, _ => False

/-- One way of reading is better than another: its production comes first, or it is the same and `R` prefers its words. -/
def Better (R : α → List α → List α → Prop) (k : Nat) (a : List (α × List α)) (k' : Nat) (b : List (α × List α)) : Prop :=
  k < k' ∨ (k = k' ∧ Sooner R a b)

/-- Every way of reading `u` as `X` is better than every way of reading `v` as `X`, looking at most so many levels deep. -/
def Prefers (g : Grammar α) : Nat → α → List α → List α → Prop
  | 0, _, _, _ => False
  | n + 1, X, u, v => ¬ g.Term X ∧ ∀ k a k' b, g.Reading X k a u → g.Reading X k' b v → Better (Prefers g n) k a k' b

/-- This way of reading `w` as `A` is better than all others. -/
def Settled (g : Grammar α) (A : α) (w : List α) (k : Nat) (a : List (α × List α)) : Prop :=
  g.Reading A k a w ∧
    ∃ n, ∀ k' b, g.Reading A k' b w → (k', b) ≠ (k, a) → Better (Prefers g n) k a k' b

end Grammar

namespace PN
variable {α V : Type}

/-- The word of a tree: the kinds of its leaves. -/
def word (g : Grammar α) (t : PN α V) : List α := (t.fringe fun s => (g.prods s).isNone).map (·.kind)

/-- Wherever one way of reading is better than all others, the tree is built that way. -/
inductive Best (g : Grammar α) : PN α V → Prop
  | leaf {l} : g.Term l.kind → Best g (node l [])
  | inner {l ks} : ¬ g.Term l.kind →
      (∀ k a, g.Settled l.kind ((node l ks).word g) k a → ks.map (fun t => (t.kind, t.word g)) = a) →
      (∀ t ∈ ks, Best g t) → Best g (node l ks)

end PN
end Verif.Spec
