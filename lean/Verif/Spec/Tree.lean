import Verif.Spec.CFG
/-
Specification vocabulary for operations on trees, independent of the code.
-/
namespace Verif.Spec

/-- Index `i` selects position `k` of a list of length `n`: counted from the start, or from the end if
negative. -/
def Sel (n : Nat) (i : Int) (k : Nat) : Prop := k < n ∧ (i = k ∨ i = (k : Int) - n)

instance (n : Nat) (i : Int) (k : Nat) : Decidable (Sel n i k) := inferInstanceAs (Decidable (_ ∧ _))

/-- Index `i` is out of range for length `n`. -/
def OutOfRange (n : Nat) (i : Int) : Prop := i < -n ∨ n ≤ i

variable {α V : Type}

mutual
/-- Lexemes of the nodes without children, left to right. -/
def PN.leaves : PN α V → List (Lexeme α V)
  | .node l [] => [l]
  | .node _ (t :: ts) => PN.leaves t ++ leavesL ts
/-- Leaves of a list of trees. -/
def leavesL : List (PN α V) → List (Lexeme α V)
  | [] => []
  | t :: ts => PN.leaves t ++ leavesL ts
end

mutual
/-- Lexemes of all nodes, children before their parent. -/
def PN.postorder : PN α V → List (Lexeme α V)
  | .node l ks => postorders ks ++ [l]
/-- Postorder of a list of trees. -/
def postorders : List (PN α V) → List (Lexeme α V)
  | [] => []
  | t :: ts => PN.postorder t ++ postorders ts
end

/-- `SameShape R t t'`: the trees have the same shape, lexemes at corresponding nodes related by `R`. -/
inductive SameShape (R : Lexeme α V → Lexeme α V → Prop) : PN α V → PN α V → Prop
  | node {l l' ks ks'} : R l l' → ks.length = ks'.length →
      (∀ x ∈ ks.zip ks', SameShape R x.1 x.2) → SameShape R (.node l ks) (.node l' ks')

end Verif.Spec
