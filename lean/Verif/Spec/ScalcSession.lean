import Verif.Spec.Scalc
/-
What a session with the stack calculator should show: each line is run by the machine of Spec/Scalc on the stack as last shown.
-/
namespace Verif.Spec.Scalc

variable {N : Type}

/-- The bytes are a way to write a number with `P` decimals: maybe a minus sign, digits, and for `P > 0` a point and `P` digits. -/
inductive Numeral : Int → List UInt8 → Prop
  | whole {g d} : g = [] ∨ g = [45] → d ≠ [] → (∀ x ∈ d, RxByte.digit x = true) → Numeral 0 (g ++ d)
  | frac {g d e} : g = [] ∨ g = [45] → d ≠ [] → (∀ x ∈ d, RxByte.digit x = true) → e ≠ [] → (∀ x ∈ e, RxByte.digit x = true) →
      Numeral e.length (g ++ (d ++ 46 :: e))

/-- The number as it is shown. -/
def asShown (A : Arith N) (sh : PF N → List UInt8) (p : PF N) : PF N := ⟨A.num (nameOf (sh p)), p.P⟩

/-- Lines of numbers and their operators, then maybe an operator on the stack, then maybe a manipulation of it. They do not begin with
decimals. -/
def LineOk (ts : List Tok) : Prop :=
  (∀ y r, ts ≠ (.dec, y) :: r) ∧
  ∃ u v, ts.map (·.1) = u ++ v ∧ (∀ k ∈ u, k = .int ∨ k = .dec ∨ k = .uop ∨ k = .bop) ∧ v ∈ [[], [.sop], [.smp], [.sop, .smp]]

/-- A session that begins with a stack: lines, and for each the stack after it, or `none` for an error, after which the stack is as
before. -/
inductive Session (A : Arith N) (sh : PF N → List UInt8) : List (PF N) → List (List UInt8) → List (Option (List (PF N))) → Prop
  | done {vs} : Session A sh vs [] []
  | good {vs line ts r lines ans} : SText line ts → LineOk ts → exec A ts (vs.map (asShown A sh)).reverse [] = some r →
      (∀ p ∈ r, Numeral p.P (sh p)) → Session A sh r lines ans → Session A sh vs (line :: lines) (some r :: ans)
  | bad {vs line ts lines ans} : SText line ts → LineOk ts → exec A ts (vs.map (asShown A sh)).reverse [] = none →
      Session A sh vs lines ans → Session A sh vs (line :: lines) (none :: ans)
  | junk {vs line lines ans} : (∀ ts, ¬ SText line ts) → Session A sh vs lines ans → Session A sh vs (line :: lines) (none :: ans)

end Verif.Spec.Scalc
