/-
Cutting a text into pieces by rules: the longest match is taken, among the longest the first rule. Nothing
here refers to the model of the lexers.
-/
namespace Verif.Spec

/-- Rule number `i` takes `n > 0` bytes at the beginning of the text: it matches that many, no rule matches
more, and no earlier one as many. A rule is given by the length of its match at the beginning of a text. -/
def Takes (ms : List (List UInt8 → Option Nat)) (s : List UInt8) (i n : Nat) : Prop :=
  0 < n ∧ (∃ f, ms[i]? = some f ∧ f s = some n) ∧
    ∀ j g n', ms[j]? = some g → g s = some n' → n' < n ∨ (n' = n ∧ i ≤ j)

/-- The text is cut into pieces, each with the number of the rule that takes it. -/
inductive Cut (ms : List (List UInt8 → Option Nat)) : List UInt8 → List (Nat × List UInt8) → Prop
  | done : Cut ms [] []
  | tok {i v s segs} (h : Takes ms (v ++ s) i v.length) (rest : Cut ms s segs) : Cut ms (v ++ s) ((i, v) :: segs)

theorem takes_unique {ms : List (List UInt8 → Option Nat)} {s : List UInt8} {i n i' n' : Nat} (h : Takes ms s i n)
    (h' : Takes ms s i' n') : i = i' ∧ n = n' := by
  obtain ⟨-, ⟨f, h1, h2⟩, h3⟩ := h
  obtain ⟨-, ⟨g, h4, h5⟩, h6⟩ := h'
  have x := h3 _ _ _ h4 h5
  have y := h6 _ _ _ h1 h2
  omega

theorem cut_unique {ms : List (List UInt8 → Option Nat)} {s : List UInt8} {p q : List (Nat × List UInt8)} (h : Cut ms s p)
    (h' : Cut ms s q) : p = q := by
  induction h generalizing q with
  | done =>
    generalize e : ([] : List UInt8) = u at h'
    cases h' with
    | done => rfl
    | @tok i v s segs h rest =>
      obtain ⟨rfl, -⟩ := List.append_eq_nil_iff.1 e.symm
      exact absurd h.1 (by simp)
  | @tok i v s segs h rest ih =>
    generalize e : v ++ s = u at h h'
    cases h' with
    | done =>
      have : v = [] := (List.append_eq_nil_iff.1 e).1
      subst this
      exact absurd h.1 (by simp)
    | @tok i' v' s' segs' h2 rest' =>
      obtain ⟨rfl, hl⟩ := takes_unique h h2
      obtain ⟨rfl, rfl⟩ := List.append_inj e hl
      rw [ih rest']

end Verif.Spec
