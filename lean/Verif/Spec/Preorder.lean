/- Lists of numbers ordered by the first place where they differ. -/
namespace Verif.Spec

/-- At the first place where they differ, the first list has the smaller number. -/
inductive Before : List Nat → List Nat → Prop
  | head {x y xs ys} : x < y → Before (x :: xs) (y :: ys)
  | tail {x xs ys} : Before xs ys → Before (x :: xs) (x :: ys)

theorem Before.irrefl {xs} : ¬ Before xs xs := by
  induction xs with
  | nil => intro h; cases h
  | cons x xs ih =>
    intro h
    cases h with
    | head h => omega
    | tail h => exact ih h

theorem Before.trans {xs ys zs} (h : Before xs ys) (h' : Before ys zs) : Before xs zs := by
  induction h generalizing zs with
  | head h =>
    cases h' with
    | head h' => exact .head (by omega)
    | tail h' => exact .head h
  | tail h ih =>
    cases h' with
    | head h' => exact .head h'
    | tail h' => exact .tail (ih h')

theorem Before.append {xs ys} (h : Before xs ys) (us vs : List Nat) : Before (xs ++ us) (ys ++ vs) := by
  induction h with
  | head h => exact .head h
  | tail _ ih => exact .tail ih

theorem Before.prefix {xs ys} (us : List Nat) (h : Before xs ys) : Before (us ++ xs) (us ++ ys) := by
  induction us with
  | nil => exact h
  | cons u us ih => exact .tail ih

/-- The first list is before the second, or they are the same. -/
def NotAfter (xs ys : List Nat) : Prop := xs = ys ∨ Before xs ys

theorem NotAfter.refl (xs : List Nat) : NotAfter xs xs := .inl rfl

theorem NotAfter.trans {xs ys zs} (h : NotAfter xs ys) (h' : NotAfter ys zs) : NotAfter xs zs := by
  rcases h with rfl | h
  · exact h'
  · rcases h' with rfl | h'
    · exact .inr h
    · exact .inr (h.trans h')

theorem NotAfter.append {xs ys us vs} (h : NotAfter xs ys) (h' : NotAfter us vs) : NotAfter (xs ++ us) (ys ++ vs) := by
  rcases h with rfl | h
  · rcases h' with rfl | h'
    · exact .inl rfl
    · exact .inr (Before.prefix xs h')
  · exact .inr (h.append _ _)

theorem NotAfter.cons {xs ys} (x : Nat) (h : NotAfter xs ys) : NotAfter (x :: xs) (x :: ys) :=
  NotAfter.append (xs := [x]) (.refl _) h

end Verif.Spec
