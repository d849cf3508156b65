import Verif.Spec.Regexp
/-
Regular expressions with the bounds of captures instead of their texts, as `FindSubmatchIndex` returns them.
-/
namespace Verif.Spec

/-- Where captures begin and end, the latest first: the number, and how much of the text is left at either end. -/
abbrev Marks := List (Nat × Nat × Nat)

/-- Repetition, as `again`. -/
def againP {β : Type} (f : List β × Marks → List (List β × Marks)) : Nat → List β × Marks → List (List β × Marks)
  | 0, st => [st]
  | n + 1, st => ((f st).filter fun q => decide (q.1.length < st.1.length)).flatMap (againP f n) ++ [st]

/-- All ways to match, as `Rex.run`. -/
def Rex.runP {β : Type} (next : List β → Option (Nat × Nat)) : Rex → List β × Marks → List (List β × Marks)
  | .eps, st => [st]
  | .cls c, st =>
    match next st.1 with
    | some (r, w) => if c.has r then [(st.1.drop w, st.2)] else []
    | none => []
  | .fin, st => if st.1.length = 0 then [st] else []
  | .seq a b, st => (a.runP next st).flatMap (b.runP next)
  | .alt a b, st => a.runP next st ++ b.runP next st
  | .star a, st => againP (a.runP next) st.1.length st
  | .cap n a, st => (a.runP next st).map fun q => (q.1, (n, st.1.length, q.1.length) :: q.2)

/-- The number of captures. -/
def Rex.caps : Rex → Nat
  | .eps => 0
  | .cls _ => 0
  | .fin => 0
  | .seq a b => max a.caps b.caps
  | .alt a b => max a.caps b.caps
  | .star a => a.caps
  | .cap n a => max n a.caps

/-- The first match in a text, from left to right; `L` is the length of the whole text. -/
def Rex.findP (r : Rex) (L : Nat) : Nat → List UInt8 → Option (Nat × Nat × Marks)
  | 0, s => (r.runP decode (s, [])).head?.map fun q => (L - s.length, L - q.1.length, q.2)
  | n + 1, s =>
    match (r.runP decode (s, [])).head? with
    | some q => some (L - s.length, L - q.1.length, q.2)
    | none =>
      match decode s with
      | some (_, w) => r.findP L n (s.drop w)
      | none => none

/-- The bounds of a capture; `-1, -1` if it took no part. -/
def bounds (L : Nat) (k : Marks) (n : Nat) : Int × Int :=
  match k.find? (·.1 == n) with
  | some q => ((L - q.2.1 : Nat), (L - q.2.2 : Nat))
  | none => (-1, -1)

end Verif.Spec
