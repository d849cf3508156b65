/-
The work of searching a text for a match, for C96 and C97: a search looks at the bytes from where it starts to the end of the match it
finds, and at all that are left if it finds none.
-/
namespace Verif.Spec

/-- Bytes passed over before a match begins, in a text of `len` bytes: all that are left if there is no match. -/
def passed (len start : Nat) (found : Option (Nat × Nat)) : Nat :=
  (match found with
    | some (i, _) => i
    | none => len) - start

/-- Bytes looked at at least: those passed over and those of the match. -/
def lookedAt (len start : Nat) (found : Option (Nat × Nat)) : Nat :=
  (match found with
    | some (_, j) => j
    | none => len) - start

end Verif.Spec
