/-
Specification of decimal numerals, over an arbitrary alphabet.
-/
namespace Verif.Spec

/-- What the signs and digits are in an alphabet. -/
structure Numerals (β : Type) where
  digit : β → Option Nat
  plus : β
  minus : β

/-- The alphabet of characters. -/
def charNumerals : Numerals Char where
  digit c := ['0', '1', '2', '3', '4', '5', '6', '7', '8', '9'].idxOf? c
  plus := '+'
  minus := '-'

/-- The alphabet of bytes. -/
def byteNumerals : Numerals UInt8 where
  digit c := [48, 49, 50, 51, 52, 53, 54, 55, 56, 57].idxOf? c
  plus := 43
  minus := 45

/-- `Digits N s n`: `s` are one or more digits whose value is `n`. -/
inductive Digits {β : Type} (N : Numerals β) : List β → Nat → Prop
  | one {c d} : N.digit c = some d → Digits N [c] d
  | more {s n c d} : Digits N s n → N.digit c = some d → Digits N (s ++ [c]) (10 * n + d)

/-- `Numeral N s i`: `s` denotes the integer `i`: digits, perhaps with a sign before them. -/
inductive Numeral {β : Type} (N : Numerals β) : List β → Int → Prop
  | plain {s n} : Digits N s n → Numeral N s (n : Int)
  | plus {s n} : Digits N s n → Numeral N (N.plus :: s) (n : Int)
  | minus {s n} : Digits N s n → Numeral N (N.minus :: s) (-(n : Int))

/-- The integers of 64 bits. -/
def Fits64 (i : Int) : Prop := -9223372036854775808 ≤ i ∧ i ≤ 9223372036854775807

instance (i : Int) : Decidable (Fits64 i) := inferInstanceAs (Decidable (_ ∧ _))

/-- `i` is the integer of 64 bits nearest to `j`. -/
def Nearest64 (j i : Int) : Prop := Fits64 i ∧ ∀ k, Fits64 k → (j - i).natAbs ≤ (j - k).natAbs

/-- What `s` counts for where an integer is wanted: the integer of 64 bits nearest to its value, or 0 if it is no numeral. -/
def IntOf {β : Type} (N : Numerals β) (s : List β) (i : Int) : Prop :=
  (∃ j, Numeral N s j ∧ Nearest64 j i) ∨ (∀ j, ¬ Numeral N s j) ∧ i = 0

end Verif.Spec
