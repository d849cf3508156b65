import Verif.Spec.RegexGramLayout
/-
Digits and strings in texts.
-/
namespace Verif.Spec

namespace RxByte
/-- A digit. -/
def digit (x : UInt8) : Bool := 48 ≤ x.toNat && x.toNat ≤ 57
end RxByte

/-- The inside of a string: no quotes but escaped ones; a backslash escapes any character but a line break. -/
inductive StrBody : List UInt8 → Prop
  | nil : StrBody []
  | plain {x s} (hq : x ≠ 34) (hb : x ≠ 92) (rest : StrBody s) : StrBody (x :: s)
  | esc {y s} (h : y ≠ 10) (rest : StrBody s) : StrBody (92 :: y :: s)

/-- The text does not go on with a period and a digit. -/
def NoFrac (s : List UInt8) : Prop := ∀ x t, s = 46 :: x :: t → RxByte.digit x = false

end Verif.Spec
