import Verif.Spec.RegexGramText
/-
How the tokens of a regex grammar are laid out in a text. Independent of the lexer by which the code reads it.
-/
namespace Verif.Spec

namespace RxByte
/-- A byte of a name: letters, digits, underscore. -/
def word (x : UInt8) : Bool :=
  (48 ≤ x.toNat && x.toNat ≤ 57) || (65 ≤ x.toNat && x.toNat ≤ 90) || x.toNat == 95 || (97 ≤ x.toNat && x.toNat ≤ 122)
/-- Space or tab. -/
def blank (x : UInt8) : Bool := x.toNat == 32 || x.toNat == 9
/-- Line feed or carriage return. -/
def eol (x : UInt8) : Bool := x.toNat == 10 || x.toNat == 13
/-- White space: also form feed. -/
def space (x : UInt8) : Bool := blank x || eol x || x.toNat == 12
end RxByte

/-- The text does not begin with such a byte. -/
def NoHead (p : UInt8 → Bool) (s : List UInt8) : Prop := ∀ x t, s = x :: t → p x = false

/-- A name as a string. -/
def nameOf (w : List UInt8) : Str := w.map fun x => Char.ofNat x.toNat

/-- The tokens of one character: `*`, `?`, `|`, `(`, `)`. -/
def RxTok.ofByte : UInt8 → Option RxTok
  | 42 => some .rep
  | 63 => some .opt
  | 124 => some .or
  | 40 => some .lp
  | 41 => some .rp
  | _ => none

/-- The text is a layout of the tokens: blanks are skipped, names are as long as they can be, a line break
takes the white space after it, and a line that consists of a comment is skipped with the line break before it. -/
inductive RxText : List UInt8 → List RxTok → Prop
  | done : RxText [] []
  | blank {x s ts} (h : RxByte.blank x = true) (rest : RxText s ts) : RxText (x :: s) ts
  | name {w s ts} (ne : w ≠ []) (h : ∀ x ∈ w, RxByte.word x = true) (stop : NoHead RxByte.word s) (rest : RxText s ts) :
      RxText (w ++ s) (.sym (nameOf w) :: ts)
  | arrow {s ts} (rest : RxText s ts) : RxText (45 :: 62 :: s) (.rarr :: ts)
  | one {x t s ts} (h : RxTok.ofByte x = some t) (rest : RxText s ts) : RxText (x :: s) (t :: ts)
  | brk {x v s ts} (h : RxByte.eol x = true) (hv : ∀ y ∈ v, RxByte.space y = true) (stop : NoHead RxByte.space s)
      (no : ∀ u, s ≠ 47 :: 47 :: u) (rest : RxText s ts) : RxText (x :: (v ++ s)) (.nl :: ts)
  | comment {x v c s ts} (h : RxByte.eol x = true) (hv : ∀ y ∈ v, RxByte.space y = true) (hc : ∀ y ∈ c, RxByte.eol y = false)
      (stop : ∀ y u, s = y :: u → RxByte.eol y = true) (rest : RxText s ts) : RxText (x :: (v ++ 47 :: 47 :: (c ++ s))) ts

end Verif.Spec
