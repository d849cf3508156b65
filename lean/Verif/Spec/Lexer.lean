/-
What it means to lex an input: it is cut into consecutive pieces, each taken by a rule or skipped as
an error. Nothing here refers to the model of the lexers.
-/
namespace Verif.Spec

/-- A consecutive piece of the input: taken by a rule, or not lexable. -/
inductive Seg (κ : Type u) where
  | tok (k : κ) (v : List UInt8)
  | err (v : List UInt8)

/-- The bytes of a piece. -/
def Seg.val : Seg κ → List UInt8
  | .tok _ v => v
  | .err v => v

/-- Whether the piece is an error. -/
def Seg.isErr : Seg κ → Bool
  | .tok _ _ => false
  | .err _ => true

/-- The bytes covered by a list of pieces. -/
def cover (segs : List (Seg κ)) : List UInt8 := segs.flatMap Seg.val

/-- `b` from position `p` on is cut into the pieces: a `tok` piece of `n > 0` bytes at `p` needs
`takes p k n`; an `err` piece needs every position in it to be `dead` and to end at the end of the
input or where some rule takes over. -/
inductive Lexes (takes : Nat → κ → Nat → Prop) (dead : Nat → Prop) (b : List UInt8) :
    Nat → List (Seg κ) → Prop
  | done : Lexes takes dead b b.length []
  | tok {p k n segs} (h : takes p k n) (pos : 0 < n) (le : p + n ≤ b.length)
      (rest : Lexes takes dead b (p + n) segs) :
      Lexes takes dead b p (.tok k ((b.drop p).take n) :: segs)
  | err {p q segs} (pos : p < q) (le : q ≤ b.length) (h : ∀ i, p ≤ i → i < q → dead i)
      (stop : q = b.length ∨ ∃ k n, 0 < n ∧ takes q k n)
      (rest : Lexes takes dead b q segs) :
      Lexes takes dead b p (.err ((b.drop p).take (q - p)) :: segs)

/-- Start positions of the runes of `s`, when `step s` is the width of its first rune. -/
inductive Bd (step : List UInt8 → Nat) : List UInt8 → Nat → Prop
  | zero {s} : Bd step s 0
  | next {s i} (h : s ≠ []) (r : Bd step (s.drop (step s)) i) : Bd step s (step s + i)

/-- Positions stay rune starts when the beginning of the input is cut off, even in the middle of a
rune (UTF-8 is self-synchronising). -/
def Sync (step : List UInt8 → Nat) : Prop :=
  ∀ s c p, Bd step s p → c ≤ p → Bd step (s.drop c) (p - c)

/-- `find` searches leftmost over rune starts for what `m` matches: `m s` is the length of the match
at the beginning of `s`, depending on nothing before it (so: no `\b`, `^`). -/
def Leftmost (step : List UInt8 → Nat) (m : List UInt8 → Option Nat)
    (find : List UInt8 → Option (Nat × Nat)) : Prop :=
  ∀ s, match find s with
    | none => ∀ i, Bd step s i → m (s.drop i) = none
    | some (a, e) => a ≤ e ∧ m (s.drop a) = some (e - a) ∧ ∀ i, Bd step s i → i < a → m (s.drop i) = none

/-- Rule `k` wins at the beginning of `s` with `n > 0` bytes: it matches `n` bytes, no rule matches
more, and a rule matching as many was not declared earlier. `rank` is the declaration order. -/
def Wins {κ : Type u} (rule : κ → Prop) (m : κ → List UInt8 → Option Nat) (rank : κ → Int)
    (s : List UInt8) (k : κ) (n : Nat) : Prop :=
  rule k ∧ m k s = some n ∧ 0 < n ∧
    ∀ j n', rule j → m j s = some n' → n' < n ∨ (n' = n ∧ rank k ≤ rank j)

end Verif.Spec
