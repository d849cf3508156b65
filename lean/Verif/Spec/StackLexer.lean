import Verif.Spec.Lexer
/-
What it means to lex an input with a stack of lexers. Nothing here refers to the model of the lexer.
-/
namespace Verif.Spec

/-- Where a rule leads. -/
inductive Move (σ : Type u) where
  /-- The current lexer stays current. -/
  | stay
  /-- `s` is put on the stack and becomes current. -/
  | push (s : σ)
  /-- `k` lexers are taken off the stack, but the outermost one stays. -/
  | pop (k : Nat)

/-- The stack after a move; its head is the current lexer. -/
def Move.apply : Move σ → List σ → List σ
  | .stay, st => st
  | .push s, st => s :: st
  | .pop k, st => st.drop (min k (st.length - 1))

/-- The move can be made with the lexers `st` below the current one: a pop needs one. -/
def Move.Fits : Move σ → List σ → Prop
  | .pop _, st => st ≠ []
  | _, _ => True

/-- What happened since the current lexer became current. -/
inductive Mode where
  /-- It has not produced a token yet. -/
  | taken
  /-- It has just produced a token. -/
  | next
  /-- It has produced a token, and then an error followed. -/
  | later

/-- The mode after an error. -/
def Mode.afterErr : Mode → Mode
  | .taken => .taken
  | _ => .later

/-- The mode after a token with the given move. -/
def Move.mode : Move σ → Mode
  | .stay => .next
  | _ => .taken

/-- `b` from position `p` on, with the stack given (current lexer first), is cut into the pieces:
* a `tok` piece of `n > 0` bytes at `p` needs the current lexer to take it, and unless the input ends
  there the lexing goes on with the stack after the move of the rule, a pop needing a lexer below the
  current one;
* at a position dead for the current lexer, the lexing goes on with the lexer below it if there is
  one;
* if there is none, the position belongs to an `err` piece, which ends at the end of the input or where
  the outermost lexer takes over.

`takes` may depend on the mode of the current lexer. -/
inductive Run (takes : Mode → σ → Nat → κ → Nat → Prop) (dead : σ → Nat → Prop)
    (move : κ → Option (Move σ)) (b : List UInt8) : Mode → List σ → Nat → List (Seg κ) → Prop
  | done {f st} : Run takes dead move b f st b.length []
  | last {f s st p k n} (h : takes f s p k n) (pos : 0 < n) (le : p + n = b.length) :
      Run takes dead move b f (s :: st) p [.tok k ((b.drop p).take n)]
  | tok {f s st p k n mv segs} (h : takes f s p k n) (pos : 0 < n) (lt : p + n < b.length)
      (hm : move k = some mv) (fits : mv.Fits st) (rest : Run takes dead move b mv.mode (mv.apply (s :: st)) (p + n) segs) :
      Run takes dead move b f (s :: st) p (.tok k ((b.drop p).take n) :: segs)
  | fall {f s t st p segs} (lt : p < b.length) (h : dead s p)
      (rest : Run takes dead move b .taken (t :: st) p segs) : Run takes dead move b f (s :: t :: st) p segs
  | err {f s p q segs} (pos : p < q) (le : q ≤ b.length) (h : ∀ i, p ≤ i → i < q → dead s i)
      (stop : q = b.length ∨ ∃ k n, 0 < n ∧ takes f.afterErr s q k n)
      (rest : Run takes dead move b f.afterErr [s] q segs) :
      Run takes dead move b f [s] p (.err ((b.drop p).take (q - p)) :: segs)

end Verif.Spec
