import Verif.Spec.TextTokens
/-
Arithmetic expressions: how they are laid out in a text, and what their values are. Independent of the lexer, the
grammar and the tree by which the code gets at them. `*` and `/` bind tighter than `+` and `-`; operators that bind
alike are taken from the left; a sign can only be before a number, and a number has at most one.
-/
namespace Verif.Spec.Math
open Verif.Spec

/-- Arithmetic on some type of numbers, and the numbers that texts stand for. -/
structure Arith (N : Type) where
  num : Str → N
  zero : N
  neg : N → N
  add : N → N → N
  sub : N → N → N
  mul : N → N → N
  div : N → N → N

/-- The tokens. -/
inductive Tok where
  | num (s : Str)
  | plus
  | minus
  | times
  | over
  | opening
  | closing
deriving DecidableEq

/-- The tokens of one character: `+`, `-`, `*`, `/`, `(`, `)`. -/
def sign : UInt8 → Option Tok
  | 43 => some .plus
  | 45 => some .minus
  | 42 => some .times
  | 47 => some .over
  | 40 => some .opening
  | 41 => some .closing
  | _ => none

/-- The text is a layout of the tokens: white space is skipped, numbers are as long as they can be. -/
inductive MText : List UInt8 → List Tok → Prop
  | done : MText [] []
  | space {x s ts} (h : RxByte.space x = true) (rest : MText s ts) : MText (x :: s) ts
  | int {d s ts} (ne : d ≠ []) (h : ∀ x ∈ d, RxByte.digit x = true) (stop : NoHead RxByte.digit s) (nf : NoFrac s)
      (rest : MText s ts) : MText (d ++ s) (.num (nameOf d) :: ts)
  | frac {d f s ts} (hd : ∀ x ∈ d, RxByte.digit x = true) (ne : f ≠ []) (hf : ∀ x ∈ f, RxByte.digit x = true)
      (stop : NoHead RxByte.digit s) (rest : MText s ts) :
      MText (d ++ 46 :: (f ++ s)) (.num (nameOf (d ++ 46 :: f)) :: ts)
  | one {x k s ts} (h : sign x = some k) (rest : MText s ts) : MText (x :: s) (k :: ts)

/-- Parts of expressions. -/
inductive Part where
  | factor
  | term
  | expr
deriving DecidableEq

/-- The tokens are a part of that kind, with that value. -/
inductive Reads {N : Type} (A : Arith N) : Part → List Tok → N → Prop
  | num {s} : Reads A .factor [.num s] (A.num s)
  | pos {s} : Reads A .factor [.plus, .num s] (A.num s)
  | neg {s} : Reads A .factor [.minus, .num s] (A.neg (A.num s))
  | group {ts v} : Reads A .expr ts v → Reads A .factor (.opening :: (ts ++ [.closing])) v
  | factor {ts v} : Reads A .factor ts v → Reads A .term ts v
  | mul {a b x y} : Reads A .term a x → Reads A .factor b y → Reads A .term (a ++ .times :: b) (A.mul x y)
  | div {a b x y} : Reads A .term a x → Reads A .factor b y → Reads A .term (a ++ .over :: b) (A.div x y)
  | term {ts v} : Reads A .term ts v → Reads A .expr ts v
  | add {a b x y} : Reads A .expr a x → Reads A .term b y → Reads A .expr (a ++ .plus :: b) (A.add x y)
  | sub {a b x y} : Reads A .expr a x → Reads A .term b y → Reads A .expr (a ++ .minus :: b) (A.sub x y)

/-- The text is an expression with that value. -/
def ValueOf {N : Type} (A : Arith N) (b : List UInt8) (v : N) : Prop := ∃ ts, MText b ts ∧ Reads A .expr ts v

end Verif.Spec.Math
