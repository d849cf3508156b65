import Verif.Spec.TextTokens
/-
The stack calculator of examples/scalc as its readme describes it: tokens, layout, and the programs. Nothing here refers
to the model.
-/
namespace Verif.Spec.Scalc

/-- Numbers with the operations of the calculator. -/
structure Arith (N : Type) where
  num : Str → N
  zero : N
  one : N
  minusOne : N
  ofNat : Nat → N
  neg : N → N
  add : N → N → N
  sub : N → N → N
  mul : N → N → N
  div : N → N → N
  pow : N → N → N
  mod : N → N → N
  lt : N → N → Bool
  eq : N → N → Bool

/-- A number with the number of decimals it is shown with. -/
structure PF (N : Type) where
  V : N
  P : Int
deriving DecidableEq, Repr

/-- The kinds of tokens: whole numbers, decimals, unary and binary operators, operators on the stack, manipulations of the
stack, the question mark, parentheses. -/
inductive Kind where
  | int | dec | uop | bop | sop | smp | choice | opening | closing
deriving DecidableEq, Repr

/-- A token with its text. -/
abbrev Tok := Kind × Str

/-- The tokens that are always written the same way. -/
def words : List (Kind × List UInt8) :=
  [(.uop, [45, 45]), (.uop, [97, 98, 115]),
   (.bop, [99, 109, 112, 114]), (.bop, [42]), (.bop, [47]), (.bop, [43]), (.bop, [45]), (.bop, [94]), (.bop, [37]), (.bop, [62]),
   (.bop, [60]), (.bop, [61]),
   (.sop, [108, 101, 110]), (.sop, [115, 117, 109]), (.sop, [97, 118, 103]), (.sop, [109, 105, 110]), (.sop, [109, 97, 120]),
   (.sop, [102, 105, 114, 115, 116]), (.sop, [108, 97, 115, 116]),
   (.smp, [115, 119, 97, 112]), (.smp, [100, 114, 111, 112]), (.smp, [99, 108, 101, 97, 114]),
   (.choice, [63]), (.opening, [40]), (.closing, [41])]

/-- A layout of tokens. Numbers may begin with a sign and end where the digits end. A sign before a digit belongs to the
number, two dashes are one token. Words need no space around them. -/
inductive SText : List UInt8 → List Tok → Prop
  | done : SText [] []
  | space {x s ts} (h : RxByte.space x = true) (rest : SText s ts) : SText (x :: s) ts
  | int {g d s ts} (hg : g = [] ∨ g = [43] ∨ g = [45]) (ne : d ≠ []) (h : ∀ x ∈ d, RxByte.digit x = true)
      (stop : NoHead RxByte.digit s) (rest : SText s ts) : SText (g ++ (d ++ s)) ((.int, nameOf (g ++ d)) :: ts)
  | dec {d s ts} (ne : d ≠ []) (h : ∀ x ∈ d, RxByte.digit x = true) (stop : NoHead RxByte.digit s) (rest : SText s ts) :
      SText (46 :: (d ++ s)) ((.dec, nameOf (46 :: d)) :: ts)
  | word {k w s ts} (h : (k, w) ∈ words) (sign : w = [43] ∨ w = [45] → NoHead RxByte.digit s)
      (dash : w = [45] → NoHead (· == 45) s) (rest : SText s ts) : SText (w ++ s) ((k, nameOf w) :: ts)

/-- The parts of a program. -/
inductive Part where
  | stack | value | unary | binary | fold | manip
deriving DecidableEq, Repr

/-- The parts that are operators, with their tokens. -/
def operators : List (Part × Kind) := [(.unary, .uop), (.binary, .bop), (.fold, .sop), (.manip, .smp)]

/-- What is written as what. -/
inductive Is : Part → List Kind → Prop
  | none : Is .stack []
  | push {a b} : Is .value a → Is .stack b → Is .stack (a ++ b)
  | paren {a b c} : Is .stack a → Is .stack b → Is .stack c → Is .stack (a ++ (.opening :: (b ++ (.closing :: c))))
  | manip {a b} : Is .stack a → Is .manip b → Is .stack (a ++ b)
  | int : Is .value [.int]
  | dec : Is .value [.int, .dec]
  | un {a b} : Is .value a → Is .unary b → Is .value (a ++ b)
  | bin {a b c} : Is .value a → Is .value b → Is .binary c → Is .value (a ++ (b ++ c))
  | fold {a b} : Is .stack a → Is .fold b → Is .value (a ++ b)
  | cond {a b c} : Is .value a → Is .value b → Is .value c → Is .value (a ++ (b ++ (c ++ [.choice])))
  | op {q k} : (q, k) ∈ operators → Is q [k]
  | choose {q k a b c} : (q, k) ∈ operators → Is q a → Is q b → Is .value c → Is q (a ++ (b ++ (c ++ [.choice])))

/-- The text is a program. -/
def Program (b : List UInt8) : Prop := ∃ ts : List Tok, SText b ts ∧ Is .stack (ts.map (·.1))

/-! ### What programs compute -/

variable {N : Type}

/-- The greater number of decimals, at least zero. -/
def prec (a b : PF N) : Int := max 0 (max a.P b.P)

/-- True is one, false is zero. -/
def Arith.truth (A : Arith N) (b : Bool) : N := if b then A.one else A.zero

/-- Unary operators. -/
def unary (A : Arith N) : List (Str × (N → N)) :=
  [("--".toList, A.neg), ("abs".toList, fun a => if A.lt a A.zero then A.neg a else a)]

/-- Binary operators. -/
def binary (A : Arith N) : List (Str × (N → N → N)) :=
  [("+".toList, A.add), ("-".toList, A.sub), ("*".toList, A.mul), ("/".toList, A.div), ("^".toList, A.pow), ("%".toList, A.mod),
   (">".toList, fun a b => A.truth (A.lt b a)), ("<".toList, fun a b => A.truth (A.lt a b)), ("=".toList, fun a b => A.truth (A.eq a b)),
   ("cmpr".toList, fun a b => if A.lt b a then A.one else if A.lt a b then A.minusOne else A.zero)]

/-- The one that is least, the lowest on the stack of these. -/
def least (A : Arith N) : PF N → List (PF N) → PF N
  | a, [] => a
  | a, b :: s => least A (if A.lt b.V a.V then b else a) s

/-- Operators on the stack, given from the bottom: the first is the top. -/
def folds (A : Arith N) : List (Str × (List (PF N) → PF N)) :=
  [("sum".toList, fun s => ⟨s.foldl (fun v p => A.add v p.V) A.zero, s.foldl (fun m p => max m p.P) 0⟩),
   ("avg".toList, fun s => ⟨if s = [] then A.zero else A.div (s.foldl (fun v p => A.add v p.V) A.zero) (A.ofNat s.length),
      s.foldl (fun m p => max m p.P) 0⟩),
   ("len".toList, fun s => ⟨A.ofNat s.length, 0⟩),
   ("min".toList, fun s => match s with | [] => ⟨A.zero, 0⟩ | a :: s => least A a s),
   ("max".toList, fun s => match s with | [] => ⟨A.zero, 0⟩ | a :: s => least { A with lt := fun a b => A.lt b a } a s),
   ("first".toList, fun s => s.getLast?.getD ⟨A.zero, 0⟩), ("last".toList, fun s => s.head?.getD ⟨A.zero, 0⟩)]

/-- Manipulations, the top comes first. -/
def manips : List (Str × (List (PF N) → List (PF N))) :=
  [("swap".toList, fun s => match s with | a :: b :: s => b :: a :: s | s => s), ("drop".toList, List.tail), ("clear".toList, fun _ => [])]

/-- What is listed under a name. -/
def named {β : Type} (l : List (Str × β)) (x : Str) : Option β := (l.find? fun y => y.1 == x).map (·.2)

/-- The machine: tokens are read from left to right, with the stack of the innermost parentheses (the top first) and the
stacks around it. `none` if it fails. A question mark chooses between values only. -/
def exec (A : Arith N) : List Tok → List (PF N) → List (List (PF N)) → Option (List (PF N))
  | [], st, [] => some st.reverse
  | (.int, x) :: (.dec, y) :: ts, st, out => exec A ts (⟨A.num (x ++ y), (y.length : Int) - 1⟩ :: st) out
  | (.int, x) :: ts, st, out => exec A ts (⟨A.num x, 0⟩ :: st) out
  | (.uop, x) :: ts, a :: st, out => (named (unary A) x).bind fun f => exec A ts (⟨f a.V, a.P⟩ :: st) out
  | (.bop, x) :: ts, b :: a :: st, out => (named (binary A) x).bind fun f => exec A ts (⟨f a.V b.V, prec a b⟩ :: st) out
  | (.sop, x) :: ts, st, out => (named (folds A) x).bind fun f => exec A ts [f st.reverse] out
  | (.smp, x) :: ts, st, out => (named manips x).bind fun f => exec A ts (f st) out
  | (.choice, _) :: ts, c :: b :: a :: st, out => exec A ts ((if A.lt A.zero c.V then b else a) :: st) out
  | (.opening, _) :: ts, st, out => exec A ts [] (st :: out)
  | (.closing, _) :: ts, st, o :: out => exec A ts (st ++ o) out
  | _, _, _ => none

/-- Programs where everything on the whole stack comes last: values from numbers and their operators, parentheses around
all of it, an operator on all of it, a manipulation of all of it. `manip`: it may be followed by a manipulation. `fold`: it
may be followed by an operator on the stack. -/
inductive Plain : (manip fold : Bool) → List Kind → Prop
  | vals {w} : (∀ k ∈ w, k = .int ∨ k = .dec ∨ k = .uop ∨ k = .bop) → Plain true true w
  | paren {m f w} : Plain m f w → Plain m true (.opening :: (w ++ [.closing]))
  | fold {m w} : Plain m true w → Plain true false (w ++ [.sop])
  | manip {f w} : Plain true f w → Plain false f (w ++ [.smp])

end Verif.Spec.Scalc
