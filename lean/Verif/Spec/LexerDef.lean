import Verif.Spec.TextTokens
import Mathlib.Data.List.Forall2
/-
How the lines of a lexer definition are laid out, as described in lexer/stacklexer/readme.md:

  Name [/regex/ [(Groups)]] [^ | push-lexer] [-]

and how sub-lexers are marked by `== Name ==`. Independent of the expressions by which the code reads them.
-/
namespace Verif.Spec.LexerDef
open Verif.Spec

/-- A letter or an underscore. -/
def letter (x : UInt8) : Bool := RxByte.word x && !RxByte.digit x

/-- White space or a slash. -/
def gap (x : UInt8) : Bool := RxByte.space x || x == 47

/-- `s` is `a` followed by `b`, and `a` is as long as bytes like these go. -/
structure Run (p : UInt8 → Bool) (s a b : List UInt8) : Prop where
  eq : s = a ++ b
  all : ∀ x ∈ a, p x = true
  stop : NoHead p b

/-- A name of a sub-lexer, as long as it goes. -/
structure Ident (s n r : List UInt8) : Prop where
  run : Run RxByte.word s n r
  first : ∃ x t, n = x :: t ∧ letter x = true

/-- The expression `e` in `s`, after the opening slash; `r` is what comes after the closing slash. Slashes in it are
escaped by a backslash. (If the last slash of the line is the only one that could close the expression, it closes it even after
a backslash.) -/
structure Closed (s e r : List UInt8) : Prop where
  eq : s = e ++ 47 :: r
  ne : e ≠ []
  esc : ∀ p q, e = p ++ 47 :: q → p.getLast? = some 92
  last : e.getLast? = some 92 → 47 ∉ r

/-- The inside of the parentheses for groups: a closing parenthesis in it is escaped by a backslash. -/
inductive Groups : List UInt8 → Prop
  | nil : Groups []
  | plain {x s} : x ≠ 41 → x ≠ 92 → Groups s → Groups (x :: s)
  | esc {y s} : y ≠ 10 → Groups s → Groups (92 :: y :: s)

/-- The groups in `s`, if there are any: what is in the parentheses, and the rest. -/
inductive GroupPart : (s g r : List UInt8) → Prop
  | some {g r} : Groups g → GroupPart (40 :: (g ++ 41 :: r)) g r
  | none {s} : (∀ g r, Groups g → s ≠ 40 :: (g ++ 41 :: r)) → GroupPart s [] s

/-- The expression in `s` and its groups, if there are any. -/
inductive RePart : (s e g r : List UInt8) → Prop
  | some {s e r a b g t} : Closed s e r → Run RxByte.space r a b → GroupPart b g t → RePart (47 :: s) e g t
  | none {s} : (∀ t e r, s = 47 :: t → ¬ Closed t e r) → RePart s [] [] s

/-- Carets, or the name of a sub-lexer, or neither. -/
inductive MovePart : (s m r : List UInt8) → Prop
  | carets {s m r} : Run (· == 94) s m r → m ≠ [] → MovePart s m r
  | push {s m r} : Ident s m r → MovePart s m r
  | none {s} : NoHead (fun x => x == 94 || letter x) s → MovePart s [] s

/-- What a line says. -/
structure Parts where
  name : List UInt8
  expr : List UInt8
  groups : List UInt8
  move : List UInt8
  minus : Bool

/-- The name of a line: white space and slashes before it do not count. -/
structure Named (s n r : List UInt8) : Prop where
  lead : ∃ a t, Run gap s a t ∧ Run (fun x => !gap x) t n r
  ne : n ≠ []

/-- A line of a stack lexer. -/
def StackLine (s : List UInt8) (p : Parts) : Prop :=
  ∃ r a b t c d u e f, Named s p.name r ∧ Run RxByte.space r a b ∧ RePart b p.expr p.groups t ∧ Run RxByte.space t c d ∧
    MovePart d p.move u ∧ Run RxByte.space u e f ∧ (p.minus = true ↔ ∃ z, f = 45 :: z)

/-- A line of a simple lexer: name, expression, minus sign. -/
def SimpleLine (s n x : List UInt8) (minus : Bool) : Prop :=
  ∃ r a b t c d, Named s n r ∧ Run RxByte.space r a b ∧
    ((∃ v, b = 47 :: v ∧ Closed v x t) ∨ (∀ v e t, b = 47 :: v → ¬ Closed v e t) ∧ x = [] ∧ t = b) ∧
    Run RxByte.space t c d ∧ (minus = true ↔ ∃ z, d = 45 :: z)

/-- The line has no name. -/
def Blank (s : List UInt8) : Prop := ∀ x ∈ s, gap x = true

/-- The white space at the beginning of `s` has a line end, and `r` is what comes after the last one. -/
def LineEnd (s r : List UInt8) : Prop :=
  ∃ a b c, s = a ++ 10 :: (b ++ c) ∧ (∀ x ∈ a, RxByte.space x = true) ∧ Run RxByte.space (b ++ c) b c ∧ 10 ∉ b ∧ r = b ++ c

/-- `s` begins with the header of a sub-lexer: `==`, the name, `==` or nothing, and a line end. -/
def Header (s n r : List UInt8) : Prop :=
  ∃ t a b c d e, s = 61 :: 61 :: t ∧ Run RxByte.space t a b ∧ Ident b n c ∧ Run RxByte.space c d e ∧
    ((∃ f, e = 61 :: 61 :: f ∧ LineEnd f r) ∨ (∀ f r', e = 61 :: 61 :: f → ¬ LineEnd f r') ∧ LineEnd c r)

/-- A text is what comes before the first header, and the sub-lexers with what comes after their headers. -/
inductive Sections : List UInt8 → List UInt8 → List (List UInt8 × List UInt8) → Prop
  | none {t} : (∀ a s n r, t = a ++ s → ¬ Header s n r) → Sections t t []
  | more {p s n r b l} : (∀ a x c m u, p = a ++ x :: c → ¬ Header (x :: c ++ s) m u) → Header s n r → Sections r b l → Sections (p ++ s) p ((n, b) :: l)

/-- The lines of a text. -/
inductive Lines : List UInt8 → List (List UInt8) → Prop
  | last {l} : 10 ∉ l → Lines l [l]
  | more {l t ls} : 10 ∉ l → Lines t ls → Lines (l ++ 10 :: t) (l :: ls)

/-- What the lines of a sub-lexer say; lines without a name say nothing. -/
inductive Rows : List (List UInt8) → List Parts → Prop
  | nil : Rows [] []
  | blank {l ls ps} : Blank l → Rows ls ps → Rows (l :: ls) ps
  | line {l ls p ps} : StackLine l p → Rows ls ps → Rows (l :: ls) (p :: ps)

/-- What a text says: its sub-lexers in order, with their names and what their lines say. What comes before the first
header does not count. -/
def Says (t : List UInt8) (d : List (List UInt8 × List Parts)) : Prop :=
  ∃ pre l, Sections t pre l ∧ List.Forall₂ (fun x y => y.1 = x.1 ∧ ∃ ls, Lines x.2 ls ∧ Rows ls y.2) l d

/-- What several texts say, one after the other. -/
def SaysAll (ts : List (List UInt8)) (d : List (List UInt8 × List Parts)) : Prop :=
  ∃ ds, List.Forall₂ Says ts ds ∧ d = ds.flatten

/-- What the lines of simple lexers say: names, expressions, minus signs. -/
inductive SimpleRows : List (List UInt8) → List (List UInt8 × List UInt8 × Bool) → Prop
  | nil : SimpleRows [] []
  | blank {l ls ps} : Blank l → SimpleRows ls ps → SimpleRows (l :: ls) ps
  | line {l ls n x m ps} : SimpleLine l n x m → SimpleRows ls ps → SimpleRows (l :: ls) ((n, x, m) :: ps)

/-- What several texts say, one after the other. -/
def SimpleSays (ts : List (List UInt8)) (rs : List (List UInt8 × List UInt8 × Bool)) : Prop :=
  ∃ ls, List.Forall₂ Lines ts ls ∧ SimpleRows ls.flatten rs

end Verif.Spec.LexerDef
