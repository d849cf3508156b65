import Verif.Spec.CFG
import Verif.Spec.GrammarDef
/-
Specification of regex grammars (grammars whose productions are regular expressions), independent of
the code in grammar/regexgram: expressions, the words they stand for, and how a parse tree of a regex
grammar shows its rules.
-/
namespace Verif.Spec

/-- Expressions: a symbol, `x?`, `x|y|...`, `(x y ...)`, `x*`. -/
inductive Rx where
  | sym (s : Str)
  | opt (x : Rx)
  | or (xs : List Rx)
  | group (xs : List Rx)
  | rep (x : Rx)

/-- The rules of a regex grammar, in order: a nonterminal and a sequence of expressions. -/
abbrev RxRules := List (Str × List Rx)

/-- `RxWords R xs w`: the sequence of expressions `xs` stands for the word `w` (among others). Symbols
without a rule are terminals. -/
inductive RxWords (R : RxRules) : List Rx → List Str → Prop
  | nil : RxWords R [] []
  | term {s : Str} {xs : List Rx} {w : List Str} :
      (∀ r, (s, r) ∉ R) → RxWords R xs w → RxWords R (.sym s :: xs) (s :: w)
  | nonterm {s : Str} {r xs : List Rx} {u v : List Str} :
      (s, r) ∈ R → RxWords R r u → RxWords R xs v → RxWords R (.sym s :: xs) (u ++ v)
  | optNone {x : Rx} {xs : List Rx} {w : List Str} : RxWords R xs w → RxWords R (.opt x :: xs) w
  | optSome {x : Rx} {xs : List Rx} {w : List Str} : RxWords R (x :: xs) w → RxWords R (.opt x :: xs) w
  | or {x : Rx} {ys xs : List Rx} {w : List Str} :
      x ∈ ys → RxWords R (x :: xs) w → RxWords R (.or ys :: xs) w
  | group {ys xs : List Rx} {w : List Str} : RxWords R (ys ++ xs) w → RxWords R (.group ys :: xs) w
  | repNone {x : Rx} {xs : List Rx} {w : List Str} : RxWords R xs w → RxWords R (.rep x :: xs) w
  | repMore {x : Rx} {xs : List Rx} {w : List Str} :
      RxWords R (x :: .rep x :: xs) w → RxWords R (.rep x :: xs) w

namespace Rx

mutual
/-- The tree `t` shows the expression. -/
def Shown : Rx → PN Str Str → Prop
  | .sym s, t => t.kind = "symbol".toList ∧ t.lx.val = s
  | .opt x, t => t.kind = "OptSymbol".toList ∧ ∃ c, t.kids = [c] ∧ Shown x c
  | .or xs, t => t.kind = "OrSymbol".toList ∧ Showns xs t.kids
  | .group xs, t => t.kind = "Group".toList ∧ Showns xs t.kids
  | .rep x, t => t.kind = "RepSymbol".toList ∧ ∃ c, t.kids = [c] ∧ Shown x c
/-- The trees show the expressions. -/
def Showns : List Rx → List (PN Str Str) → Prop
  | [], ts => ts = []
  | x :: xs, ts => ∃ c cs, ts = c :: cs ∧ Shown x c ∧ Showns xs cs
end

/-- Items with something between them. -/
def sepBy (sep : Str) : List Str → Str
  | [] => []
  | [s] => s
  | s :: ss => s ++ sep ++ sepBy sep ss

mutual
/-- An expression as text, with underscores in place of blanks. -/
def text : Rx → Str
  | .sym s => s
  | .opt x => text x ++ ['?']
  | .or xs => sepBy ['|'] (texts xs)
  | .group xs => ['('] ++ sepBy ['_'] (texts xs) ++ [')']
  | .rep x => text x ++ ['*']
/-- The texts of a list of expressions. -/
def texts : List Rx → List Str
  | [] => []
  | x :: xs => text x :: texts xs
end

mutual
/-- An expression and its parts, their parts and so on. -/
def parts : Rx → List Rx
  | .sym s => [.sym s]
  | .opt x => .opt x :: parts x
  | .or xs => .or xs :: partss xs
  | .group xs => .group xs :: partss xs
  | .rep x => .rep x :: parts x
/-- The parts of a list of expressions. -/
def partss : List Rx → List Rx
  | [] => []
  | x :: xs => parts x ++ partss xs
end

mutual
/-- What `?` and `*` can be put after: a symbol or a group. -/
def unit : Rx → Bool
  | .sym _ => true
  | .group xs => writables xs
  | _ => false
/-- What can be an alternative: a unit, or a unit with `?` or `*`. -/
def factor : Rx → Bool
  | .sym _ => true
  | .group xs => writables xs
  | .opt x => unit x
  | .rep x => unit x
  | .or _ => false
/-- What can be written as text: a factor, or two or more factors as alternatives. -/
def writable : Rx → Bool
  | .sym _ => true
  | .group xs => writables xs
  | .opt x => unit x
  | .rep x => unit x
  | .or xs => decide (2 ≤ xs.length) && factors xs
/-- All can be written. -/
def writables : List Rx → Bool
  | [] => true
  | x :: xs => writable x && writables xs
/-- All are factors. -/
def factors : List Rx → Bool
  | [] => true
  | x :: xs => factor x && factors xs
end

/-- The characters with a meaning in texts of expressions. -/
def special : List Char := ['_', '(', ')', '|', '*', '?']

/-- A name without these characters. -/
def Plain (s : Str) : Prop := s ≠ [] ∧ ∀ c ∈ s, c ∉ special

end Rx

mutual
/-- The plain sequences of symbols an expression stands for, in order; a repetition stands for its
name. -/
def Rx.alts : Rx → List (List Str)
  | .sym s => [[s]]
  | .opt x => x.alts ++ [[]]
  | .or xs => Rx.anys xs
  | .group xs => Rx.seqs xs
  | .rep x => [[(Rx.rep x).text]]
/-- The sequences of the first expression, then those of the second, and so on. -/
def Rx.anys : List Rx → List (List Str)
  | [] => []
  | x :: xs => x.alts ++ Rx.anys xs
/-- A sequence of the first expression followed by one of the second and so on; the last changes
fastest. -/
def Rx.seqs : List Rx → List (List Str)
  | [] => [[]]
  | x :: xs => x.alts.flatMap fun a => (Rx.seqs xs).map fun b => a ++ b
end

/-- All the expressions occurring in the rules. -/
def RxRules.parts (R : RxRules) : List Rx := R.flatMap fun r => Rx.partss r.2

/-- The texts of the repetitions are names of their own: different repetitions have different texts,
and these are not used as symbols. -/
structure RxRules.Distinct (R : RxRules) : Prop where
  inj : ∀ x y, .rep x ∈ R.parts → .rep y ∈ R.parts → (Rx.rep x).text = (Rx.rep y).text → x = y
  fresh : ∀ x, .rep x ∈ R.parts → ∀ s, .sym s ∈ R.parts → s ≠ (Rx.rep x).text
  undeclared : ∀ x, .rep x ∈ R.parts → ∀ r ∈ R, r.1 ≠ (Rx.rep x).text

/-- The rules for the repetition of an expression: the expression and the repetition again, or nothing. -/
def Rx.more (x : Rx) : RxRules := [((Rx.rep x).text, [x, .sym (Rx.rep x).text]), ((Rx.rep x).text, [])]

/-- The plain rules the rules stand for, in order. -/
def RxRules.plain (R : RxRules) : List (Str × List Str) := R.flatMap fun r => (Rx.seqs r.2).map fun p => (r.1, p)

/-- The names of the helpers: the texts of the repetitions. -/
def RxRules.helpers (R : RxRules) : List Str :=
  R.parts.filterMap fun
    | .rep x => some (Rx.rep x).text
    | _ => none

mutual
/-- The tree with every node below the root whose kind is in `H` replaced by its children. -/
def PN.hide (H : List Str) : PN Str Str → PN Str Str
  | .node l ks => .node l (PN.hides H ks)
/-- The trees with every node whose kind is in `H` replaced by its children. -/
def PN.hides (H : List Str) : List (PN Str Str) → List (PN Str Str)
  | [] => []
  | .node l ks :: ts => if l.kind ∈ H then PN.hides H ks ++ PN.hides H ts else .node l (PN.hides H ks) :: PN.hides H ts
end

mutual
/-- The kinds of the nodes of a tree. -/
def PN.kinds : PN Str Str → List Str
  | .node l ks => l.kind :: PN.kindss ks
/-- The kinds of the nodes of the trees. -/
def PN.kindss : List (PN Str Str) → List Str
  | [] => []
  | t :: ts => PN.kinds t ++ PN.kindss ts
end

/-- No empty group and no empty list of alternatives. -/
structure RxRules.Solid (R : RxRules) : Prop where
  group : .group [] ∉ R.parts
  or : .or [] ∉ R.parts

/-- The rules can be written as text, with symbols that do not contain special characters, and no
empty groups. -/
structure RxRules.Writable (R : RxRules) : Prop where
  right : ∀ r ∈ R, Rx.writables r.2 = true
  names : ∀ s, .sym s ∈ R.parts → Rx.Plain s
  left : ∀ r ∈ R, Rx.Plain r.1
  group : .group [] ∉ R.parts

/-- The children of the root show the rules: a Production has the nonterminal as its value, any other
node belongs to the latest nonterminal (`nt` for those before the first Production). -/
def RulesShown : Str → RxRules → List (PN Str Str) → Prop
  | _, [], ts => ts = []
  | nt, r :: rs, ts => ∃ c cs, ts = c :: cs ∧ Rx.Showns r.2 c.kids ∧
      ((c.kind = "Production".toList → c.lx.val = r.1) ∧ (c.kind ≠ "Production".toList → r.1 = nt)) ∧ RulesShown r.1 rs cs

end Verif.Spec
