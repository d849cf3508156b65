import Verif.Spec.RegexGram
/-
How a regex grammar is written as a sequence of tokens. Independent of the grammar and reducer by which
the code reads it.
-/
namespace Verif.Spec

/-- The tokens of a definition. -/
inductive RxTok where
  | nl | rarr | rep | opt | or | lp | rp
  | sym (s : Str)
  deriving DecidableEq

/-- The kind of lexeme for a token. -/
def RxTok.kind : RxTok → Str
  | .nl => "nl".toList
  | .rarr => "rarr".toList
  | .rep => "repeats".toList
  | .opt => "optional".toList
  | .or => "or".toList
  | .lp => "(".toList
  | .rp => ")".toList
  | .sym _ => "symbol".toList

/-- The lexeme is one for the token: its kind fits, and for a symbol its value is the name. -/
def RxTok.Is (t : RxTok) (l : Lexeme Str Str) : Prop :=
  l.kind = t.kind ∧ ∀ s, t = .sym s → l.val = s

/-- The lexemes are those for the tokens. -/
def Spells : List RxTok → List (Lexeme Str Str) → Prop
  | [], ls => ls = []
  | t :: ts, ls => ∃ l rest, ls = l :: rest ∧ t.Is l ∧ Spells ts rest

namespace Rx

mutual
/-- How an expression is written. -/
def toks : Rx → List RxTok
  | .sym s => [.sym s]
  | .opt x => toks x ++ [.opt]
  | .rep x => toks x ++ [.rep]
  | .group xs => .lp :: (toksAll xs ++ [.rp])
  | .or xs => toksOr xs
/-- A sequence. -/
def toksAll : List Rx → List RxTok
  | [] => []
  | x :: xs => toks x ++ toksAll xs
/-- Alternatives. -/
def toksOr : List Rx → List RxTok
  | [] => []
  | x :: xs => toks x ++ (if xs.isEmpty then [] else .or :: toksOr xs)
end

end Rx

/-- A line of a definition: a nonterminal and a right side, or only a right side, which belongs to the
latest nonterminal. -/
abbrev RxLine := Option Str × List Rx

/-- How a line is written: it begins with a line break. -/
def RxLine.toks : RxLine → List RxTok
  | (some n, xs) => .nl :: .sym n :: .rarr :: Rx.toksAll xs
  | (none, xs) => .nl :: .rarr :: Rx.toksAll xs

/-- The rules in lines, given the latest nonterminal. -/
def linesRules : Str → List RxLine → RxRules
  | _, [] => []
  | _, (some n, xs) :: L => (n, xs) :: linesRules n L
  | nt, (none, xs) :: L => (nt, xs) :: linesRules nt L

/-- A definition: at least one line, the first with a nonterminal, and all right sides can be written. -/
structure RxDef (L : List RxLine) : Prop where
  first : ∃ n xs L', L = (some n, xs) :: L'
  right : ∀ l ∈ L, Rx.writables l.2 = true

/-- How a definition is written: its lines, possibly after a line break more, and possibly with one more
at the end. -/
def defToks (before after : Bool) (L : List RxLine) : List RxTok :=
  (if before then [.nl] else []) ++ L.flatMap RxLine.toks ++ (if after then [.nl] else [])

end Verif.Spec
