import Verif.Spec.CFG
/-
Specification of grammars as records of added rules, of rule definitions as text, and of what a text
with one rule per line means. Independent of the code's symbol tables and string functions.
-/
namespace Verif.Spec

/-- The grammar recorded by a list of added rules: nonterminals are the left sides in order of first
appearance, the productions of each are its right sides in order. -/
def record {α : Type} [DecidableEq α] (adds : List (α × List α)) : Grammar α where
  order := (adds.map (·.1)).foldl (fun o A => if A ∈ o then o else o ++ [A]) []
  prods A := if A ∈ adds.map (·.1) then some ((adds.filter (·.1 = A)).map (·.2)) else none

/-- Text. -/
abbrev Str := List Char

/-- White space as `unicode.IsSpace` of Go defines it. -/
def isSpace (c : Char) : Bool :=
  c.toNat ∈ [9, 10, 11, 12, 13, 32, 0x85, 0xA0, 0x1680, 0x2000, 0x2001, 0x2002, 0x2003, 0x2004, 0x2005,
    0x2006, 0x2007, 0x2008, 0x2009, 0x200A, 0x2028, 0x2029, 0x202F, 0x205F, 0x3000]

/-- No white space at either end. -/
def Trim (t : Str) : Prop := (∀ c, t.head? = some c → isSpace c = false) ∧ ∀ c, t.getLast? = some c → isSpace c = false

/-- `t` is `s` without the white space around it. -/
def TrimsTo (s t : Str) : Prop :=
  Trim t ∧ ∃ a b, s = a ++ t ++ b ∧ (∀ c ∈ a, isSpace c = true) ∧ ∀ c ∈ b, isSpace c = true

/-- `s` consists of the given pieces, which do not contain `c`, with `c` between them. -/
def Pieces (c : Char) (s : Str) : List Str → Prop
  | [] => False
  | [p] => s = p ∧ c ∉ p
  | p :: ps => ∃ rest, s = p ++ c :: rest ∧ c ∉ p ∧ Pieces c rest ps

/-- `ts` are the blank-separated tokens of `s`: its pieces between blanks, trimmed, without the empty
ones. -/
def Tokens (s : Str) (ts : List Str) : Prop :=
  ∃ ps qs : List Str, Pieces ' ' s ps ∧ ps.length = qs.length ∧ (∀ x ∈ ps.zip qs, TrimsTo x.1 x.2) ∧
    ts = qs.filter (· ≠ [])

/-- The arrow. -/
def arrow : Str := ['-', '>']

/-- What one line of a definition says. -/
inductive Line : Str → Option Str → Option (List Str) → Prop
  /-- a blank line says nothing -/
  | blank {s} : (∀ c ∈ s, isSpace c = true) → Line s none none
  /-- a line without arrow is a right side -/
  | plain {s ts} : (∃ c ∈ s, isSpace c = false) → ¬ arrow <:+: s → Tokens s ts → Line s none (some ts)
  /-- a line with one arrow and nothing left of it is a right side -/
  | right {s a b ts} : s = a ++ arrow ++ b → ¬ arrow <:+: a → ¬ arrow <:+: b →
      (∀ c ∈ a, isSpace c = true) → Tokens b ts → Line s none (some ts)
  /-- a line with one arrow and a left side -/
  | rule {s a b A ts} : s = a ++ arrow ++ b → ¬ arrow <:+: a → ¬ arrow <:+: b →
      TrimsTo a A → A ≠ [] → Tokens b ts → Line s (some A) (some ts)

/-- A line no rule can be read from: two arrows. -/
def BadLine (s : Str) : Prop := ∃ a b c, s = a ++ arrow ++ b ++ arrow ++ c

/-- Rules read from lines, given the most recent left side. -/
inductive Rules : Option Str → List Str → List (Str × List Str) → Prop
  | nil {cur} : Rules cur [] []
  | blank {cur s ls r nt} : Line s nt none → Rules cur ls r → Rules cur (s :: ls) r
  | rule {cur s ls r A ts} : Line s (some A) (some ts) → Rules (some A) ls r →
      Rules cur (s :: ls) ((A, ts) :: r)
  | more {A s ls r ts} : Line s none (some ts) → Rules (some A) ls r →
      Rules (some A) (s :: ls) ((A, ts) :: r)
  | start {s ls r ts} : Line s none (some ts) → Rules (some "START".toList) ls r →
      Rules none (s :: ls) (("START".toList, ts) :: r)

end Verif.Spec
