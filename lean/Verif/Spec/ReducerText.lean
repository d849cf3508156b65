import Verif.Spec.TextTokens
import Verif.Props.ReducerDSL
import Mathlib.Data.List.Forall2
/-
How definitions of reducers are written (tree/reducer): tokens, what statements look like as tokens, and how
tokens are laid out in a text. Independent of the lexer, the grammar and the parser by which the code reads
them. The statements are those of Props/ReducerDSL.lean.
-/
namespace Verif.Spec
open Verif.Props.ReducerDSL (Stmt)

/-- Tokens of a definition: the names of operations, numbers, names of rules, strings with their quotes, and
punctuation. -/
inductive RdTok where
  | word (k : Str)
  | number (s : Str)
  | rule (s : Str)
  | string (s : Str)
  | lp
  | rp
  | comma
  | period
  deriving DecidableEq

/-- The kind of the lexeme for a token. -/
def RdTok.kind : RdTok → Str
  | .word k => k
  | .number _ => "number".toList
  | .rule _ => "rule".toList
  | .string _ => "string".toList
  | .lp => "lp".toList
  | .rp => "rp".toList
  | .comma => "comma".toList
  | .period => "period".toList

/-- The text that matters of a token. -/
def RdTok.val : RdTok → Option Str
  | .number s => some s
  | .rule s => some s
  | .string s => some s
  | _ => none

/-- The lexeme is one for the token. -/
def RdTok.Is (t : RdTok) (l : Lexeme Str Str) : Prop := l.kind = t.kind ∧ ∀ s, t.val = some s → l.val = s

/-- The lexemes are those for the tokens. -/
def RdSpells (ts : List RdTok) (ls : List (Lexeme Str Str)) : Prop := List.Forall₂ RdTok.Is ts ls

/-- The words with a meaning. -/
def rdWords : List Str :=
  ["If".toList, "ChildIs".toList, "PromoteChild".toList, "PromoteChildrenOf".toList, "PromoteChildValue".toList,
   "PromoteGrandChildren".toList, "RemoveAll".toList, "RemoveChild".toList, "RemoveChildren".toList,
   "PromoteSingleChild".toList, "ReplaceWithChild".toList, "Nil".toList]

/-- Tokens with commas between them. -/
def commas : List RdTok → List RdTok
  | [] => []
  | [x] => [x]
  | x :: y :: xs => x :: .comma :: commas (y :: xs)

/-- A string in quotes. -/
def inQuotes (k : Str) : RdTok := .string ('"' :: k ++ ['"'])

/-- Texts of numbers and what they count for. -/
def IntsOf (vs : List Str) (is : List Int) : Prop := List.Forall₂ (IntOf charNumerals) vs is

/-- One statement, or several in a row. -/
inductive RdPart where
  | one (s : Stmt)
  | seq (ss : List Stmt)

/-- How statements are written. Statements in a row have periods between them; there is at least one. -/
inductive Wr : RdPart → List RdTok → Prop
  | single : Wr (.one (.op .promoteSingleChild)) [.word "PromoteSingleChild".toList, .lp, .rp]
  | grand : Wr (.one (.op .promoteGrandChildren)) [.word "PromoteGrandChildren".toList, .lp, .rp]
  | value {v i} (h : IntOf charNumerals v i) :
      Wr (.one (.op (.promoteChildValue i))) [.word "PromoteChildValue".toList, .lp, .number v, .rp]
  | removeChild {v i} (h : IntOf charNumerals v i) :
      Wr (.one (.op (.removeChild i))) [.word "RemoveChild".toList, .lp, .number v, .rp]
  | replace {v i} (h : IntOf charNumerals v i) :
      Wr (.one (.op (.replaceWithChild i))) [.word "ReplaceWithChild".toList, .lp, .number v, .rp]
  | childrenOf {v i} (h : IntOf charNumerals v i) :
      Wr (.one (.op (.promoteChildrenOf i))) [.word "PromoteChildrenOf".toList, .lp, .number v, .rp]
  | child {v i} (h : IntOf charNumerals v i) :
      Wr (.one (.op (.promoteChild i))) [.word "PromoteChild".toList, .lp, .number v, .rp]
  | removeChildren {vs is} (ne : vs ≠ []) (h : IntsOf vs is) :
      Wr (.one (.op (.removeChildren is))) (.word "RemoveChildren".toList :: .lp :: (commas (vs.map .number) ++ [.rp]))
  | removeAll {ks : List Str} (ne : ks ≠ []) :
      Wr (.one (.op (.removeAll ks))) (.word "RemoveAll".toList :: .lp :: (commas (ks.map inQuotes) ++ [.rp]))
  | nil : Wr (.one .skip) [.word "Nil".toList]
  | cond {v i k t e a b} (h : IntOf charNumerals v i) (ht : Wr (.seq t) a) (he : Wr (.seq e) b) :
      Wr (.one (.ifChildIs i k t e)) ([.word "If".toList, .lp, .word "ChildIs".toList, .lp, .number v, .comma, inQuotes k,
        .rp, .comma] ++ a ++ .comma :: (b ++ [.rp]))
  | last {s w} (h : Wr (.one s) w) : Wr (.seq [s]) w
  | more {s ss w v} (h : Wr (.one s) w) (rest : Wr (.seq ss) v) : Wr (.seq (s :: ss)) (w ++ .period :: v)

/-- How a whole definition is written: for each rule its name and its statements. -/
inductive DefWr : List (Str × List Stmt) → List RdTok → Prop
  | nil : DefWr [] []
  | cons {n ss w R v} (h : Wr (.seq ss) w) (rest : DefWr R v) : DefWr ((n, ss) :: R) (.rule n :: (w ++ v))

/-! ### Layout -/

/-- The tokens of one character: `(`, `)`, `,`. -/
def RdTok.ofByte : UInt8 → Option RdTok
  | 40 => some .lp
  | 41 => some .rp
  | 44 => some .comma
  | _ => none

/-- The token for a name. -/
def RdTok.ofName (w : Str) : RdTok := if w ∈ rdWords then .word w else .rule w

/-- The text is a layout of the tokens: white space and comments to the end of the line are skipped, names and
numbers are as long as they can be. Only digits are a number; digits followed by letters are a name. A
number may have a sign and a fraction. -/
inductive RdText : List UInt8 → List RdTok → Prop
  | done : RdText [] []
  | space {x s ts} (h : RxByte.space x = true) (rest : RdText s ts) : RdText (x :: s) ts
  | comment {c s ts} (hc : ∀ y ∈ c, y ≠ 10) (stop : ∀ y u, s = y :: u → y = 10) (rest : RdText s ts) :
      RdText (47 :: 47 :: (c ++ s)) ts
  | name {w s ts} (ne : w ≠ []) (h : ∀ x ∈ w, RxByte.word x = true) (nd : ∃ x ∈ w, RxByte.digit x = false)
      (stop : NoHead RxByte.word s) (rest : RdText s ts) : RdText (w ++ s) (RdTok.ofName (nameOf w) :: ts)
  | int {d s ts} (ne : d ≠ []) (h : ∀ x ∈ d, RxByte.digit x = true) (stop : NoHead RxByte.word s) (nf : NoFrac s)
      (rest : RdText s ts) : RdText (d ++ s) (.number (nameOf d) :: ts)
  | neg {d s ts} (ne : d ≠ []) (h : ∀ x ∈ d, RxByte.digit x = true) (stop : NoHead RxByte.digit s) (nf : NoFrac s)
      (rest : RdText s ts) : RdText (45 :: (d ++ s)) (.number (nameOf (45 :: d)) :: ts)
  | frac {m d f s ts} (hm : m = [] ∨ m = [45]) (hd : ∀ x ∈ d, RxByte.digit x = true) (ne : f ≠ [])
      (hf : ∀ x ∈ f, RxByte.digit x = true) (stop : NoHead RxByte.digit s) (rest : RdText s ts) :
      RdText (m ++ (d ++ 46 :: (f ++ s))) (.number (nameOf (m ++ (d ++ 46 :: f))) :: ts)
  | string {b s ts} (h : StrBody b) (rest : RdText s ts) :
      RdText (34 :: (b ++ 34 :: s)) (.string (nameOf (34 :: (b ++ [34]))) :: ts)
  | one {x t s ts} (h : RdTok.ofByte x = some t) (rest : RdText s ts) : RdText (x :: s) (t :: ts)
  | period {s ts} (stop : NoHead RxByte.digit s) (rest : RdText s ts) : RdText (46 :: s) (.period :: ts)

end Verif.Spec
