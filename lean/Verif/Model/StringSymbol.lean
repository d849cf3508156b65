import Verif.Model.Grammar
/-
Model of symbol/stringsymbol/symbol.go. Symbols, productions and sets of productions of other packages are given by what their methods return;
`none` is a nil interface. A nil slice is the empty one.
-/
namespace Verif.StringSymbol
open Verif.Spec

/-- `parlex.Symbol` (interfaces.go): a `Symbol` of this package (symbol.go:11) or another one, by what `String` returns. -/
inductive Sym where
  | own (s : Str)
  | other (s : Str)

/-- `parlex.Production` (interfaces.go): a `Production` of this package (symbol.go:26) or another one, by what `Symbol` returns for
the indices below `Symbols`. -/
inductive Prod where
  | own (p : List Str)
  | other (p : List (Option Sym))

/-- `parlex.Productions` (interfaces.go): `Productions` of this package (symbol.go:79) or others, by what `Production` returns for
the indices below `Productions`. -/
inductive Prods where
  | own (p : List (List Str))
  | other (p : List (Option Prod))

/-- `CastSymbol` (symbol.go:18-23): `String` of a nil symbol panics. -/
def castSymbol : Option Sym → Out Str
  | some (.own s) => .ok s
  | some (.other s) => .ok s
  | none => .panic

/-- A loop filling a slice (symbol.go:47-49, 99-101). -/
def fill {α β : Type} (f : α → Out β) : List α → Out (List β)
  | [] => .ok []
  | x :: xs => (f x).bind fun y => (fill f xs).bind fun ys => .ok (y :: ys)

/-- `CastProduction` (symbol.go:38-51). -/
def castProduction : Option Prod → Out (List Str)
  | some (.own p) => .ok p
  | none => .ok []
  | some (.other p) => fill castSymbol p

/-- `CastProductions` (symbol.go:90-103). -/
def castProductions : Option Prods → Out (List (List Str))
  | some (.own p) => .ok p
  | none => .ok []
  | some (.other p) => fill castProduction p

/-- `String` (symbol.go:54-60). -/
def string (p : List Str) : Str := Grammar.join [' '] p

/-- `Symbol` (symbol.go:71-76) and `Production` (symbol.go:114-119): `none` is nil; a negative index panics. -/
def at' {α : Type} (p : List α) (i : Int) : Out (Option α) :=
  if i < p.length then (if i < 0 then .panic else .ok p[i.toNat]?) else .ok none

end Verif.StringSymbol
