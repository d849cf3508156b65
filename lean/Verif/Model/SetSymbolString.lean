import Verif.Model.Grammar
/-
Model of the printing of productions in symbol/setsymbol/set.go.
-/
namespace Verif.SetSymbolString
open Verif.Spec Verif.SetSymbol

/-- `String` of a production (set.go:165-171): a nil production panics, as does an index beyond the table. -/
def prodString (s : SymSet Str) : Option (List Nat) → Out Str
  | none => .panic
  | some p => (readSyms s p).bind fun ns => .ok (Grammar.join [' '] ns)

/-- The loop of `String` of productions (set.go:211-217): one text for each production. -/
def prodTexts (s : SymSet Str) : List (List Nat) → Out (List Str)
  | [] => .ok []
  | p :: ps => (readSyms s p).bind fun ns => (prodTexts s ps).bind fun ts =>
      .ok (("[".toList ++ Grammar.join ", ".toList ns ++ "]".toList) :: ts)

/-- `String` of productions (set.go:206-220); `none` is nil. -/
def prodsString (s : SymSet Str) : Option (List (List Nat)) → Out Str
  | none => .ok "{nil}".toList
  | some ps => (prodTexts s ps).bind fun ts => .ok ("{".toList ++ Grammar.join [' '] ts ++ "}".toList)

end Verif.SetSymbolString
