import Verif.Model.SetSymbol
import Verif.Spec.GrammarDef
/-
Model of grammar/grammar.go. Symbol names are of any type for Add and the queries; New and String use
text (`List Char`: strings are assumed to be valid UTF-8, so that runes and characters coincide).
The fields `longest` and `totalCount` of `Grammar` are never read and left out.
-/
namespace Verif.Grammar
open Verif.SetSymbol Verif.Spec

section
variable {α : Type} [DecidableEq α]

/-- `Grammar` (grammar.go:61-67): `productions` is indexed by symbol, nil entries are `none`. -/
structure Gram (α : Type) where
  order : List Nat
  productions : List (Option (List (List Nat)))
  set : SymSet α

/-- `Empty` (grammar.go:112-117). -/
def empty : Gram α := ⟨[], [], SetSymbol.new⟩

/-- The code shared by `New` (grammar.go:90-103) and `Add` (153-165): append production `p` to the
productions of index `f`, extending the slice with nil entries if needed. Casting the production
(which may intern symbols) happens in the caller of this function; the code does it in between, which
makes no difference as `productions` does not depend on it. -/
def addIdx (g : Gram α) (f : Nat) (p : List Nat) : Gram α :=
  let ps := if f < g.productions.length then g.productions
    else g.productions ++ List.replicate (1 + f - g.productions.length) none
  match ps[f]?.join with
  | none => { g with productions := ps.set f (some [p]), order := g.order ++ [f] }
  | some qs => { g with productions := ps.set f (some (qs ++ [p])) }

/-- `Add` (grammar.go:147-166). A nil production (`none`) is the empty production. A nil symbol
panics (method call on the nil result of `Symbol`). -/
def add (g : Gram α) (from_ : SymArg α) (to : Option (List (SymArg α))) : Out (Gram α) :=
  match symbol g.set from_ with
  | (_, none) => .panic
  | (s, some f) => (production s (to.getD [])).bind fun r => .ok (addIdx { g with set := r.1 } f r.2)

/-- `Productions` (grammar.go:122-132): interns its argument; `none` is nil. -/
def productions (g : Gram α) (a : SymArg α) : Out (Gram α × Option (List (List Nat))) :=
  match symbol g.set a with
  | (_, none) => .panic
  | (s, some i) => .ok ({ g with set := s }, g.productions[i]?.join)

/-- The productions as a client reads them (set.go:262-270, 182-190, 107). -/
def readProds (s : SymSet α) : List (List Nat) → Out (List (List α))
  | [] => .ok []
  | p :: ps => (readSyms s p).bind fun x => (readProds s ps).bind fun xs => .ok (x :: xs)

/-- `Productions` (grammar.go:122-132) followed by reading the result. -/
def readProductions (g : Gram α) (a : SymArg α) : Out (Option (List (List α))) :=
  (productions g a).bind fun r =>
    match r.2 with
    | none => .ok none
    | some ps => (readProds r.1.set ps).bind fun xs => .ok (some xs)

/-- `NonTerminals` (grammar.go:138-144) followed by `String()` on every symbol. `ByIdx` is total on
the indices in `order`. -/
def nonTerminals (g : Gram α) : Out (List α) := readSyms g.set g.order

/-- A grammar as clients read it through the interface (grammar.go:122-132, 138-144). -/
def view (g : Gram Str) : Spec.Grammar Str where
  order := match nonTerminals g with | .ok l => l | _ => []
  prods x := match readProductions g (.other x) with | .ok r => r | _ => none

/-- How a client names a symbol, the argument of `g.set.Symbol` (grammar.go:123, 148): with a foreign symbol, or with the grammar's own symbol (obtained
from an earlier query) if there is one. -/
def arg (s : SymSet α) (x : Bool × α) : SymArg α :=
  match x.1, s.str2sym x.2 with
  | true, some i => .own i
  | _, _ => .other x.2

/-- Calls of a client on a grammar (grammar.go:122, 138, 147). -/
inductive GOp (α : Type) where
  | add (A : Bool × α) (p : Option (List (Bool × α)))
  | productions (A : Bool × α)
  | nonTerminals

/-- State after a call (grammar.go:122-166). -/
def gstep (g : Gram α) : GOp α → Out (Gram α)
  | .add A p => add g (arg g.set A) (p.map (·.map (arg g.set)))
  | .productions A => (productions g (arg g.set A)).bind fun r => .ok r.1
  | .nonTerminals => (nonTerminals g).bind fun _ => .ok g

/-- State after a history of calls (grammar.go:122-166). -/
def grun (g : Gram α) : List (GOp α) → Out (Gram α)
  | [] => .ok g
  | o :: os => (gstep g o).bind fun g' => grun g' os

end

/-! ### Text -/

/-- `strings.Split` with a one-character separator (grammar.go:19, 79). -/
def split (c : Char) : Str → List Str
  | [] => [[]]
  | x :: xs =>
    if x = c then [] :: split c xs
    else match split c xs with
      | [] => [[x]]
      | p :: ps => (x :: p) :: ps

/-- `strings.Split(s, "->")` (grammar.go:44). -/
def splitArrow : Str → List Str
  | [] => [[]]
  | [x] => [[x]]
  | x :: y :: xs =>
    if x = '-' ∧ y = '>' then [] :: splitArrow xs
    else match splitArrow (y :: xs) with
      | [] => [[x]]
      | p :: ps => (x :: p) :: ps

/-- `strings.TrimSpace` (grammar.go:19, 22, 40, 48). -/
def trimSpace (s : Str) : Str := ((s.dropWhile isSpace).reverse.dropWhile isSpace).reverse

/-- `trimAndSplit` (grammar.go:17-29), the strings interned. -/
def toks (str : Str) : List Str := ((split ' ' (trimSpace str)).map trimSpace).filter (· ≠ [])

/-- `productionFromLine` (grammar.go:39-57): `none` is ErrBadGrammar; otherwise the set after
interning, the nonterminal or nil and the production or nil. -/
def productionFromLine (s : SymSet Str) (line : Str) : Option (SymSet Str × Option Nat × Option (List Nat)) :=
  let line := trimSpace line
  if line.length = 0 then some (s, none, none)
  else
    match splitArrow line with
    | [] => some (s, none, none)
    | [p0] => let r := castSyms s (toks p0); some (r.1, none, some r.2)
    | [p0, p1] =>
      let ntstr := trimSpace p0
      if ntstr ≠ [] then
        let q := str s ntstr
        let r := castSyms q.1 (toks p1)
        some (r.1, some q.2, some r.2)
      else
        let r := castSyms s (toks p1)
        some (r.1, none, some r.2)
    | _ => none

/-- Loop of `New` (grammar.go:79-104); `cur = none` is -1. -/
def newLoop (g : Gram Str) (cur : Option Nat) : List Str → Option (Gram Str)
  | [] => some g
  | line :: lines =>
    match productionFromLine g.set line with
    | none => none
    | some (s, _, none) => newLoop { g with set := s } cur lines
    | some (s, some nt, some p) => newLoop (addIdx { g with set := s } nt p) (some nt) lines
    | some (s, none, some p) =>
      match cur with
      | some c => newLoop (addIdx { g with set := s } c p) (some c) lines
      | none => let r := str s "START".toList
        newLoop (addIdx { g with set := r.1 } r.2 p) (some r.2) lines

/-- `New` (grammar.go:73-106): `none` is an error. -/
def new (text : Str) : Option (Gram Str) := newLoop empty none (split '\n' text)

/-- `fmt.Sprintf("%-<w>s", s)` (grammar.go:182, 188, 190): padding on the right to width `w`. -/
def pad (w : Nat) (s : Str) : Str := s ++ List.replicate (w - s.length) ' '

/-- `strings.Join(_, sep)` (grammar.go:193, set.go:170). -/
def join (sep : Str) : List Str → Str
  | [] => []
  | [s] => s
  | s :: ss => s ++ sep ++ join sep ss

/-- One line of `String` (grammar.go:188, 190): the nonterminal padded, the arrow, and
`Production.String` (set.go:165-171). -/
def fmtLine (w : Nat) (nt : Str) (p : List Str) : Str := pad w nt ++ " -> ".toList ++ join [' '] p

/-- Lines for one nonterminal (grammar.go:184-191). Without productions `iter.Production` would be
nil. -/
def fmtNT (w : Nat) (nt : Str) : List (List Str) → List Str
  | [] => [pad w nt ++ " -> %!s(<nil>)".toList]
  | p :: ps => fmtLine w nt p :: ps.map (fmtLine w [])

/-- Reads the productions of all nonterminals (grammar.go:174-180 and 184-191; the code reads them
twice). The queries do not change the grammar because all its nonterminals are interned. -/
def readAll (g : Gram Str) : List Str → Out (List (Str × List (List Str)))
  | [] => .ok []
  | nt :: nts => (readProductions g (.other nt)).bind fun ps => (readAll g nts).bind fun r =>
      .ok ((nt, ps.getD []) :: r)

/-- `String` (grammar.go:170-194). `SymLen` (helpers.go:110-112) is the length in runes. `longest` starts at -1 in the code; that only matters when there are
no nonterminals, and then it is not used. -/
def string (g : Gram Str) : Out Str :=
  (nonTerminals g).bind fun nts => (readAll g nts).bind fun rows =>
    let w := (nts.map List.length).foldl max 0
    .ok (join ['\n'] (rows.flatMap fun r => fmtNT w r.1 r.2))

end Verif.Grammar
