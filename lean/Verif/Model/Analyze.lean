import Verif.Model.Packrat
/-
Model of analyze/analysis.go.
Symbols are indices of the set filled by `LoadGrammar`, as in the code; the queries take the string
of a symbol that does not belong to that set (the set is private, so no client holds its symbols).
The slices of length `ln` are functions of the index; indexing beyond `ln` panics. In
`nonterm2firsts` nil and empty are the same thing here: entries start nil and `fs` is only built by
`append` to a nil slice, which stays nil until something is appended (analysis.go:69, 81, 86).
-/
namespace Verif.Analyze
open Verif.Spec

/-- The slices filled by `firsts` (analysis.go:12-14, 16). -/
structure St where
  nonterm2firsts : Nat → List Nat
  nilInFirst : Nat → Bool
  terminals : Nat → Bool
  done : Nat → Bool

/-- The slices made by `Analyze` (analysis.go:35-38). -/
def St.init : St := ⟨fun _ => [], fun _ => false, fun _ => false, fun _ => false⟩

/-- Inner loop of `firsts` over the symbols of one production (analysis.go:77-88), given the
accumulated `fs` and `nilInFirst`. The loop ends with the production or once `doNext` is false. `rec`
is the recursive call. -/
def symLoop (ln : Nat) (prods : Nat → Option (List (List Nat)))
    (rec : St → Nat → Out (St × List Nat × Bool)) :
    St → List Nat → Bool → List Nat → Out (St × List Nat × Bool)
  | st, fs, nl, [] => .ok (st, fs, nl)
  | st, fs, nl, X :: p =>
    match prods X with
    | none =>
      if X < ln then .ok ({ st with terminals := upd st.terminals X true }, fs ++ [X], nl)
      else .panic
    | some _ => (rec st X).bind fun r =>
      if r.2.2 then symLoop ln prods rec r.1 (fs ++ r.2.1) (nl || r.2.2) p
      else .ok (r.1, fs ++ r.2.1, nl || r.2.2)

/-- Outer loop of `firsts` over the productions (analysis.go:71-89). -/
def prodLoop (ln : Nat) (prods : Nat → Option (List (List Nat)))
    (rec : St → Nat → Out (St × List Nat × Bool)) :
    St → List Nat → Bool → List (List Nat) → Out (St × List Nat × Bool)
  | st, fs, nl, [] => .ok (st, fs, nl)
  | st, fs, _, [] :: ps => prodLoop ln prods rec st fs true ps
  | st, fs, nl, (X :: p) :: ps => (symLoop ln prods rec st fs nl (X :: p)).bind fun r =>
      prodLoop ln prods rec r.1 r.2.1 r.2.2 ps

/-- `firsts` (analysis.go:62-93). Nil productions panic (method call on a nil interface). -/
def firsts (ln : Nat) (prods : Nat → Option (List (List Nat))) :
    Nat → St → Nat → Out (St × List Nat × Bool)
  | 0, _, _ => .fuel
  | n + 1, st, s =>
    if ln ≤ s then .panic
    else if st.done s then .ok (st, st.nonterm2firsts s, st.nilInFirst s)
    else
      match prods s with
      | none => .panic
      | some ps =>
        (prodLoop ln prods (firsts ln prods n) { st with done := upd st.done s true } [] false
          ps).bind fun r =>
          .ok ({ r.1 with nonterm2firsts := upd r.1.nonterm2firsts s r.2.1,
                          nilInFirst := upd r.1.nilInFirst s r.2.2 }, r.2.1, r.2.2)

/-- Loop over the nonterminals (analysis.go:42-44). -/
def ntLoop (ln : Nat) (prods : Nat → Option (List (List Nat))) (fuel : Nat) :
    St → List Nat → Out St
  | st, [] => .ok st
  | st, s :: ss => (firsts ln prods fuel st s).bind fun r => ntLoop ln prods fuel r.1 ss

/-- Body of the second loop of `Analyze` for one first symbol (analysis.go:48-56). A nil
`first2nonterms[first]` is `none`. -/
def addFirst (ln symbol : Nat) (f : Nat → Option (Nat → Bool)) (first : Nat) :
    Out (Nat → Option (Nat → Bool)) :=
  if first < ln then
    let nonterms := (f first).getD fun _ => false
    .ok (upd f first (some (upd nonterms symbol true)))
  else .panic

/-- Loop over the firsts of one symbol (analysis.go:48-56). -/
def addFirsts (ln symbol : Nat) : (Nat → Option (Nat → Bool)) → List Nat →
    Out (Nat → Option (Nat → Bool))
  | f, [] => .ok f
  | f, x :: xs => (addFirst ln symbol f x).bind fun f' => addFirsts ln symbol f' xs

/-- Second loop of `Analyze` over the symbols (analysis.go:47-57). -/
def invert (ln : Nat) (n2f : Nat → List Nat) : (Nat → Option (Nat → Bool)) → List Nat →
    Out (Nat → Option (Nat → Bool))
  | f, [] => .ok f
  | f, s :: ss => (addFirsts ln s f (n2f s)).bind fun f' => invert ln n2f f' ss

/-- `Analytics` (analysis.go:9-17), without the embedded grammar. -/
structure Analytics (α : Type) where
  first2nonterms : Nat → Option (Nat → Bool)
  st : St
  set : SetSymbol.SymSet α

variable {α : Type} [DecidableEq α]

/-- `LoadGrammar` on a new set (set.go:281-290). -/
def loadGrammar (g : Grammar α) : Out (SetSymbol.SymSet α) :=
  (Packrat.grammarSyms g g.order).bind fun syms => .ok (SetSymbol.castSyms SetSymbol.new syms).1

/-- `Analyze` (analysis.go:21-60) on a grammar that is not itself an `*Analytics` (those are returned
unchanged). Inside `firsts` the code calls `a.set.Symbol` on symbols of the grammar, which are all in
the set already and so leave it unchanged; `idxProds` does these lookups. -/
def analyze (g : Grammar α) (fuel : Nat) : Out (Analytics α) :=
  (loadGrammar g).bind fun set =>
    let ln := SetSymbol.size set
    (ntLoop ln (Packrat.idxProds g set) fuel St.init (g.order.map (Packrat.symIdx set))).bind fun st =>
      (invert ln st.nonterm2firsts (fun _ => none) (List.range ln)).bind fun f =>
        .ok ⟨f, st, set⟩

/-- `Contains` (analysis.go:97-104). -/
def contains (a : Analytics α) (x : α) : Bool :=
  match a.set.str2sym x with
  | none => false
  | some i => !(a.st.nonterm2firsts i).isEmpty || a.st.terminals i

/-- `NonTerminal` (analysis.go:107-117). -/
def nonTerminal (a : Analytics α) (x : α) : Bool :=
  match a.set.str2sym x with
  | none => false
  | some i => if SetSymbol.size a.set ≤ i then false else !(a.st.nonterm2firsts i).isEmpty

/-- `HasFirst` (analysis.go:121-135). -/
def hasFirst (a : Analytics α) (symbol first : α) : Bool :=
  match a.set.str2sym first with
  | none => false
  | some f =>
    match a.set.str2sym symbol with
    | none => false
    | some s =>
      match a.first2nonterms f with
      | none => decide (s = f)
      | some nonterms => nonterms s

/-- `HasNilInFirst` (analysis.go:139-145). -/
def hasNilInFirst (a : Analytics α) (x : α) : Bool :=
  match a.set.str2sym x with
  | none => false
  | some i => a.st.nilInFirst i

end Verif.Analyze
