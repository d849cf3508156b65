import Verif.Model.Basic
/-
Model of helpers.go (iterators, LexErrors) and parlex.go (Run, Runner).
-/
namespace Verif.Helpers

/-- `ProductionIterator` (helpers.go:115-120). `prod = none` is a nil `Production`; a production is
given by the values `Symbol(0) .. Symbol(Symbols()-1)`, each possibly nil (`none`). `cur` is the
embedded `Symbol`. -/
structure PIter (β : Type) where
  cur : Option β
  prod : Option (List (Option β))
  ln : Nat
  idx : Nat

/-- `(*Production).Iter` (set.go:131-135): a fresh iterator. -/
def iter {β : Type} (p : Option (List (Option β))) : PIter β := ⟨none, p, 0, 0⟩

/-- Tail of `ProductionIterator.Next` (helpers.go:136-140), after `ln`/`Idx` were updated. -/
def PIter.fetch {β : Type} (it : PIter β) : PIter β × Bool :=
  if it.idx ≥ it.ln then (it, false)
  else
    let s := ((it.prod.getD [])[it.idx]?).join
    ({ it with cur := s }, s.isSome)

/-- `ProductionIterator.Next` (helpers.go:124-141). -/
def PIter.next {β : Type} (it : PIter β) : PIter β × Bool :=
  if it.ln = 0 then
    match it.prod with
    | none => (it, false)
    | some p =>
      if p.length = 0 then ({ it with ln := 0 }, false)
      else PIter.fetch { it with ln := p.length }
  else PIter.fetch { it with idx := it.idx + 1 }

/-- `ProductionsIterator` (helpers.go:144-149); `cur` is the embedded `Production`. -/
structure PsIter (π : Type) where
  cur : Option π
  prods : Option (List π)
  ln : Nat
  idx : Nat

/-- `(*Productions).Iter` (set.go:199-203). -/
def iters {π : Type} (p : Option (List π)) : PsIter π := ⟨none, p, 0, 0⟩

/-- Tail of `ProductionsIterator.Next` (helpers.go:165-169). -/
def PsIter.fetch {π : Type} (it : PsIter π) : PsIter π × Bool :=
  if it.idx ≥ it.ln then (it, false)
  else ({ it with cur := (it.prods.getD [])[it.idx]? }, true)

/-- `ProductionsIterator.Next` (helpers.go:153-170). -/
def PsIter.next {π : Type} (it : PsIter π) : PsIter π × Bool :=
  if it.ln = 0 then
    match it.prods with
    | none => (it, false)
    | some p =>
      if p.length = 0 then ({ it with ln := 0 }, false)
      else PsIter.fetch { it with ln := p.length }
  else PsIter.fetch { it with idx := it.idx + 1 }

/-- A lexeme as seen by `LexErrors`: `asErr l` is the result of the type assertion
`lx.(LexError)` (helpers.go:102). -/
def lexErrors {L E : Type} (asErr : L → Option E) : List L → List E
  | [] => []
  | l :: ls => match asErr l with
    | some e => e :: lexErrors asErr ls
    | none => lexErrors asErr ls

/-- Error values returned by `Run` (parlex.go:4-29; the sentinels are in interfaces.go). -/
inductive RunErr (E : Type) where
  | couldNotLex
  | lexErr (e : E)
  | couldNotParse
  | couldNotReduce
  deriving DecidableEq, Repr

/-- The reducer loop of `Run` (parlex.go:19-26): `none` in the list is a nil reducer, a reducer
returning `none` returned nil. -/
def runReducers {T : Type} : List (Option (T → Option T)) → T → Option T
  | [], t => some t
  | none :: rs, t => runReducers rs t
  | some r :: rs, t => match r t with
    | none => none
    | some t' => runReducers rs t'

/-- `Run` (parlex.go:4-29). A lexer is a function to a possibly nil slice of lexemes, a parser a
function from lexemes to a possibly nil tree. The pair `(ParseNode, error)` is `Except`-like:
`inl` the error with a nil tree, `inr` the tree with a nil error (every return statement of `Run`
has this form). -/
def run {I L E T : Type} (asErr : L → Option E) (input : I) (lexer : I → Option (List L))
    (parser : List L → Option T) (reducers : List (Option (T → Option T))) : RunErr E ⊕ T :=
  match lexer input with
  | none => .inl .couldNotLex
  | some ls =>
    match lexErrors asErr ls with
    | e :: _ => .inl (.lexErr e)
    | [] =>
      match parser ls with
      | none => .inl .couldNotParse
      | some t =>
        match runReducers reducers t with
        | none => .inl .couldNotReduce
        | some t' => .inr t'

/-- `Runner` (parlex.go:33-37). -/
structure Runner (I L T : Type) where
  lexer : I → Option (List L)
  parser : List L → Option T
  reducers : List (Option (T → Option T))

/-- `New` (parlex.go:40-46). -/
def newRunner {I L T : Type} (lexer : I → Option (List L)) (parser : List L → Option T)
    (reducers : List (Option (T → Option T))) : Runner I L T := ⟨lexer, parser, reducers⟩

/-- `(*Runner).Run` (parlex.go:49-51). -/
def Runner.run {I L E T : Type} (asErr : L → Option E) (r : Runner I L T) (input : I) :
    RunErr E ⊕ T := Helpers.run asErr input r.lexer r.parser r.reducers

end Verif.Helpers
