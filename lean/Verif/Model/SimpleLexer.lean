import Verif.Model.SetSymbol
/-
Model of lexer/simplelexer/lexer.go and of the rule table of lexer/simplelexer/construct.go
(`Add`, `addRule`, `InsertStart`, `InsertEnd`, `ByLength`, `ByPriority`). Strings are byte lists,
as in Go. The text format read by `New` is in Model/SimpleLexerText; the one written by `String` in Model/SimpleLexerString.
-/
namespace Verif.SimpleLexer
open Verif Verif.SetSymbol

/-- Go strings and byte slices (lexer.go:62, 73). -/
abbrev Bytes := List UInt8

/-- `*regexp.Regexp`, used through `FindIndex` only (lexer.go:128, 135): an arbitrary function from
the bytes searched to the bounds of a match, with the bounds inside the slice (Go's guarantee). -/
structure Re where
  find : Bytes → Option (Nat × Nat)
  bound : ∀ s a b, find s = some (a, b) → a ≤ b ∧ b ≤ s.length

/-- `rule` (lexer.go:45-50). -/
structure Rule where
  kind : Nat
  re : Re
  discard : Bool
  priority : Int

/-- `priorityThenLength` (lexer.go:38-40). -/
def priorityThenLength (e1 p1 e2 p2 : Int) : Bool := p1 < p2 || (p1 == p2 && e1 > e2)

/-- `lengthThenPriority` (lexer.go:41-43). -/
def lengthThenPriority (e1 p1 e2 p2 : Int) : Bool := e1 > e2 || (e1 == e2 && p1 < p2)

/-- `Lexer` (lexer.go:15-28); a `nil` entry of `rules` is `none`. -/
structure Lexer where
  order : List Nat
  rules : List (Option Rule)
  compare : Int → Int → Int → Int → Bool
  priorityCounter : Nat
  error : Bytes
  set : SymSet Bytes
  startKind : Bytes
  startVal : Bytes
  endKind : Bytes
  endVal : Bytes

/-- `ByLength` (lexer.go:32). -/
def byLength (l : Lexer) : Lexer := { l with compare := lengthThenPriority }

/-- `ByPriority` (lexer.go:36). -/
def byPriority (l : Lexer) : Lexer := { l with compare := priorityThenLength }

/-- `DefaultErrorString` (construct.go:12): "Error". -/
def defaultErrorString : Bytes := [69, 114, 114, 111, 114]

/-- `New` with no definition (construct.go:17-21). -/
def empty : Lexer :=
  { order := [], rules := [], compare := lengthThenPriority, priorityCounter := 0,
    error := defaultErrorString, set := SetSymbol.new, startKind := [], startVal := [],
    endKind := [], endVal := [] }

/-- `InsertStart` (construct.go:44-47). -/
def insertStart (l : Lexer) (kind val : Bytes) : Lexer := { l with startKind := kind, startVal := val }

/-- `InsertEnd` (construct.go:52-55). -/
def insertEnd (l : Lexer) (kind val : Bytes) : Lexer := { l with endKind := kind, endVal := val }

/-- `addRule` (construct.go:89-103): `none` is the "Duplicate Kind" error. The rule's priority
field is overwritten, so it is not an argument. -/
def addRule (l : Lexer) (kind : Nat) (re : Re) (discard : Bool) : Option Lexer :=
  let grown : Option (List (Option Rule)) :=
    match l.rules[kind]? with
    | some (some _) => none
    | some none => some l.rules
    | none => some (l.rules ++ List.replicate (1 + kind - l.rules.length) none)
  grown.map fun rs =>
    { l with
      rules := rs.set kind (some ⟨kind, re, discard, l.priorityCounter⟩)
      priorityCounter := l.priorityCounter + 1
      order := l.order ++ [kind] }

/-- `Add` (construct.go:81-87) for a kind given by its string (any `parlex.Symbol` whose `String()`
is `kind`; a symbol of the lexer's own set with that string gives the same index). Interning
happens before the duplicate check, so the set of the returned lexer has the kind in either case;
the boolean is `err == nil`. -/
def add (l : Lexer) (kind : Bytes) (re : Re) (discard : Bool) : Lexer × Bool :=
  let r := str l.set kind
  let l' := { l with set := r.1 }
  match addRule l' r.2 re discard with
  | some l'' => (l'', true)
  | none => (l', false)

/-- Kind of an emitted lexeme: a symbol of the lexer's set, or a plain string
(`lexeme.String`, lexeme.go:31-36, used for the inserted lexemes). -/
inductive Kind where
  | idx (i : Nat)
  | plain (s : Bytes)
  deriving DecidableEq

/-- `lexeme.Lexeme` (lexeme.go:14-18); `err` tells whether it is wrapped in `errLexeme`
(lexer.go:52-54). -/
structure Lx where
  kind : Kind
  val : Bytes
  line : Int
  col : Int
  err : Bool
  deriving DecidableEq

/-- `lexOp` (lexer.go:60-69). `next` and `rules` have the same length and are only read at equal
indices, so they are kept as one list of pairs; `set` is the set of the embedded lexer. -/
structure Op where
  next : List (Rule × Option (Nat × Nat))
  lxs : List Lx
  errFlag : Bool
  errStart : Nat
  cur : Nat
  lines : Nat
  set : SymSet Bytes

/-- `populateNext` (lexer.go:125-130): reading `r.re` of a `nil` rule panics. -/
def populateNext (b : Bytes) : List (Option Rule) → Out (List (Rule × Option (Nat × Nat)))
  | [] => .ok []
  | none :: _ => .panic
  | some r :: rs => (populateNext b rs).bind fun ns => .ok ((r, r.re.find b) :: ns)

/-- One entry of `updateNext` (lexer.go:133-142). -/
def refind (b : Bytes) (cur : Nat) (e : Rule × Option (Nat × Nat)) : Rule × Option (Nat × Nat) :=
  match e.2 with
  | none => e
  | some loc =>
    if loc.1 ≤ cur then
      (e.1, (e.1.re.find (b.drop cur)).map fun l => (l.1 + cur, l.2 + cur))
    else e

/-- `updateNext` (lexer.go:132-143). -/
def updateNext (b : Bytes) (op : Op) : Op := { op with next := op.next.map (refind b op.cur) }

/-- What `findNextMatch` has chosen so far: the kind index and discard flag of the rule (`lx.K` and
the flag read through it at lexer.go:95), value, `lxEnd`, `lxP`. -/
structure Choice where
  rule : Option Rule
  val : Bytes
  lxEnd : Nat
  lxP : Int

/-- `b[i:j]` (lexer.go:119, 156). -/
def slice (b : Bytes) (i j : Nat) : Bytes := (b.take j).drop i

/-- The loop of `findNextMatch` (lexer.go:151-161). -/
def choose (cmp : Int → Int → Int → Int → Bool) (b : Bytes) (cur : Nat) :
    Choice → List (Rule × Option (Nat × Nat)) → Choice
  | c, [] => c
  | c, (r, none) :: es => choose cmp b cur c es
  | c, (r, some loc) :: es =>
    if loc.1 = cur ∧ cmp loc.2 r.priority c.lxEnd c.lxP then
      choose cmp b cur ⟨some r, slice b loc.1 loc.2, loc.2, r.priority⟩ es
    else choose cmp b cur c es

/-- The byte '\n' (lexer.go:164, 166). -/
def nl : UInt8 := 10

/-- `strings.LastIndex(s, "\n")` (lexer.go:164). -/
def lastNl (s : Bytes) : Int :=
  match s.reverse.findIdx? (· == nl) with
  | some i => (s.length : Int) - 1 - i
  | none => -1

/-- `strings.Count(s, "\n")` (lexer.go:166). -/
def countNl (s : Bytes) : Nat := s.count nl

/-- `findNextMatch` (lexer.go:145-169): the choice, the position it is given and the new `lines`. -/
def findNextMatch (cmp : Int → Int → Int → Int → Bool) (b : Bytes) (op : Op) :
    Choice × Int × Int × Nat :=
  let c := choose cmp b op.cur ⟨none, [], op.cur, -1⟩ op.next
  (c, op.lines, op.cur - lastNl (b.take op.cur), op.lines + countNl c.val)

/-- `checkError` (lexer.go:114-123). -/
def checkError (error : Bytes) (b : Bytes) (op : Op) : Op :=
  if !op.errFlag || op.cur > b.length then op else
  let r := str op.set error
  { op with
    errFlag := false
    set := r.1
    lxs := op.lxs ++ [⟨.idx r.2, slice b op.errStart op.cur, -1, 0, true⟩] }

/-- The body of the loop in `Lex` up to the test for the end of input (lexer.go:86-99). When
`lxEnd == cur` the choice's `rule` is not read; otherwise a `none` rule would be a nil dereference. -/
def body (cmp : Int → Int → Int → Int → Bool) (error : Bytes) (b : Bytes) (op : Op) : Out Op :=
  let f := findNextMatch cmp b op
  let op := { op with lines := f.2.2.2 }
  if f.1.lxEnd = op.cur then
    .ok { op with
      errStart := if op.errFlag then op.errStart else op.cur
      errFlag := true
      cur := op.cur + 1 }
  else
    let op := checkError error b op
    match f.1.rule with
    | none => .panic
    | some r =>
      .ok { op with
        lxs := if r.discard then op.lxs else op.lxs ++ [⟨.idx r.kind, f.1.val, f.2.1, f.2.2.1, false⟩]
        cur := f.1.lxEnd }

/-- The loop of `Lex` (lexer.go:85-104). -/
def loop (cmp : Int → Int → Int → Int → Bool) (error : Bytes) (b : Bytes) : Nat → Op → Out Op
  | 0, _ => .fuel
  | n + 1, op =>
    (body cmp error b op).bind fun op =>
      if op.cur ≥ b.length then .ok op else loop cmp error b n (updateNext b op)

/-- The lexeme `lexeme.String(kind).Set(val)` (lexer.go:81, 108; lexeme.go:31-45). -/
def insertLx (kind val : Bytes) : Lx := ⟨.plain kind, val, -1, 0, false⟩

/-- `Lex` (lexer.go:73-112): the lexemes and the lexer afterwards (its set may have gained the
error kind). `lx.K.(*setsymbol.Symbol).Idx()` (line 95) is the index of the rule. -/
def lex (n : Nat) (l : Lexer) (b : Bytes) : Out (List Lx × Lexer) :=
  let start := if l.startKind ≠ [] then [insertLx l.startKind l.startVal] else []
  (populateNext b l.rules).bind fun next =>
  (loop l.compare l.error b n
      { next := next, lxs := start, errFlag := false, errStart := 0, cur := 0, lines := 0,
        set := l.set }).bind fun op =>
  let op := checkError l.error b op
  .ok (op.lxs ++ (if l.endKind ≠ [] then [insertLx l.endKind l.endVal] else []),
    { l with set := op.set })

end Verif.SimpleLexer
