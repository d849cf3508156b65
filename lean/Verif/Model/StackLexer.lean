import Verif.Model.SimpleLexer
/-
Model of lexer/stacklexer/lex.go: lexing with a stack of sub-lexers. How `New` builds the sub-lexers
from a definition is in Verif/Model/StackLexerNew.
-/
namespace Verif.StackLexer
open Verif Verif.SetSymbol
open Verif.SimpleLexer (Bytes Lx Kind lastNl countNl slice insertLx)

/-- `*regexp.Regexp`, used through `FindSubmatchIndex` only (lex.go:99, 169): an arbitrary function
from the bytes searched to the bounds of the match and of its groups (`-1, -1` for a group that took
no part), all bounds inside the slice and as many groups as the expression has (`num`) — Go's
guarantees. -/
structure Re where
  num : Nat
  find : Bytes → Option (Nat × Nat × List (Int × Int))
  bound : ∀ s a b g, find s = some (a, b, g) → a ≤ b ∧ b ≤ s.length
  groups : ∀ s a b g, find s = some (a, b, g) → g.length = num ∧
    ∀ x ∈ g, x = (-1, -1) ∨ (0 ≤ x.1 ∧ x.1 ≤ x.2 ∧ x.2 ≤ s.length)

/-- `submatch` (construct.go:53-56). -/
structure Submatch where
  section_ : Int
  str : Bytes

/-- `rule` (construct.go:43-51). `submatches == nil` is `none`; `push == ""` is `[]`. -/
structure Rule where
  kind : Nat
  re : Re
  discard : Bool
  priority : Int
  push : Bytes
  pop : Nat
  submatches : Option (List Submatch)

/-- `subLexer` (construct.go:31-41) as far as lexing uses it; a `nil` rule is `none`. -/
structure Sub where
  rules : List (Option Rule)

/-- `priorityThenLength` (construct.go:279-281). -/
def priorityThenLength (e1 p1 e2 p2 : Int) : Bool := p2 == -1 || p1 < p2 || (p1 == p2 && e1 > e2)

/-- `lengthThenPriority` (construct.go:282-284). -/
def lengthThenPriority (e1 p1 e2 p2 : Int) : Bool := e1 > e2 || (e1 == e2 && (p2 == -1 || p1 < p2))

/-- `StackLexer` (construct.go:17-29). -/
structure Lexer where
  lexers : Bytes → Option Sub
  start : Option Sub
  set : SymSet Bytes
  error : Bytes
  compare : Int → Int → Int → Int → Bool
  startKind : Bytes
  startVal : Bytes
  endKind : Bytes
  endVal : Bytes

/-- `ByLength` (construct.go:267-270). -/
def byLength (l : Lexer) : Lexer := { l with compare := lengthThenPriority }

/-- `ByPriority` (construct.go:274-277). -/
def byPriority (l : Lexer) : Lexer := { l with compare := priorityThenLength }

/-- `InsertStart` (construct.go:143-146). -/
def insertStart (l : Lexer) (kind val : Bytes) : Lexer := { l with startKind := kind, startVal := val }

/-- `InsertEnd` (construct.go:151-154). -/
def insertEnd (l : Lexer) (kind val : Bytes) : Lexer := { l with endKind := kind, endVal := val }

/-- An element of `next`: the result of `FindSubmatchIndex` with the search offset appended
(lex.go:99-103). -/
structure Loc where
  a : Nat
  e : Nat
  groups : List (Int × Int)
  off : Nat

/-- `lexOp` (lex.go:10-23). `next` has an entry for every kind of the set, all `nil` beyond the rules
of the current sub-lexer; it is only read together with the rule of the same index, so it is kept as a
list of pairs. `errKind` is `err.kind`. -/
structure Op where
  sub : Sub
  stack : List Sub
  next : List (Option Rule × Option Loc)
  lxs : List Lx
  errFlag : Bool
  errStart : Nat
  cur : Nat
  lines : Nat

/-- A search from `cur` (lex.go:99-103, 169-173). -/
def findFrom (b : Bytes) (cur : Nat) (r : Rule) : Option Loc :=
  (r.re.find (b.drop cur)).map fun x => ⟨x.1, x.2.1, x.2.2, cur⟩

/-- `populateNext` (lex.go:95-106). -/
def populateNext (b : Bytes) (op : Op) : Op :=
  { op with next := op.sub.rules.map fun r =>
      match r with
      | none => (none, none)
      | some r => (some r, findFrom b op.cur r) }

/-- One entry of `updateNext` (lex.go:167-175). An entry with a match has a rule. -/
def refind (b : Bytes) (cur : Nat) (x : Option Rule × Option Loc) : Option Rule × Option Loc :=
  match x with
  | (some r, some loc) => if loc.a + loc.off ≤ cur then (some r, findFrom b cur r) else x
  | _ => x

/-- `updateNext` (lex.go:166-176). -/
def updateNext (b : Bytes) (op : Op) : Op := { op with next := op.next.map (refind b op.cur) }

/-- The loop of `findNextMatch` (lex.go:113-121): the rule and match chosen so far. The ends compared
are relative to the offsets of the searches. -/
def choose (cmp : Int → Int → Int → Int → Bool) (cur : Nat) :
    Option (Rule × Loc) → List (Option Rule × Option Loc) → Option (Rule × Loc)
  | c, [] => c
  | c, (some tr, some loc) :: xs =>
    if loc.a + loc.off = cur then
      match c with
      | none => choose cmp cur (some (tr, loc)) xs
      | some (r, idx) =>
        if cmp loc.e tr.priority idx.e r.priority then choose cmp cur (some (tr, loc)) xs
        else choose cmp cur c xs
    else choose cmp cur c xs
  | c, _ :: xs => choose cmp cur c xs

/-- The bounds of a section: `idx[2*section], idx[2*section+1]` (lex.go:135); `none` is an index out
of range (the offset appended at the end has no partner, so it is never half of a pair). -/
def sectionOf (loc : Loc) (s : Int) : Option (Int × Int) :=
  if s < 0 then none else
  match s.toNat with
  | 0 => some (loc.a, loc.e)
  | k + 1 => loc.groups[k]?

/-- `string(op.b[i:j])` (lex.go:135) with Go's bounds check. -/
def goSlice (b : Bytes) (i j : Int) : Out Bytes :=
  if 0 ≤ i ∧ i ≤ j ∧ j ≤ b.length then .ok (slice b i.toNat j.toNat) else .panic

/-- The text contributed by one element of `r.submatches` (lex.go:132-136). -/
def subPiece (b : Bytes) (loc : Loc) (s : Submatch) : Out Bytes :=
  if s.section_ = -1 then .ok s.str else
  match sectionOf loc s.section_ with
  | none => .panic
  | some (i, j) => goSlice b (loc.off + i) (loc.off + j)

/-- The loop over `r.submatches` (lex.go:131-137). -/
def subValue (b : Bytes) (loc : Loc) : List Submatch → Out Bytes
  | [] => .ok []
  | s :: ss =>
    (subPiece b loc s).bind fun v =>
    (subValue b loc ss).bind fun vs => .ok (v ++ vs)

/-- The value of the lexeme (lex.go:130-142). -/
def value (b : Bytes) (r : Rule) (loc : Loc) : Out Bytes :=
  match r.submatches with
  | some ss => subValue b loc ss
  | none => .ok (slice b (loc.off + loc.a) (loc.off + loc.e))

/-- The column computed by `handleLineCol` (lex.go:149-150). -/
def colAt (b : Bytes) (cur : Nat) : Int := cur - lastNl (b.take cur)

/-- `checkError` (lex.go:154-164), with `handleLineCol` (147-152). -/
def checkError (ek : Nat) (b : Bytes) (op : Op) : Op :=
  if !op.errFlag || op.cur > b.length then op else
  let val := slice b op.errStart op.cur
  { op with
    errFlag := false
    lines := op.lines + countNl val
    lxs := op.lxs ++ [⟨.idx ek, val, op.lines, colAt b op.cur - val.length, true⟩] }

/-- `setError` (lex.go:186-192). -/
def setError (op : Op) : Op :=
  if op.errFlag then op else { op with errFlag := true, errStart := op.cur }

/-- `pop` (lex.go:85-93): panics when the stack is empty. -/
def pop (b : Bytes) (i : Nat) (op : Op) : Out Op :=
  let ln := op.stack.length - i
  match op.stack[ln]? with
  | none => .panic
  | some s => .ok (populateNext b { op with sub := s, stack := op.stack.take ln })

/-- What the loop of `lex` does after an iteration (lex.go:49-80): leave it, or go round again. -/
inductive Next where
  | done (op : Op)
  | more (op : Op)

/-- The branch of the loop of `lex` where no rule took over (lex.go:51-62): an error, or back to the
sub-lexer below. -/
def stopStep (b : Bytes) (op : Op) : Out Next :=
  if op.stack.length = 0 then
    if op.cur + 1 ≥ b.length then .ok (.done { setError op with cur := op.cur + 1 })
    else .ok (.more { setError op with cur := op.cur + 1 })
  else (pop b 1 op).bind fun op => .ok (.more op)

/-- The end of the loop of `lex` (lex.go:68-79), after a token. Pushing an undefined sub-lexer panics
in `populateNext` (nil dereference). -/
def moveStep (lexers : Bytes → Option Sub) (b : Bytes) (r : Rule) (op : Op) : Out Next :=
  if op.cur ≥ b.length then .ok (.done op)
  else if r.pop > 0 then (pop b r.pop op).bind fun op => .ok (.more op)
  else if r.push ≠ [] then
    match lexers r.push with
    | none => .panic
    | some s => .ok (.more (populateNext b { op with stack := op.stack ++ [op.sub], sub := s }))
  else .ok (.more (updateNext b op))

/-- One iteration of the loop of `lex` (lex.go:49-80), with the rest of `findNextMatch` (122-145). -/
def body (cmp : Int → Int → Int → Int → Bool) (lexers : Bytes → Option Sub) (ek : Nat) (b : Bytes)
    (op : Op) : Out Next :=
  match choose cmp op.cur none op.next with
  | none => stopStep b op
  | some (r, loc) =>
    (value b r loc).bind fun val =>
    let txt := slice b (loc.off + loc.a) (loc.off + loc.e)
    let lx : Lx := ⟨.idx r.kind, val, op.lines, colAt b op.cur, false⟩
    let op := { op with lines := op.lines + countNl txt }
    if loc.off + loc.e = op.cur then stopStep b op
    else
      let op := checkError ek b op
      moveStep lexers b r { op with
        lxs := if r.discard then op.lxs else op.lxs ++ [lx]
        cur := loc.off + loc.e }

/-- The loop of `lex` (lex.go:49-80). -/
def loop (cmp : Int → Int → Int → Int → Bool) (lexers : Bytes → Option Sub) (ek : Nat) (b : Bytes) :
    Nat → Op → Out Op
  | 0, _ => .fuel
  | n + 1, op =>
    (body cmp lexers ek b op).bind fun
      | .done op => .ok op
      | .more op => loop cmp lexers ek b n op

/-- `consumeRemainingAsError` (lex.go:178-184). -/
def consumeRemainingAsError (b : Bytes) (op : Op) : Op :=
  if op.cur ≥ b.length then op else { setError op with cur := b.length }

/-- `Lex` (lex.go:26-46) and `lex` (48-83): the lexemes and the lexer afterwards (its set has gained
the error kind). Without any sub-lexer `start` is nil and reading `op.Error` panics. -/
def lex (n : Nat) (l : Lexer) (b : Bytes) : Out (List Lx × Lexer) :=
  match l.start with
  | none => .panic
  | some s =>
    let ek := str l.set l.error
    let start := if l.startKind ≠ [] then [insertLx l.startKind l.startVal] else []
    (loop l.compare l.lexers ek.2 b n (populateNext b
      { sub := s, stack := [], next := [], lxs := start, errFlag := false, errStart := 0, cur := 0,
        lines := 1 })).bind fun op =>
    let op := checkError ek.2 b (consumeRemainingAsError b op)
    .ok (op.lxs ++ (if l.endKind ≠ [] then [insertLx l.endKind l.endVal] else []),
      { l with set := ek.1 })

end Verif.StackLexer
