import Verif.Model.Int64
import Verif.Model.StackLexer
/-
Model of `New` of lexer/stacklexer/construct.go: how the sub-lexers are built, with inheritance.

Finding the headers (`subParserDef`) and matching the lines (`subParserLine`) is in Model/StackLexerText; here a
definition is given as the list of its sub-lexers in order of occurrence over all the strings passed,
each with the sub-matches of its lines that match (lines that do not are skipped, construct.go:171-174).
`regexp.Compile` is a parameter. A Go map is iterated over in an arbitrary order, which is a parameter.
-/
namespace Verif.StackLexer
open Verif Verif.SetSymbol
open Verif.SimpleLexer (Bytes)

/-- The sub-matches `m[1]` ... `m[5]` of a line (construct.go:170, 187-218): word, regexp, rewriting, push or
carets, and whether there is a minus sign. -/
structure Line where
  word : Bytes
  re : Bytes
  subs : Bytes
  move : Bytes
  minus : Bool

/-- `strings.Split(str, "|")` (construct.go:64). -/
def splitBar : Bytes → List Bytes
  | [] => [[]]
  | x :: xs =>
    if x = 124 then [] :: splitBar xs
    else match splitBar xs with
      | [] => [[x]]
      | s :: ss => (x :: s) :: ss

/-- A decimal digit; `intRe` (construct.go:58) matches a string that has one. -/
def isDigit (x : UInt8) : Bool := 48 ≤ x && x ≤ 57

/-- The value of a string of digits (for `strconv.Atoi`, construct.go:68). -/
def digits (s : Bytes) : Int := s.foldl (fun v x => v * 10 + (x.toNat - 48 : Nat)) 0

/-- The number that `strconv.Atoi` reads (construct.go:68), 0 for anything that is not an optionally signed
string of digits. -/
def readInt (s : Bytes) : Int :=
  let t := match s with
    | x :: xs => if x = 43 ∨ x = 45 then xs else s
    | [] => s
  if t ≠ [] ∧ t.all isDigit then (if s.head? = some 45 then - digits t else digits t) else 0

/-- `sec, _ := strconv.Atoi(s)` (construct.go:68). -/
def atoi (s : Bytes) : Int := clampInt (readInt s)

/-- `parseSubmatches` (construct.go:60-75). -/
def parseSubmatches (s : Bytes) : Option (List Submatch) :=
  if s = [] then none else
  some ((splitBar s).map fun x => if x.any isDigit then ⟨atoi x, []⟩ else ⟨-1, x⟩)

/-- `subLexer` (construct.go:31-41). Pointers to sub-lexers are numbers: positions in the order of
occurrence. -/
structure SubS where
  name : Bytes
  order : List Nat
  rules : List (Option Rule)
  counter : Nat
  from_ : List Nat
  by_ : List Nat

/-- The memory during `New`: the sub-lexers, the symbol set, and the maps `done` and `stack`
(construct.go:122-123). -/
structure St where
  subs : Nat → SubS
  set : SymSet Bytes
  done : Bytes → Bool
  stack : Bytes → Bool

/-- `addRule` (construct.go:223-238). -/
def addRule : Nat → St → Nat → Rule → Out St
  | 0, _, _, _ => .fuel
  | n + 1, st, id, r =>
    let sl := st.subs id
    let rules := sl.rules ++ List.replicate (1 + r.kind - sl.rules.length) none
    match rules[r.kind]? with
    | some none =>
      let r := { r with priority := (sl.counter : Int) }
      let sl := { sl with
        counter := sl.counter + 1
        rules := rules.set r.kind (some r)
        order := sl.order ++ [r.kind] }
      sl.by_.foldl (fun o heir => o.bind fun st => addRule n st heir r)
        (.ok { st with subs := upd st.subs id sl })
    | _ => .ok { st with subs := upd st.subs id { sl with rules := rules } }

/-- The push target and the number of carets (construct.go:198-209). -/
def moveOfText (s : Bytes) : Bytes × Nat :=
  if s ≠ [] ∧ s.all (· == 94) then ([], s.length) else (s, 0)

/-- `addMatch` (construct.go:187-221): the memory and whether an error is returned. -/
def addMatch (compile : Bytes → Option Re) (n : Nat) (st : St) (id : Nat) (m : Line) : Out (St × Bool) :=
  match compile (if m.re = [] then m.word else m.re) with
  | none => .ok (st, true)
  | some re =>
    let k := str st.set m.word
    let mv := moveOfText m.move
    (addRule n { st with set := k.1 } id
      ⟨k.2, re, m.minus, 0, mv.1, mv.2, parseSubmatches m.subs⟩).bind fun st => .ok (st, false)

/-- The end of `addHeir` (construct.go:246-254), after the base `id` has been parsed. -/
def inherit (n : Nat) (st : St) (id heir : Nat) : Out St :=
  let st := { st with subs := upd st.subs id { st.subs id with by_ := (st.subs id).by_ ++ [heir] } }
  let st := { st with subs := upd st.subs heir { st.subs heir with from_ := (st.subs heir).from_ ++ [id] } }
  (st.subs id).rules.foldl (fun o r => o.bind fun st =>
    match r with
    | none => .ok st
    | some r => addRule n st heir r) (.ok st)

/-- The loop of `parse` (construct.go:166-182), given `parse` for the sub-lexers inherited from
(`addHeir`, construct.go:240-255). -/
def parseLines (compile : Bytes → Option Re) (lexers : Bytes → Option Nat) (n : Nat)
    (rec : St → Nat → Out (St × Bool)) (id : Nat) : List Line → St → Out (St × Bool)
  | [], st => .ok (st, false)
  | m :: ms, st =>
    (match lexers m.word with
    | some base => (rec st base).bind fun x =>
        if x.2 then .ok (x.1, true) else (inherit n x.1 base id).bind fun st => .ok (st, false)
    | none => addMatch compile n st id m).bind fun x =>
    if x.2 then .ok (x.1, true) else parseLines compile lexers n rec id ms x.1

/-- `parse` (construct.go:156-185). -/
def parse (compile : Bytes → Option Re) (lexers : Bytes → Option Nat) (defs : Bytes → List Line) :
    Nat → St → Nat → Out (St × Bool)
  | 0, _, _ => .fuel
  | n + 1, st, id =>
    let name := (st.subs id).name
    if st.stack name then .ok (st, true)
    else if st.done name then .ok (st, false)
    else
      let st := { st with done := upd st.done name true, stack := upd st.stack name true }
      (parseLines compile lexers (n + 1) (parse compile lexers defs n) id (defs name) st).bind fun x =>
      .ok ({ x.1 with stack := upd x.1.stack name false }, x.2)

/-- A definition: the sub-lexers in order of occurrence (construct.go:94-120). -/
abbrev Defs := List (Bytes × List Line)

/-- `l.lexers` after the headers have been read (construct.go:107-112): the last sub-lexer of a
name. -/
def lexersOf (d : Defs) (x : Bytes) : Option Nat :=
  ((d.zipIdx).reverse.find? fun y => y.1.1 == x).map fun y => y.2

/-- `subLexerDefs` (construct.go:93-120). -/
def linesOf (d : Defs) (x : Bytes) : List Line :=
  match d.reverse.find? fun y => y.1 == x with
  | some y => y.2
  | none => []

/-- The sub-lexers as created (construct.go:108-111). -/
def initSubs (d : Defs) (i : Nat) : SubS :=
  ⟨match d[i]? with | some y => y.1 | none => [], [], [], 0, [], []⟩

/-- The loop over `l.lexers` (construct.go:124-126), in the iteration order `ord`. The error returned
by `parse` is dropped. -/
def parseAll (compile : Bytes → Option Re) (d : Defs) (n : Nat) : List Bytes → St → Out St
  | [], st => .ok st
  | x :: xs, st =>
    match lexersOf d x with
    | none => parseAll compile d n xs st
    | some id => (parse compile (lexersOf d) (linesOf d) n st id).bind fun y => parseAll compile d n xs y.1

/-- The lexer in the final memory (construct.go:87-92, 112-115, 128). -/
def lexerOf (d : Defs) (st : St) : Lexer where
  lexers := fun x => (lexersOf d x).map fun i => ⟨(st.subs i).rules⟩
  start := if d = [] then none else some ⟨(st.subs 0).rules⟩
  set := st.set
  error := [69, 114, 114, 111, 114]
  compare := lengthThenPriority
  startKind := []
  startVal := []
  endKind := []
  endVal := []

/-- `New` (construct.go:86-129); the second component is the error returned, always nil. -/
def newLexer (compile : Bytes → Option Re) (ord : List Bytes) (d : Defs) (n : Nat) :
    Out (Lexer × Bool) :=
  (parseAll compile d n ord ⟨initSubs d, SetSymbol.new, fun _ => false, fun _ => false⟩).bind fun st =>
  .ok (lexerOf d st, false)

end Verif.StackLexer
