import Verif.Model.StackLexer
import Verif.Model.SimpleLexerSearch
/-
Model of the loop of lexer/stacklexer/lex.go with its calls of `FindSubmatchIndex` recorded. Otherwise as Model/StackLexer.
-/
namespace Verif.StackLexer
open Verif Verif.SetSymbol
open Verif.SimpleLexer (Bytes Lx countNl slice insertLx Search)

/-- A call of `FindSubmatchIndex` (lex.go:99, 169) as the bounds in the input of where it searched and what it found. -/
def searchOf (cur : Nat) (o : Option Loc) : Search := ⟨cur, o.map fun loc => (loc.off + loc.a, loc.off + loc.e)⟩

/-- `populateNext` (lex.go:95-106). -/
def populateNextS (b : Bytes) (op : Op) : Op × List Search :=
  (populateNext b op, op.sub.rules.flatMap fun r =>
    match r with
    | none => []
    | some r => [searchOf op.cur (findFrom b op.cur r)])

/-- One entry of `updateNext` (lex.go:167-175). -/
def refindS (b : Bytes) (cur : Nat) (x : Option Rule × Option Loc) : List Search :=
  match x with
  | (some r, some loc) => if loc.a + loc.off ≤ cur then [searchOf cur (findFrom b cur r)] else []
  | _ => []

/-- `updateNext` (lex.go:166-176). -/
def updateNextS (b : Bytes) (op : Op) : Op × List Search := (updateNext b op, op.next.flatMap (refindS b op.cur))

/-- `pop` (lex.go:85-93). -/
def popS (b : Bytes) (i : Nat) (op : Op) : Out (Op × List Search) :=
  let ln := op.stack.length - i
  match op.stack[ln]? with
  | none => .panic
  | some s => .ok (populateNextS b { op with sub := s, stack := op.stack.take ln })

/-- The branch of the loop of `lex` where no rule took over (lex.go:51-62). -/
def stopStepS (b : Bytes) (op : Op) : Out (Next × List Search) :=
  if op.stack.length = 0 then
    if op.cur + 1 ≥ b.length then .ok (.done { setError op with cur := op.cur + 1 }, [])
    else .ok (.more { setError op with cur := op.cur + 1 }, [])
  else (popS b 1 op).bind fun r => .ok (.more r.1, r.2)

/-- The end of the loop of `lex` (lex.go:68-79), after a token. -/
def moveStepS (lexers : Bytes → Option Sub) (b : Bytes) (r : Rule) (op : Op) : Out (Next × List Search) :=
  if op.cur ≥ b.length then .ok (.done op, [])
  else if r.pop > 0 then (popS b r.pop op).bind fun r => .ok (.more r.1, r.2)
  else if r.push ≠ [] then
    match lexers r.push with
    | none => .panic
    | some s =>
      let r := populateNextS b { op with stack := op.stack ++ [op.sub], sub := s }
      .ok (.more r.1, r.2)
  else
    let r := updateNextS b op
    .ok (.more r.1, r.2)

/-- One iteration of the loop of `lex` (lex.go:49-80), with the rest of `findNextMatch` (122-145). -/
def bodyS (cmp : Int → Int → Int → Int → Bool) (lexers : Bytes → Option Sub) (ek : Nat) (b : Bytes)
    (op : Op) : Out (Next × List Search) :=
  match choose cmp op.cur none op.next with
  | none => stopStepS b op
  | some (r, loc) =>
    (value b r loc).bind fun val =>
    let txt := slice b (loc.off + loc.a) (loc.off + loc.e)
    let lx : Lx := ⟨.idx r.kind, val, op.lines, colAt b op.cur, false⟩
    let op := { op with lines := op.lines + countNl txt }
    if loc.off + loc.e = op.cur then stopStepS b op
    else
      let op := checkError ek b op
      moveStepS lexers b r { op with
        lxs := if r.discard then op.lxs else op.lxs ++ [lx]
        cur := loc.off + loc.e }

/-- The loop of `lex` (lex.go:49-80). -/
def loopS (cmp : Int → Int → Int → Int → Bool) (lexers : Bytes → Option Sub) (ek : Nat) (b : Bytes) :
    Nat → Op → Out (Op × List Search)
  | 0, _ => .fuel
  | n + 1, op =>
    (bodyS cmp lexers ek b op).bind fun x =>
      match x.1 with
      | .done op => .ok (op, x.2)
      | .more op => (loopS cmp lexers ek b n op).bind fun r => .ok (r.1, x.2 ++ r.2)

/-- `Lex` (lex.go:26-46) and `lex` (48-83). -/
def lexS (n : Nat) (l : Lexer) (b : Bytes) : Out ((List Lx × Lexer) × List Search) :=
  match l.start with
  | none => .panic
  | some s =>
    let ek := str l.set l.error
    let start := if l.startKind ≠ [] then [insertLx l.startKind l.startVal] else []
    let p := populateNextS b
      { sub := s, stack := [], next := [], lxs := start, errFlag := false, errStart := 0, cur := 0,
        lines := 1 }
    (loopS l.compare l.lexers ek.2 b n p.1).bind fun r =>
    let op := checkError ek.2 b (consumeRemainingAsError b r.1)
    .ok ((op.lxs ++ (if l.endKind ≠ [] then [insertLx l.endKind l.endVal] else []),
      { l with set := ek.1 }), p.2 ++ r.2)

end Verif.StackLexer
