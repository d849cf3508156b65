import Verif.Model.SimpleLexer
/-
Model of the loop of lexer/simplelexer/lexer.go with its calls of `FindIndex` recorded. Otherwise as Model/SimpleLexer.
-/
namespace Verif.SimpleLexer
open Verif Verif.SetSymbol

/-- A call of `FindIndex` (lexer.go:128, 135): where in the input the bytes searched begin (they go on to its end), and the bounds in
the input of what was found. -/
structure Search where
  start : Nat
  found : Option (Nat × Nat)
  deriving DecidableEq

/-- `populateNext` (lexer.go:125-130). -/
def populateNextS (b : Bytes) : List (Option Rule) → Out (List (Rule × Option (Nat × Nat)) × List Search)
  | [] => .ok ([], [])
  | none :: _ => .panic
  | some r :: rs => (populateNextS b rs).bind fun ns => .ok ((r, r.re.find b) :: ns.1, ⟨0, r.re.find b⟩ :: ns.2)

/-- One entry of `updateNext` (lexer.go:133-142). -/
def refindS (b : Bytes) (cur : Nat) (e : Rule × Option (Nat × Nat)) : (Rule × Option (Nat × Nat)) × List Search :=
  match e.2 with
  | none => (e, [])
  | some loc =>
    if loc.1 ≤ cur then
      let found := (e.1.re.find (b.drop cur)).map fun l => (l.1 + cur, l.2 + cur)
      ((e.1, found), [⟨cur, found⟩])
    else (e, [])

/-- `updateNext` (lexer.go:132-143). -/
def updateNextS (b : Bytes) (op : Op) : Op × List Search :=
  let r := op.next.map (refindS b op.cur)
  ({ op with next := r.map (·.1) }, r.flatMap (·.2))

/-- The loop of `Lex` (lexer.go:85-104). -/
def loopS (cmp : Int → Int → Int → Int → Bool) (error : Bytes) (b : Bytes) : Nat → Op → Out (Op × List Search)
  | 0, _ => .fuel
  | n + 1, op =>
    (body cmp error b op).bind fun op =>
      if op.cur ≥ b.length then .ok (op, [])
      else
        let u := updateNextS b op
        (loopS cmp error b n u.1).bind fun r => .ok (r.1, u.2 ++ r.2)

/-- `Lex` (lexer.go:73-112). -/
def lexS (n : Nat) (l : Lexer) (b : Bytes) : Out ((List Lx × Lexer) × List Search) :=
  let start := if l.startKind ≠ [] then [insertLx l.startKind l.startVal] else []
  (populateNextS b l.rules).bind fun next =>
  (loopS l.compare l.error b n
      { next := next.1, lxs := start, errFlag := false, errStart := 0, cur := 0, lines := 0,
        set := l.set }).bind fun r =>
  let op := checkError l.error b r.1
  .ok ((op.lxs ++ (if l.endKind ≠ [] then [insertLx l.endKind l.endVal] else []), { l with set := op.set }), next.2 ++ r.2)

end Verif.SimpleLexer
