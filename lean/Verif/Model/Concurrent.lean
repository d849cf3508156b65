import Verif.Model.StackLexer
import Verif.Spec.Concurrent
/-
`Lex` of both lexers as what it does with the set of symbols of the lexer, which is all of the memory of a lexer that `Lex` writes to. A
goroutine that calls `Lex` has its own `lexOp`, which is a value here, and shares the lexer.
-/
namespace Verif
open Verif.Spec Verif.SetSymbol
open Verif.SimpleLexer (Bytes Lx)

/-- The fields of a `Set` (symbol/setsymbol/set.go:11-14). -/
inductive SetField where
  | str2sym
  | symb2str
  deriving DecidableEq

/-- Code that uses a set. -/
abbrev SetProg (α : Type) := Prog SetField (SymSet Bytes) α

/-- Go on unless it panicked or did not return. -/
def Spec.Prog.andThen {X S α β : Type} (p : Prog X S (Out α)) (f : α → Prog X S (Out β)) : Prog X S (Out β) :=
  p.bind fun
    | .ok a => f a
    | .panic => .ret .panic
    | .fuel => .ret .fuel

/-- `Str` (symbol/setsymbol/set.go:63-77): the map is looked into (64), the length of the slice read (71), the map written to (74), and
the slice read and written to (75). -/
def strP {τ : Type} [DecidableEq τ] (x : τ) : Prog SetField (SymSet τ) Nat :=
  .read .str2sym fun s =>
    match s.str2sym x with
    | some v => .ret v
    | none => .read .symb2str fun s1 =>
        .write .str2sym (fun s => ⟨upd s.str2sym x (some s1.symb2str.length), s.symb2str⟩) <|
        .read .symb2str fun s2 => .write .symb2str (fun s => ⟨s.str2sym, s2.symb2str ++ [x]⟩) <|
        .ret s1.symb2str.length

/-- `ByIdx` and `Size` (symbol/setsymbol/set.go:24, 27-35) read the length of the slice. Kinds of rules are indices in the set, which
never loses symbols, so what they read makes no difference. -/
def sizeP {τ α : Type} (p : Prog SetField (SymSet τ) α) : Prog SetField (SymSet τ) α := .read .symb2str fun _ => p

namespace SimpleLexer

/-- The loop of `findNextMatch` (lexer/simplelexer/lexer.go:151-161), with `ByIdx` in line 155. -/
def chooseP (cmp : Int → Int → Int → Int → Bool) (b : Bytes) (cur : Nat) :
    Choice → List (Rule × Option (Nat × Nat)) → SetProg Choice
  | c, [] => .ret c
  | c, (_, none) :: es => chooseP cmp b cur c es
  | c, (r, some loc) :: es =>
    if loc.1 = cur ∧ cmp loc.2 r.priority c.lxEnd c.lxP then
      sizeP (chooseP cmp b cur ⟨some r, slice b loc.1 loc.2, loc.2, r.priority⟩ es)
    else chooseP cmp b cur c es

/-- `checkError` (lexer/simplelexer/lexer.go:114-123). The field `set` of the operation is not used here: the set is shared. -/
def checkErrorP (error : Bytes) (b : Bytes) (op : Op) : SetProg Op :=
  if !op.errFlag || op.cur > b.length then .ret op else
  (strP error).bind fun k => .ret { op with
    errFlag := false
    lxs := op.lxs ++ [⟨.idx k, slice b op.errStart op.cur, -1, 0, true⟩] }

/-- The body of the loop in `Lex` (lexer/simplelexer/lexer.go:86-99). -/
def bodyP (cmp : Int → Int → Int → Int → Bool) (error : Bytes) (b : Bytes) (op : Op) : SetProg (Out Op) :=
  (chooseP cmp b op.cur ⟨none, [], op.cur, -1⟩ op.next).bind fun c =>
  let op' := { op with lines := op.lines + countNl c.val }
  if c.lxEnd = op.cur then
    .ret (.ok { op' with
      errStart := if op.errFlag then op.errStart else op.cur
      errFlag := true
      cur := op.cur + 1 })
  else
    (checkErrorP error b op').bind fun op'' =>
    match c.rule with
    | none => .ret .panic
    | some r =>
      .ret (.ok { op'' with
        lxs := if r.discard then op''.lxs else
          op''.lxs ++ [⟨.idx r.kind, c.val, op.lines, op.cur - lastNl (b.take op.cur), false⟩]
        cur := c.lxEnd })

/-- The loop of `Lex` (lexer/simplelexer/lexer.go:85-104). -/
def loopP (cmp : Int → Int → Int → Int → Bool) (error : Bytes) (b : Bytes) : Nat → Op → SetProg (Out Op)
  | 0, _ => .ret .fuel
  | n + 1, op =>
    (bodyP cmp error b op).andThen fun op =>
      if op.cur ≥ b.length then .ret (.ok op) else loopP cmp error b n (updateNext b op)

/-- `Lex` (lexer/simplelexer/lexer.go:73-112). -/
def lexP (n : Nat) (l : Lexer) (b : Bytes) : SetProg (Out (List Lx)) :=
  let start := if l.startKind ≠ [] then [insertLx l.startKind l.startVal] else []
  match populateNext b l.rules with
  | .panic => .ret .panic
  | .fuel => .ret .fuel
  | .ok next =>
    (loopP l.compare l.error b n
      { next := next, lxs := start, errFlag := false, errStart := 0, cur := 0, lines := 0,
        set := SetSymbol.new }).andThen fun op =>
    (checkErrorP l.error b op).bind fun op =>
    .ret (.ok (op.lxs ++ (if l.endKind ≠ [] then [insertLx l.endKind l.endVal] else [])))

end SimpleLexer

namespace StackLexer
open Verif.SimpleLexer (slice countNl insertLx)

/-- `pop` (lexer/stacklexer/lex.go:85-93), with `Size` in `populateNext` (96). -/
def popP (b : Bytes) (i : Nat) (op : Op) : SetProg (Out Op) :=
  match pop b i op with
  | .ok op => sizeP (.ret (.ok op))
  | .panic => .ret .panic
  | .fuel => .ret .fuel

/-- The branch of the loop of `lex` where no rule took over (lexer/stacklexer/lex.go:51-62). -/
def stopStepP (b : Bytes) (op : Op) : SetProg (Out Next) :=
  if op.stack.length = 0 then
    if op.cur + 1 ≥ b.length then .ret (.ok (.done { setError op with cur := op.cur + 1 }))
    else .ret (.ok (.more { setError op with cur := op.cur + 1 }))
  else (popP b 1 op).andThen fun op => .ret (.ok (.more op))

/-- The end of the loop of `lex` (lexer/stacklexer/lex.go:68-79). -/
def moveStepP (lexers : Bytes → Option Sub) (b : Bytes) (r : Rule) (op : Op) : SetProg (Out Next) :=
  if op.cur ≥ b.length then .ret (.ok (.done op))
  else if r.pop > 0 then (popP b r.pop op).andThen fun op => .ret (.ok (.more op))
  else if r.push ≠ [] then
    match lexers r.push with
    | none => .ret .panic
    | some s => sizeP (.ret (.ok (.more (populateNext b { op with stack := op.stack ++ [op.sub], sub := s }))))
  else .ret (.ok (.more (updateNext b op)))

/-- One iteration of the loop of `lex` (lexer/stacklexer/lex.go:49-80), with `ByIdx` in `findNextMatch` (127). -/
def bodyP (cmp : Int → Int → Int → Int → Bool) (lexers : Bytes → Option Sub) (ek : Nat) (b : Bytes)
    (op : Op) : SetProg (Out Next) :=
  match choose cmp op.cur none op.next with
  | none => stopStepP b op
  | some (r, loc) =>
    sizeP <|
    match value b r loc with
    | .panic => .ret .panic
    | .fuel => .ret .fuel
    | .ok val =>
      let txt := slice b (loc.off + loc.a) (loc.off + loc.e)
      let lx : Lx := ⟨.idx r.kind, val, op.lines, colAt b op.cur, false⟩
      let op := { op with lines := op.lines + countNl txt }
      if loc.off + loc.e = op.cur then stopStepP b op
      else
        let op := checkError ek b op
        moveStepP lexers b r { op with
          lxs := if r.discard then op.lxs else op.lxs ++ [lx]
          cur := loc.off + loc.e }

/-- The loop of `lex` (lexer/stacklexer/lex.go:49-80). -/
def loopP (cmp : Int → Int → Int → Int → Bool) (lexers : Bytes → Option Sub) (ek : Nat) (b : Bytes) :
    Nat → Op → SetProg (Out Op)
  | 0, _ => .ret .fuel
  | n + 1, op =>
    (bodyP cmp lexers ek b op).andThen fun
      | .done op => .ret (.ok op)
      | .more op => loopP cmp lexers ek b n op

/-- `Lex` (lexer/stacklexer/lex.go:26-46) and `lex` (48-83). -/
def lexP (n : Nat) (l : Lexer) (b : Bytes) : SetProg (Out (List Lx)) :=
  match l.start with
  | none => .ret .panic
  | some s =>
    (strP l.error).bind fun ek => sizeP <|
    (loopP l.compare l.lexers ek b n (populateNext b
      { sub := s, stack := [], next := [],
        lxs := if l.startKind ≠ [] then [insertLx l.startKind l.startVal] else [],
        errFlag := false, errStart := 0, cur := 0, lines := 1 })).andThen fun op =>
    let op := checkError ek b (consumeRemainingAsError b op)
    .ret (.ok (op.lxs ++ (if l.endKind ≠ [] then [insertLx l.endKind l.endVal] else [])))

end StackLexer

end Verif
