import Verif.Model.Scalc
/-
Model of examples/scalc/scalc/main.go: the interactive mode and the evaluation of arguments. The package `cli` and its command
`parse` are left out. How a number is shown (`Pfloat.String`, scalc.go:99-102, by `fmt`) is a parameter `sh`.
-/
namespace Verif.ScalcMain
open Verif Verif.Spec Verif.Spec.Scalc Verif.Scalc Verif.SimpleLexer

variable {N : Type}

/-- `strings.Join(strs, " ")` (main.go:20, 74). -/
def joinSpace : List Bytes → Bytes
  | [] => []
  | [x] => x
  | x :: y :: xs => x ++ 32 :: joinSpace (y :: xs)

/-- `format` (main.go:69-75). -/
def format (sh : PF N → Bytes) (stack : List (PF N)) : Bytes := joinSpace (stack.map sh)

/-- The part of a chunk up to the first line end, with it. -/
def upTo : Bytes → Option Bytes
  | [] => none
  | x :: xs => if x = nl then some [x] else (upTo xs).map (x :: ·)

/-- `bufio.NewReader(os.Stdin)` and `ReadString('\n')` (main.go:52-54). The argument is what the reads of standard input return, one
after the other; a terminal returns a line at a time. What a reader has read beyond the line end is lost with it, as the next turn
makes a new reader. At the end of the input the rest is returned; the error is ignored. -/
def readString : List Bytes → Bytes × List Bytes
  | [] => ([], [])
  | c :: cs => match upTo c with
    | some x => (x, cs)
    | none => (c ++ (readString cs).1, (readString cs).2)

/-- The state of `interactive` (main.go:49-67): the lexer of the package, the variable `stack`, what will be read, and the lines
printed so far, without prompts. -/
structure St where
  lexer : Lexer
  stack : Bytes
  chunks : List Bytes
  out : List Bytes

/-- `"exit\n"` (main.go:55). -/
def exitLine : Bytes := [101, 120, 105, 116, 10]

/-- `"Bad input"` (main.go:60). -/
def badInput : Bytes := [66, 97, 100, 32, 105, 110, 112, 117, 116]

/-- One turn of the loop (main.go:52-64); the boolean is whether the loop ends. -/
def turn (A : Arith N) (sh : PF N → Bytes) (n : Nat) (s : St) : Out (St × Bool) :=
  let r := readString s.chunks
  if r.1 = exitLine then .ok ({ s with chunks := r.2 }, true)
  else (evalText A n s.lexer (s.stack ++ 32 :: r.1)).bind fun o =>
    match o.1 with
    | none => .ok ({ s with lexer := o.2, chunks := r.2, out := s.out ++ [badInput] }, false)
    | some vs => .ok ({ lexer := o.2, stack := format sh vs, chunks := r.2, out := s.out ++ [format sh vs] }, false)

/-- `interactive` (main.go:49-67). -/
def interactive (A : Arith N) (sh : PF N → Bytes) : Nat → St → Out St
  | 0, _ => .fuel
  | n + 1, s => (turn A sh n s).bind fun r => if r.2 then .ok r.1 else interactive A sh n r.1

/-- The action for arguments (main.go:16-26): what is printed, or `none` for the error. Without arguments it is `interactive`. -/
def action (A : Arith N) (sh : PF N → Bytes) (n : Nat) (l : Lexer) (args : List Bytes) : Out (Option Bytes) :=
  (evalText A n l (joinSpace args)).bind fun o => .ok (o.1.map (format sh))

end Verif.ScalcMain
