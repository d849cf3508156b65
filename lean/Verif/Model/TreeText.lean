import Verif.Model.Tree
import Verif.Model.Grammar
/-
Model of `New` and `String` of tree/parsetree.go. Text is `List Char` (valid UTF-8). `isPrint` stands for
`strconv.IsPrint`, of which only what theorems state is assumed.
-/
namespace Verif.TreeText
open Verif.Spec

/-- `\s` in Go's regexp syntax: tab, newline, form feed, carriage return, blank (parsetree.go:13). -/
def isS (c : Char) : Bool := c = '\t' ∨ c = '\n' ∨ c = '\x0c' ∨ c = '\r' ∨ c = ' '

/-- The class `[^\}\{:\"\s]` (parsetree.go:13). -/
def isK (c : Char) : Bool := c ≠ '}' ∧ c ≠ '{' ∧ c ≠ ':' ∧ c ≠ '"' ∧ ¬ isS c = true

/-! The expression `reTreeLine` (parsetree.go:13) as a backtracking matcher: Go's regexp prefers the
match a backtracking engine finds first. Every part takes the rest of the match as a continuation.
Greedy loops try one more repetition first. -/

variable {R : Type}

/-- `c*` for a class `c`, greedy (in `reTreeLine`, parsetree.go:13); `k` gets the captured text and the rest. -/
def many (c : Char → Bool) (k : Str → Str → Option R) : Str → Str → Option R
  | acc, [] => k acc []
  | acc, x :: xs => if c x then (many c k (acc ++ [x]) xs).or (k acc (x :: xs)) else k acc (x :: xs)

/-- `(x?)` for a character `x`, greedy (in `reTreeLine`, parsetree.go:13); `k` is told whether it was there. -/
def opt (x : Char) (k : Bool → Str → Option R) : Str → Option R
  | [] => k false []
  | y :: ys => if y = x then (k true ys).or (k false (y :: ys)) else k false (y :: ys)

/-- `(?:[^\"\\]|(?:\\.))*`, greedy (in `reTreeLine`, parsetree.go:13). The first alternative never applies where the second does. -/
def manyQ (k : Str → Str → Option R) : Str → Str → Option R
  | acc, [] => k acc []
  | acc, [x] => if x ≠ '"' ∧ x ≠ '\\' then (k (acc ++ [x]) []).or (k acc [x]) else k acc [x]
  | acc, x :: y :: ys =>
    if x ≠ '"' ∧ x ≠ '\\' then (manyQ k (acc ++ [x]) (y :: ys)).or (k acc (x :: y :: ys))
    else if x = '\\' ∧ y ≠ '\n' then (manyQ k (acc ++ [x, y]) ys).or (k acc (x :: y :: ys))
    else k acc (x :: y :: ys)

/-- `(?:\:\s*\"(...)\")?`, greedy (in `reTreeLine`, parsetree.go:13); `k` gets the captured text (empty if the group is not there). -/
def valueGroup (k : Str → Str → Option R) (s : Str) : Option R :=
  (match s with
    | [] => none
    | x :: xs =>
      if x = ':' then
        many isS (fun _ s =>
          match s with
          | [] => none
          | y :: ys => if y = '"' then
              manyQ (fun cap s =>
                match s with
                | [] => none
                | z :: zs => if z = '"' then k cap zs else none) [] ys
            else none) [] xs
      else none).or (k [] s)

/-- `$` at the end (of `reTreeLine`, parsetree.go:13). -/
def atEnd (r : R) : Str → Option R
  | [] => some r
  | _ => none

/-- `\s*(\{?)$` at the end (of `reTreeLine`, parsetree.go:13); the result are the four captures. -/
def tailRe (close : Bool) (kind val : Str) (s : Str) : Option (Bool × Str × Str × Bool) :=
  many isS (fun _ s => opt '{' (fun op s => atEnd (close, kind, val, op) s) s) [] s

/-- `\s*(?:...)?\s*(\{?)$`: what follows the second group (of `reTreeLine`, parsetree.go:13). -/
def afterKind (close : Bool) (kind : Str) (s : Str) : Option (Bool × Str × Str × Bool) :=
  many isS (fun _ s => valueGroup (fun val s => tailRe close kind val s) s) [] s

/-- `([^\}\{:\"\s]+|$)` and what follows (in `reTreeLine`, parsetree.go:13). -/
def kindRe (close : Bool) (s : Str) : Option (Bool × Str × Str × Bool) :=
  (match s with
    | [] => none
    | x :: xs => if isK x then many isK (fun kind s => afterKind close kind s) [x] xs else none).or
  (match s with
    | [] => afterKind close [] []
    | _ => none)

/-- `reTreeLine.FindStringSubmatch(line)` together with the check `len(line) != len(m[0])`
(parsetree.go:25-28). There always is a match (the empty one at the end of the line); as every match
ends at the end of the line the check is whether the leftmost match starts at 0, that is whether there
is a match from the start of the line. The captures m[1] to m[4]: m[1] is "}" or empty, m[4] is "{" or
empty. -/
def treeLine (line : Str) : Option (Bool × Str × Str × Bool) :=
  many isS (fun _ s => opt '}' (fun close s => many isS (fun _ s => kindRe close s) [] s) s) [] line

/-- `handleSlash.Replace` (parsetree.go:18, 34): at each position the first of `\\`, `\n`, `\"` that applies,
else the character is copied. -/
def handleSlash : Str → Str
  | [] => []
  | [x] => [x]
  | x :: y :: ys =>
    if x = '\\' ∧ y = '\\' then '\\' :: handleSlash ys
    else if x = '\\' ∧ y = 'n' then '\n' :: handleSlash ys
    else if x = '\\' ∧ y = '"' then '"' :: handleSlash ys
    else x :: handleSlash (y :: ys)

/-- `cur` in `New` (parsetree.go:23): the current node's children so far and, going up, for every open node its lexeme
and the children its parent had before it. `none` is the nil pointer. -/
abbrev Cur := Option (List (PN Str Str) × List (Lexeme Str Str × List (PN Str Str)))

/-- `cur = cur.P` (parsetree.go:30). -/
def up : Cur → Out Cur
  | none => .panic
  | some (_, []) => .ok none
  | some (ks, (l, sib) :: ups) => .ok (some (sib ++ [.node l ks], ups))

/-- Adding a node in `New` (parsetree.go:32-43). -/
def addNode (kind val : Str) (op : Bool) : Cur → Out Cur
  | none => .panic
  | some (ks, ups) =>
    let l : Lexeme Str Str := ⟨kind, handleSlash val, -1, 0⟩
    if op then .ok (some ([], (l, ks) :: ups)) else .ok (some (ks ++ [.node l []], ups))

/-- Loop of `New` (parsetree.go:24-44); `none` is ErrBadTreeString. -/
def newLoop : Cur → List Str → Out (Option Cur)
  | cur, [] => .ok (some cur)
  | cur, line :: lines =>
    match treeLine line with
    | none => .ok none
    | some (close, kind, val, op) =>
      (if close then up cur else .ok cur).bind fun cur =>
        (if kind ≠ [] then addNode kind val op cur else .ok cur).bind fun cur => newLoop cur lines

/-- `New` (parsetree.go:22-48): the result is the first child of the node that is current at the
end. -/
def new (str : Str) : Out (Option (PN Str Str)) :=
  (newLoop (some ([], [])) (Grammar.split '\n' str)).bind fun r =>
    match r with
    | none => .ok none
    | some none => .panic
    | some (some ([], _)) => .panic
    | some (some (k :: _, _)) => .ok (some k)

/-! ### String -/

/-- Lower case hexadecimal digit (for `%q`, parsetree.go:93). -/
def hex (n : Nat) : Char := (['0', '1', '2', '3', '4', '5', '6', '7', '8', '9', 'a', 'b', 'c', 'd', 'e', 'f'][n % 16]?).getD '0'

/-- One character in `strconv.Quote` (used by `%q`, parsetree.go:93): printable characters are copied, the rest is
escaped. -/
def quoteChar (isPrint : Char → Bool) (c : Char) : Str :=
  if c = '"' ∨ c = '\\' then ['\\', c]
  else if isPrint c then [c]
  else if c.toNat = 7 then ['\\', 'a']
  else if c.toNat = 8 then ['\\', 'b']
  else if c.toNat = 12 then ['\\', 'f']
  else if c = '\n' then ['\\', 'n']
  else if c = '\r' then ['\\', 'r']
  else if c = '\t' then ['\\', 't']
  else if c.toNat = 11 then ['\\', 'v']
  else if c.toNat < 32 ∨ c.toNat = 127 then ['\\', 'x', hex (c.toNat / 16), hex c.toNat]
  else if c.toNat < 0x10000 then
    ['\\', 'u', hex (c.toNat / 4096), hex (c.toNat / 256), hex (c.toNat / 16), hex c.toNat]
  else ['\\', 'U', hex (c.toNat / 0x10000000), hex (c.toNat / 0x1000000), hex (c.toNat / 0x100000),
    hex (c.toNat / 0x10000), hex (c.toNat / 4096), hex (c.toNat / 256), hex (c.toNat / 16), hex c.toNat]

/-- `strconv.Quote` (used by `%q`, parsetree.go:93). -/
def quote (isPrint : Char → Bool) (v : Str) : Str := '"' :: v.flatMap (quoteChar isPrint) ++ ['"']

mutual
/-- `string` (parsetree.go:87-105) on a node other than nil. -/
def segs (isPrint : Char → Bool) (pad : Str) : PN Str Str → List Str → List Str
  | .node l ks, s =>
    let s := s ++ [pad, l.kind]
    let s := if l.val ≠ [] then s ++ [": ".toList ++ quote isPrint l.val] else s
    if ks.length > 0 then
      let s := s ++ [" {\n".toList]
      let s := segsL isPrint (pad ++ ['\t']) ks s
      s ++ [pad, "}\n".toList]
    else s ++ ["\n".toList]
/-- The loop of `string` (parsetree.go:97-99). -/
def segsL (isPrint : Char → Bool) (pad : Str) : List (PN Str Str) → List Str → List Str
  | [], s => s
  | t :: ts, s => segsL isPrint pad ts (segs isPrint pad t s)
end

/-- `String` (parsetree.go:81-85). -/
def string (isPrint : Char → Bool) (t : PN Str Str) : Str := (segs isPrint [] t []).flatten

end Verif.TreeText
