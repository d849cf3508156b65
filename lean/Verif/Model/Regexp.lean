import Verif.Spec.Regexp
import Verif.Spec.GrammarDef
import Verif.Model.SimpleLexer
/-
Model of `regexp.Compile` for the expressions in this repository. The package regexp of Go's standard
library is not part of the repository; this is its documented syntax (package regexp/syntax) as far as it
is used: characters, escapes, classes in brackets, `.`, `$`, groups, captures, `|`, `*`, `+`, `?`, `{n}`. Anything
else is `none`, about which nothing is claimed.
-/
namespace Verif.Regexp
open Verif Verif.Spec

/-- A single character (in expressions as in lexer/simplelexer/construct.go:57). -/
def lit (c : Char) : Cls := ⟨false, [(c.toNat, c.toNat)]⟩

/-- The ranges of an escape (as used in lexer/simplelexer/construct.go:57): `\s`, `\d`, `\w`, `\n`, `\r`, `\t`, or a
punctuation character. -/
def escape (c : Char) : Option (List (Nat × Nat)) :=
  if c = 's' then some [(9, 10), (12, 13), (32, 32)]
  else if c = 'd' then some [(48, 57)]
  else if c = 'w' then some [(48, 57), (65, 90), (95, 95), (97, 122)]
  else if c = 'n' then some [(10, 10)]
  else if c = 'r' then some [(13, 13)]
  else if c = 't' then some [(9, 9)]
  else if c.toNat < 0x80 ∧ !c.isAlphanum ∧ c ≠ '_' ∧ 32 < c.toNat ∧ c.toNat < 127 then some [(c.toNat, c.toNat)]
  else none

/-- Inside brackets, up to the closing one (as in lexer/simplelexer/construct.go:57): characters, ranges and escapes. A bracket right at
the beginning and named classes are not covered. -/
def items : Nat → Str → Option (List (Nat × Nat) × Str)
  | 0, _ => none
  | n + 1, s =>
    match s with
    | [] => none
    | c :: s =>
      if c = ']' then some ([], s)
      else if c = '[' then none
      else if c = '\\' then
        match s with
        | [] => none
        | d :: s => (escape d).bind fun x => (items n s).map fun q => (x ++ q.1, q.2)
      else
        match s with
        | '-' :: d :: t =>
          if d = ']' ∨ d = '\\' ∨ d = '[' then none
          else if d.toNat < c.toNat then none
          else (items n t).map fun q => ((c.toNat, d.toNat) :: q.1, q.2)
        | _ => (items n s).map fun q => ((c.toNat, c.toNat) :: q.1, q.2)

/-- A class in brackets, after the opening one (as in lexer/simplelexer/construct.go:57). -/
def bracket (s : Str) : Option (Cls × Str) :=
  match s with
  | [] => none
  | c :: t =>
    if c = '^' then
      if t.head? = some ']' then none else (items t.length t).map fun q => (⟨true, q.1⟩, q.2)
    else if c = ']' then none
    else (items s.length s).map fun q => (⟨false, q.1⟩, q.2)

/-- An expression `n` times (as in lexer/stacklexer/readme.md:67). -/
def times (a : Rex) : Nat → Rex
  | 0 => .eps
  | 1 => a
  | n + 2 => .seq a (times a (n + 1))

/-- The number in braces after an expression (as in lexer/stacklexer/readme.md:67), up to 1000; `{n,}` and `{n,m}` are not covered, nor
is anything repeated more. -/
def counted (a : Rex) (s : Str) : Option (Rex × Str) :=
  let d := s.takeWhile Char.isDigit
  let n := d.foldl (fun v c => v * 10 + (c.toNat - 48)) 0
  match s.dropWhile Char.isDigit with
  | '}' :: t =>
    if d = [] ∨ (d.head? = some '0' ∧ d ≠ ['0']) ∨ n > 1000 ∨ t.head? = some '*' ∨ t.head? = some '+' ∨ t.head? = some '?' ∨ t.head? = some '{' then none
    else some (times a n, t)
  | _ => none

/-- `*`, `+` or `?` after an expression (as in lexer/simplelexer/construct.go:57); a second one is not covered. -/
def quant (a : Rex) (s : Str) : Option (Rex × Str) :=
  match s with
  | [] => some (a, [])
  | c :: t =>
    if c = '*' ∨ c = '+' ∨ c = '?' then
      match t with
      | d :: _ =>
        if d = '*' ∨ d = '+' ∨ d = '?' ∨ d = '{' then none
        else some (if c = '*' then .star a else if c = '+' then .seq a (.star a) else .alt a .eps, t)
      | [] => some (if c = '*' then .star a else if c = '+' then .seq a (.star a) else .alt a .eps, t)
    else if c = '{' then counted a t
    else some (a, s)

/-- A sequence (as in lexer/simplelexer/construct.go:57), without an empty end. -/
def andSeq (a b : Rex) : Rex := if b = .eps then a else .seq a b

mutual
/-- Alternatives (as in lexer/simplelexer/construct.go:57); `g` is the number of the next capture. -/
def alts : Nat → Nat → Str → Option (Rex × Nat × Str)
  | 0, _, _ => none
  | n + 1, g, s => (seqs n g s).bind fun q =>
    match q.2.2 with
    | '|' :: t => (alts n q.2.1 t).map fun p => (.alt q.1 p.1, p.2.1, p.2.2)
    | t => some (q.1, q.2.1, t)
/-- A sequence up to `|`, `)` or the end (as in lexer/simplelexer/construct.go:57). -/
def seqs : Nat → Nat → Str → Option (Rex × Nat × Str)
  | 0, _, _ => none
  | n + 1, g, s =>
    if s.head? = none ∨ s.head? = some '|' ∨ s.head? = some ')' then some (.eps, g, s)
    else (atom n g s).bind fun q => (quant q.1 q.2.2).bind fun r =>
      (seqs n q.2.1 r.2).map fun p => (andSeq r.1 p.1, p.2.1, p.2.2)
/-- A group, class or character (as in lexer/simplelexer/construct.go:57). -/
def atom : Nat → Nat → Str → Option (Rex × Nat × Str)
  | 0, _, _ => none
  | n + 1, g, s =>
    match s with
    | [] => none
    | c :: s =>
      if c = '(' then
        match s with
        | '?' :: ':' :: t => (alts n g t).bind fun q =>
          match q.2.2 with
          | ')' :: t => some (q.1, q.2.1, t)
          | _ => none
        | '?' :: _ => none
        | _ => (alts n (g + 1) s).bind fun q =>
          match q.2.2 with
          | ')' :: t => some (.cap g q.1, q.2.1, t)
          | _ => none
      else if c = '[' then (bracket s).map fun q => (.cls q.1, g, q.2)
      else if c = '.' then some (.cls ⟨true, [(10, 10)]⟩, g, s)
      else if c = '$' then some (.fin, g, s)
      else if c = '\\' then
        match s with
        | [] => none
        | d :: t => (escape d).map fun x => (.cls ⟨false, x⟩, g, t)
      else if c = '*' ∨ c = '+' ∨ c = '?' ∨ c = '^' ∨ c = '{' then none
      else some (.cls (lit c), g, s)
end

/-- `regexp.Compile` (lexer/simplelexer/construct.go:69). -/
def compile (s : Str) : Option Rex :=
  match alts (3 * s.length + 3) 1 s with
  | some (r, _, []) => some r
  | _ => none

end Verif.Regexp
