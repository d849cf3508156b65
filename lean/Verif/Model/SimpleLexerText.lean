import Verif.Model.Regexp
import Verif.Spec.Regex
/-
Model of `New` of lexer/simplelexer/construct.go: reading the rules of a lexer from text. `regexp.Compile`
for the expressions in the text is a parameter of `new`; `compile` is the one for the expressions covered by
Model/Regexp.lean.
-/
namespace Verif.SimpleLexer
open Verif Verif.SetSymbol Verif.Spec

/-- The bytes of a text (Go source is UTF-8; construct.go:24, lexer.go:76). -/
def bytes (s : Str) : Bytes := s.flatMap String.utf8EncodeChar

/-- A string of bytes as a list of characters, one for each byte (for comparing and taking apart
definitions, construct.go:58-64). -/
def chars (b : Bytes) : Str := b.map fun x => Char.ofNat x.toNat

/-- A `*regexp.Regexp` for an expression, as lexers use it (lexer.go:128, 135). -/
def ofRex (r : Rex) : Re :=
  ⟨fun s => search r.len s.length s, fun s a e h => search_bound (fun s n h => by
    simp only [Rex.len, Option.map_eq_some_iff] at h
    obtain ⟨q, -, rfl⟩ := h
    omega) s.length s a e h⟩

/-- Reading an expression in ASCII (construct.go:69). -/
def compileRex (p : Bytes) : Option Rex :=
  if p.all (fun x => decide (x.toNat < 0x80)) then Regexp.compile (chars p) else none

/-- `regexp.Compile` (construct.go:69) for expressions in ASCII. -/
def compile (p : Bytes) : Option Re := (compileRex p).map ofRex

/-- `lexStr` (construct.go:57). -/
def lexStr : Str := r"([^\/\s]+)\s*(?:\/((?:[^\/\\]|(?:\\\/?))+)\/)?\s*(-?)".toList

/-- `strings.Split(definition, "\n")` (construct.go:24). -/
def lines : Bytes → List Bytes
  | [] => [[]]
  | x :: xs =>
    if x = nl then [] :: lines xs
    else match lines xs with
      | [] => [[x]]
      | l :: ls => (x :: l) :: ls

/-- What `ruleFromLine` takes from a line (construct.go:59-78): the kind, the text of the expression and
whether to discard; `none` if the line does not match. -/
def lineParts (re : Rex) (line : Bytes) : Option (Bytes × Bytes × Bool) :=
  (re.find decode line.length line).map fun m =>
    (group m.2 1, if group m.2 2 = [] then group m.2 1 else group m.2 2, decide (group m.2 3 = [45]))

/-- The loop of `New` over lines (construct.go:24-36): `none` is an error. -/
def newLines (compile : Bytes → Option Re) (re : Rex) : List Bytes → Lexer → Option Lexer
  | [], l => some l
  | line :: ls, l =>
    match lineParts re line with
    | none => newLines compile re ls l
    | some (k, p, d) =>
      match compile p with
      | none => none
      | some r =>
        match add l k r d with
        | (l', true) => newLines compile re ls l'
        | (_, false) => none

/-- The loop of `New` over definitions (construct.go:23-37). -/
def newDefs (compile : Bytes → Option Re) (re : Rex) : List Bytes → Lexer → Option Lexer
  | [], l => some l
  | d :: ds, l =>
    match newLines compile re (lines d) l with
    | none => none
    | some l' => newDefs compile re ds l'

/-- `New` (construct.go:16-40). The expression `lexStr` is compiled at start, with MustCompile. -/
def new (compile : Bytes → Option Re) (defs : List Bytes) : Out (Option Lexer) :=
  match Regexp.compile lexStr with
  | none => .panic
  | some re => .ok (newDefs compile re defs empty)

end Verif.SimpleLexer
