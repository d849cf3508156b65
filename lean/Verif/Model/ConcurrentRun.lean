import Verif.Model.ConcurrentParse
import Verif.Model.Helpers
import Verif.Model.Run
/-
`Run` as what it does with the memory that calls of it share: the set of symbols of the lexer, and that of the grammar.
-/
namespace Verif
open Verif.Spec Verif.SetSymbol
open Verif.SimpleLexer (Bytes Lx)

namespace Spec.Prog
variable {X Y S T α : Type}

/-- Code that uses the first of two parts of memory. -/
def left : Prog X S α → Prog (X ⊕ Y) (S × T) α
  | ret a => ret a
  | read x k => read (.inl x) fun st => (k st.1).left
  | write x f k => write (.inl x) (fun st => (f st.1, st.2)) k.left

/-- Code that uses the second. -/
def right : Prog Y T α → Prog (X ⊕ Y) (S × T) α
  | ret a => ret a
  | read x k => read (.inr x) fun st => (k st.2).right
  | write x f k => write (.inr x) (fun st => (st.1, f st.2)) k.right

end Spec.Prog

/-- Code that uses the set of a lexer and the set of a grammar. -/
abbrev RunProg (α : Type) := Prog (SetField ⊕ SetField) (SymSet Bytes × SymSet Str) α

/-- `Kind().String()` of the lexemes (lexeme/lexeme.go:11, 64, symbol/setsymbol/set.go:107), with which `LoadLexemes` looks for symbols in
the set of the operation (symbol/setsymbol/set.go:57, 297). The names of symbols of the set of the lexer are read from it; indices are in
the set. The code reads them after it has loaded the grammar (parser/topdown/topdown.go:41-43); here they are read before. -/
def kindsP : List Lx → SetProg (List (Lexeme Str Str))
  | [] => .ret []
  | x :: xs =>
    match x.kind with
    | .plain k => (kindsP xs).bind fun ls => .ret (⟨SimpleLexer.chars k, SimpleLexer.chars x.val, x.line, x.col⟩ :: ls)
    | .idx i => .read .symb2str fun s => (kindsP xs).bind fun ls =>
        .ret (⟨SimpleLexer.chars ((s.symb2str[i]?).getD []), SimpleLexer.chars x.val, x.line, x.col⟩ :: ls)

/-- `Run` after lexing (parlex.go:9-28). Reducers work on trees of the operation of the parser, which no other goroutine has. -/
def afterP (parser : List (Lexeme Str Str) → GramProg Str (Out (Option (PN Str Str))))
    (reducers : List (Option (PN Str Str → Option (PN Str Str)))) (lxs : List Lx) : RunProg (Out (Helpers.RunErr Lx ⊕ PN Str Str)) :=
  match Helpers.lexErrors (fun x : Lx => if x.err then some x else none) lxs with
  | e :: _ => .ret (.ok (.inl (.lexErr e)))
  | [] => (kindsP lxs).left.bind fun ls => (parser ls).right.andThen fun
    | none => .ret (.ok (.inl .couldNotParse))
    | some t =>
      match Helpers.runReducers reducers t with
      | none => .ret (.ok (.inl .couldNotReduce))
      | some t' => .ret (.ok (.inr t'))

/-- `Run` (parlex.go:4-29) with a lexer that does not return a nil slice. -/
def runP (lexer : SetProg (Out (List Lx))) (parser : List (Lexeme Str Str) → GramProg Str (Out (Option (PN Str Str))))
    (reducers : List (Option (PN Str Str → Option (PN Str Str)))) : RunProg (Out (Helpers.RunErr Lx ⊕ PN Str Str)) :=
  lexer.left.andThen (afterP parser reducers)

end Verif
