import Verif.Model.SimpleLexerText
/-
Model of `String` of lexer/simplelexer/construct.go. An expression in the model is a function, so the texts of the
expressions are given beside the lexer: `src k` is what `re.String()` returns for the rule of kind `k`, which is the text
it was compiled from (package regexp).
-/
namespace Verif.SimpleLexer
open Verif Verif.SetSymbol Verif.Spec

/-- `len([]rune(s))` (helpers.go:111), which is also how `fmt` counts for a width (construct.go:116): a byte that is not part of
a character counts as one. The first argument is a bound, the length of the string. -/
def runes : Nat → Bytes → Nat
  | 0, _ => 0
  | n + 1, s => match decode s with
    | none => 0
    | some (_, w) => 1 + runes n (s.drop w)

/-- `SymLen` (helpers.go:110-112). -/
def symLen (s : Bytes) : Nat := runes s.length s

/-- The loop for the longest name (construct.go:108-113). A missing rule is dereferenced, which panics. `ByIdx` has `nil` for
an index that is not in the set, on which `String` panics. -/
def longestKind (l : Lexer) : List (Option Rule) → Nat → Out Nat
  | [], w => .ok w
  | none :: _, _ => .panic
  | some r :: rs, w => match l.set.symb2str[r.kind]? with
    | none => .panic
    | some k => longestKind l rs (if w < symLen k then symLen k else w)

/-- `fmt.Sprintf("%-<w>s %s %s", str, re, d)` (construct.go:115, 130). -/
def ruleLine (w : Nat) (str re d : Bytes) : Bytes := str ++ List.replicate (w - symLen str) 32 ++ 32 :: (re ++ 32 :: d)

/-- One pass of the loop over rules (construct.go:118-130). -/
def stringOne (l : Lexer) (src : Nat → Bytes) (w kind : Nat) : Out Bytes :=
  match l.rules[kind]?, l.set.symb2str[kind]? with
  | some (some r), some str =>
    .ok (ruleLine w str (if src kind = str then [] else 47 :: (src kind ++ [47])) (if r.discard then [45] else []))
  | _, _ => .panic

/-- The loop over rules (construct.go:117-131). -/
def stringLoop (l : Lexer) (src : Nat → Bytes) (w : Nat) : List Nat → Out (List Bytes)
  | [] => .ok []
  | k :: ks => (stringOne l src w k).bind fun x => (stringLoop l src w ks).bind fun xs => .ok (x :: xs)

/-- `strings.Join(lines, "\n")` (construct.go:132). -/
def joinLines : List Bytes → Bytes
  | [] => []
  | [x] => x
  | x :: y :: xs => x ++ nl :: joinLines (y :: xs)

/-- `String` (construct.go:107-133). -/
def string (l : Lexer) (src : Nat → Bytes) : Out Bytes :=
  (longestKind l l.rules 0).bind fun w => (stringLoop l src w l.order).bind fun ls => .ok (joinLines ls)

end Verif.SimpleLexer
