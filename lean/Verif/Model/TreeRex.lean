import Verif.Model.TreeText
import Verif.Model.Regexp
/-
Model of `New` of tree/parsetree.go with the expression compiled by Model/Regexp.
-/
namespace Verif.TreeRex
open Verif Verif.Spec Verif.TreeText

/-- The text of `reTreeLine` (tree/parsetree.go:13). -/
def reText : Str := "\\s*(\\}?)\\s*([^\\}\\{:\\\"\\s]+|$)\\s*(?:\\:\\s*\\\"((?:[^\\\"\\\\]|(?:\\\\.))*)\\\")?\\s*(\\{?)$".toList

/-- Loop of `New` (tree/parsetree.go:24-44) with the expression `re`; `none` is ErrBadTreeString. The lengths
compared are those in characters: what is matched is at the end of the line, so it is as long as the line
in bytes if and only if it is in characters. -/
def newLoop (re : Rex) : Cur → List Str → Out (Option Cur)
  | cur, [] => .ok (some cur)
  | cur, line :: lines =>
    match re.find one line.length line with
    | none => .panic
    | some m =>
      if line.length ≠ m.1.length then .ok none
      else
        (if group m.2 1 = ['}'] then up cur else .ok cur).bind fun cur =>
          (if group m.2 2 ≠ [] then addNode (group m.2 2) (group m.2 3) (decide (group m.2 4 = ['{'])) cur else .ok cur).bind fun cur =>
            newLoop re cur lines

/-- `New` (tree/parsetree.go:22-48); `MustCompile` panics if the expression does not compile. -/
def new (str : Str) : Out (Option (PN Str Str)) :=
  match Regexp.compile reText with
  | none => .panic
  | some re =>
    (newLoop re (some ([], [])) (Grammar.split '\n' str)).bind fun r =>
      match r with
      | none => .ok none
      | some none => .panic
      | some (some ([], _)) => .panic
      | some (some (k :: _, _)) => .ok (some k)

end Verif.TreeRex
