import Verif.Model.JsonText
import Verif.Model.MathText
import Verif.Model.ScalcMain
/-
Model of examples/parlexjson/parlexjson/main.go and examples/parlexmath/parlexmath/main.go. The texts of errors are left out.
-/
namespace Verif.Mains
open Verif Verif.Spec Verif.SimpleLexer Verif.ScalcMain

/-- What a run of a program leaves: what it printed on standard output, whether it printed an error on standard error, and its
exit status. -/
structure Exit where
  out : Bytes
  err : Bool
  status : Nat
deriving DecidableEq

/-- `main` (examples/parlexjson/parlexjson/main.go:10-18) on the arguments after the name of the program. A `main` that returns exits
with status 0. -/
def jsonMain (fuel : Nat) (rl0 rl pl : Lexer) (p1 p2 o1 o2 : List Str) (l : Lexer) (args : List Bytes) : Out Exit :=
  (Json.formatText fuel rl0 rl pl p1 p2 o1 o2 l (joinSpace args)).bind fun r =>
    match r.1 with
    | none => .ok ⟨[], true, 0⟩
    | some s => .ok ⟨s ++ [10], false, 0⟩

/-- `main` (examples/parlexmath/parlexmath/main.go:10-22) on the arguments after the name of the program. How `fmt` prints a number is
the parameter `sh`. -/
def mathMain {N : Type} (A : Math.Arith N) (sh : N → Bytes) (fuel : Nat) (l : Lexer) (args : List Bytes) : Out Exit :=
  if joinSpace args = [] then .ok ⟨[], true, 0⟩
  else (PMath.evalText A fuel l (joinSpace args)).bind fun r =>
    match r.1 with
    | none => .ok ⟨[], true, 0⟩
    | some v => .ok ⟨sh v ++ [10], false, 0⟩

end Verif.Mains
