import Verif.Model.Packrat
/-
Model of parser/packrat/packrat.go with the rounds of the main loop counted. Otherwise as Model/Packrat.
-/
namespace Verif.Packrat
open Verif.Spec

/-- The main loop of `Parse` (packrat.go:102-106), with the number of its rounds. -/
def loopC (env : Env) (fuel : Nat) : Nat → St → Out (St × Nat)
  | 0, _ => .fuel
  | n + 1, st =>
    match st.stack with
    | [] => .ok (st, 0)
    | (tp, k) :: rest =>
      (update env fuel fuel { st with stack := rest } tp k).bind fun st' =>
        (loopC env fuel n st').bind fun r => .ok (r.1, r.2 + 1)

/-- Core of `Parse` on indices (packrat.go:97-115), with the number of rounds of the main loop. -/
def parseIdxC {V : Type} (emptyVal : V) (env : Env) (s : Nat) (lxms : List (Lexeme Nat V))
    (fuel : Nat) : Out (Option (PN Nat V) × Nat) :=
  (addProds env fuel fuel St.init ⟨s, 0⟩).bind fun st0 =>
    (loopC env fuel fuel st0).bind fun r =>
      let accepted := r.1.get ⟨s, 0, lxms.length⟩
      if accepted.key.stop ≠ lxms.length then .ok (none, r.2)
      else (toPN emptyVal lxms r.1.get fuel accepted).bind fun t => .ok (some t, r.2)

/-- `Parse` (packrat.go:76-116): the tree and the number of rounds of the main loop. -/
def parseC {α V : Type} [DecidableEq α] (emptyVal : V) (g : Grammar α) (lexemes : List (Lexeme α V)) (fuel : Nat) :
    Out (Option (PN α V) × Nat) :=
  match g.order with
  | [] => .ok (none, 0)
  | start :: _ =>
    (loadSet g lexemes).bind fun s =>
      (parseIdxC emptyVal (mkEnv g s lexemes) (symIdx s start)
        (lexemes.map fun l => ⟨symIdx s l.kind, l.val, l.line, l.col⟩) fuel).bind fun r =>
        match r.1 with
        | none => .ok (none, r.2)
        | some t => (nameTree s t).bind fun t' => .ok (some t', r.2)

end Verif.Packrat
