import Verif.Model.PackratWork
/-
Model of parser/packrat/packrat.go with all its calls counted: every call of `addProds`, `update`, `addToMemo`,
`createsCircularDep`, `comparePriority`, `addPartial`, `checkNonTerminal`, `push` and `toPN` counts as one. Otherwise as
Model/Packrat.
-/
namespace Verif.Packrat
open Verif.Spec

/-- `addToMemo` (packrat.go:180-191), with the number of calls, this one included. -/
def addToMemoT (fuel : Nat) (st : St) (td : Def) : Out (St × Nat) :=
  match st.memo td.key with
  | none =>
    let st1 : St := { st with
      memo := upd st.memo td.key (some td)
      markers := upd st.markers td.key.marker (st.markers td.key.marker ++ [td]) }
    .ok ((st1.partials td.key.marker).foldl (fun s tp => push s tp td.key) st1, 1 + (st1.partials td.key.marker).length)
  | some old =>
    (compareC st.get fuel td old).bind fun c =>
      if c.1 = 1 then
        (circC st.get td.key fuel td).bind fun b =>
          if b.1 then .ok (st, 1 + c.2 + b.2) else .ok ({ st with memo := upd st.memo td.key (some td) }, 1 + c.2 + b.2)
      else .ok (st, 1 + c.2)

/-- `checkNonTerminal` (packrat.go:243-253), with the number of calls, this one included. -/
def checkNonTerminalT (env : Env) (fuel : Nat) (st : St) (m : Marker) : Out ((St × Option Def) × Nat) :=
  if env.lex[m.start]? = some m.idx then
    (addToMemoT fuel st (leafDef m)).bind fun r => .ok ((r.1, some (leafDef m)), r.2 + 1)
  else .ok ((st, none), 1)

/-- `addPartial` up to the final call (packrat.go:230-238), with the number of calls, that of `addPartial` included. -/
def addPartialPreT (env : Env) (fuel : Nat) (st : St) (tp : Partial) (req : Marker) : Out (St × Nat) :=
  (if env.nonterms req.idx then
    Out.ok ({ st with partials := upd st.partials req (st.partials req ++ [tp]) }, 0)
  else (checkNonTerminalT env fuel st req).bind fun r => .ok (r.1.1, r.2)).bind fun r =>
    .ok ((r.1.markers req).foldl (fun s td => push s tp td.key) r.1, r.2 + (r.1.markers req).length + 1)

/-- Loop of `addProds` (packrat.go:128-148), with the number of calls that it makes. -/
def addProdsLoopT (env : Env) (fuel : Nat) (rec : St → Marker → Out (St × Nat)) (root : Marker) :
    St → Nat → List (List Nat) → Out (St × Nat)
  | st, _, [] => .ok (st, 0)
  | st, k, [] :: ps =>
    (addToMemoT fuel st (nilDef root k)).bind fun r =>
      (addProdsLoopT env fuel rec root r.1 (k + 1) ps).bind fun r' => .ok (r'.1, r.2 + r'.2)
  | st, k, (X :: p) :: ps =>
    (addPartialPreT env fuel st (initPartial root k (X :: p)) ⟨X, root.start⟩).bind fun r1 =>
      (rec r1.1 ⟨X, root.start⟩).bind fun r2 =>
        (addProdsLoopT env fuel rec root r2.1 (k + 1) ps).bind fun r' => .ok (r'.1, r1.2 + r2.2 + r'.2)

/-- `addProds` (packrat.go:118-149), with the number of calls, this one included. -/
def addProdsT (env : Env) (fuel : Nat) : Nat → St → Marker → Out (St × Nat)
  | 0, _, _ => .fuel
  | depth + 1, st, root =>
    if st.queued root then .ok (st, 1)
    else
      let st1 : St := { st with queued := upd st.queued root true }
      match env.prods root.idx with
      | none => .ok (st1, 1)
      | some ps => (addProdsLoopT env fuel (addProdsT env fuel depth) root st1 0 ps).bind fun r => .ok (r.1, r.2 + 1)

/-- `addPartial` (packrat.go:229-241), with the number of calls, this one included. -/
def addPartialT (env : Env) (fuel : Nat) (st : St) (tp : Partial) (req : Marker) : Out (St × Nat) :=
  (addPartialPreT env fuel st tp req).bind fun r1 =>
    (addProdsT env fuel fuel r1.1 req).bind fun r2 => .ok (r2.1, r1.2 + r2.2)

/-- `update` (packrat.go:150-178), with the number of calls, this one included. -/
def updateT (env : Env) (fuel : Nat) : Nat → St → Partial → Key → Out (St × Nat)
  | 0, _, _, _ => .fuel
  | n + 1, st, base, ext =>
    let ex := extend base ext
    if base.td.children.length + 1 = ex.prod.length then
      (addToMemoT fuel st ex.td).bind fun r => .ok (r.1, r.2 + 1)
    else
      match ex.prod[base.td.children.length + 1]? with
      | none => .panic
      | some X =>
        (checkNonTerminalT env fuel st ex.td.key.marker).bind fun r =>
          match r.1.2 with
          | some td => (updateT env fuel n r.1.1 ex td.key).bind fun r' => .ok (r'.1, r.2 + r'.2 + 1)
          | none => (addPartialT env fuel r.1.1 ex ⟨X, ex.td.key.stop⟩).bind fun r' => .ok (r'.1, r.2 + r'.2 + 1)

/-- The main loop of `Parse` (packrat.go:102-106), with the number of calls that it makes. -/
def loopT (env : Env) (fuel : Nat) : Nat → St → Out (St × Nat)
  | 0, _ => .fuel
  | n + 1, st =>
    match st.stack with
    | [] => .ok (st, 0)
    | (tp, k) :: rest =>
      (updateT env fuel fuel { st with stack := rest } tp k).bind fun r =>
        (loopT env fuel n r.1).bind fun r' => .ok (r'.1, r.2 + r'.2)

/-- Loop of `toPN` over the children (packrat.go:276-281), with the number of calls that it makes. -/
def kidsPNT {V : Type} (rec : Def → Out (PN Nat V × Nat)) (get : Key → Def) : List Key → Out (List (PN Nat V) × Nat)
  | [] => .ok ([], 0)
  | k :: ks => (rec (get k)).bind fun t => (kidsPNT rec get ks).bind fun ts => .ok (t.1 :: ts.1, t.2 + ts.2)

/-- `toPN` (packrat.go:263-286), with the number of calls, this one included. -/
def toPNT {V : Type} (emptyVal : V) (lxms : List (Lexeme Nat V)) (get : Key → Def) : Nat → Def → Out (PN Nat V × Nat)
  | 0, _ => .fuel
  | n + 1, d =>
    (kidsPNT (toPNT emptyVal lxms get n) get d.children).bind fun ks =>
      .ok (.node (nodeLexeme emptyVal lxms d ks.1) ks.1, ks.2 + 1)

/-- Core of `Parse` on indices (packrat.go:97-115), with the number of calls that it makes. -/
def parseIdxT {V : Type} (emptyVal : V) (env : Env) (s : Nat) (lxms : List (Lexeme Nat V))
    (fuel : Nat) : Out (Option (PN Nat V) × Nat) :=
  (addProdsT env fuel fuel St.init ⟨s, 0⟩).bind fun r0 =>
    (loopT env fuel fuel r0.1).bind fun r =>
      let accepted := r.1.get ⟨s, 0, lxms.length⟩
      if accepted.key.stop ≠ lxms.length then .ok (none, r0.2 + r.2)
      else (toPNT emptyVal lxms r.1.get fuel accepted).bind fun t => .ok (some t.1, r0.2 + r.2 + t.2)

/-- `Parse` (packrat.go:76-116): the tree and the number of calls. -/
def parseT {α V : Type} [DecidableEq α] (emptyVal : V) (g : Grammar α) (lexemes : List (Lexeme α V)) (fuel : Nat) :
    Out (Option (PN α V) × Nat) :=
  match g.order with
  | [] => .ok (none, 0)
  | start :: _ =>
    (loadSet g lexemes).bind fun s =>
      (parseIdxT emptyVal (mkEnv g s lexemes) (symIdx s start)
        (lexemes.map fun l => ⟨symIdx s l.kind, l.val, l.line, l.col⟩) fuel).bind fun r =>
        match r.1 with
        | none => .ok (none, r.2)
        | some t => (nameTree s t).bind fun t' => .ok (some t', r.2)

end Verif.Packrat
