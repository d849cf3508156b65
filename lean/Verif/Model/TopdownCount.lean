import Verif.Model.Topdown
/-
Model of parser/topdown/topdown.go with the work counted: each call of `accept` and each call of `acceptProd` counts one. Otherwise
as Model/Topdown.
-/
namespace Verif.Topdown
open Verif.Spec

section
variable {β V : Type} [DecidableEq β]

/-- Loop of `acceptProd` (topdown.go:126-133), with the work of the calls of `accept` in it. -/
def prodLoopC (rec : Memo β V → β → Nat → Out ((Memo β V × Option (Resp β V)) × Nat)) :
    Memo β V → List β → Nat → Out ((Memo β V × Option (List (PN β V) × Nat)) × Nat)
  | m, [], pos => .ok ((m, some ([], pos)), 0)
  | m, X :: p, pos => (rec m X pos).bind fun r =>
      match r.1.2 with
      | none => .ok ((r.1.1, none), r.2)
      | some a => (prodLoopC rec r.1.1 p a.stop).bind fun q =>
          match q.1.2 with
          | none => .ok ((q.1.1, none), r.2 + q.2)
          | some (ks, e) => .ok ((q.1.1, some (a.tree :: ks, e)), r.2 + q.2)

/-- Loop of `tryAccept` over the productions (topdown.go:112-119), one for each call of `acceptProd` (122-137). -/
def prodsLoopC (ev : V) (rec : Memo β V → β → Nat → Out ((Memo β V × Option (Resp β V)) × Nat))
    (len : Nat) (s : β) (pos : Nat) (all : Bool) :
    Memo β V → List (List β) → Out ((Memo β V × Option (Resp β V)) × Nat)
  | m, [] => .ok ((m, none), 0)
  | m, p :: ps => (prodLoopC rec m p pos).bind fun r =>
      match r.1.2 with
      | none => (prodsLoopC ev rec len s pos all r.1.1 ps).bind fun q => .ok (q.1, 1 + r.2 + q.2)
      | some (ks, e) =>
        if !all || decide (e = len) then .ok ((r.1.1, some ⟨.node ⟨s, ev, -1, 0⟩ ks, e⟩), 1 + r.2)
        else (prodsLoopC ev rec len s pos all r.1.1 ps).bind fun q => .ok (q.1, 1 + r.2 + q.2)

/-- `tryAccept` (topdown.go:101-120). -/
def tryAcceptC (ev : V) (prods : β → Option (List (List β))) (lxs : List (Lexeme β V))
    (rec : Memo β V → β → Nat → Out ((Memo β V × Option (Resp β V)) × Nat))
    (m : Memo β V) (s : β) (pos : Nat) (all : Bool) : Out ((Memo β V × Option (Resp β V)) × Nat) :=
  match prods s with
  | none =>
    match lxs[pos]? with
    | some l => if s = l.kind then .ok ((m, some ⟨.node l [], pos + 1⟩), 0) else .ok ((m, none), 0)
    | none => .ok ((m, none), 0)
  | some ps => prodsLoopC ev rec lxs.length s pos all m ps

/-- `accept` (topdown.go:88-95), which counts one. -/
def acceptC (ev : V) (prods : β → Option (List (List β))) (lxs : List (Lexeme β V)) :
    Nat → Memo β V → β → Nat → Bool → Out ((Memo β V × Option (Resp β V)) × Nat)
  | 0, _, _, _, _ => .fuel
  | n + 1, m, s, pos, all =>
    match m (s, pos) with
    | some r => .ok ((m, r), 1)
    | none =>
      (tryAcceptC ev prods lxs (fun m X p => acceptC ev prods lxs n m X p false) m s pos all).bind
        fun r => .ok ((upd r.1.1 (s, pos) (some r.1.2), r.1.2), 1 + r.2)

end

/-- `Parse` (topdown.go:32-51): the result and the work. -/
def parseC {α V : Type} [DecidableEq α] (ev : V) (g : Grammar α) (lexemes : List (Lexeme α V))
    (fuel : Nat) : Out (Option (PN α V) × Nat) :=
  match g.order with
  | [] => .ok (none, 0)
  | start :: _ =>
    (Packrat.loadSet g lexemes).bind fun s =>
      (acceptC ev (Packrat.idxProds g s)
        (lexemes.map fun l => ⟨Packrat.symIdx s l.kind, l.val, l.line, l.col⟩) fuel (fun _ => none)
        (Packrat.symIdx s start) 0 true).bind fun r =>
        match r.1.2 with
        | none => .ok (none, r.2)
        | some a => (Packrat.nameTree s a.tree).bind fun t => .ok (some t, r.2)

end Verif.Topdown
