import Verif.Model.Packrat
/-
Model of parser/topdown/topdown.go and leftrecursion.go.
The recursion of the parser is modelled over any symbol type `β`; `parse` runs it on set indices as
the code does. Parse trees are values (the code shares nodes between memo entries but does not
change them during a parse).
-/
namespace Verif.Topdown
open Verif.Spec

/-! ### leftrecursion.go -/
section LeftRecursion
variable {α : Type} [DecidableEq α]

/-- `lrOp`'s two maps (leftrecursion.go:19-22). -/
structure LR (α : Type) where
  checked : α → Bool
  stack : α → Bool

/-- Inner loop of `check` over the symbols of one production (leftrecursion.go:47-52): returns
whether left recursion was found. `rec` is the recursive call. -/
def checkSyms (rec : LR α → α → Out (LR α × Bool × Bool)) : LR α → List α → Out (LR α × Bool)
  | st, [] => .ok (st, false)
  | st, X :: p => (rec st X).bind fun r =>
      if r.2.1 then .ok (r.1, true)
      else if r.2.2 then checkSyms rec r.1 p
      else .ok (r.1, false)

/-- Outer loop of `check` over the productions (leftrecursion.go:41-53): returns whether left
recursion was found and the final `retCheckNext`. -/
def checkProds (rec : LR α → α → Out (LR α × Bool × Bool)) :
    LR α → Bool → List (List α) → Out (LR α × Bool × Bool)
  | st, next, [] => .ok (st, false, next)
  | st, _, [] :: ps => checkProds rec st true ps
  | st, next, (X :: p) :: ps => (checkSyms rec st (X :: p)).bind fun r =>
      if r.2 then .ok (r.1, true, false) else checkProds rec r.1 next ps

/-- `check` (leftrecursion.go:24-58): returns the new maps, isLR and checkNext. -/
def check (g : Grammar α) : Nat → LR α → α → Out (LR α × Bool × Bool)
  | 0, _, _ => .fuel
  | n + 1, st, s =>
    if st.checked s then .ok (st, false, false)
    else
      match g.prods s with
      | none => .ok ({ st with checked := upd st.checked s true }, false, false)
      | some ps =>
        if st.stack s then .ok (st, true, false)
        else
          (checkProds (check g n) { st with stack := upd st.stack s true } false ps).bind fun r =>
            if r.2.1 then .ok (r.1, true, false)
            else .ok (⟨upd r.1.checked s true, upd r.1.stack s false⟩, false, r.2.2)

/-- Loop of `IsLeftRecursive` (leftrecursion.go:9-15). -/
def lrLoop (g : Grammar α) (fuel : Nat) : (α → Bool) → List α → Out Bool
  | _, [] => .ok false
  | checked, nt :: nts => (check g fuel ⟨checked, fun _ => false⟩ nt).bind fun r =>
      if r.2.1 then .ok true else lrLoop g fuel r.1.checked nts

/-- `IsLeftRecursive` (leftrecursion.go:4-17). -/
def isLeftRecursive (g : Grammar α) (fuel : Nat) : Out Bool := lrLoop g fuel (fun _ => false) g.order

/-- `New` (topdown.go:22-29): `true` is success, `false` is ErrLeftRecursion. -/
def new (g : Grammar α) (fuel : Nat) : Out Bool := (isLeftRecursive g fuel).bind fun b => .ok (!b)

end LeftRecursion

/-! ### topdown.go -/
section Parse
variable {β V : Type} [DecidableEq β]

/-- `acceptResp` (topdown.go:58-61). -/
structure Resp (β V : Type) where
  tree : PN β V
  stop : Nat

/-- The memo map (topdown.go:84), keyed by `treeKey` (53-56): absent, present with nil, or present with a response. -/
abbrev Memo (β V : Type) := β × Nat → Option (Option (Resp β V))

/-- Loop of `acceptProd` (topdown.go:126-133): the children and the end position, or nil. `rec` is
the call of `accept` with `all = false`. -/
def prodLoop (rec : Memo β V → β → Nat → Out (Memo β V × Option (Resp β V))) :
    Memo β V → List β → Nat → Out (Memo β V × Option (List (PN β V) × Nat))
  | m, [], pos => .ok (m, some ([], pos))
  | m, X :: p, pos => (rec m X pos).bind fun r =>
      match r.2 with
      | none => .ok (r.1, none)
      | some a => (prodLoop rec r.1 p a.stop).bind fun q =>
          match q.2 with
          | none => .ok (q.1, none)
          | some (ks, e) => .ok (q.1, some (a.tree :: ks, e))

/-- Loop of `tryAccept` over the productions (topdown.go:112-119), with `acceptProd` (122-137)
inlined: the node gets a new lexeme with value "" and position (-1, 0). -/
def prodsLoop (ev : V) (rec : Memo β V → β → Nat → Out (Memo β V × Option (Resp β V)))
    (len : Nat) (s : β) (pos : Nat) (all : Bool) :
    Memo β V → List (List β) → Out (Memo β V × Option (Resp β V))
  | m, [] => .ok (m, none)
  | m, p :: ps => (prodLoop rec m p pos).bind fun r =>
      match r.2 with
      | none => prodsLoop ev rec len s pos all r.1 ps
      | some (ks, e) =>
        if !all || decide (e = len) then .ok (r.1, some ⟨.node ⟨s, ev, -1, 0⟩ ks, e⟩)
        else prodsLoop ev rec len s pos all r.1 ps

/-- `tryAccept` (topdown.go:101-120). -/
def tryAccept (ev : V) (prods : β → Option (List (List β))) (lxs : List (Lexeme β V))
    (rec : Memo β V → β → Nat → Out (Memo β V × Option (Resp β V)))
    (m : Memo β V) (s : β) (pos : Nat) (all : Bool) : Out (Memo β V × Option (Resp β V)) :=
  match prods s with
  | none =>
    match lxs[pos]? with
    | some l => if s = l.kind then .ok (m, some ⟨.node l [], pos + 1⟩) else .ok (m, none)
    | none => .ok (m, none)
  | some ps => prodsLoop ev rec lxs.length s pos all m ps

/-- `accept` (topdown.go:88-95). -/
def accept (ev : V) (prods : β → Option (List (List β))) (lxs : List (Lexeme β V)) :
    Nat → Memo β V → β → Nat → Bool → Out (Memo β V × Option (Resp β V))
  | 0, _, _, _, _ => .fuel
  | n + 1, m, s, pos, all =>
    match m (s, pos) with
    | some r => .ok (m, r)
    | none =>
      (tryAccept ev prods lxs (fun m X p => accept ev prods lxs n m X p false) m s pos all).bind
        fun r => .ok (upd r.1 (s, pos) (some r.2), r.2)

end Parse

/-- `Parse` (topdown.go:32-51), on set indices, the result read back with symbol names. `none` is the
nil result. -/
def parse {α V : Type} [DecidableEq α] (ev : V) (g : Grammar α) (lexemes : List (Lexeme α V))
    (fuel : Nat) : Out (Option (PN α V)) :=
  match g.order with
  | [] => .ok none
  | start :: _ =>
    (Packrat.loadSet g lexemes).bind fun s =>
      (accept ev (Packrat.idxProds g s)
        (lexemes.map fun l => ⟨Packrat.symIdx s l.kind, l.val, l.line, l.col⟩) fuel (fun _ => none)
        (Packrat.symIdx s start) 0 true).bind fun r =>
        match r.2 with
        | none => .ok none
        | some a => (Packrat.nameTree s a.tree).bind fun t => .ok (some t)

end Verif.Topdown
