import Verif.Model.Topdown
import Verif.Model.TreeHeap
/-
Model of parser/topdown/topdown.go with nodes in memory: Model/Topdown.lean has the same functions with trees as
values. Nodes are cells of a heap as in Model/TreeHeap.lean; the memo holds their addresses, so that one node can
become a child in several places.
-/
namespace Verif.TopdownHeap
open Verif.Spec Verif.TreeHeap

section
variable {β V : Type} [DecidableEq β]

/-- `acceptResp` (topdown.go:58-61) with the address of the node. -/
structure HResp where
  node : Nat
  stop : Nat
  deriving DecidableEq, Repr

/-- The memo map (topdown.go:84): absent, present with nil, or present with a response. -/
abbrev HMemo (β : Type) := β × Nat → Option (Option HResp)

/-- Loop of `acceptProd` (topdown.go:126-133) from index `i`: the children are written to the slice `s`, and the end
position returned, or nil. `rec` is the call of `accept` with `all = false`. -/
def prodLoop (rec : Heap β V → HMemo β → β → Nat → Out (Heap β V × HMemo β × Option HResp)) (s : Slice) :
    Nat → Heap β V → HMemo β → List β → Nat → Out (Heap β V × HMemo β × Option Nat)
  | _, h, m, [], pos => .ok (h, m, some pos)
  | i, h, m, X :: p, pos => (rec h m X pos).bind fun r =>
      match r.2.2 with
      | none => .ok (r.1, r.2.1, none)
      | some a => prodLoop rec s (i + 1) (r.1.store s i (some a.node)) r.2.1 p a.stop

/-- `acceptProd` (topdown.go:122-137): the array is made first and is the one of the node (`resp`, 63-71); the parent
link is nil. -/
def acceptProd (ev : V) (rec : Heap β V → HMemo β → β → Nat → Out (Heap β V × HMemo β × Option HResp))
    (sym : β) (pos : Nat) (h : Heap β V) (m : HMemo β) (p : List β) : Out (Heap β V × HMemo β × Option HResp) :=
  let s : Slice := ⟨h.arrs.length, p.length⟩
  (prodLoop rec s 0 (h.newArr (List.replicate p.length none)) m p pos).bind fun r =>
    match r.2.2 with
    | none => .ok (r.1, r.2.1, none)
    | some e => .ok (r.1.newCell ⟨⟨sym, ev, -1, 0⟩, none, s⟩, r.2.1, some ⟨r.1.cells.length, e⟩)

/-- Loop of `tryAccept` over the productions (topdown.go:112-119). -/
def prodsLoop (ev : V) (rec : Heap β V → HMemo β → β → Nat → Out (Heap β V × HMemo β × Option HResp))
    (len : Nat) (s : β) (pos : Nat) (all : Bool) :
    Heap β V → HMemo β → List (List β) → Out (Heap β V × HMemo β × Option HResp)
  | h, m, [] => .ok (h, m, none)
  | h, m, p :: ps => (acceptProd ev rec s pos h m p).bind fun r =>
      match r.2.2 with
      | none => prodsLoop ev rec len s pos all r.1 r.2.1 ps
      | some a =>
        if !all || decide (a.stop = len) then .ok (r.1, r.2.1, some a)
        else prodsLoop ev rec len s pos all r.1 r.2.1 ps

/-- `tryAccept` (topdown.go:101-120); the node for a lexeme has a nil slice (106, `resp` 63-71). -/
def tryAccept (ev : V) (prods : β → Option (List (List β))) (lxs : List (Lexeme β V))
    (rec : Heap β V → HMemo β → β → Nat → Out (Heap β V × HMemo β × Option HResp))
    (h : Heap β V) (m : HMemo β) (s : β) (pos : Nat) (all : Bool) : Out (Heap β V × HMemo β × Option HResp) :=
  match prods s with
  | none =>
    match lxs[pos]? with
    | some l =>
      if s = l.kind then
        let n := freshNode h l none
        .ok (n.1, m, some ⟨n.2, pos + 1⟩)
      else .ok (h, m, none)
    | none => .ok (h, m, none)
  | some ps => prodsLoop ev rec lxs.length s pos all h m ps

/-- `accept` (topdown.go:88-95). -/
def accept (ev : V) (prods : β → Option (List (List β))) (lxs : List (Lexeme β V)) :
    Nat → Heap β V → HMemo β → β → Nat → Bool → Out (Heap β V × HMemo β × Option HResp)
  | 0, _, _, _, _, _ => .fuel
  | n + 1, h, m, s, pos, all =>
    match m (s, pos) with
    | some r => .ok (h, m, r)
    | none =>
      (tryAccept ev prods lxs (fun h m X p => accept ev prods lxs n h m X p false) h m s pos all).bind
        fun r => .ok (r.1, upd r.2.1 (s, pos) (some r.2.2), r.2.2)
end

/-- `Parse` (topdown.go:32-51): the set that the kinds of the nodes belong to, the memory after it (only what Parse
makes), and the address of the node returned; `none` is the nil result. -/
def parse {α V : Type} [DecidableEq α] (ev : V) (g : Grammar α) (lexemes : List (Lexeme α V)) (fuel : Nat) :
    Out (Option (SetSymbol.SymSet α × Heap Nat V × Nat)) :=
  match g.order with
  | [] => .ok none
  | start :: _ =>
    (Packrat.loadSet g lexemes).bind fun s =>
      (accept ev (Packrat.idxProds g s)
        (lexemes.map fun l => ⟨Packrat.symIdx s l.kind, l.val, l.line, l.col⟩) fuel ⟨[], []⟩ (fun _ => none)
        (Packrat.symIdx s start) 0 true).bind fun r => .ok (r.2.2.map fun a => (s, r.1, a.node))

end Verif.TopdownHeap
