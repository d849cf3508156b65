import Verif.Model.Basic
import Verif.Spec.CFG
/-
Model of package tree: tree/parsetree.go (without New and String, see Model/TreeText.lean),
tree/node_reductions.go, tree/chain_reductions.go, tree/reducer.go.

A node is a value `PN α V` (lexeme and children); `α` is the type of kinds as strings, `V` of values.
A method with a pointer receiver returns the node's new contents. Parent links and the sharing of
slices' arrays are not modelled here; Model/TreeHeap.lean models them, and C66 relates the two. Nil children do not occur.
-/
namespace Verif.Tree
open Verif.Spec

variable {α V : Type} [DecidableEq α]

/-- Go's `s[a:b]` (as in node_reductions.go:70-72, 121-123, 157-159); the code never reslices beyond the length, so doing that counts as a panic here. -/
def slice {β : Type} (l : List β) (a b : Int) : Out (List β) :=
  if 0 ≤ a ∧ a ≤ b ∧ b ≤ l.length then .ok ((l.take b.toNat).drop a.toNat) else .panic

/-- Go's `s[i]` (as in parsetree.go:76, 147, node_reductions.go:13, 48-56, 97, 154-155). -/
def index {β : Type} (l : List β) (i : Int) : Out β :=
  if i < 0 then .panic else match l[i.toNat]? with | some x => .ok x | none => .panic

/-- `GetIdx` (node_reductions.go:31-37). -/
def getIdx (p : PN α V) (i : Int) : Int × Int × Bool :=
  let l : Int := p.kids.length
  let i := if i < 0 then l + i else i
  (i, l, decide (i ≥ 0) && decide (i < l))

/-- `Child` (parsetree.go:71-77); `none` is nil. -/
def child (p : PN α V) (i : Int) : Out (Option (PN α V)) :=
  match getIdx p i with
  | (_, _, false) => .ok none
  | (i, _, true) => (index p.kids i).bind fun c => .ok (some c)

/-- `ChildAt` (parsetree.go:142-154); the loop over `symbs` is membership. -/
def childAt (p : PN α V) (i : Int) (symbs : List α) : Out Bool :=
  match getIdx p i with
  | (_, _, false) => .ok false
  | (i, _, true) => (index p.kids i).bind fun c => .ok (symbs.any fun s => s = c.kind)

/-- `ChildIs` (node_reductions.go:104-110); calls `Child`, which converts the converted index again. -/
def childIs (p : PN α V) (i : Int) (kind : α) : Out Bool :=
  match getIdx p i with
  | (_, _, false) => .ok false
  | (i, _, true) => (child p i).bind fun c =>
    match c with
    | none => .panic
    | some c => .ok (c.kind = kind)

/-- `ReplaceWithChild` (node_reductions.go:8-15). -/
def replaceWithChild (p : PN α V) (i : Int) : Out (PN α V × Bool) :=
  match getIdx p i with
  | (_, _, false) => .ok (p, false)
  | (i, _, true) => (index p.kids i).bind fun c => .ok (c, true)

/-- `RemoveChild` (node_reductions.go:64-75). -/
def removeChild (p : PN α V) (i : Int) : Out (PN α V × Bool) :=
  match getIdx p i with
  | (_, _, false) => .ok (p, false)
  | (i, l, true) =>
    if i = l - 1 then (slice p.kids 0 i).bind fun ks => .ok (.node p.lx ks, true)
    else (slice p.kids 0 i).bind fun a => (slice p.kids (i + 1) l).bind fun b =>
      .ok (.node p.lx (a ++ b), true)

/-- Loop of `RemoveAll` (node_reductions.go:19-24) from index `i`; after a removal `i--` and `i++`
cancel. -/
def removeAllLoop (symbols : List α) : Nat → PN α V → Nat → Out (PN α V)
  | 0, _, _ => .fuel
  | n + 1, p, i =>
    if i < p.kids.length then
      (childAt p i symbols).bind fun b =>
        if b then (removeChild p i).bind fun r => removeAllLoop symbols n r.1 i
        else removeAllLoop symbols n p (i + 1)
    else .ok p

/-- `RemoveAll` (node_reductions.go:18-25). -/
def removeAll (p : PN α V) (symbols : List α) (fuel : Nat) : Out (PN α V) := removeAllLoop symbols fuel p 0

/-- First loop of `RemoveChildren` (node_reductions.go:43-52). -/
def dropFlags (p : PN α V) : List Bool → List Int → Out (List Bool)
  | drop, [] => .ok drop
  | drop, i :: is =>
    match getIdx p i with
    | (_, _, false) => dropFlags p drop is
    | (i, _, true) => (index drop i).bind fun b =>
      dropFlags p (if b then drop else drop.set i.toNat true) is

/-- Second loop of `RemoveChildren` (node_reductions.go:54-58) from index `idx`. -/
def keepUnflagged (p : PN α V) : Nat → List Bool → Out (List (PN α V))
  | _, [] => .ok []
  | idx, skip :: drop =>
    if skip then keepUnflagged p (idx + 1) drop
    else (index p.kids idx).bind fun c => (keepUnflagged p (idx + 1) drop).bind fun cs => .ok (c :: cs)

/-- `RemoveChildren` (node_reductions.go:40-60). `ln`, only a capacity, is left out. -/
def removeChildren (p : PN α V) (is : List Int) : Out (PN α V) :=
  (dropFlags p (List.replicate p.kids.length false) is).bind fun drop =>
    (keepUnflagged p 0 drop).bind fun ks => .ok (.node p.lx ks)

/-- `PromoteChild` (node_reductions.go:148-164). -/
def promoteChild (p : PN α V) (i : Int) : Out (PN α V × Bool) :=
  match getIdx p i with
  | (_, _, false) => .ok (p, false)
  | (i, l, true) => (index p.kids i).bind fun c =>
    (if i + 1 < l then (slice p.kids (i + 1) l).bind fun b => .ok (c.kids ++ b) else .ok c.kids).bind fun tail =>
      (slice p.kids 0 i).bind fun a => .ok (.node c.lx (a ++ tail), true)

/-- `PromoteSingleChild` (node_reductions.go:79-85). -/
def promoteSingleChild (p : PN α V) : Out (PN α V × Bool) :=
  if p.kids.length = 1 then (promoteChild p 0).bind fun r => .ok (r.1, true) else .ok (p, false)

/-- `PromoteChildValue` (node_reductions.go:91-101): the index is converted here and again by
`RemoveChild`. `lexeme.New(k).Set(v).At(pos)` is the lexeme with these parts (lexeme.go:22-54). -/
def promoteChildValue (p : PN α V) (i : Int) : Out (PN α V) :=
  let l : Int := p.kids.length
  let i := if i < 0 then l + i else i
  (if i ≥ 0 ∧ l > i then
      (index p.kids i).bind fun ch => .ok (.node ⟨p.kind, ch.lx.val, ch.lx.line, ch.lx.col⟩ p.kids)
    else .ok p).bind fun p => (removeChild p i).bind fun r => .ok r.1

/-- `PromoteChildrenOf` (node_reductions.go:115-126). -/
def promoteChildrenOf (p : PN α V) (i : Int) : Out (PN α V × Bool) :=
  match getIdx p i with
  | (_, _, false) => .ok (p, false)
  | (i, l, true) =>
    if i = l - 1 then (slice p.kids 0 i).bind fun a => (index p.kids i).bind fun c =>
      .ok (.node p.lx (a ++ c.kids), true)
    else (slice p.kids 0 i).bind fun a => (index p.kids i).bind fun c => (slice p.kids (i + 1) l).bind fun b =>
      .ok (.node p.lx (a ++ (c.kids ++ b)), true)

/-- `PromoteGrandChildren` (node_reductions.go:130-143); the counting loop only sets a capacity. -/
def promoteGrandChildren (p : PN α V) : PN α V :=
  .node p.lx (p.kids.foldl (fun new c => new ++ c.kids) [])

/-! ### Chains of reductions

User functions may panic, diverge, change the node and change a state `σ` of their own (closures). -/

/-- A function value of type `Reduction` (reducer.go:9) other than nil. -/
abbrev Fn (σ α V : Type) := PN α V → σ → Out (PN α V × σ)

/-- `Reduction` (reducer.go:9): nil or a function. -/
abbrev Red (σ α V : Type) := Option (Fn σ α V)

/-- `Condition` (chain_reductions.go:20): nil or a function, which gets a pointer to the node too. -/
abbrev Cond (σ α V : Type) := Option (PN α V → σ → Out (Bool × PN α V × σ))

variable {σ : Type}

/-- `Chain` (chain_reductions.go:5-16). -/
def chain (r1 r2 : Red σ α V) : Red σ α V :=
  match r1, r2 with
  | none, r2 => r2
  | r1, none => r1
  | some f1, some f2 => some fun p s => (f1 p s).bind fun r => f2 r.1 r.2

/-- Calling a reduction that may be nil where the code tests for nil (chain_reductions.go:26-32). -/
def callIf (r : Red σ α V) : Fn σ α V :=
  match r with
  | none => fun p s => .ok (p, s)
  | some f => f

/-- `If` (chain_reductions.go:23-35). -/
def ifRed (c : Cond σ α V) (t e : Red σ α V) : Red σ α V :=
  some fun p s =>
    match c with
    | none => callIf e p s
    | some c => (c p s).bind fun r => if r.1 then callIf t r.2.1 r.2.2 else callIf e r.2.1 r.2.2

/-- Method `If` (chain_reductions.go:38-40). -/
def thenIf (r : Red σ α V) (c : Cond σ α V) (t e : Red σ α V) : Red σ α V := chain r (ifRed c t e)

/-- `ChildIs` (chain_reductions.go:43-47). -/
def childIsC (i : Int) (kind : α) : Cond σ α V := some fun p s => (childIs p i kind).bind fun b => .ok (b, p, s)

/-- Lifting a state-free method to a reduction (as in chain_reductions.go:52-56). -/
def lift1 (f : PN α V → Out (PN α V)) : Red σ α V := some fun p s => (f p).bind fun q => .ok (q, s)

/-- Operations there is a Reduction for (chain_reductions.go:52-56, 114-163), with their arguments. -/
inductive ROp (α : Type) where
  | promoteChild (i : Int)
  | promoteChildrenOf (i : Int)
  | promoteChildValue (i : Int)
  | promoteGrandChildren
  | removeAll (ks : List α)
  | removeChild (i : Int)
  | removeChildren (is : List Int)
  | promoteSingleChild
  | replaceWithChild (i : Int)

/-- Effect of an operation on a node (the methods of node_reductions.go:8-164); `fuel` bounds the loop of `RemoveAll`. -/
def ROp.apply (fuel : Nat) : ROp α → PN α V → Out (PN α V)
  | .promoteChild i, p => (Tree.promoteChild p i).bind fun r => .ok r.1
  | .promoteChildrenOf i, p => (Tree.promoteChildrenOf p i).bind fun r => .ok r.1
  | .promoteChildValue i, p => Tree.promoteChildValue p i
  | .promoteGrandChildren, p => .ok (Tree.promoteGrandChildren p)
  | .removeAll ks, p => Tree.removeAll p ks fuel
  | .removeChild i, p => (Tree.removeChild p i).bind fun r => .ok r.1
  | .removeChildren is, p => Tree.removeChildren p is
  | .promoteSingleChild, p => (Tree.promoteSingleChild p).bind fun r => .ok r.1
  | .replaceWithChild i, p => (Tree.replaceWithChild p i).bind fun r => .ok r.1

/-- The constructor functions (chain_reductions.go:52-56, 114-163). -/
def ROp.red (fuel : Nat) (o : ROp α) : Red σ α V := lift1 (o.apply fuel)

/-- The chained methods (chain_reductions.go:61-111). -/
def ROp.then (fuel : Nat) (r : Red σ α V) (o : ROp α) : Red σ α V := chain r (o.red fuel)

/-! ### Reducers -/

/-- `Reducer` (reducer.go:14): a map; the value found may be nil. -/
abbrev Reducer (σ α V : Type) := α → Option (Red σ α V)

/-- `Add` (reducer.go:17-19). -/
def Reducer.add (r : Reducer σ α V) (k : α) (f : Red σ α V) : Reducer σ α V := upd r k (some f)

/-- `Can` (reducer.go:22-25). -/
def Reducer.can (r : Reducer σ α V) (p : PN α V) : Bool := (r p.kind).isSome

/-- First loop of `Merge` (reducer.go:32-38); `order` is the order in which Go happens to range over
the keys of `r2`. -/
def merge1 (r1 r2 : Reducer σ α V) : List α → Reducer σ α V → Reducer σ α V
  | [], merged => merged
  | k :: ks, merged =>
    match r2 k with
    | none => merge1 r1 r2 ks merged
    | some f2 =>
      match r1 k with
      | none => merge1 r1 r2 ks (upd merged k (some f2))
      | some f1 => merge1 r1 r2 ks (upd merged k (some (chain f1 f2)))

/-- Second loop of `Merge` (reducer.go:39-43). -/
def merge2 (r1 : Reducer σ α V) : List α → Reducer σ α V → Reducer σ α V
  | [], merged => merged
  | k :: ks, merged =>
    match r1 k with
    | none => merge2 r1 ks merged
    | some f1 =>
      match merged k with
      | none => merge2 r1 ks (upd merged k (some f1))
      | some _ => merge2 r1 ks merged

/-- `Merge` (reducer.go:30-45) with given iteration orders. -/
def merge (r1 r2 : Reducer σ α V) (o1 o2 : List α) : Reducer σ α V :=
  merge2 r1 o1 (merge1 r1 r2 o2 fun _ => none)

mutual
/-- `RawReduce` (reducer.go:67-84) on a node other than nil; `lexeme.Copy` copies kind, value and
position (lexeme.go:57-59). -/
def rawReduce (r : Reducer σ α V) : PN α V → σ → Out (PN α V × σ)
  | .node l ks, s =>
    (rawReduces r ks s).bind fun q =>
      match (r l.kind).join with
      | none => .ok (.node l q.1, q.2)
      | some f => f (.node l q.1) q.2
/-- The loop of `RawReduce` (reducer.go:75-77). -/
def rawReduces (r : Reducer σ α V) : List (PN α V) → σ → Out (List (PN α V) × σ)
  | [], s => .ok ([], s)
  | t :: ts, s => (rawReduce r t s).bind fun q => (rawReduces r ts q.2).bind fun qs => .ok (q.1 :: qs.1, qs.2)
end

/-- `Reduce` (reducer.go:53-59). -/
def reduce (r : Reducer σ α V) : Option (PN α V) → σ → Out (Option (PN α V) × σ)
  | none, s => .ok (none, s)
  | some t, s => (rawReduce r t s).bind fun q => .ok (some q.1, q.2)

/-! ### Other functions of parsetree.go -/

mutual
/-- `Clone` (parsetree.go:157-171): the lexeme gets kind and value only. -/
def clone : PN α V → PN α V
  | .node l ks => .node ⟨l.kind, l.val, 0, 0⟩ (clones ks)
/-- The loop of `Clone` (parsetree.go:165-169). -/
def clones : List (PN α V) → List (PN α V)
  | [] => []
  | t :: ts => clone t :: clones ts
end

mutual
/-- `Size` (parsetree.go:129-138). -/
def size : PN α V → Nat
  | .node _ ks => sizes 1 ks
/-- The loop of `Size` (parsetree.go:134-136). -/
def sizes (n : Nat) : List (PN α V) → Nat
  | [] => n
  | t :: ts => sizes (n + size t) ts
end

mutual
/-- `sliceReq` (parsetree.go:111-126); `empty v` tells whether a value is the empty string. -/
def sliceReq (empty : V → Bool) : PN α V → Nat
  | .node l ks =>
    let r := 3
    let r := if empty l.val then r else r + 1
    if ks.length > 0 then sliceReqs empty (r + 2) ks else r
/-- The loop of `sliceReq` (parsetree.go:121-123). -/
def sliceReqs (empty : V → Bool) (r : Nat) : List (PN α V) → Nat
  | [] => r
  | t :: ts => sliceReqs empty (r + sliceReq empty t) ts
end

end Verif.Tree
