import Verif.Model.Tree
import Verif.Model.TreeText
import Verif.Model.Packrat
/-
Model of package tree with pointers, parent links and slices: tree/parsetree.go (New, Parent, Clone,
ChildAt), tree/node_reductions.go, tree/chain_reductions.go, tree/reducer.go (RawReduce), and the construction
of the tree in parser/packrat/packrat.go. Model/Tree.lean has the same functions on values; here nodes are cells
of a heap, and their children slices of arrays that may be shared and may have room to grow in place.

A cell is `PN` (parsetree.go:51-55). Its lexeme is a value here: the code never changes a lexeme that
another node may hold (packrat.go:283 changes one just made). Cells and arrays are numbered in order of
allocation and never freed. A slice always starts at the start of its array: the only others in these
files are operands copied from at once. A nil slice is a slice of a fresh array without room.
-/
namespace Verif.TreeHeap
open Verif.Spec

/-- A slice of pointers to nodes; its capacity is the length of the array (parsetree.go:54). -/
structure Slice where
  arr : Nat
  len : Nat

/-- `PN` (parsetree.go:51-55); `none` is a nil pointer. -/
structure Cell (α V : Type) where
  lx : Lexeme α V
  P : Option Nat
  C : Slice

/-- Memory: the nodes and the arrays of pointers to nodes (parsetree.go:51-55). -/
structure Heap (α V : Type) where
  cells : List (Cell α V)
  arrs : List (List (Option Nat))

section
variable {α V : Type} [DecidableEq α]

namespace Heap
variable (h : Heap α V)

/-- Following a pointer; nil panics (as in node_reductions.go:13, 154-155). -/
def deref (a : Option Nat) : Out (Cell α V) :=
  match a with
  | none => .panic
  | some a => match h.cells[a]? with | some c => .ok c | none => .panic

/-- Writing a node (as in node_reductions.go:13, 71). -/
def put (a : Nat) (c : Cell α V) : Heap α V := { h with cells := h.cells.set a c }

/-- `&PN{...}` (as in reducer.go:71-74); the address is the number of cells before. -/
def newCell (c : Cell α V) : Heap α V := { h with cells := h.cells ++ [c] }

/-- `make([]*PN, n)` with all of `xs` (as in reducer.go:73, node_reductions.go:53); the array's number is the
number of arrays before. -/
def newArr (xs : List (Option Nat)) : Heap α V := { h with arrs := h.arrs ++ [xs] }

/-- The elements of a slice (as in node_reductions.go:159). -/
def vals (s : Slice) : List (Option Nat) := ((h.arrs[s.arr]?).getD []).take s.len

/-- `s[i] = v` (as in reducer.go:76, parsetree.go:168). -/
def store (s : Slice) (i : Nat) (v : Option Nat) : Heap α V :=
  { h with arrs := h.arrs.set s.arr (((h.arrs[s.arr]?).getD []).set i v) }

/-- `append(s, vs...)` (as in node_reductions.go:72, 121, 123, 157, 159): in place if there is room, else a new
array, whose capacity is up to the run time: `grow` says how much room is left. -/
def append (grow : Nat → Nat → Nat) (s : Slice) (vs : List (Option Nat)) : Heap α V × Slice :=
  let ar := (h.arrs[s.arr]?).getD []
  let n := s.len + vs.length
  if n ≤ ar.length then
    ({ h with arrs := h.arrs.set s.arr (ar.take s.len ++ vs ++ ar.drop n) }, ⟨s.arr, n⟩)
  else (h.newArr (ar.take s.len ++ vs ++ List.replicate (grow ar.length n) none), ⟨h.arrs.length, n⟩)

/-- `for _, c := range s { c.P = p }` (node_reductions.go:137-139, 160-162). -/
def setParents : Heap α V → List (Option Nat) → Nat → Out (Heap α V)
  | h, [], _ => .ok h
  | h, x :: xs, a =>
    match x with
    | none => .panic
    | some x => (h.deref (some x)).bind fun c => setParents (h.put x { c with P := some a }) xs a
end Heap

/-- `s[:i]` (as in node_reductions.go:70, 121). -/
def Slice.upto (s : Slice) (i : Int) : Slice := ⟨s.arr, i.toNat⟩

/-- `GetIdx` (node_reductions.go:31-37). -/
def getIdx (c : Cell α V) (i : Int) : Int × Int × Bool :=
  let l : Int := c.C.len
  let i := if i < 0 then l + i else i
  (i, l, decide (i ≥ 0) && decide (i < l))

/-- `Child` (parsetree.go:71-77); the inner `none` is nil. -/
def child (h : Heap α V) (a : Nat) (i : Int) : Out (Option Nat) :=
  (h.deref (some a)).bind fun c =>
    match getIdx c i with
    | (_, _, false) => .ok none
    | (i, _, true) => Tree.index (h.vals c.C) i

/-- `ChildAt` (parsetree.go:142-154). -/
def childAt (h : Heap α V) (a : Nat) (i : Int) (symbs : List α) : Out Bool :=
  (h.deref (some a)).bind fun c =>
    match getIdx c i with
    | (_, _, false) => .ok false
    | (i, _, true) => (Tree.index (h.vals c.C) i).bind fun x => (h.deref x).bind fun x =>
      .ok (symbs.any fun s => s = x.lx.kind)

/-- `ChildIs` (node_reductions.go:104-110). -/
def childIs (h : Heap α V) (a : Nat) (i : Int) (kind : α) : Out Bool :=
  (h.deref (some a)).bind fun c =>
    match getIdx c i with
    | (_, _, false) => .ok false
    | (i, _, true) => (child h a i).bind fun x => (h.deref x).bind fun x => .ok (x.lx.kind = kind)

/-- `ReplaceWithChild` (node_reductions.go:8-15): the whole node is copied, parent link and slice included. -/
def replaceWithChild (h : Heap α V) (a : Nat) (i : Int) : Out (Heap α V × Bool) :=
  (h.deref (some a)).bind fun c =>
    match getIdx c i with
    | (_, _, false) => .ok (h, false)
    | (i, _, true) => (Tree.index (h.vals c.C) i).bind fun x => (h.deref x).bind fun x => .ok (h.put a x, true)

/-- `RemoveChild` (node_reductions.go:64-75). -/
def removeChild (grow : Nat → Nat → Nat) (h : Heap α V) (a : Nat) (i : Int) : Out (Heap α V × Bool) :=
  (h.deref (some a)).bind fun c =>
    match getIdx c i with
    | (_, _, false) => .ok (h, false)
    | (i, l, true) =>
      if i = l - 1 then .ok (h.put a { c with C := c.C.upto i }, true)
      else
        let r := h.append grow (c.C.upto i) ((h.vals c.C).drop (i + 1).toNat)
        .ok (r.1.put a { c with C := r.2 }, true)

/-- Loop of `RemoveAll` (node_reductions.go:19-24) from index `i`. -/
def removeAllLoop (grow : Nat → Nat → Nat) (symbols : List α) : Nat → Heap α V → Nat → Nat → Out (Heap α V)
  | 0, _, _, _ => .fuel
  | n + 1, h, a, i =>
    (h.deref (some a)).bind fun c =>
      if i < c.C.len then
        (childAt h a i symbols).bind fun b =>
          if b then (removeChild grow h a i).bind fun r => removeAllLoop grow symbols n r.1 a i
          else removeAllLoop grow symbols n h a (i + 1)
      else .ok h

/-- `RemoveAll` (node_reductions.go:18-25). -/
def removeAll (grow : Nat → Nat → Nat) (fuel : Nat) (h : Heap α V) (a : Nat) (symbols : List α) : Out (Heap α V) :=
  removeAllLoop grow symbols fuel h a 0

/-- First loop of `RemoveChildren` (node_reductions.go:43-52); `ln` becomes the number of children kept. -/
def dropFlags (c : Cell α V) : List Bool → Nat → List Int → Out (List Bool × Nat)
  | drop, ln, [] => .ok (drop, ln)
  | drop, ln, i :: is =>
    match getIdx c i with
    | (_, _, false) => dropFlags c drop ln is
    | (i, _, true) => (Tree.index drop i).bind fun b =>
      if b then dropFlags c drop ln is else dropFlags c (drop.set i.toNat true) (ln - 1) is

/-- Second loop of `RemoveChildren` (node_reductions.go:54-58) from index `idx`; `s` is `newC`. -/
def keepUnflagged (grow : Nat → Nat → Nat) (c : Cell α V) : Heap α V → Slice → Nat → List Bool → Out (Heap α V × Slice)
  | h, s, _, [] => .ok (h, s)
  | h, s, idx, skip :: drop =>
    if skip then keepUnflagged grow c h s (idx + 1) drop
    else (Tree.index (h.vals c.C) idx).bind fun x =>
      let r := h.append grow s [x]
      keepUnflagged grow c r.1 r.2 (idx + 1) drop

/-- `RemoveChildren` (node_reductions.go:40-60). -/
def removeChildren (grow : Nat → Nat → Nat) (h : Heap α V) (a : Nat) (is : List Int) : Out (Heap α V) :=
  (h.deref (some a)).bind fun c =>
    (dropFlags c (List.replicate c.C.len false) c.C.len is).bind fun d =>
      (keepUnflagged grow c (h.newArr (List.replicate d.2 none)) ⟨h.arrs.length, 0⟩ 0 d.1).bind fun r =>
        .ok (r.1.put a { c with C := r.2 })

/-- `PromoteChild` (node_reductions.go:148-164). -/
def promoteChild (grow : Nat → Nat → Nat) (h : Heap α V) (a : Nat) (i : Int) : Out (Heap α V × Bool) :=
  (h.deref (some a)).bind fun p =>
    match getIdx p i with
    | (_, _, false) => .ok (h, false)
    | (i, l, true) => (Tree.index (h.vals p.C) i).bind fun x => (h.deref x).bind fun c =>
      let tail := if i + 1 < l then h.append grow c.C ((h.vals p.C).drop (i + 1).toNat) else (h, c.C)
      let r := tail.1.append grow (p.C.upto i) (tail.1.vals tail.2)
      let h := r.1.put a { p with lx := c.lx, C := r.2 }
      (h.setParents (h.vals r.2) a).bind fun h => .ok (h, true)

/-- `PromoteSingleChild` (node_reductions.go:79-85). -/
def promoteSingleChild (grow : Nat → Nat → Nat) (h : Heap α V) (a : Nat) : Out (Heap α V × Bool) :=
  (h.deref (some a)).bind fun c =>
    if c.C.len = 1 then (promoteChild grow h a 0).bind fun r => .ok (r.1, true) else .ok (h, false)

/-- `PromoteChildValue` (node_reductions.go:91-101). -/
def promoteChildValue (grow : Nat → Nat → Nat) (h : Heap α V) (a : Nat) (i : Int) : Out (Heap α V) :=
  (h.deref (some a)).bind fun c =>
    let l : Int := c.C.len
    let i := if i < 0 then l + i else i
    (if i ≥ 0 ∧ l > i then
        (Tree.index (h.vals c.C) i).bind fun x => (h.deref x).bind fun ch =>
          .ok (h.put a { c with lx := ⟨c.lx.kind, ch.lx.val, ch.lx.line, ch.lx.col⟩ })
      else .ok h).bind fun h => (removeChild grow h a i).bind fun r => .ok r.1

/-- `PromoteChildrenOf` (node_reductions.go:115-126). -/
def promoteChildrenOf (grow : Nat → Nat → Nat) (h : Heap α V) (a : Nat) (i : Int) : Out (Heap α V × Bool) :=
  (h.deref (some a)).bind fun p =>
    match getIdx p i with
    | (_, _, false) => .ok (h, false)
    | (i, l, true) => (Tree.index (h.vals p.C) i).bind fun x => (h.deref x).bind fun c =>
      if i = l - 1 then
        let r := h.append grow (p.C.upto i) (h.vals c.C)
        .ok (r.1.put a { p with C := r.2 }, true)
      else
        let q := h.append grow c.C ((h.vals p.C).drop (i + 1).toNat)
        let r := q.1.append grow (p.C.upto i) (q.1.vals q.2)
        .ok (r.1.put a { p with C := r.2 }, true)

/-- Counting loop of `PromoteGrandChildren` (node_reductions.go:131-134). -/
def countGrand (h : Heap α V) : List (Option Nat) → Out Nat
  | [] => .ok 0
  | x :: xs => (h.deref x).bind fun c => (countGrand h xs).bind fun n => .ok (c.C.len + n)

/-- Second loop of `PromoteGrandChildren` (node_reductions.go:136-141); `s` is `newChildren`. The array ranged over
does not change during the loop. -/
def grandLoop (grow : Nat → Nat → Nat) (a : Nat) : Heap α V → Slice → List (Option Nat) → Out (Heap α V × Slice)
  | h, s, [] => .ok (h, s)
  | h, s, x :: xs => (h.deref x).bind fun c => (h.setParents (h.vals c.C) a).bind fun h =>
    let r := h.append grow s (h.vals c.C)
    grandLoop grow a r.1 r.2 xs

/-- `PromoteGrandChildren` (node_reductions.go:130-143). -/
def promoteGrandChildren (grow : Nat → Nat → Nat) (h : Heap α V) (a : Nat) : Out (Heap α V) :=
  (h.deref (some a)).bind fun p => (countGrand h (h.vals p.C)).bind fun ct =>
    (grandLoop grow a (h.newArr (List.replicate ct none)) ⟨h.arrs.length, 0⟩ (h.vals p.C)).bind fun r =>
      (r.1.deref (some a)).bind fun p => .ok (r.1.put a { p with C := r.2 })

/-! ### Reductions -/

variable {σ : Type}

/-- A function value of type `Reduction` (reducer.go:9) other than nil: it gets a pointer. -/
abbrev Fn (σ α V : Type) := Heap α V → Nat → σ → Out (Heap α V × σ)

/-- `Reduction` (reducer.go:9): nil or a function. -/
abbrev Red (σ α V : Type) := Option (Fn σ α V)

/-- `Condition` (chain_reductions.go:20). -/
abbrev Cond (σ α V : Type) := Option (Heap α V → Nat → σ → Out (Bool × Heap α V × σ))

/-- `Chain` (chain_reductions.go:5-16). -/
def chain (r1 r2 : Red σ α V) : Red σ α V :=
  match r1, r2 with
  | none, r2 => r2
  | r1, none => r1
  | some f1, some f2 => some fun h a s => (f1 h a s).bind fun r => f2 r.1 a r.2

/-- Calling a reduction unless it is nil (chain_reductions.go:26-32). -/
def callIf (r : Red σ α V) : Fn σ α V :=
  match r with
  | none => fun h _ s => .ok (h, s)
  | some f => f

/-- `If` (chain_reductions.go:23-35). -/
def ifRed (c : Cond σ α V) (t e : Red σ α V) : Red σ α V :=
  some fun h a s =>
    match c with
    | none => callIf e h a s
    | some c => (c h a s).bind fun r => if r.1 then callIf t r.2.1 a r.2.2 else callIf e r.2.1 a r.2.2

/-- `ChildIs` (chain_reductions.go:43-47). -/
def childIsC (i : Int) (kind : α) : Cond σ α V := some fun h a s => (childIs h a i kind).bind fun b => .ok (b, h, s)

/-- The operations there is a Reduction for (chain_reductions.go:52-56, 114-163). -/
def apply (grow : Nat → Nat → Nat) (fuel : Nat) (o : Tree.ROp α) (h : Heap α V) (a : Nat) : Out (Heap α V) :=
  match o with
  | .promoteChild i => (promoteChild grow h a i).bind fun r => .ok r.1
  | .promoteChildrenOf i => (promoteChildrenOf grow h a i).bind fun r => .ok r.1
  | .promoteChildValue i => promoteChildValue grow h a i
  | .promoteGrandChildren => promoteGrandChildren grow h a
  | .removeAll ks => removeAll grow fuel h a ks
  | .removeChild i => (removeChild grow h a i).bind fun r => .ok r.1
  | .removeChildren is => removeChildren grow h a is
  | .promoteSingleChild => (promoteSingleChild grow h a).bind fun r => .ok r.1
  | .replaceWithChild i => (replaceWithChild h a i).bind fun r => .ok r.1

/-- The constructor functions (chain_reductions.go:52-56, 114-163). -/
def red (grow : Nat → Nat → Nat) (fuel : Nat) (o : Tree.ROp α) : Red σ α V :=
  some fun h a s => (apply grow fuel o h a).bind fun h => .ok (h, s)

/-- `Reducer` (reducer.go:14). -/
abbrev Reducer (σ α V : Type) := α → Option (Red σ α V)

/-- Loop of `RawReduce` (reducer.go:75-77) over the indices from `i`, `k` of them left; `rec` is the recursive call, `a` the node
reduced, `s` the slice `cp.C`. Nil children of the node do not occur in the trees of this package. -/
def reduceLoop (rec : Heap α V → Nat → σ → Out (Heap α V × Nat × σ)) (a : Nat) (s : Slice) :
    Nat → Nat → Heap α V → σ → Out (Heap α V × σ)
  | 0, _, h, st => .ok (h, st)
  | k + 1, i, h, st => (child h a i).bind fun x =>
    match x with
    | none => .panic
    | some x => (rec h x st).bind fun r => reduceLoop rec a s k (i + 1) (r.1.store s i (some r.2.1)) r.2.2

/-- `RawReduce` (reducer.go:67-84) on a node in the heap: the address of the copy. -/
def rawReduce (r : Reducer σ α V) : Nat → Heap α V → Nat → σ → Out (Heap α V × Nat × σ)
  | 0, _, _, _ => .fuel
  | n + 1, h, a, st => (h.deref (some a)).bind fun c =>
    let cp := h.cells.length
    let s : Slice := ⟨h.arrs.length, c.C.len⟩
    let h := (h.newArr (List.replicate c.C.len none)).newCell ⟨c.lx, none, s⟩
    (reduceLoop (rawReduce r n) a s c.C.len 0 h st).bind fun q =>
      match (r c.lx.kind).join with
      | none => .ok (q.1, cp, q.2)
      | some f => (f q.1 cp q.2).bind fun q => .ok (q.1, cp, q.2)

/-! ### Clone, New, parsers -/

/-- Loop of `Clone` (parsetree.go:165-169). -/
def cloneLoop (rec : Heap α V → Nat → Out (Heap α V × Nat)) (a pn : Nat) (s : Slice) : Nat → Nat → Heap α V → Out (Heap α V)
  | 0, _, h => .ok h
  | k + 1, i, h => (child h a i).bind fun x =>
    match x with
    | none => .panic
    | some x => (rec h x).bind fun r => (r.1.deref (some r.2)).bind fun c =>
      cloneLoop rec a pn s k (i + 1) ((r.1.put r.2 { c with P := some pn }).store s i (some r.2))

/-- `Clone` (parsetree.go:157-171) of a node in the heap. -/
def clone : Nat → Heap α V → Nat → Out (Heap α V × Nat)
  | 0, _, _ => .fuel
  | n + 1, h, a => (h.deref (some a)).bind fun c =>
    let pn := h.cells.length
    let s : Slice := ⟨h.arrs.length, c.C.len⟩
    let h := (h.newArr (List.replicate c.C.len none)).newCell ⟨⟨c.lx.kind, c.lx.val, 0, 0⟩, none, s⟩
    (cloneLoop (clone n) a pn s c.C.len 0 h).bind fun h => .ok (h, pn)

/-- A value of type `parlex.ParseNode` that holds a `*PN`, or nil (interfaces.go:38-44). -/
inductive Iface where
  | nil
  | pn (p : Option Nat)

/-- `Parent` (parsetree.go:59-61): the pointer is converted to the interface, so a nil pointer does not give
a nil interface. -/
def parent (c : Cell α V) : Iface := .pn c.P
end

/-- `&PN{}` with a nil slice (parsetree.go:23, 35-38). -/
def freshNode {α V : Type} (h : Heap α V) (l : Lexeme α V) (p : Option Nat) : Heap α V × Nat :=
  ((h.newArr []).newCell ⟨l, p, ⟨h.arrs.length, 0⟩⟩, h.cells.length)

/-- Adding a node in `New` (parsetree.go:32-43). -/
def addNode (grow : Nat → Nat → Nat) (h : Heap Str Str) (cur : Option Nat) (kind val : Str) (op : Bool) :
    Out (Heap Str Str × Option Nat) :=
  let n := freshNode h ⟨kind, TreeText.handleSlash val, -1, 0⟩ cur
  match cur with
  | none => .panic
  | some a => (n.1.deref (some a)).bind fun c =>
    let r := n.1.append grow c.C [some n.2]
    .ok (r.1.put a { c with C := r.2 }, if op then some n.2 else some a)

/-- Loop of `New` (parsetree.go:24-44); `none` is ErrBadTreeString. -/
def newLoop (grow : Nat → Nat → Nat) : Heap Str Str → Option Nat → List Str → Out (Option (Heap Str Str × Option Nat))
  | h, cur, [] => .ok (some (h, cur))
  | h, cur, line :: lines =>
    match TreeText.treeLine line with
    | none => .ok none
    | some (close, kind, val, op) =>
      (if close then (h.deref cur).bind fun c => .ok c.P else .ok cur).bind fun cur =>
        (if kind ≠ [] then addNode grow h cur kind val op else .ok (h, cur)).bind fun r => newLoop grow r.1 r.2 lines

/-- `New` (parsetree.go:22-48) in a heap: the address of the root. The node made first has no lexeme; the one it has here
is never read. -/
def new (grow : Nat → Nat → Nat) (h : Heap Str Str) (str : Str) : Out (Option (Heap Str Str × Nat)) :=
  let n := freshNode h ⟨[], [], 0, 0⟩ none
  (newLoop grow n.1 (some n.2) (Grammar.split '\n' str)).bind fun r =>
    match r with
    | none => .ok none
    | some (h, cur) => (h.deref cur).bind fun c => (Tree.index (h.vals c.C) 0).bind fun x =>
      match x with
      | none => .panic
      | some x => (h.deref (some x)).bind fun c => .ok (some (h.put x { c with P := none }, x))

/-- Loop of `toPN` over the children (packrat.go:276-281) from index `i`. -/
def kidsPN {V : Type} (rec : Heap Nat V → Packrat.Def → Out (Heap Nat V × Nat)) (get : Packrat.Key → Packrat.Def)
    (pn : Nat) (s : Slice) : Nat → List Packrat.Key → Heap Nat V → Out (Heap Nat V)
  | _, [], h => .ok h
  | i, k :: ks, h => (rec h (get k)).bind fun r => (r.1.deref (some r.2)).bind fun c =>
    kidsPN rec get pn s (i + 1) ks ((r.1.put r.2 { c with P := some pn }).store s i (some r.2))

/-- The lexeme `toPN` starts from, and `setPos` (packrat.go:264-271). -/
def pnLexeme {V : Type} (emptyVal : V) (lxms : List (Lexeme Nat V)) (d : Packrat.Def) : Lexeme Nat V × Bool :=
  let fresh : Lexeme Nat V × Bool := (⟨d.key.idx, emptyVal, -1, 0⟩, true)
  match lxms[d.key.start]? with
  | some l => if l.kind = d.key.idx then (l, false) else fresh
  | none => fresh

/-- `toPN` (packrat.go:263-286). -/
def toPN {V : Type} (emptyVal : V) (lxms : List (Lexeme Nat V)) (get : Packrat.Key → Packrat.Def) :
    Nat → Heap Nat V → Packrat.Def → Out (Heap Nat V × Nat)
  | 0, _, _ => .fuel
  | n + 1, h, d =>
    let lx := pnLexeme emptyVal lxms d
    let pn := h.cells.length
    let s : Slice := ⟨h.arrs.length, d.children.length⟩
    let h := (h.newArr (List.replicate d.children.length none)).newCell ⟨lx.1, none, s⟩
    (kidsPN (toPN emptyVal lxms get n) get pn s 0 d.children h).bind fun h =>
      if lx.2 ∧ s.len > 0 then
        (Tree.index (h.vals s) 0).bind fun x => (h.deref x).bind fun c => (h.deref (some pn)).bind fun p =>
          .ok (h.put pn { p with lx := ⟨p.lx.kind, p.lx.val, c.lx.line, c.lx.col⟩ }, pn)
      else .ok (h, pn)

/-- Core of `Parse` on indices (packrat.go:97-115): as `Packrat.parseIdx`, with the tree in memory. -/
def parseIdx {V : Type} (emptyVal : V) (env : Packrat.Env) (s : Nat) (lxms : List (Lexeme Nat V)) (fuel : Nat) (h : Heap Nat V) :
    Out (Option (Heap Nat V × Nat)) :=
  (Packrat.addProds env fuel fuel Packrat.St.init ⟨s, 0⟩).bind fun st0 =>
    (Packrat.loop env fuel fuel st0).bind fun st =>
      let accepted := st.get ⟨s, 0, lxms.length⟩
      if accepted.key.stop ≠ lxms.length then .ok none
      else (toPN emptyVal lxms st.get fuel h accepted).bind fun r => .ok (some r)

end Verif.TreeHeap
