import Verif.Model.TreeHeap
/-
Specification for trees in memory: when a node in memory is a given tree, and what may change.
-/
namespace Verif.Spec.TreeHeap
open Verif.Spec Verif.TreeHeap

variable {α V : Type}

mutual
/-- `Rep lk h t p a F A`: the node at `a` is the tree `t`; `F` are the nodes of which the tree consists and `A` the
arrays of their children. With `lk` every node's parent link is its parent, and that of `a` is `p`. -/
def Rep (lk : Bool) (h : Heap α V) : PN α V → Option Nat → Nat → List Nat → List Nat → Prop
  | .node l ks, p, a, F, A => ∃ c ar F' A', h.cells[a]? = some c ∧ c.lx = l ∧ (lk = true → c.P = p) ∧
      h.arrs[c.C.arr]? = some ar ∧ c.C.len ≤ ar.length ∧
      Reps lk h ks a (ar.take c.C.len) F' A' ∧ F = a :: F' ∧ A = c.C.arr :: A'
/-- The same for the children of `p`: `os` are the pointers to them. -/
def Reps (lk : Bool) (h : Heap α V) : List (PN α V) → Nat → List (Option Nat) → List Nat → List Nat → Prop
  | [], _, os, F, A => os = [] ∧ F = [] ∧ A = []
  | t :: ts, p, os, F, A => ∃ a os' F1 A1 F2 A2, os = some a :: os' ∧ Rep lk h t (some p) a F1 A1 ∧
      Reps lk h ts p os' F2 A2 ∧ F = F1 ++ F2 ∧ A = A1 ++ A2
end

/-- The node at `a` is the tree `t`, and no node or array occurs in it twice; with `lk` and parent link `p` as in `Rep`. -/
def Own (lk : Bool) (h : Heap α V) (p : Option Nat) (a : Nat) (t : PN α V) (F A : List Nat) : Prop :=
  Rep lk h t p a F A ∧ F.Nodup ∧ A.Nodup

/-- The node at `a` is the tree `t`, and no node or array occurs in it twice. -/
abbrev Owns (h : Heap α V) (a : Nat) (t : PN α V) (F A : List Nat) : Prop := Own false h none a t F A

/-- The same with parent links: `p` is that of the root. -/
abbrev Linked (h : Heap α V) (p : Option Nat) (a : Nat) (t : PN α V) (F A : List Nat) : Prop := Own true h p a t F A

/-- From `h` to `h'` nothing changed but the nodes `F` and arrays `A`; there may be more nodes and arrays. -/
def Frame (h h' : Heap α V) (F A : List Nat) : Prop :=
  h.cells.length ≤ h'.cells.length ∧ h.arrs.length ≤ h'.arrs.length ∧
  (∀ x < h.cells.length, x ∉ F → h'.cells[x]? = h.cells[x]?) ∧
  ∀ x < h.arrs.length, x ∉ A → h'.arrs[x]? = h.arrs[x]?

/-- Among what there was in `h`, `F'` has only elements of `F`. -/
def Within (n : Nat) (F F' : List Nat) : Prop := ∀ x ∈ F', x ∈ F ∨ n ≤ x

/-- The computation on memory does what the one on values does: it ends in the same way, the node at `a` is then
the tree that results (with `lk`, it has parent links), nothing changed but what belonged to the tree before, and the tree shares nothing with
what else there was. -/
def SimL {β : Type} (lk : Bool) (p : Option Nat) (h : Heap α V) (a : Nat) (F A : List Nat) (o : Out (PN α V × β)) (m : Out (Heap α V × β)) : Prop :=
  match o with
  | .ok (t', b) => ∃ h' F' A', m = .ok (h', b) ∧ Own lk h' p a t' F' A' ∧ Frame h h' F A ∧
      Within h.cells.length F F' ∧ Within h.arrs.length A A'
  | .panic => m = .panic
  | .fuel => m = .fuel

/-- The same without regard to parent links. -/
abbrev Sim {β : Type} (h : Heap α V) (a : Nat) (F A : List Nat) (o : Out (PN α V × β)) (m : Out (Heap α V × β)) : Prop :=
  SimL false none h a F A o m

/-- The computation makes a new tree, as the one on values says, and changes nothing else. -/
def New {β : Type} (h : Heap α V) (o : Out (PN α V × β)) (m : Out (Heap α V × Nat × β)) : Prop :=
  match o with
  | .ok (t, b) => ∃ h' a F A, m = .ok (h', a, b) ∧ Owns h' a t F A ∧ Frame h h' [] [] ∧
      (∀ x ∈ F, h.cells.length ≤ x) ∧ ∀ x ∈ A, h.arrs.length ≤ x
  | .panic => m = .panic
  | .fuel => m = .fuel

/-- A reduction in memory does what one on values does. -/
def RefFn {σ : Type} (f : Fn σ α V) (g : Tree.Fn σ α V) : Prop :=
  ∀ h a t F A s, Owns h a t F A → Sim h a F A (g t s) (f h a s)

/-- The same for reductions that may be nil. -/
def RefRed {σ : Type} : Red σ α V → Tree.Red σ α V → Prop
  | none, none => True
  | some f, some g => RefFn f g
  | _, _ => False

mutual
/-- Nesting of a tree. -/
def depth : PN α V → Nat
  | .node _ ks => depths ks + 1
/-- Greatest nesting of the trees. -/
def depths : List (PN α V) → Nat
  | [] => 0
  | t :: ts => max (depth t) (depths ts)
end

/-- A condition in memory does what one on values does. -/
def RefCond {σ : Type} : Cond σ α V → Tree.Cond σ α V → Prop
  | none, none => True
  | some c, some d => ∀ h a t F A s, Owns h a t F A →
      Sim h a F A ((d t s).bind fun r => .ok (r.2.1, r.1, r.2.2)) ((c h a s).bind fun r => .ok (r.2.1, r.1, r.2.2))
  | _, _ => False

/-- The computation makes a new tree with parent links and changes nothing else. -/
def NewL (h : Heap α V) (o : Out (PN α V)) (m : Out (Heap α V × Nat)) : Prop :=
  match o with
  | .ok t => ∃ h' a F A, m = .ok (h', a) ∧ Linked h' none a t F A ∧ Frame h h' [] [] ∧
      (∀ x ∈ F, h.cells.length ≤ x) ∧ ∀ x ∈ A, h.arrs.length ≤ x
  | .panic => m = .panic
  | .fuel => m = .fuel

/-- The same for a computation that may have no result. -/
def NewO (h : Heap α V) (o : Out (Option (PN α V))) (m : Out (Option (Heap α V × Nat))) : Prop :=
  match o with
  | .ok none => m = .ok none
  | .ok (some t) => ∃ h' a F A, m = .ok (some (h', a)) ∧ Linked h' none a t F A ∧ Frame h h' [] [] ∧
      (∀ x ∈ F, h.cells.length ≤ x) ∧ ∀ x ∈ A, h.arrs.length ≤ x
  | .panic => m = .panic
  | .fuel => m = .fuel

end Verif.Spec.TreeHeap
