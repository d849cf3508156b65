import Verif.Spec.CFG
/- The shape of parse trees: descendants, depth, number of nodes. -/
namespace Verif.Spec.PN
variable {α V : Type}

/-- `Below v t`: `v` is a child of `t`, or a child of a child, and so on. -/
inductive Below : PN α V → PN α V → Prop
  | child {v t} : v ∈ t.kids → Below v t
  | deeper {v c t} : c ∈ t.kids → Below v c → Below v t

/-- The number of lexemes that a tree covers. -/
def width (g : Grammar α) (t : PN α V) : Nat := (t.fringe fun s => (g.prods s).isNone).length

/-- No node stands below a node of the same kind that covers as many lexemes. -/
def NoRepeat (g : Grammar α) (t : PN α V) : Prop :=
  ∀ u v, (u = t ∨ Below u t) → Below v u → v.kind = u.kind → width g v ≠ width g u

mutual
/-- Nodes on the longest way down. -/
def depth : PN α V → Nat
  | node _ ks => 1 + depths ks
/-- The largest depth of the trees, 0 for none. -/
def depths : List (PN α V) → Nat
  | [] => 0
  | t :: ts => max (depth t) (depths ts)
end

mutual
/-- The number of nodes. -/
def nodes : PN α V → Nat
  | node _ ks => 1 + nodess ks
/-- The number of nodes of the trees together. -/
def nodess : List (PN α V) → Nat
  | [] => 0
  | t :: ts => nodes t + nodess ts
end

end Verif.Spec.PN
