import Verif.Spec.GrammarDef
import Verif.Spec.Tree
/-
What a text says about a tree, in the notation of package tree: one node to a line, its kind, a colon and
its value in quotes, an opening brace if it has children, which follow, and a closing brace on a line of
its own or in front of the next node.
-/
namespace Verif.Spec.TreeDef
open Verif.Spec

/-- White space. -/
def White (s : Str) : Prop := ∀ c ∈ s, c = '\t' ∨ c = '\n' ∨ c = '\x0c' ∨ c = '\r' ∨ c = ' '

/-- Kinds that can be written. -/
def IsKind (s : Str) : Prop := s ≠ [] ∧ ∀ c ∈ s, c ∉ ['\t', '\n', '\x0c', '\r', ' ', '"', '{', '}', ':']

/-- What is between quotes and what it stands for: a backslash before a backslash or quote is dropped, with
an n it is a newline; any other character after a backslash leaves both as they are. -/
inductive Quoted : Str → Str → Prop
  | nil : Quoted [] []
  | char {c s v} : c ≠ '"' → c ≠ '\\' → Quoted s v → Quoted (c :: s) (c :: v)
  | slash {s v} : Quoted s v → Quoted ('\\' :: '\\' :: s) ('\\' :: v)
  | quote {s v} : Quoted s v → Quoted ('\\' :: '"' :: s) ('"' :: v)
  | line {s v} : Quoted s v → Quoted ('\\' :: 'n' :: s) ('\n' :: v)
  | other {c s v} : c ∉ ['\\', '"', 'n', '\n'] → Quoted s v → Quoted ('\\' :: c :: s) ('\\' :: c :: v)

/-- A brace that may be there. -/
def brace (c : Char) (there : Bool) : Str := if there then [c] else []

/-- What a line says. -/
inductive Tok where
  | close
  | leaf (kind val : Str)
  | start (kind val : Str)

/-- A closing brace that may be there. -/
def closing (there : Bool) : List Tok := if there then [.close] else []

/-- A node, with or without children. -/
def node (kind val : Str) (o : Bool) : Tok := if o then .start kind val else .leaf kind val

/-- The value of a node as written: nothing, or a colon and a text in quotes. -/
inductive Value : Str → Str → Prop
  | none : Value [] []
  | some {a s v b} : White a → Quoted s v → White b → Value (':' :: a ++ '"' :: s ++ '"' :: b) v

/-- A line and what it says. -/
inductive Line : Str → List Tok → Prop
  | blank {a b : Str} {c : Bool} : White a → White b → Line (a ++ brace '}' c ++ b) (closing c)
  | node {a b k d x v : Str} {c o : Bool} : White a → White b → IsKind k → White d → Value x v →
      Line (a ++ brace '}' c ++ b ++ k ++ d ++ x ++ brace '{' o) (closing c ++ [TreeDef.node k v o])

/-- Lines and what they say together. -/
inductive Lines : List Str → List Tok → Prop
  | nil : Lines [] []
  | cons {l ls t ts} : Line l t → Lines ls ts → Lines (l :: ls) (t ++ ts)

/-- Trees, with kinds and values. -/
inductive Tree where
  | node (kind val : Str) (kids : List Tree)

mutual
/-- The tree as parse nodes, all without a position. -/
def Tree.nodes : Tree → PN Str Str
  | .node k v ts => .node ⟨k, v, -1, 0⟩ (nodesOf ts)
/-- Trees as parse nodes. -/
def nodesOf : List Tree → List (PN Str Str)
  | [] => []
  | t :: ts => t.nodes :: nodesOf ts
end

/-- The trees that lie side by side. -/
inductive Forest : List Tok → List Tree → Prop
  | nil : Forest [] []
  | leaf {k v ts f} : Forest ts f → Forest (.leaf k v :: ts) (.node k v [] :: f)
  | tree {k v ts us f g} : Forest ts f → Forest us g → Forest (.start k v :: ts ++ .close :: us) (.node k v f :: g)

/-- Trees side by side after the last brace that is not closed: `Open ts n f` has `n` such braces. -/
inductive Open : List Tok → Nat → List Tree → Prop
  | none {ts f} : Forest ts f → Open ts 0 f
  | some {ts us k v n f g} : Forest ts f → Open us n g → Open (ts ++ .start k v :: us) (n + 1) g

/-- How often a brace is opened, and closed. -/
def opens (ts : List Tok) : Nat := (ts.filter fun | .start _ _ => true | _ => false).length
def closes (ts : List Tok) : Nat := (ts.filter fun | .close => true | _ => false).length

/-- Nothing follows a closing brace that was not opened. -/
def Steady (ts : List Tok) : Prop := ∀ p x q, ts = p ++ x :: q → closes p ≤ opens p

end Verif.Spec.TreeDef
