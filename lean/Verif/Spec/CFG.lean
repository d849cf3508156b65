/-
Specification vocabulary for context free grammars, independent of the code: grammars as the
`parlex.Grammar` interface presents them, derivations, derivation trees, left recursion, cycles.
`α` is the type of symbol names.
-/
namespace Verif.Spec

/-- A grammar as observed through the `parlex.Grammar` interface (interfaces.go:55-59):
`NonTerminals()` in order, and `Productions(s)`, which is nil (`none`) for symbols that are not
nonterminals. -/
structure Grammar (α : Type) where
  order : List α
  prods : α → Option (List (List α))

namespace Grammar
variable {α : Type}

/-- The two halves of the interface agree: a symbol has productions iff it is listed. -/
def WF (g : Grammar α) : Prop := ∀ x, (g.prods x).isSome ↔ x ∈ g.order

/-- `p` is the `k`-th production of `A`. -/
def Rule (g : Grammar α) (A : α) (k : Nat) (p : List α) : Prop :=
  ∃ ps, g.prods A = some ps ∧ ps[k]? = some p

/-- `t` is a terminal. -/
def Term (g : Grammar α) (t : α) : Prop := g.prods t = none

instance (g : Grammar α) (t : α) : Decidable (g.Term t) :=
  decidable_of_iff ((g.prods t).isNone = true) (by simp [Term])

/-- `Derives g ss w`: the sequence of symbols `ss` derives the terminal word `w`. -/
inductive Derives (g : Grammar α) : List α → List α → Prop
  | nil : Derives g [] []
  | term {t ss w} : g.Term t → Derives g ss w → Derives g (t :: ss) (t :: w)
  | nonterm {A k p ss u v} : g.Rule A k p → Derives g p u → Derives g ss v →
      Derives g (A :: ss) (u ++ v)

/-- `w` is a sentence: derived by the first nonterminal. -/
def Sentence (g : Grammar α) (w : List α) : Prop := ∃ S, g.order.head? = some S ∧ g.Derives [S] w

/-- `Der g inp ss i j`: the symbols `ss` derive the part of `inp` between positions `i` and `j`. -/
inductive Der (g : Grammar α) (inp : List α) : List α → Nat → Nat → Prop
  | nil {i} : Der g inp [] i i
  | term {t ss i j} : g.Term t → inp[i]? = some t → Der g inp ss (i + 1) j →
      Der g inp (t :: ss) i j
  | nonterm {A k p ss i m j} : g.Rule A k p → Der g inp p i m → Der g inp ss m j →
      Der g inp (A :: ss) i j

/-- `A` derives a sentential form consisting of just `B` in one step, up to symbols deriving the
empty word. -/
def UnitStep (g : Grammar α) (A B : α) : Prop :=
  ∃ k pre post, g.Rule A k (pre ++ B :: post) ∧ g.Derives pre [] ∧ g.Derives post []

/-- `Plus R`: one or more steps of `R` (own definition, to keep the specification self-contained). -/
inductive Plus {β : Type} (R : β → β → Prop) : β → β → Prop
  | one {a b} : R a b → Plus R a b
  | step {a b c} : R a b → Plus R b c → Plus R a c

/-- No nonterminal derives itself in one or more steps. -/
def CycleFree (g : Grammar α) : Prop := ∀ A, ¬ Plus g.UnitStep A A

/-- `B` can be leftmost after expanding `A` once: everything before it in some production of `A`
derives the empty word. -/
def LeftStep (g : Grammar α) (A B : α) : Prop :=
  ∃ k pre post, g.Rule A k (pre ++ B :: post) ∧ g.Derives pre []

/-- Some nonterminal derives a sentential form beginning with itself. -/
def LeftRecursive (g : Grammar α) : Prop := ∃ A, Plus g.LeftStep A A

end Grammar

/-- Lexemes as data: kind, value, position (lexeme/lexeme.go:14-18; Go's `int` as `Int`). -/
structure Lexeme (α V : Type) where
  kind : α
  val : V
  line : Int
  col : Int
  deriving DecidableEq, Repr

/-- Parse trees as data: a lexeme and children (the fields `Lexeme` and `C` of tree.PN,
tree/parsetree.go; parent links are treated separately). -/
inductive PN (α V : Type) where
  | node (lx : Lexeme α V) (kids : List (PN α V))

namespace PN
variable {α V : Type}

/-- The node's lexeme. -/
def lx : PN α V → Lexeme α V | node l _ => l

/-- The node's children. -/
def kids : PN α V → List (PN α V) | node _ ks => ks

/-- The node's kind. -/
def kind (t : PN α V) : α := t.lx.kind

mutual
/-- The leaves of a tree read as a derivation tree: lexemes of the nodes whose kind is a terminal,
left to right. -/
def fringe (isTerm : α → Bool) : PN α V → List (Lexeme α V)
  | node l ks => if isTerm l.kind then [l] else fringes isTerm ks
/-- The leaves of a list of trees. -/
def fringes (isTerm : α → Bool) : List (PN α V) → List (Lexeme α V)
  | [] => []
  | t :: ts => fringe isTerm t ++ fringes isTerm ts
end

mutual
/-- Computable equality of trees (used to state concrete cases). -/
def same [DecidableEq α] [DecidableEq V] : PN α V → PN α V → Bool
  | node l ks, node l' ks' => decide (l = l') && sames ks ks'
/-- Computable equality of forests. -/
def sames [DecidableEq α] [DecidableEq V] : List (PN α V) → List (PN α V) → Bool
  | [], [] => true
  | t :: ts, t' :: ts' => same t t' && sames ts ts'
  | _, _ => false
end

/-- `t` is a derivation tree: nodes of terminal kind have no children, and every other node with its
children is a production of the grammar. -/
inductive Valid (g : Grammar α) : PN α V → Prop
  | leaf {l} : g.Term l.kind → Valid g (node l [])
  | inner {l ks k p} : g.Rule l.kind k p → ks.map PN.kind = p → (∀ t ∈ ks, Valid g t) →
      Valid g (node l ks)

/-- Every inner node uses the first production (least index) that can derive the words below it. -/
inductive FirstChoice (g : Grammar α) : PN α V → Prop
  | leaf {l} : g.Term l.kind → FirstChoice g (node l [])
  | inner {l ks k} : g.Rule l.kind k (ks.map PN.kind) →
      (∀ k' p', g.Rule l.kind k' p' →
        g.Derives p' ((fringes (fun s => (g.prods s).isNone) ks).map (·.kind)) → k ≤ k') →
      (∀ t ∈ ks, FirstChoice g t) → FirstChoice g (node l ks)

/-- The position a node without lexeme of its own gets from its children: that of the first child,
`(-1, 0)` without children. -/
def posOf : List (PN α V) → Int × Int
  | [] => (-1, 0)
  | t :: _ => (t.lx.line, t.lx.col)

/-- Every inner node has the empty value and the position of its first child. -/
inductive Positioned (g : Grammar α) (emptyVal : V) : PN α V → Prop
  | leaf {l} : g.Term l.kind → Positioned g emptyVal (node l [])
  | inner {l ks} : ¬ g.Term l.kind → l.val = emptyVal → (l.line, l.col) = posOf ks →
      (∀ t ∈ ks, Positioned g emptyVal t) → Positioned g emptyVal (node l ks)

end PN

/-- `t` is a derivation tree of `g` for exactly the lexemes `ls`: rooted in the start symbol, inner
nodes are productions, and the leaves are the lexemes themselves in order. -/
def IsParse {α V : Type} (g : Grammar α) (ls : List (Lexeme α V)) (t : PN α V) : Prop :=
  g.order.head? = some t.kind ∧ t.Valid g ∧ t.fringe (fun s => (g.prods s).isNone) = ls

end Verif.Spec
