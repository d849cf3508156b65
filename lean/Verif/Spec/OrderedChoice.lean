import Verif.Spec.CFG
/-
Specification of ordered choice parsing without any memo table (a parsing expression reading of a
grammar). Independent of the top-down parser's code.
-/
namespace Verif.Spec

/-- What is being matched: one symbol, a sequence of symbols, or the alternatives of a nonterminal. -/
inductive Goal (α : Type) where
  | sym (A : α)
  | seq (ss : List α)
  | alts (A : α) (ps : List (List α))

/-- `Match g ev inp goal i r`: matching `goal` at position `i` has the result `r`: `none` is failure,
`some (j, ts)` is success up to position `j` with trees `ts`. A nonterminal commits to its first
matching production. `ev` is the empty value. Inner nodes get the unset position `(-1, 0)`. -/
inductive Match {α V : Type} (g : Grammar α) (ev : V) (inp : List (Lexeme α V)) :
    Goal α → Nat → Option (Nat × List (PN α V)) → Prop
  | term_ok {t l i} : g.Term t → inp[i]? = some l → l.kind = t →
      Match g ev inp (.sym t) i (some (i + 1, [.node l []]))
  | term_no {t i} : g.Term t → (∀ l, inp[i]? = some l → l.kind ≠ t) → Match g ev inp (.sym t) i none
  | nonterm {A ps i r} : g.prods A = some ps → Match g ev inp (.alts A ps) i r →
      Match g ev inp (.sym A) i r
  | alts_nil {A i} : Match g ev inp (.alts A []) i none
  | alts_ok {A p ps i j ks} : Match g ev inp (.seq p) i (some (j, ks)) →
      Match g ev inp (.alts A (p :: ps)) i (some (j, [.node ⟨A, ev, -1, 0⟩ ks]))
  | alts_no {A p ps i r} : Match g ev inp (.seq p) i none → Match g ev inp (.alts A ps) i r →
      Match g ev inp (.alts A (p :: ps)) i r
  | seq_nil {i} : Match g ev inp (.seq []) i (some (i, []))
  | seq_no {X ss i} : Match g ev inp (.sym X) i none → Match g ev inp (.seq (X :: ss)) i none
  | seq_rest_no {X ss i m ts} : Match g ev inp (.sym X) i (some (m, ts)) →
      Match g ev inp (.seq ss) m none → Match g ev inp (.seq (X :: ss)) i none
  | seq_cons {X ss i m ts j ts'} : Match g ev inp (.sym X) i (some (m, ts)) →
      Match g ev inp (.seq ss) m (some (j, ts')) →
      Match g ev inp (.seq (X :: ss)) i (some (j, ts ++ ts'))

/-- The start symbol commits to its first production that matches the whole input. -/
inductive Whole {α V : Type} (g : Grammar α) (ev : V) (inp : List (Lexeme α V)) (S : α) :
    List (List α) → Option (PN α V) → Prop
  | nil : Whole g ev inp S [] none
  | hit {p ps ks} : Match g ev inp (.seq p) 0 (some (inp.length, ks)) →
      Whole g ev inp S (p :: ps) (some (.node ⟨S, ev, -1, 0⟩ ks))
  | miss {p ps r r'} : Match g ev inp (.seq p) 0 r' → (∀ ks, r' ≠ some (inp.length, ks)) →
      Whole g ev inp S ps r → Whole g ev inp S (p :: ps) r

/-- The result of ordered choice for a grammar and an input. -/
def OrderedChoice {α V : Type} (g : Grammar α) (ev : V) (inp : List (Lexeme α V))
    (r : Option (PN α V)) : Prop :=
  match g.order.head? with
  | none => r = none
  | some S => ∃ ps, g.prods S = some ps ∧ Whole g ev inp S ps r

end Verif.Spec
