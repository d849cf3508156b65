import Verif.Spec.StackLexer
/-
Lexing with a stack of lexers that remember where they searched, from the input to the pieces or to where it breaks off.
Nothing here refers to the model of the lexer.
-/
namespace Verif.Spec

/-- The positions of the searches since the current lexer became current, after a token that ends at `p`. -/
def Move.searches : Move σ → List Nat → Nat → List Nat
  | .stay, ev, p => p :: ev
  | _, _, p => [p]

/-- Lexing from position `p`, with the stack given (current lexer first), where `ev` are the positions at which the
current lexer searched since it became current. The outcome is the pieces, or `none` if lexing cannot go on:
* the value of what is found cannot be made (`broken`);
* a piece, not the last of the input, leads to a lexer that does not exist, or pops in the outermost lexer.

A position dead for the current lexer is left to the lexer below it. If there is none it belongs to an error, which ends
with the input or at the next position that is not dead. No searches are made for errors. -/
inductive Goes (takes : List Nat → σ → Nat → κ → Nat → Prop) (dead : σ → Nat → Prop)
    (broken : List Nat → σ → Nat → Prop) (move : κ → Option (Move σ)) (b : List UInt8) :
    List Nat → List σ → Nat → Option (List (Seg κ)) → Prop
  | done {ev st} : Goes takes dead broken move b ev st b.length (some [])
  | last {ev s st p k n} (h : takes ev s p k n) (pos : 0 < n) (le : p + n = b.length) :
      Goes takes dead broken move b ev (s :: st) p (some [.tok k ((b.drop p).take n)])
  | tok {ev s st p k n mv o} (h : takes ev s p k n) (pos : 0 < n) (lt : p + n < b.length)
      (hm : move k = some mv) (fits : mv.Fits st)
      (rest : Goes takes dead broken move b (mv.searches ev (p + n)) (mv.apply (s :: st)) (p + n) o) :
      Goes takes dead broken move b ev (s :: st) p (o.map (.tok k ((b.drop p).take n) :: ·))
  | stuck {ev s st p k n} (h : takes ev s p k n) (pos : 0 < n) (lt : p + n < b.length)
      (hm : ∀ mv, move k = some mv → ¬ mv.Fits st) : Goes takes dead broken move b ev (s :: st) p none
  | broken {ev s st p} (lt : p < b.length) (h : broken ev s p) : Goes takes dead broken move b ev (s :: st) p none
  | fall {ev s t st p o} (lt : p < b.length) (h : dead s p)
      (rest : Goes takes dead broken move b [p] (t :: st) p o) : Goes takes dead broken move b ev (s :: t :: st) p o
  | err {ev s p q o} (pos : p < q) (le : q ≤ b.length) (h : ∀ i, p ≤ i → i < q → dead s i)
      (stop : q = b.length ∨ ¬ dead s q) (rest : Goes takes dead broken move b ev [s] q o) :
      Goes takes dead broken move b ev [s] p (o.map (.err ((b.drop p).take (q - p)) :: ·))

/-- The search whose result stands for `k` at `p`: the one at `p` if there was one, else the first of the searches from
which `k` does not match anywhere before `p`. -/
def Since (hit : Nat → Prop) (ev : List Nat) (p q : Nat) : Prop :=
  q ∈ ev ∧ (p ∈ ev → q = p) ∧ (∀ i, q ≤ i → i < p → ¬ hit i) ∧
    (p ∉ ev → ∀ q' ∈ ev, q' < q → ∃ i, q' ≤ i ∧ i < p ∧ hit i)

/-- Rule `k` matches `n` bytes at `p`, the search for it having been made at `q`, and of the rules that match there it is
the one whose match ends furthest from where it was searched for, then the one of the lowest rank. -/
def Furthest {κ : Type u} (rule : κ → Prop) (m : κ → List UInt8 → Option Nat) (rank : κ → Int) (b : List UInt8)
    (ev : List Nat) (p : Nat) (k : κ) (n q : Nat) : Prop :=
  let hit := fun k i => m k (b.drop i) ≠ none
  rule k ∧ m k (b.drop p) = some n ∧ Since (hit k) ev p q ∧
    ∀ j n' q', rule j → m j (b.drop p) = some n' → Since (hit j) ev p q' →
      p + n' - q' < p + n - q ∨ (p + n' - q' = p + n - q ∧ rank k ≤ rank j)

/-- The same with the rank coming first: of the rules that match there it is one of the lowest rank, then the one whose
match ends furthest from where it was searched for. -/
def Foremost {κ : Type u} (rule : κ → Prop) (m : κ → List UInt8 → Option Nat) (rank : κ → Int) (b : List UInt8)
    (ev : List Nat) (p : Nat) (k : κ) (n q : Nat) : Prop :=
  let hit := fun k i => m k (b.drop i) ≠ none
  rule k ∧ m k (b.drop p) = some n ∧ Since (hit k) ev p q ∧
    ∀ j n' q', rule j → m j (b.drop p) = some n' → Since (hit j) ev p q' →
      rank k < rank j ∨ (rank k = rank j ∧ p + n' - q' ≤ p + n - q)

end Verif.Spec
