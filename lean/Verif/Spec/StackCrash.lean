import Verif.Spec.StackLexer
/-
How lexing with a stack of lexers can break off. Nothing here refers to the model of the lexer.
-/
namespace Verif.Spec

/-- Lexing as in `Run`, from position `p` with the stack given, comes to a place where it cannot go on:
* the value of what the current lexer finds there cannot be made (`broken`);
* the current lexer takes a piece, not the last of the input, that leads to a lexer that does not exist;
* the outermost lexer takes a piece, not the last of the input, that pops. -/
inductive Crash (takes : Mode → σ → Nat → κ → Nat → Prop) (dead : σ → Nat → Prop)
    (move : κ → Option (Move σ)) (broken : σ → Nat → Prop) (b : List UInt8) : Mode → List σ → Nat → Prop
  | broken {f s st p} (le : p ≤ b.length) (h : broken s p) : Crash takes dead move broken b f (s :: st) p
  | nowhere {f s st p k n} (h : takes f s p k n) (pos : 0 < n) (lt : p + n < b.length) (hm : move k = none) :
      Crash takes dead move broken b f (s :: st) p
  | outermost {f s p k n j} (h : takes f s p k n) (pos : 0 < n) (lt : p + n < b.length) (hm : move k = some (.pop j)) :
      Crash takes dead move broken b f [s] p
  | tok {f s st p k n mv} (h : takes f s p k n) (pos : 0 < n) (lt : p + n < b.length) (hm : move k = some mv)
      (fits : mv.Fits st) (rest : Crash takes dead move broken b mv.mode (mv.apply (s :: st)) (p + n)) :
      Crash takes dead move broken b f (s :: st) p
  | fall {f s t st p} (lt : p < b.length) (h : dead s p) (rest : Crash takes dead move broken b .taken (t :: st) p) :
      Crash takes dead move broken b f (s :: t :: st) p
  | err {f s p q} (pos : p < q) (lt : q < b.length) (h : ∀ i, p ≤ i → i < q → dead s i)
      (rest : Crash takes dead move broken b f.afterErr [s] q) : Crash takes dead move broken b f [s] p

end Verif.Spec
