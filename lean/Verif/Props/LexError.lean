import Verif.Model.LexError
import Verif.Proofs.Lexeme
import Verif.Props.SimpleLexer
import Verif.Props.StackLexer
/-
C84: what the errors of lexers say. The pieces of an input are those of C35, C36 (simple lexers) and C43, C44 (stack lexers).
-/
namespace Verif.Props.LexError
open Verif Verif.Spec Verif.SetSymbol Verif.SimpleLexer Verif.LexError
open Verif.Props.SimpleLexer (inserted placedE)

/-- The text of an error at a line and a column. -/
def message (line col : Int) (v : Bytes) : Str := "Lex Error ".toList ++ Lexeme.dec line ++ ":".toList ++ Lexeme.dec col ++ ") ".toList ++ chars v

/-- The bytes of error pieces, in order. -/
def errVals {κ : Type} : List (Seg κ) → List Bytes
  | [] => []
  | .err v :: segs => v :: errVals segs
  | .tok _ _ :: segs => errVals segs

theorem errors_inserted (k v : Bytes) : errors (inserted k v) = [] := by
  unfold inserted
  split <;> rfl

theorem errors_append (a b : List Lx) : errors (a ++ b) = errors a ++ errors b := List.filter_append ..

/-- C84 for simple lexers: Run returns an error exactly if there is a piece that no rule takes; the text names the first such piece, but always gives the
position -1:0. -/
theorem C84_simple_partial (l : Lexer) (rs : List Rule) (hrs : l.rules = rs.map some) (hc : l.compare = lengthThenPriority) (b : Bytes) :
    ∃ segs lxs l', Out.Returns (fun n => lex n l b) (lxs, l') ∧ Lexes (Claims rs b) (fun _ => True) b 0 segs ∧
      runText lxs = (errVals segs).head?.map (message (-1) 0) := by
  obtain ⟨segs, lxs, l', h1, h2, h3⟩ := Verif.Props.SimpleLexer.C38_exact l rs hrs hc b
  refine ⟨segs, lxs, l', h1, h2, ?_⟩
  rw [h3, runText, errors_append, errors_append, errors_inserted, errors_inserted, List.nil_append, List.append_nil]
  have key : ∀ (segs : List (Seg Rule)) p e, (errors ((placedE p e segs).filterMap fun x =>
        match x with
        | (p, e, .tok r v) => if r.discard then none else
            some ⟨.idx r.kind, v, ((Verif.Props.SimpleLexer.lineOf b p - e : Nat) : Int), Verif.Props.SimpleLexer.colOf b p, false⟩
        | (_, _, .err v) => some ⟨.idx (str l.set l.error).2, v, -1, 0, true⟩)).map text = (errVals segs).map (message (-1) 0) := by
    intro segs
    induction segs with
    | nil => intro p e; rfl
    | cons s segs ih =>
      intro p e
      cases s with
      | tok r v =>
        by_cases hd : r.discard = true
        · simp only [placedE, List.filterMap_cons, hd, if_true, errVals]
          exact ih _ _
        · simp only [placedE, List.filterMap_cons, hd, errVals]
          exact ih _ _
      | err v =>
        simp only [placedE, List.filterMap_cons, errVals, List.map_cons]
        exact congrArg₂ List.cons rfl (ih _ _)
  have := congrArg List.head? (key segs 0 0)
  rwa [List.head?_map, List.head?_map] at this

open Verif.Props.StackLexer in
/-- Error pieces with the positions where they start. -/
def errPlaces : Nat → List (Seg Tok) → List (Nat × Bytes)
  | _, [] => []
  | p, .err v :: segs => (p, v) :: errPlaces (p + v.length) segs
  | p, .tok _ v :: segs => errPlaces (p + v.length) segs

open Verif.Props.StackLexer Verif.StackLexer in
/-- C84 for stack lexers: the error names the first piece that no rule takes and where it begins, if neither error pieces nor tokens directly after them
contain line ends. -/
theorem C84_stack_partial (l : StackLexer.Lexer) (b : Bytes) (lxs : List Lx) (l' : StackLexer.Lexer) (h : Out.Returns (fun n => StackLexer.lex n l b) (lxs, l')) :
    ∃ s segs, l.start = some s ∧ Run (Found b) (fun _ _ => True) (leads l.lexers) b .taken [s] 0 segs ∧
      (Calm segs → runText lxs = (errPlaces 0 segs).head?.map fun x => message (1 + Verif.Props.SimpleLexer.lineOf b x.1) (Verif.Props.SimpleLexer.colOf b x.1) x.2) := by
  obtain ⟨s, segs, h1, h2, h3⟩ := C48_positions_partial l b lxs l' h
  refine ⟨s, segs, h1, h2, fun hc => ?_⟩
  rw [h3 hc, runText, errors_append, errors_append, errors_inserted, errors_inserted, List.nil_append, List.append_nil]
  have key : ∀ (segs : List (Seg Tok)) p, (errors ((placed p segs).filterMap (shown b (str l.set l.error).2))).map text =
      (errPlaces p segs).map fun x => message (1 + Verif.Props.SimpleLexer.lineOf b x.1) (Verif.Props.SimpleLexer.colOf b x.1) x.2 := by
    intro segs
    induction segs with
    | nil => intro p; rfl
    | cons s segs ih =>
      intro p
      cases s with
      | tok r v =>
        obtain ⟨r, val⟩ := r
        by_cases hd : r.discard = true
        · simp only [placed, List.filterMap_cons, shown, hd, if_true, errPlaces]
          exact ih _
        · simp only [placed, List.filterMap_cons, shown, hd, errPlaces]
          exact ih _
      | err v =>
        simp only [placed, List.filterMap_cons, shown, errPlaces, List.map_cons]
        exact congrArg₂ List.cons rfl (ih _)
  have := congrArg List.head? (key segs 0)
  rwa [List.head?_map, List.head?_map] at this

open Verif.Props.SimpleLexer in
/-- C84 is false of simple lexers: with the rule `word` only, the error in ":" and that in "w:" have the same text. -/
theorem C84_simple_refuted : (lxsOf (lex 20 (addAll [([119], reWord, false)]) [58])).map runText = some (some "Lex Error -1:0) :".toList) ∧
    (lxsOf (lex 20 (addAll [([119], reWord, false)]) [119, 58])).map runText = some (some "Lex Error -1:0) :".toList) := by decide +kernel

open Verif.Props.StackLexer Verif.StackLexer in
/-- C84 for stack lexers, concretely; and it is false with line ends: in ":\n" with a rule for line ends, the error is on line 1, not 2. -/
theorem C84_stack_refuted : (lxsOf (lex 20 (mkLexer [rule 0 reX 0] []) [120, 58])).map runText = some (some "Lex Error 1:2) :".toList) ∧
    (lxsOf (lex 20 (mkLexer [rule 0 reNl 0] []) [58, 10])).map runText = some (some "Lex Error 2:1) :".toList) := by decide +kernel

end Verif.Props.LexError
