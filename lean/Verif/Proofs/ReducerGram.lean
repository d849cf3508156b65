import Verif.Props.RegexGramText
import Verif.Props.RemoveLR
import Verif.Model.ReducerText
import Verif.Spec.ReducerText
/-
The grammar of reducer definitions (tree/reducer/reducer.go:39-60), read by package regexgram.
-/
namespace Verif.Props.RegexGramText
open Verif Verif.Spec Verif.RegexGram Verif.SimpleLexer
open Verif.Props.Grammar (Shows)

/-- What is needed to use a grammar read from text: its rules up to order, its start symbol, and the helpers
unwrapped. `K` lists the repetitions in any order. -/
theorem newText_facts {l : Lexer} (hl : Reach l) {b : Bytes} {L : List RxLine} (h : Defines b L) (hc : Clear L) (K : List Rx)
    (hK : ∀ x, x ∈ K ↔ .rep x ∈ (linesRules [] L).parts) :
    ∃ g q l' G, Out.Returns (fun n => newText n l b) (some (g, q), l') ∧ Reach l' ∧ Shows g G ∧ G.WF ∧
      (∀ A p, (∃ k, G.Rule A k p) ↔ (A, p) ∈ RxRules.plain (linesRules [] L ++ K.flatMap Rx.more)) ∧
      (∀ A, G.Term A ↔ ∀ p, (A, p) ∉ RxRules.plain (linesRules [] L ++ K.flatMap Rx.more)) ∧
      (∃ n, (∃ xs, L.head? = some (some n, xs)) ∧ G.order.head? = some n) ∧
      (∀ A, (q A).isSome ↔ (q A).getD [] ≠ []) ∧
      ∀ A n, n ∈ (q A).getD [] ↔ ∃ r ∈ linesRules [] L ++ K.flatMap Rx.more, r.1 = A ∧ ∃ x ∈ topRepss r.2, n = nm x := by
  have hw := clear_writable h hc
  obtain ⟨t, h1, l', hr, h2⟩ := newText_root hl h
  obtain ⟨g, q, K', h3, -, h4, h5⟩ := Verif.Props.RegexGram.C49_grammar_partial h1 (solid_of_writable hw) (distinct_of_writable hw)
  obtain ⟨g', q', tail, e1, e2, e3, e4, -, e6⟩ := evalGrammar_spec h1
  have e := e1.unique h3
  simp only [Prod.mk.injEq] at e
  obtain ⟨rfl, rfl⟩ := e
  obtain ⟨g2, q2, l2, G2, w1, w2, -, -, n, w3, w4, -⟩ := C69_words hl h hc
  have e7 := w1.unique (h2 _ h3)
  simp only [Prod.mk.injEq, Option.some.injEq] at e7
  obtain ⟨⟨rfl, rfl⟩, rfl⟩ := e7
  have hG := Verif.Props.RemoveLR.shows_unique w2 h5
  subst hG
  have hm : ∀ r, r ∈ linesRules [] L ++ K'.flatMap Rx.more ↔ r ∈ linesRules [] L ++ K.flatMap Rx.more := by
    intro r
    simp only [List.mem_append, List.mem_flatMap, h4, hK]
  have hp : ∀ A p, (A, p) ∈ RxRules.plain (linesRules [] L ++ K'.flatMap Rx.more) ↔
      (A, p) ∈ RxRules.plain (linesRules [] L ++ K.flatMap Rx.more) := by
    intro A p
    simp only [RxRules.plain, List.mem_flatMap, hm]
  refine ⟨_, _, _, _, w1, hr, w2, Verif.Grammar.record_wf _, ?_, ?_, ⟨n, w3, w4⟩, ?_, ?_⟩
  · intro A p
    rw [record_rule, hp]
  · intro A
    rw [record_term]
    simp only [hp]
  · intro A
    rw [e6 A]
    unfold blOf
    simp only
    split
    · simp
    · rename_i hne
      simpa using hne
  · intro A n
    rw [bl_mem e6]
    constructor
    · rintro ⟨r, hr, rfl, x, hx, rfl⟩
      refine ⟨r, ?_, rfl, x, hx, rfl⟩
      rcases List.mem_append.1 hr with hr | hr
      · exact List.mem_append_left _ hr
      · obtain ⟨y, hy, e⟩ := e3 r hr
        refine List.mem_append_right _ (List.mem_flatMap.2 ⟨y, (hK y).2 hy, ?_⟩)
        rcases e with rfl | rfl
        · exact .head _
        · exact .tail _ (.head _)
    · rintro ⟨r, hr, rfl, x, hx, rfl⟩
      refine ⟨r, ?_, rfl, x, hx, rfl⟩
      rcases List.mem_append.1 hr with hr | hr
      · exact List.mem_append_left _ hr
      · obtain ⟨y, hy, e⟩ := List.mem_flatMap.1 hr
        have := (Prods.all ⟨e3, e4⟩ (distinct_of_writable hw) ((hK y).1 hy))
        simp only [Rx.more, List.mem_cons, List.not_mem_nil, or_false] at e
        rcases e with rfl | rfl
        · exact this.1
        · simp [topRepss] at hx

end Verif.Props.RegexGramText

namespace Verif.ReducerDSL
open Verif Verif.Spec Verif.RegexGram Verif.SimpleLexer
open Verif.Props.Grammar (Shows)
open Verif.Props.RegexGramText (sy)

/-- The lines of `grammarRules`. -/
def rdLines : List RxLine :=
  [(some "Rules".toList, [.rep (sy "Rule")]),
   (some "Rule".toList, [sy "rule", sy "Chain"]),
   (some "Chain".toList, [.rep (.group [sy "Reduction", sy "period"]), sy "Reduction"]),
   (some "Reduction".toList, [sy "PromoteSingleChild", sy "NoArgs"]),
   (none, [sy "RemoveChildren", sy "VarNumArg"]),
   (none, [sy "PromoteChildValue", sy "OneNumArg"]),
   (none, [sy "RemoveChild", sy "OneNumArg"]),
   (none, [sy "ReplaceWithChild", sy "OneNumArg"]),
   (none, [sy "PromoteGrandChildren", sy "NoArgs"]),
   (none, [sy "PromoteSingleChild", sy "NoArgs"]),
   (none, [sy "PromoteChildrenOf", sy "OneNumArg"]),
   (none, [sy "PromoteChild", sy "OneNumArg"]),
   (none, [sy "RemoveAll", sy "VarStrArg"]),
   (none, [sy "Nil"]),
   (none, [sy "If", sy "lp", sy "Condition", sy "comma", sy "Chain", sy "comma", sy "Chain", sy "rp"]),
   (some "VarNumArg".toList, [sy "lp", .rep (.group [sy "number", sy "comma"]), sy "number", sy "rp"]),
   (some "VarStrArg".toList, [sy "lp", .rep (.group [sy "string", sy "comma"]), sy "string", sy "rp"]),
   (some "OneNumArg".toList, [sy "lp", sy "number", sy "rp"]),
   (some "NoArgs".toList, [sy "lp", sy "rp"]),
   (some "Condition".toList, [sy "ChildIs", sy "lp", sy "number", sy "comma", sy "string", sy "rp"])]

/-- The repetitions. -/
def rdReps : List Rx :=
  [sy "Rule", .group [sy "Reduction", sy "period"], .group [sy "number", sy "comma"], .group [sy "string", sy "comma"]]

/-- The plain rules. -/
def rdAdds : List (Str × List Str) :=
  [("Rules".toList, ["Rule*".toList]),
   ("Rule".toList, ["rule".toList, "Chain".toList]),
   ("Chain".toList, ["(Reduction_period)*".toList, "Reduction".toList]),
   ("Reduction".toList, ["PromoteSingleChild".toList, "NoArgs".toList]),
   ("Reduction".toList, ["RemoveChildren".toList, "VarNumArg".toList]),
   ("Reduction".toList, ["PromoteChildValue".toList, "OneNumArg".toList]),
   ("Reduction".toList, ["RemoveChild".toList, "OneNumArg".toList]),
   ("Reduction".toList, ["ReplaceWithChild".toList, "OneNumArg".toList]),
   ("Reduction".toList, ["PromoteGrandChildren".toList, "NoArgs".toList]),
   ("Reduction".toList, ["PromoteSingleChild".toList, "NoArgs".toList]),
   ("Reduction".toList, ["PromoteChildrenOf".toList, "OneNumArg".toList]),
   ("Reduction".toList, ["PromoteChild".toList, "OneNumArg".toList]),
   ("Reduction".toList, ["RemoveAll".toList, "VarStrArg".toList]),
   ("Reduction".toList, ["Nil".toList]),
   ("Reduction".toList, ["If".toList, "lp".toList, "Condition".toList, "comma".toList, "Chain".toList, "comma".toList, "Chain".toList, "rp".toList]),
   ("VarNumArg".toList, ["lp".toList, "(number_comma)*".toList, "number".toList, "rp".toList]),
   ("VarStrArg".toList, ["lp".toList, "(string_comma)*".toList, "string".toList, "rp".toList]),
   ("OneNumArg".toList, ["lp".toList, "number".toList, "rp".toList]),
   ("NoArgs".toList, ["lp".toList, "rp".toList]),
   ("Condition".toList, ["ChildIs".toList, "lp".toList, "number".toList, "comma".toList, "string".toList, "rp".toList]),
   ("Rule*".toList, ["Rule".toList, "Rule*".toList]), ("Rule*".toList, []),
   ("(Reduction_period)*".toList, ["Reduction".toList, "period".toList, "(Reduction_period)*".toList]), ("(Reduction_period)*".toList, []),
   ("(number_comma)*".toList, ["number".toList, "comma".toList, "(number_comma)*".toList]), ("(number_comma)*".toList, []),
   ("(string_comma)*".toList, ["string".toList, "comma".toList, "(string_comma)*".toList]), ("(string_comma)*".toList, [])]

/-- The helpers to unwrap: kind of the node and kind of the helper. -/
def rdHelps : List (Str × Str) :=
  [("Rules".toList, "Rule*".toList), ("Chain".toList, "(Reduction_period)*".toList),
   ("VarNumArg".toList, "(number_comma)*".toList), ("VarStrArg".toList, "(string_comma)*".toList)]

set_option maxRecDepth 10000 in
theorem rdLines_defines : Verif.Props.RegexGramText.Defines (bytes grammarRules) rdLines := by
  refine ⟨⟨⟨_, _, _, rfl⟩, by decide⟩, (defToks true true rdLines).tail, true, true, scan_text (n := 2000) ?_, rfl⟩
  unfold grammarRules
  simp only [litToList]
  decide +kernel

theorem rdLines_clear : Verif.Props.RegexGramText.Clear rdLines :=
  Verif.Props.RegexGramText.clear_of (by decide +kernel) (by decide +kernel)

theorem rd_plain : RxRules.plain (linesRules [] rdLines ++ rdReps.flatMap Rx.more) = rdAdds := by decide +kernel

/-- The expression repeated, if any. -/
def repOf : Rx → Option Rx
  | .rep x => some x
  | _ => none

theorem rd_reps : (linesRules [] rdLines).parts.filterMap repOf = rdReps := rfl

theorem rd_reps_mem (x : Rx) : x ∈ rdReps ↔ .rep x ∈ (linesRules [] rdLines).parts := by
  rw [← rd_reps, List.mem_filterMap]
  constructor
  · rintro ⟨y, h1, h2⟩
    cases y <;> simp only [repOf, reduceCtorEq, Option.some.injEq] at h2
    subst h2; exact h1
  · intro h
    exact ⟨_, h, rfl⟩

theorem rd_helps : ((linesRules [] rdLines ++ rdReps.flatMap Rx.more).flatMap fun r => (topRepss r.2).map fun x => (r.1, nm x)) = rdHelps := by
  decide +kernel

/-- A grammar of reducer definitions. -/
structure DG (G : Spec.Grammar Str) : Prop where
  wf : G.WF
  start : G.order.head? = some "Rules".toList
  rule : ∀ {A p}, (∃ k, G.Rule A k p) ↔ (A, p) ∈ rdAdds
  term : ∀ {A}, G.Term A ↔ ∀ p, (A, p) ∉ rdAdds

/-- What says which helpers to unwrap. -/
structure DB (b : Str → Option (List Str)) : Prop where
  some : ∀ A, (b A).isSome ↔ A ∈ rdHelps.map (·.1)
  mem : ∀ A n, n ∈ (b A).getD [] ↔ (A, n) ∈ rdHelps

/-- The grammar the code makes. -/
theorem grmr_eq {rl : Lexer} (hl : Verif.Props.RegexGramText.Reach rl) : ∃ g b, Out.Returns (fun n => grmr n rl) (g, b) ∧
    DG (Verif.Grammar.view g) ∧ DB b := by
  obtain ⟨g, b, l', G, ⟨N, h1⟩, -, h3, h4, h5, h6, ⟨n, ⟨xs, hx⟩, hn⟩, h8, h9⟩ :=
    Verif.Props.RegexGramText.newText_facts hl rdLines_defines rdLines_clear rdReps rd_reps_mem
  rw [rd_plain] at h5 h6
  have e : Verif.Grammar.view g = G := Verif.Props.RemoveLR.observe_eq h3
  have mem : ∀ A n, n ∈ (b A).getD [] ↔ (A, n) ∈ rdHelps := by
    intro A n
    rw [h9, ← rd_helps]
    simp only [List.mem_flatMap, List.mem_map, Prod.mk.injEq]
    constructor
    · rintro ⟨r, h1, rfl, x, hx, rfl⟩
      exact ⟨r, h1, x, hx, rfl, rfl⟩
    · rintro ⟨r, h1, x, hx, rfl, rfl⟩
      exact ⟨r, h1, rfl, x, hx, rfl⟩
  refine ⟨g, b, ⟨N, fun n hn => ?_⟩, ⟨e ▸ h4, ?_, by rw [e]; exact h5 _ _, by rw [e]; exact h6 _⟩, ⟨fun A => ?_, mem⟩⟩
  · have := h1 n hn
    simp only [grmr] at this ⊢
    rw [this]
    rfl
  · rw [e, hn]
    simp only [rdLines, List.head?_cons, Option.some.injEq, Prod.mk.injEq] at hx
    rw [hx.1]
  · rw [h8, List.ne_nil_iff_exists_cons]
    constructor
    · rintro ⟨x, l, e⟩
      exact List.mem_map.2 ⟨(A, x), (mem A x).1 (by rw [e]; simp), rfl⟩
    · intro h
      obtain ⟨⟨A', x⟩, h1, rfl⟩ := List.mem_map.1 h
      have := (mem A' x).2 h1
      cases e : (b A').getD [] with
      | nil => rw [e] at this; cases this
      | cons y ys => exact ⟨y, ys, rfl⟩

end Verif.ReducerDSL
