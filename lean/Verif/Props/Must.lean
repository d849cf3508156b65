import Verif.Model.Must
import Verif.Props.JsonText
import Verif.Props.MathText
import Verif.Props.ScalcText
import Verif.Props.LexerDef
import Verif.Props.TreeDef
import Verif.Props.Topdown
import Verif.Props.StackLexerNew
/-
The functions that panic on errors, and the initialisation of the packages (C104).

When a text is bad is said by the specifications of the texts: lines with two arrows (C10), layouts of definitions (C69, C70), rules whose
expressions compile and whose names differ (C76), left recursion (C13).
-/
namespace Verif.Props.Must
open Verif Verif.Spec Verif.SimpleLexer
open Verif.Props.Grammar (Shows)
open Verif.Spec.LexerDef (SimpleSays)
open Verif.Props.LexerDef (Compiled)
open Verif.Spec.LexerDef (compile_head compile_stack)

/-- C104, MustGrammar: it panics exactly on a text with a line that has two arrows; otherwise the grammar is the one of the text. -/
theorem C104_grammar (t : Str) (lines : List Str) (hl : Pieces '\n' t lines) :
    (Verif.Grammar.must t = .panic ↔ ∃ l ∈ lines, BadLine l) ∧
    ∀ r, Rules none lines r → Verif.Grammar.must t = .ok (record r) := by
  obtain ⟨h1, h2⟩ := Verif.Props.Grammar.C10_new t lines hl
  refine ⟨?_, fun r hr => ?_⟩
  · rw [← h1]
    cases h : Verif.Grammar.new t with
    | none => simp [Verif.Grammar.must, RegexGram.mustGrammar, h]
    | some g => simp [Verif.Grammar.must, RegexGram.mustGrammar, h]
  · obtain ⟨g, e, hs⟩ := h2 r hr
    rw [Verif.Grammar.must, e, RegexGram.mustGrammar, show Verif.Grammar.view g = _ from Verif.Props.RemoveLR.observe_eq hs]

/-- C104, MustLexer of a simple lexer: it panics exactly if an expression does not compile or a name comes twice. -/
theorem C104_simple (ts : List Bytes) : ∃ rs, SimpleSays ts rs ∧ ∀ compile : Bytes → Option Re,
    (SimpleLexer.must compile ts = .panic ↔ ∀ a, List.Forall₂ (Compiled compile) rs a → ¬ (rs.map Prod.fst).Nodup) ∧
    (SimpleLexer.must compile ts ≠ .panic → ∃ l, SimpleLexer.must compile ts = .ok l ∧ l.set.symb2str = rs.map Prod.fst) := by
  obtain ⟨rs, h1, -, h2⟩ := Verif.Props.LexerDef.C76_simple ts
  refine ⟨rs, h1, fun compile => ?_⟩
  obtain ⟨h3, h4⟩ := h2 compile
  by_cases h : ∀ a, List.Forall₂ (Compiled compile) rs a → ¬ (rs.map Prod.fst).Nodup
  · have e : SimpleLexer.must compile ts = .panic := by rw [SimpleLexer.must, h4 h]; rfl
    exact ⟨⟨fun _ => h, fun _ => e⟩, fun hn => absurd e hn⟩
  · have h' : ∃ a, List.Forall₂ (Compiled compile) rs a ∧ (rs.map Prod.fst).Nodup := by
      by_contra hc
      exact h fun a ha hn => hc ⟨a, ha, hn⟩
    obtain ⟨a, ha, hn⟩ := h'
    obtain ⟨l, e, hs, -⟩ := h3 a ha hn
    have e : SimpleLexer.must compile ts = .ok l := by rw [SimpleLexer.must, e]; rfl
    refine ⟨⟨fun hp => ?_, fun hh => absurd hh h⟩, fun _ => ⟨l, e, hs⟩⟩
    rw [e] at hp
    cases hp

/-- C104, Must of package stacklexer does not do what it says: it never panics, whatever the definitions. -/
theorem C104_stack_refuted (compile : Bytes → Option StackLexer.Re) (ord ts : List Bytes) : ∃ l, Out.Returns (StackLexer.must compile ord ts) l := by
  obtain ⟨d, -, -, h⟩ := Verif.Props.LexerDef.C76_stack ts
  obtain ⟨l, N, hN⟩ := Verif.Props.StackLexerNew.C47_refuted compile ord (Verif.Props.LexerDef.toDefs d)
  refine ⟨l, N, fun n hn => ?_⟩
  rw [StackLexer.must, h, hN n hn]
  rfl

/-- C104, Must of package regexgram: it panics exactly on the texts that lay out no definition, whatever was read before. -/
theorem C104_regexgram {l : Lexer} (hl : Verif.Props.RegexGramText.Reach l) (b : Bytes) :
    ((∃ L, Verif.Props.RegexGramText.Defines b L) → ∃ g q l' G, Out.Returns (fun n => Verif.RegexGram.must n l b) ((g, q), l') ∧
      Verif.Props.RegexGramText.Reach l' ∧ Shows g G) ∧
    ((¬ ∃ L, Verif.Props.RegexGramText.Defines b L) → Out.Panics fun n => Verif.RegexGram.must n l b) := by
  rcases Verif.Props.RegexGramText.C69_accepts hl b with ⟨L, h1, g, q, l', G, h2, h3⟩ | ⟨h1, l', N, hN⟩
  · refine ⟨fun _ => ⟨g, q, l', G, ?_, .new hl h2, h3⟩, fun h => absurd ⟨L, h1⟩ h⟩
    obtain ⟨N, hN⟩ := h2
    refine ⟨N, fun n hn => ?_⟩
    simp only [Verif.RegexGram.must]
    rw [show Verif.RegexGram.newText n l b = _ from hN n hn]
    rfl
  · refine ⟨fun ⟨L, h⟩ => absurd h (h1 L), fun _ => ⟨N, fun n hn => ?_⟩⟩
    simp only [Verif.RegexGram.must]
    rw [show Verif.RegexGram.newText n l b = _ from hN n hn]
    rfl

/-- C104, Must of package reducer: it panics exactly on the texts that lay out no definition; for the others the reducer does what they
say. -/
theorem C104_reducer {σ : Type} {rl : Lexer} {o1 o2 : List Str} (hrl : Verif.Props.RegexGramText.Reach rl) (ho : ReducerDSL.Orders o1 o2)
    {l : Lexer} (hl : Verif.Props.ReducerText.Reach rl o1 o2 l) (b : Bytes) :
    (∀ D, Verif.Props.ReducerText.Defines b D → ∃ l' N, ∀ n ≥ N, ∃ r : Tree.Reducer σ Str Str,
      Verif.ReducerDSL.must n rl o1 o2 l b = .ok (r, l') ∧ Verif.Props.ReducerText.Means n D r) ∧
    ((¬ ∃ D, Verif.Props.ReducerText.Defines b D) → Out.Panics fun n => Verif.ReducerDSL.must (σ := σ) n rl o1 o2 l b) := by
  rcases Verif.Props.ReducerText.C70_accepts (σ := σ) hrl ho hl b with ⟨D, h1, l', N, hN⟩ | ⟨h1, l', N, hN⟩
  · refine ⟨fun D' h => ?_, fun h => absurd ⟨D, h1⟩ h⟩
    rw [Verif.Props.ReducerText.C70_unique h h1]
    refine ⟨l', N, fun n hn => ?_⟩
    obtain ⟨r, hr, hm⟩ := hN n hn
    refine ⟨r, ?_, hm⟩
    rw [Verif.ReducerDSL.must, hr]
    rfl
  · refine ⟨fun D h => absurd h (h1 D), fun _ => ⟨N, fun n hn => ?_⟩⟩
    simp only [Verif.ReducerDSL.must]
    rw [show Verif.ReducerDSL.parseText (σ := σ) n rl o1 o2 l b = _ from hN n hn]
    rfl

/-- C104, MustParser of a top-down parser: for a grammar without a symbol deriving the empty word in front of another, it panics exactly if
the grammar is left recursive. -/
theorem C104_topdown_partial {α : Type} [DecidableEq α] (g : Spec.Grammar α) (hg : g.WF) (hn : Verif.Topdown.NoNullablePrefix g) :
    (g.LeftRecursive → Out.Panics (Verif.Topdown.must g)) ∧ (¬ g.LeftRecursive → Out.Returns (Verif.Topdown.must g) g) := by
  obtain ⟨b, ⟨N, hN⟩, -⟩ := Verif.Props.Topdown.C12_terminates_sound g hg
  have h := Verif.Props.Topdown.C13_exact_partial g hg hn (hN N (Nat.le_refl _))
  refine ⟨fun hl => ⟨N, fun n h' => ?_⟩, fun hl => ⟨N, fun n h' => ?_⟩⟩
  · rw [Verif.Topdown.must, Verif.Topdown.new, hN n h', h.2 hl]; rfl
  · have : b = false := by
      cases b with
      | false => rfl
      | true => exact absurd (h.1 rfl) hl
    rw [Verif.Topdown.must, Verif.Topdown.new, hN n h', this]; rfl

/-! ### Initialisation -/

open Verif.Props.JsonFormat (reduceRules)

/-- C104, start of parlexjson: in whatever orders maps are ranged over, no initialiser panics, and the state reached is one that C71 is
about. -/
theorem C104_json {p1 p2 o1 o2 : List Str} (hp : ReducerDSL.Orders p1 p2) (h1 : ∀ k, k ∈ o1 ↔ k = "Array".toList ∨ k = "Object".toList)
    (h2 : ∀ k, k ∈ o2 ↔ k ∈ reduceRules.map (·.1)) : ∃ rl0 rl pl l,
      Verif.Props.JsonText.Started rl0 rl pl p1 p2 o1 o2 ∧ Verif.Props.JsonText.Reach rl0 rl pl p1 p2 o1 o2 l ∧
      ∃ N, ∀ n ≥ N, ∃ v, startJson n p1 p2 o1 o2 = .ok v ∧ v.gramLexer0 = rl0 ∧ v.gramLexer = rl ∧ v.redLexer = pl ∧ v.lexer = l := by
  obtain ⟨rl0, e1, -⟩ := Verif.RegexGram.lxr_ready
  obtain ⟨G, e2, -⟩ := Verif.RegexGram.grmr_eq
  obtain ⟨pl, e3, -⟩ := Verif.ReducerDSL.lxr_ready
  obtain ⟨l, e5, -⟩ := Verif.Json.lxr_ready
  obtain ⟨g, q, rl, -, ⟨N, e4⟩, hrl, -⟩ := (C104_regexgram (.start e1) (bytes ReducerDSL.grammarRules)).1 ⟨_, Verif.ReducerDSL.rdLines_defines⟩
  have hS : Verif.Props.JsonText.Started rl0 rl pl p1 p2 o1 o2 := ⟨.start e1, hrl, hp, .start e3, h1, h2⟩
  obtain ⟨M, hM⟩ := Verif.Props.JsonText.vars_ok hS
  refine ⟨rl0, rl, pl, l, hS, .start e5, max N M, fun n hn => ?_⟩
  obtain ⟨v, hv⟩ := hM n (by omega)
  refine ⟨⟨rl0, rl, pl, l, v.1, v.2⟩, ?_, rfl, rfl, rfl, rfl⟩
  rw [startJson, Verif.Props.TreeDef.compiled]
  simp only [e1, e2, e3, Out.bind_ok]
  rw [show Verif.RegexGram.must n rl0 _ = _ from e4 n (by omega)]
  simp only [Out.bind_ok, e5]
  rw [hv]
  rfl

/-- C104, start of the other packages. -/
theorem C104_starts : (∃ v, startMath = .ok v) ∧ (∃ v, startScalc = .ok v) ∧ startStack = .ok () := by
  obtain ⟨l, e1, -⟩ := Verif.PMath.lxr_ready
  obtain ⟨G, e2, -⟩ := Verif.PMath.grmr_ok
  obtain ⟨l', e3, -⟩ := Verif.Scalc.lxr_ready
  obtain ⟨G', e4, -⟩ := Verif.Scalc.grmr_ok
  refine ⟨⟨(l, G), ?_⟩, ⟨(l', G'), ?_⟩, ?_⟩
  · rw [startMath, e1, Out.bind_ok, e2, Out.bind_ok]
  · rw [startScalc, e3, Out.bind_ok, e4, Out.bind_ok]
  · unfold startStack
    split
    · rfl
    · next h => exact (h _ _ compile_head compile_stack).elim

/-! ### Concrete cases -/

/-- A bad grammar, and a good one. -/
theorem C104_said : (match Verif.Grammar.must "A -> B -> C".toList with | .panic => true | _ => false) = true ∧
    (match Verif.Grammar.must "A -> B\n  -> A b\n".toList with | .ok g => g.prods "A".toList | _ => none) =
      some [["B".toList], ["A".toList, "b".toList]] ∧
    (match SimpleLexer.must SimpleLexer.compile [bytes "a /(/".toList] with | .panic => true | _ => false) = true := by
  decide +kernel

/-- Case of `C104_topdown_partial`: `S -> S a | b` is refused. -/
def gS : Spec.Grammar Nat := Verif.Props.Packrat.table [(0, [[0, 1], [2]])]

theorem gS_noempty : ∀ A k, ¬ gS.Rule A k [] := by
  rintro A k ⟨ps, e, e2⟩
  have hm := List.mem_of_getElem? e2
  by_cases h0 : 0 = A
  · subst h0
    have e : some [[0, 1], [2]] = some ps := e
    cases e
    simp at hm
  · simp [gS, Verif.Props.Packrat.table, h0] at e

example : gS.LeftRecursive ∧ Out.Panics (Verif.Topdown.must gS) := by
  have h : Verif.Topdown.isLeftRecursive gS 5 = .ok true := Verif.Props.Topdown.isB_eq (by decide +kernel)
  have hl := (Verif.Props.Topdown.C13_exact_noempty_partial gS (Verif.Props.Packrat.table_wf _) gS_noempty h).1 rfl
  refine ⟨hl, (C104_topdown_partial gS (Verif.Props.Packrat.table_wf _) ?_).1 hl⟩
  intro A k X Y p _ hd
  have key : ∀ ss w, gS.Derives ss w → w = [] → ss = [] := by
    intro ss w h
    induction h with
    | nil => intro _; rfl
    | term => intro h; cases h
    | nonterm hr _ _ ih _ =>
      intro h
      have := ih (List.append_eq_nil_iff.1 h).1
      subst this
      exact absurd hr (gS_noempty _ _)
  cases key _ _ hd rfl

end Verif.Props.Must
