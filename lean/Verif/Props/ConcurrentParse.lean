import Verif.Proofs.ConcurrentParse
import Verif.Props.Concurrent
import Verif.Props.Grammar
/-
C106: `Parse` of parsers of one grammar called by several goroutines.
-/
namespace Verif.Props.ConcurrentParse
open Verif Verif.Spec Verif.SetSymbol Verif.Grammar Verif.Props.Grammar
variable {τ V : Type} [DecidableEq τ]

/-- The two parsers. -/
inductive Par where
  | topdown
  | packrat

/-- `Parse` in a goroutine. -/
def Par.parseP (ev : V) (g : Gram τ) (fuel : Nat) : Par × List (Lexeme τ V) → GramProg τ (Out (Option (PN τ V)))
  | (.topdown, ls) => Topdown.parseP ev g ls fuel
  | (.packrat, ls) => Packrat.parseP ev g ls fuel

/-- `Parse` alone, for the grammar as clients see it. -/
def Par.parse (ev : V) (G : Spec.Grammar τ) (fuel : Nat) : Par × List (Lexeme τ V) → Out (Option (PN τ V))
  | (.topdown, ls) => Topdown.parse ev G ls fuel
  | (.packrat, ls) => Packrat.parse ev G ls fuel

theorem gives_par {g : Gram τ} {adds} (hr : Rep g adds) (ev : V) (fuel : Nat) (j : Par × List (Lexeme τ V)) :
    Gives (Par.parseP ev g fuel j) g.set (Par.parse ev (record adds) fuel j) := by
  obtain ⟨k, ls⟩ := j
  cases k
  · exact Topdown.gives_parse hr ev ls fuel
  · exact Packrat.gives_parse hr ev ls fuel

theorem par_safe {g : Gram τ} {adds} (hr : Rep g adds) (ev : V) (fuel : Nat) (js : List (Par × List (Lexeme τ V))) :
    ¬ CanRace g.set (js.map (Par.parseP ev g fuel)) ∧
    ∀ s' ps', Relation.ReflTransGen Sched (g.set, js.map (Par.parseP ev g fuel)) (s', ps') → s' = g.set ∧
      ∀ (i : Nat) (j : Par × List (Lexeme τ V)) (o : Out (Option (PN τ V))), js[i]? = some j → ps'[i]? = some (.ret o) →
        o = Par.parse ev (record adds) fuel j := by
  have hw : ∀ p ∈ js.map (Par.parseP ev g fuel), ¬ p.Writes g.set := by
    intro p hp
    obtain ⟨j, -, rfl⟩ := List.mem_map.1 hp
    exact (gives_par hr ev fuel j).quiet
  refine ⟨no_race hw, fun s' ps' h => ?_⟩
  obtain ⟨h1, -, h2⟩ := sched_quiet hw h
  refine ⟨h1, fun i j o hi ho => ?_⟩
  obtain ⟨h3, -⟩ := h2 i (Par.parseP ev g fuel j) (.ret o) (by rw [List.getElem?_map, hi]; rfl) ho
  rw [← (gives_par hr ev fuel j).val, ← h3]
  rfl

/-- Any number of goroutines call `Parse` of parsers of one grammar, top-down or packrat, each with lexemes of its own: whatever calls
of `Add`, `Productions` and `NonTerminals` made the grammar, there is no race, the grammar stays as it is, and every goroutine returns what
it returns alone. -/
theorem C106_parse (h : List (GOp τ)) (ev : V) (fuel : Nat) (js : List (Par × List (Lexeme τ V))) :
    ∃ g, grun empty h = .ok g ∧ ¬ CanRace g.set (js.map (Par.parseP ev g fuel)) ∧
    ∀ s' ps', Relation.ReflTransGen Sched (g.set, js.map (Par.parseP ev g fuel)) (s', ps') → s' = g.set ∧
      ∀ (i : Nat) (j : Par × List (Lexeme τ V)) (o : Out (Option (PN τ V))), js[i]? = some j → ps'[i]? = some (.ret o) →
        o = Par.parse ev (record (addsOf h)) fuel j := by
  obtain ⟨g, e, hr⟩ := grun_rep h (rep_empty (α := τ))
  exact ⟨g, e, par_safe (by simpa using hr) ev fuel js⟩

/-- The same for grammars from texts. -/
theorem C106_text (text : Str) (g : Gram Str) (hg : Grammar.new text = some g) (ev : V) (fuel : Nat) (js : List (Par × List (Lexeme Str V))) :
    ¬ CanRace g.set (js.map (Par.parseP ev g fuel)) ∧
    ∀ s' ps', Relation.ReflTransGen Sched (g.set, js.map (Par.parseP ev g fuel)) (s', ps') → s' = g.set ∧
      ∀ (i : Nat) (j : Par × List (Lexeme Str V)) (o : Out (Option (PN Str V))), js[i]? = some j → ps'[i]? = some (.ret o) →
        o = Par.parse ev (view g) fuel j := by
  obtain ⟨adds, hr⟩ : ∃ adds, Rep g adds := by
    rcases new_spec text with ⟨-, h⟩ | ⟨g', r, h, -, hr⟩
    · rw [h] at hg; cases hg
    · rw [h] at hg; cases hg; exact ⟨r, hr⟩
  rw [view_rep hr]
  exact par_safe hr ev fuel js

/-! ### Clients -/

theorem query_meets (g : Gram τ) (x : τ) (s : SymSet τ) :
    ((queryP g x).Writes s ↔ s.str2sym x = none) ∧ ((queryP g x).Writes s → ∀ f, Prog.Meets f (queryP g x) s) := by
  have key : s.str2sym x = none → ∀ f, Prog.Meets f (queryP g x) s := by
    intro h f
    unfold queryP
    rw [Prog.meets_bind]
    left
    unfold strP
    rw [Prog.meets_read]
    simp only [h]
    rw [Prog.meets_read, Prog.meets_write, Prog.meets_read, Prog.meets_write]
    cases f
    · exact .inl rfl
    · exact .inr (.inl rfl)
  have key' : (queryP g x).Writes s → s.str2sym x = none := by
    rintro ⟨f, hf⟩
    unfold queryP at hf
    rw [Prog.meets_bind] at hf
    rcases hf with hf | hf
    · unfold strP at hf
      rw [Prog.meets_read] at hf
      cases h : s.str2sym x with
      | none => rfl
      | some v => simp only [h] at hf; exact absurd hf Prog.meets_ret
    · exact absurd hf Prog.meets_ret
  exact ⟨⟨key', fun h => ⟨.str2sym, key h _⟩⟩, fun h => key (key' h)⟩

/-- Other clients have to be careful: two goroutines that only call `Productions`, with symbols that are not of the set of the grammar,
race exactly if the grammar does not know one of the symbols. -/
theorem C106_query_exact (g : Gram τ) (hi : Inv g.set) (xs : List τ) :
    CanRace g.set (xs.map (queryP g)) ↔ 2 ≤ xs.length ∧ ∃ x ∈ xs, x ∉ g.set.symb2str := by
  rw [race_iff]
  · constructor
    · rintro ⟨i, j, p, q, hij, h1, h2, hw, -⟩
      have l1 := (List.getElem?_eq_some_iff.1 h1).1
      have l2 := (List.getElem?_eq_some_iff.1 h2).1
      rw [List.length_map] at l1 l2
      rw [List.getElem?_map, Option.map_eq_some_iff] at h1
      obtain ⟨x, hx, rfl⟩ := h1
      exact ⟨by omega, x, List.mem_of_getElem? hx, (hi.none x).1 ((query_meets g x _).1.1 hw)⟩
    · rintro ⟨hl, x, hx, hn⟩
      obtain ⟨i, hxi⟩ := List.mem_iff_getElem?.1 hx
      have l1 := (List.getElem?_eq_some_iff.1 hxi).1
      obtain ⟨j, hj, hij⟩ : ∃ j, j < xs.length ∧ i ≠ j := by
        by_cases h0 : i = 0
        · exact ⟨1, by omega, by omega⟩
        · exact ⟨0, by omega, h0⟩
      refine ⟨i, j, queryP g x, queryP g xs[j], hij, by rw [List.getElem?_map, hxi]; rfl,
        by rw [List.getElem?_map, List.getElem?_eq_getElem hj]; rfl, (query_meets g x _).1.2 ((hi.none x).2 hn), ?_⟩
      intro a ha
      cases ha
  · intro p hp
    obtain ⟨x, -, rfl⟩ := List.mem_map.1 hp
    exact (query_meets g x _).2

/-! ### Concrete cases -/

/-- Balanced `a` and `b`. -/
def gText : Str := "S -> a S b\n  ->".toList

def gram : Gram Str := (Grammar.new gText).getD empty

/-- `ab` for the packrat parser, and `a` for the top-down parser. -/
def jobs : List (Par × List (Lexeme Str Nat)) :=
  [(.packrat, [⟨['a'], 1, 0, 0⟩, ⟨['b'], 2, 0, 1⟩]), (.topdown, [⟨['a'], 1, 0, 0⟩])]

/-- What the goroutines have returned: the number of children of the root. -/
def returned : GramProg Str (Out (Option (PN Str Nat))) → Option (Option Nat)
  | .ret (.ok (some t)) => some (some t.kids.length)
  | .ret (.ok none) => some none
  | _ => none

/-- In turns, both return: a tree with three children, and nil. -/
example : Grammar.new gText = some gram ∧
    ∃ s' ps', Relation.ReflTransGen Sched (gram.set, jobs.map (Par.parseP 0 gram 100)) (s', ps') ∧
      ps'.map returned = [some (some 3), some none] ∧ s'.symb2str = gram.set.symb2str := by
  refine ⟨?_, _, _, Concurrent.exec_reach ((List.range 200).map (· % 2)) _, by decide +kernel, by decide +kernel⟩
  have h : (Grammar.new gText).isSome = true := by decide +kernel
  unfold gram
  cases e : Grammar.new gText with
  | none => rw [e] at h; cases h
  | some g => rfl

/-- Asking for `S` and `a` does not race, asking for `c` does. -/
example : ¬ CanRace gram.set ([['S'], ['a']].map (queryP gram)) ∧ CanRace gram.set ([['S'], ['c']].map (queryP gram)) := by
  have hi : Inv gram.set := by
    rcases new_spec gText with ⟨-, h⟩ | ⟨g', r, h, -, hr⟩
    · exact absurd h (by decide +kernel)
    · unfold gram; rw [h]; exact hr.inv
  rw [C106_query_exact gram hi, C106_query_exact gram hi]
  exact ⟨by decide +kernel, by decide +kernel⟩

end Verif.Props.ConcurrentParse
