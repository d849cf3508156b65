import Verif.Model.StringSymbol
import Verif.Proofs.GrammarRound
/-
C85: symbols that are strings.
-/
namespace Verif.Props.StringSymbol
open Verif.Spec Verif.StringSymbol

/-- What a symbol is called. -/
def Sym.Called : Option Sym → Str → Prop
  | some (.own s), t => s = t
  | some (.other s), t => s = t
  | none, _ => False

/-- The names of the symbols of a production, in order; a nil production has none. -/
inductive Names : Option Prod → List Str → Prop
  | nil : Names none []
  | own {p} : Names (some (.own p)) p
  | other {p ss} : p.length = ss.length → (∀ (i : Nat) s, ss[i]? = some s → ∃ x, p[i]? = some x ∧ Sym.Called x s) → Names (some (.other p)) ss

/-- The names of the symbols of productions. -/
inductive AllNames : Option Prods → List (List Str) → Prop
  | nil : AllNames none []
  | own {p} : AllNames (some (.own p)) p
  | other {p ss} : p.length = ss.length → (∀ (i : Nat) s, ss[i]? = some s → ∃ x, p[i]? = some x ∧ Names x s) → AllNames (some (.other p)) ss

theorem fill_ok {α β : Type} {f : α → Out β} {R : α → β → Prop} (h : ∀ x y, f x = .ok y ↔ R x y) : ∀ {xs : List α} {ys : List β},
    fill f xs = .ok ys ↔ xs.length = ys.length ∧ ∀ (i : Nat) y, ys[i]? = some y → ∃ x, xs[i]? = some x ∧ R x y
  | [], ys => by
    constructor
    · intro e; cases e; simp
    · rintro ⟨e, _⟩; rw [List.length_eq_zero_iff.1 e.symm]; rfl
  | x :: xs, ys => by
    rw [fill, Out.bind_eq_ok]
    constructor
    · rintro ⟨y, h1, h2⟩
      obtain ⟨ys', h3, h4⟩ := Out.bind_eq_ok.1 h2
      cases h4
      obtain ⟨e1, e2⟩ := (fill_ok h).1 h3
      refine ⟨by simp [e1], fun i z hz => ?_⟩
      cases i with
      | zero =>
        simp only [List.getElem?_cons_zero, Option.some.injEq] at hz
        subst hz
        exact ⟨x, rfl, (h _ _).1 h1⟩
      | succ i => exact e2 i z (by simpa using hz)
    · rintro ⟨e1, e2⟩
      cases ys with
      | nil => simp at e1
      | cons y ys =>
        obtain ⟨x', h1, h2⟩ := e2 0 y rfl
        cases h1
        refine ⟨y, (h _ _).2 h2, Out.bind_eq_ok.2 ⟨ys, (fill_ok h).2 ⟨by simpa using e1, fun i z hz => ?_⟩, rfl⟩⟩
        obtain ⟨x'', h3, h4⟩ := e2 (i + 1) z (by simpa using hz)
        exact ⟨x'', by simpa using h3, h4⟩

theorem fill_panic {α β : Type} {f : α → Out β} (hf : ∀ x, f x ≠ .fuel) : ∀ {xs : List α}, fill f xs = .panic ↔ ∃ x ∈ xs, f x = .panic
  | [] => by simp [fill]
  | x :: xs => by
    have ih := fill_panic (β := β) hf (xs := xs)
    have nf : ∀ ys, fill f ys ≠ .fuel := by
      intro ys
      induction ys with
      | nil => simp [fill]
      | cons y ys ih2 =>
        rw [fill]
        cases e : f y with
        | fuel => exact absurd e (hf y)
        | panic => simp [Out.bind]
        | ok a =>
          cases e2 : fill f ys with
          | fuel => exact absurd e2 ih2
          | panic => simp [Out.bind]
          | ok b => simp [Out.bind]
    rw [fill]
    cases e : f x with
    | fuel => exact absurd e (hf x)
    | panic => simp [Out.bind, e]
    | ok a =>
      cases e2 : fill f xs with
      | fuel => exact absurd e2 (nf xs)
      | panic => simpa [Out.bind, e] using ih.1 e2
      | ok b =>
        rw [e2] at ih
        simpa [Out.bind, e] using fun x hx h => by simpa using ih.2 ⟨x, hx, h⟩

theorem cast_symbol (x : Option Sym) (s : Str) : castSymbol x = .ok s ↔ Sym.Called x s := by
  cases x with
  | none => simp [castSymbol, Sym.Called]
  | some x => cases x <;> simp [castSymbol, Sym.Called]

/-- C85: casting a production gives the names of its symbols, in order. -/
theorem C85_production (p : Option Prod) (ss : List Str) : castProduction p = .ok ss ↔ Names p ss := by
  cases p with
  | none =>
    constructor
    · intro e; cases e; exact .nil
    · intro h; cases h; rfl
  | some p =>
    cases p with
    | own p =>
      constructor
      · intro e; cases e; exact .own
      · intro h; cases h; rfl
    | other p =>
      rw [castProduction, fill_ok cast_symbol]
      constructor
      · rintro ⟨h1, h2⟩; exact .other h1 h2
      · intro h; cases h with | other h1 h2 => exact ⟨h1, h2⟩

/-- C85: casting productions gives the names of their symbols, in order. -/
theorem C85_productions (p : Option Prods) (ss : List (List Str)) : castProductions p = .ok ss ↔ AllNames p ss := by
  cases p with
  | none =>
    constructor
    · intro e; cases e; exact .nil
    · intro h; cases h; rfl
  | some p =>
    cases p with
    | own p =>
      constructor
      · intro e; cases e; exact .own
      · intro h; cases h; rfl
    | other p =>
      rw [castProductions, fill_ok C85_production]
      constructor
      · rintro ⟨h1, h2⟩; exact .other h1 h2
      · intro h; cases h with | other h1 h2 => exact ⟨h1, h2⟩

/-- C85: casting a production panics exactly if a symbol is nil. -/
theorem C85_panics (p : Option Prod) : castProduction p = .panic ↔ ∃ q, p = some (.other q) ∧ none ∈ q := by
  have hf : ∀ x, castSymbol x ≠ .fuel := by
    intro x
    cases x with
    | none => simp [castSymbol]
    | some x => cases x <;> simp [castSymbol]
  cases p with
  | none => simp [castProduction]
  | some p =>
    cases p with
    | own p => simp [castProduction]
    | other p =>
      rw [castProduction, fill_panic hf]
      constructor
      · rintro ⟨x, hx, e⟩
        cases x with
        | none => exact ⟨p, rfl, hx⟩
        | some x => cases x <;> cases e
      · rintro ⟨q, e, h⟩
        cases e
        exact ⟨none, h, rfl⟩

/-- C85: casting twice is casting once. -/
theorem C85_again {p : Option Prod} {ss : List Str} (_ : castProduction p = .ok ss) : castProduction (some (.own ss)) = .ok ss ∧
    castProduction (some (.other (ss.map fun s => some (.own s)))) = .ok ss := by
  refine ⟨rfl, (C85_production _ _).2 (.other (by simp) fun i s hs => ⟨some (.own s), by simp [hs], rfl⟩)⟩

/-- C85, the part that holds of String: what it returns tells the symbols, if there are any and none contains a blank. -/
theorem C85_string_partial {p p' : List Str} (h0 : p ≠ []) (h0' : p' ≠ []) (h : ∀ s ∈ p, ' ' ∉ s) (h' : ∀ s ∈ p', ' ' ∉ s) (e : string p = string p') : p = p' := by
  have h1 := Grammar.pieces_join p h0 h
  have h2 := Grammar.pieces_join p' h0' h'
  rw [show Grammar.join [' '] p = Grammar.join [' '] p' from e] at h1
  exact (Grammar.pieces_unique h1).trans (Grammar.pieces_unique h2).symm

/-- C85 is false of String: blanks in symbols, and the empty production. -/
theorem C85_string_refuted : string ["a".toList, "b".toList] = string ["a b".toList] ∧ string [] = string [[]] := by decide

/-- C85, indices: symbols by index, nil beyond the end. -/
theorem C85_index_partial {α : Type} (p : List α) (i : Nat) : at' p i = .ok p[i]? := by
  unfold at'
  by_cases h : i < p.length
  · have h1 : (i : Int) < p.length := by omega
    simp [h1]
  · have h1 : ¬ (i : Int) < p.length := by omega
    rw [if_neg h1, List.getElem?_eq_none (by omega)]

/-- C85 is false of negative indices, which panic. -/
theorem C85_index_refuted {α : Type} (p : List α) {i : Int} (h : i < 0) : at' p i = .panic := by
  unfold at'
  have : i < p.length := by omega
  rw [if_pos this, if_pos h]

/-- A production of another package with two symbols. -/
example : castProduction (some (.other [some (.own "E".toList), some (.other "int".toList)])) = .ok ["E".toList, "int".toList] := rfl
/-- One with a nil symbol. -/
example : castProduction (some (.other [some (.own "E".toList), none])) = .panic := rfl

end Verif.Props.StringSymbol
