import Verif.Proofs.LL1
import Verif.Proofs.LL1Check
import Verif.Props.Topdown
/-
C81: the top-down parser on LL(1) grammars. `LL1`, `EmptyLast`, `Productive`, `Agree` are in Verif.Spec.LL1.
-/
namespace Verif.Props.LL1
open Verif.Spec Verif.Spec.Grammar Verif.Topdown Verif.Props.Topdown

variable {α V : Type} [DecidableEq α]

/-- C81: New accepts LL(1) grammars all of whose nonterminals derive words. -/
theorem C81_new (g : Grammar α) (hg : g.WF) (hl : g.LL1) (hp : g.Productive) : Out.Returns (Verif.Topdown.new g) true := by
  obtain ⟨b, ⟨N, hb⟩, hs⟩ := C12_terminates_sound g hg
  cases b with
  | true => exact absurd (hs rfl) (LL1.not_leftRecursive hl hp)
  | false => exact ⟨N, fun n hn => by simp [Verif.Topdown.new, hb n hn, Out.bind]⟩

/-- C81: for LL(1) grammars whose productions that can be empty come last, Parse returns on every input: a derivation tree if the input is
a sentence, nil if it is not. -/
theorem C81_exact (ev : V) (g : Grammar α) (hg : g.WF) (hl : g.LL1) (hp : g.Productive) (he : g.EmptyLast) (ls : List (Lexeme α V)) :
    (g.Sentence (ls.map (·.kind)) → ∃ t, Out.Returns (parse ev g ls) (some t) ∧ IsParse g ls t) ∧
    (¬ g.Sentence (ls.map (·.kind)) → Out.Returns (parse ev g ls) none) := by
  have hlr := LL1.not_leftRecursive hl hp
  refine ⟨fun hs => ?_, fun hs => ?_⟩
  · obtain ⟨S, hS, hd⟩ := hs
    obtain ⟨ps, hps⟩ := Option.isSome_iff_exists.1 ((hg S).2 (List.mem_of_mem_head? hS))
    have htot := Match.total (inp := ls) (ev := ev) hg hlr
    obtain ⟨r, hr⟩ := Whole.total (ev := ev) htot S ps
    have hd := der_iff_derives.2 hd
    obtain ⟨t, rfl⟩ := LL1.whole hl he htot hr (fun p hm => by
        obtain ⟨k, hk⟩ := List.mem_iff_getElem?.1 hm
        exact ⟨k, ps, hps, hk⟩) (by
      generalize hss : [S] = ss at hd
      generalize hj : (ls.map (·.kind)).length = j at hd
      cases hd with
      | nil => cases hss
      | term ht => cases hss; have ht : g.prods S = none := ht; rw [hps] at ht; cases ht
      | nonterm hrule h1 h2 =>
        cases hss
        cases h2
        obtain ⟨ps', e, ek⟩ := hrule
        rw [hps] at e; cases e
        refine ⟨_, List.mem_of_getElem? ek, ?_⟩
        rw [List.length_map] at hj
        rw [hj]; exact h1)
    have hret : Out.Returns (parse ev g ls) (some t) := (C15_ordered_choice ev g hg ls _).2 (by
      simp only [OrderedChoice, hS]; exact ⟨ps, hps, hr⟩)
    obtain ⟨N, hN⟩ := hret
    exact ⟨t, ⟨N, hN⟩, C14_sound ev g hg ls (hN N (Nat.le_refl _))⟩
  · obtain ⟨r, N, hN⟩ := C16_terminates_partial ev g hg hlr ls
    cases r with
    | none => exact ⟨N, hN⟩
    | some t => exact absurd (C17_accepted_is_sentence ev g hg ls (hN N (Nat.le_refl _))) hs

omit [DecidableEq α] in
/-- C81: LL(1) grammars are unambiguous. -/
theorem C81_unambiguous (g : Grammar α) (hl : g.LL1) (ls : List (Lexeme α V)) {t t' : PN α V} (h : IsParse g ls t) (h' : IsParse g ls t') :
    SameShape (g.Agree) t t' := LL1.parse_unique hl h h'

/-- C81: both parsers return the same tree (but for positions of inner nodes, which only the packrat parser sets) on the
sentences, and nothing on other inputs, apart from the empty input. -/
theorem C81_both (ev : V) (g : Grammar α) (hg : g.WF) (hl : g.LL1) (hp : g.Productive) (he : g.EmptyLast) (ls : List (Lexeme α V)) (hne : ls ≠ [])
    (ht : ∀ l ∈ ls, g.Term l.kind) :
    (∃ t t', Out.Returns (parse ev g ls) (some t) ∧ Out.Returns (Verif.Packrat.parse ev g ls) (some t') ∧ SameShape (g.Agree) t t') ∨
    (Out.Returns (parse ev g ls) none ∧ Out.Returns (Verif.Packrat.parse ev g ls) none) := by
  by_cases hs : g.Sentence (ls.map (·.kind))
  · obtain ⟨t, h1, h2⟩ := (C81_exact ev g hg hl hp he ls).1 hs
    obtain ⟨t', e1, e2⟩ := Verif.Props.Packrat.C20_complete ev g hg ls ht hs
    exact .inl ⟨t, t', h1, e1, C81_unambiguous g hl ls h2 e2⟩
  · exact .inr ⟨(C81_exact ev g hg hl hp he ls).2 hs, Verif.Props.Packrat.C21_rejects_partial ev g hg ls hne ht hs⟩

/-! ### Concrete cases -/
open Verif.Props.Packrat (table table_wf lexs isTree isNil)

/-- Checks of a grammar given by a table; `nul`, `fst` and `fol` are tables of symbols that can be empty, first symbols and
following symbols. -/
def check (rows : List (Nat × List (List Nat))) (nul : List Nat) (fst fol : Nat → List Nat) : Bool :=
  (rows.all fun r => r.2.all fun p =>
    (!nulS nul.contains p || nul.contains r.1) && ((fstS nul.contains fst p).all fun t => (fst r.1).contains t) &&
    (ctxs p).all fun c => ((fstS nul.contains fst c.2).all fun t => (fol c.1).contains t) &&
      (!nulS nul.contains c.2 || (fol r.1).all fun t => (fol c.1).contains t)) &&
  rows.all fun r => r.2.zipIdx.all fun p => r.2.zipIdx.all fun q => p.2 == q.2 ||
    (((fstS nul.contains fst p.1).all fun t => !(fstS nul.contains fst q.1).contains t) &&
     (!nulS nul.contains p.1 || (!nulS nul.contains q.1 && ((fstS nul.contains fst q.1).all fun t => !(fol r.1).contains t))))

theorem rule_row {rows : List (Nat × List (List Nat))} {A k p} (h : (table rows).Rule A k p) : ∃ r ∈ rows, r.1 = A ∧ (table rows).prods A = some r.2 ∧ r.2[k]? = some p := by
  obtain ⟨ps, e, ek⟩ := h
  obtain ⟨r, h1, rfl⟩ := Option.map_eq_some_iff.1 e
  exact ⟨r, List.mem_of_find?_eq_some h1, by simpa using List.find?_some h1, e, ek⟩

theorem check_tables {rows nul fst fol} (h : check rows nul fst fol = true) (ht : ∀ t, rows.any (·.1 == t) = false → t ∈ fst t) :
    Tables (table rows) nul.contains fst fol := by
  simp only [check, Bool.and_eq_true, List.all_eq_true] at h
  refine ⟨fun t htm => ht t ?_, fun A k p hr hn => ?_, fun A k p hr t hm => ?_, fun B k p hr c hc t hm => ?_, fun B k p hr c hc hn t hm => ?_⟩
  · have htm : (table rows).prods t = none := htm
    simp only [table, Option.map_eq_none_iff, List.find?_eq_none] at htm
    simpa using htm
  all_goals
    obtain ⟨r, h1, rfl, _, h2⟩ := rule_row hr
    obtain ⟨⟨e1, e2⟩, e3⟩ := h.1 r h1 _ (List.mem_of_getElem? h2)
  · rw [hn] at e1
    simpa using e1
  · simpa using e2 t hm
  · simpa using (e3 c hc).1 t hm
  · have := (e3 c hc).2
    rw [hn] at this
    simp only [Bool.not_true, Bool.false_or, List.all_eq_true] at this
    simpa using this t hm

theorem check_ll1 {rows nul fst fol} (h : check rows nul fst fol = true) (ht : ∀ t, rows.any (·.1 == t) = false → t ∈ fst t) : (table rows).LL1 := by
  have htab := check_tables h ht
  simp only [check, Bool.and_eq_true, List.all_eq_true] at h
  have key : ∀ A k p k' p', (table rows).Rule A k p → (table rows).Rule A k' p' → k ≠ k' →
      ((fstS nul.contains fst p).all fun t => !(fstS nul.contains fst p').contains t) = true ∧
      (!nulS nul.contains p || (!nulS nul.contains p' && ((fstS nul.contains fst p').all fun t => !(fol A).contains t))) = true := by
    intro A k p k' p' hr hr' hne
    obtain ⟨r, h1, rfl, e1, h2⟩ := rule_row hr
    obtain ⟨r', _, _, e2, h2'⟩ := rule_row hr'
    rw [e1] at e2
    rw [← Option.some.inj e2] at h2'
    have := h.2 r h1 (p, k) (List.mem_zipIdx_iff_getElem?.2 h2) (p', k') (List.mem_zipIdx_iff_getElem?.2 h2')
    simpa [hne] using this
  refine htab.ll1 (fun A k p k' p' hr hr' hne t hm hm' => ?_) (fun A k p k' p' hr hr' hne hn => ?_)
  · have := List.all_eq_true.1 (key A k p k' p' hr hr' hne).1 t hm
    simp [hm'] at this
  · have := (key A k p k' p' hr hr' hne).2
    rw [hn] at this
    simp only [Bool.not_true, Bool.false_or, Bool.and_eq_true, List.all_eq_true] at this
    exact ⟨by simpa using this.1, fun t hm hm' => by simpa [hm'] using this.2 t hm⟩

theorem check_last {rows nul fst fol} (h : check rows nul fst fol = true) (ht : ∀ t, rows.any (·.1 == t) = false → t ∈ fst t)
    (hlast : (rows.all fun r => r.2.zipIdx.all fun p => !nulS nul.contains p.1 || p.2 + 1 == r.2.length) = true) : (table rows).EmptyLast := by
  refine (check_tables h ht).emptyLast fun A k p k' p' hr hr' hn => ?_
  obtain ⟨r, h1, rfl, e1, h2⟩ := rule_row hr
  obtain ⟨r', _, _, e2, h2'⟩ := rule_row hr'
  rw [e1] at e2
  rw [← Option.some.inj e2] at h2'
  simp only [List.all_eq_true] at hlast
  have := hlast r h1 (p, k) (List.mem_zipIdx_iff_getElem?.2 h2)
  rw [hn] at this
  simp at this
  obtain ⟨hlt, _⟩ := List.getElem?_eq_some_iff.1 h2'
  omega

/-- `E -> T E' ; E' -> + T E' | ; T -> F T' ; T' -> * F T' | ; F -> ( E ) | n` with E, E', T, T', F = 0..4 and `+ * ( ) n` = 5..9. -/
def rowsA : List (Nat × List (List Nat)) := [(0, [[2, 1]]), (1, [[5, 2, 1], []]), (2, [[4, 3]]), (3, [[6, 4, 3], []]), (4, [[7, 0, 8], [9]])]

/-- First symbols. -/
def fstA : Nat → List Nat
  | 0 => [7, 9]
  | 1 => [5]
  | 2 => [7, 9]
  | 3 => [6]
  | 4 => [7, 9]
  | t => [t]

/-- Following symbols. -/
def folA : Nat → List Nat
  | 0 => [8]
  | 1 => [8]
  | 2 => [5, 8]
  | 3 => [5, 8]
  | 4 => [5, 6, 8]
  | _ => [5, 6, 7, 8, 9]

/-- The grammar. -/
def gA : Grammar Nat := table rowsA

theorem term_fstA : ∀ t, rowsA.any (·.1 == t) = false → t ∈ fstA t := by
  intro t
  unfold fstA
  split <;> simp [rowsA]

theorem gA_ll1 : gA.LL1 := check_ll1 (nul := [1, 3]) (fst := fstA) (fol := folA) (by decide +kernel) term_fstA

theorem gA_last : gA.EmptyLast := check_last (nul := [1, 3]) (fst := fstA) (fol := folA) (by decide +kernel) term_fstA (by decide +kernel)

theorem n_derives : gA.Derives [4] [9] := .nonterm (k := 1) (p := [9]) (u := [9]) (v := []) ⟨_, rfl, rfl⟩ (.term rfl .nil) .nil
theorem e3_derives : gA.Derives [3] [] := .nonterm (k := 1) (p := []) (u := []) (v := []) ⟨_, rfl, rfl⟩ .nil .nil
theorem e1_derives : gA.Derives [1] [] := .nonterm (k := 1) (p := []) (u := []) (v := []) ⟨_, rfl, rfl⟩ .nil .nil
theorem t_derives : gA.Derives [2] [9] := .nonterm (k := 0) (p := [4, 3]) (u := [9]) (v := []) ⟨_, rfl, rfl⟩ (Derives.append n_derives e3_derives) .nil
theorem s_derives : gA.Derives [0] [9] := .nonterm (k := 0) (p := [2, 1]) (u := [9]) (v := []) ⟨_, rfl, rfl⟩ (Derives.append t_derives e1_derives) .nil

theorem gA_productive : gA.Productive := by
  intro A ps h
  have : A = 0 ∨ A = 1 ∨ A = 2 ∨ A = 3 ∨ A = 4 := by
    obtain ⟨r, h1, rfl⟩ := Option.map_eq_some_iff.1 h
    have h2 := List.mem_of_find?_eq_some h1
    have h3 : r.1 = A := by simpa using List.find?_some h1
    simp only [rowsA, List.mem_cons, List.not_mem_nil, or_false] at h2
    rcases h2 with rfl | rfl | rfl | rfl | rfl <;> simp_all
  rcases this with rfl | rfl | rfl | rfl | rfl
  · exact ⟨_, s_derives⟩
  · exact ⟨_, e1_derives⟩
  · exact ⟨_, t_derives⟩
  · exact ⟨_, e3_derives⟩
  · exact ⟨_, n_derives⟩

/-- C81 on `n + n * n`. -/
example : ∃ t t', Out.Returns (parse 0 gA (lexs [9, 5, 9, 6, 9])) (some t) ∧ Out.Returns (Verif.Packrat.parse 0 gA (lexs [9, 5, 9, 6, 9])) (some t') ∧
    SameShape gA.Agree t t' := by
  rcases C81_both 0 gA (table_wf _) gA_ll1 gA_productive gA_last (lexs [9, 5, 9, 6, 9]) (by decide) (by decide) with h | ⟨⟨N, h⟩, _⟩
  · exact h
  · exfalso
    have h1 : isNil (parse 0 gA (lexs [9, 5, 9, 6, 9]) 40) = false ∧ ∃ t, parse 0 gA (lexs [9, 5, 9, 6, 9]) 40 = .ok (some t) := ⟨by decide +kernel, _, rfl⟩
    obtain ⟨_, t, e⟩ := h1
    have hN : Out.Returns (parse 0 gA (lexs [9, 5, 9, 6, 9])) (none : Option (PN Nat Nat)) := ⟨N, h⟩
    cases C15_unique 0 gA (table_wf _) _ ((C15_ordered_choice 0 gA (table_wf _) _ _).1 hN) ((parse_iff 0 gA (table_wf _) _).1 _ _ e)

/-- `S -> A b ; A -> | a A` with S, A = 0, 1 and a, b = 2, 3: the empty production first. -/
def rowsB : List (Nat × List (List Nat)) := [(0, [[1, 3]]), (1, [[], [2, 1]])]

/-- First symbols. -/
def fstB : Nat → List Nat
  | 0 => [2, 3]
  | 1 => [2]
  | t => [t]

/-- Following symbols. -/
def folB : Nat → List Nat
  | 0 => []
  | 1 => [3]
  | _ => [2, 3]

/-- C81: the order matters. The grammar is LL(1), New accepts it, `a b` is a sentence, and Parse returns nil: `A` commits to its
empty production. -/
theorem C81_order_refuted : ¬ ∀ (g : Grammar Nat), g.WF → g.LL1 → g.Productive → ∀ ls : List (Lexeme Nat Nat), g.Sentence (ls.map (·.kind)) →
    ∃ t, Out.Returns (parse 0 g ls) (some t) := by
  intro h
  have ha : (table rowsB).Derives [1] [] := .nonterm (k := 0) (p := []) (u := []) (v := []) ⟨_, rfl, rfl⟩ .nil .nil
  have haa : (table rowsB).Derives [1] [2] := .nonterm (k := 1) (p := [2, 1]) (u := [2]) (v := []) ⟨_, rfl, rfl⟩ (.term rfl ha) .nil
  have hs : (table rowsB).Derives [0] [2, 3] := .nonterm (k := 0) (p := [1, 3]) (u := [2, 3]) (v := []) ⟨_, rfl, rfl⟩ (Derives.append haa (.term rfl .nil)) .nil
  have hp : (table rowsB).Productive := by
    intro A ps h
    have : A = 0 ∨ A = 1 := by
      obtain ⟨r, h1, rfl⟩ := Option.map_eq_some_iff.1 h
      have h2 := List.mem_of_find?_eq_some h1
      have h3 : r.1 = A := by simpa using List.find?_some h1
      simp only [rowsB, List.mem_cons, List.not_mem_nil, or_false] at h2
      rcases h2 with rfl | rfl <;> simp_all
    rcases this with rfl | rfl
    · exact ⟨_, hs⟩
    · exact ⟨_, ha⟩
  have hl : (table rowsB).LL1 := check_ll1 (nul := [1]) (fst := fstB) (fol := folB) (by decide +kernel) (by
    intro t
    unfold fstB
    split <;> simp [rowsB])
  obtain ⟨t, N, ht⟩ := h (table rowsB) (table_wf _) hl hp (lexs [2, 3]) ⟨0, rfl, hs⟩
  have e : parse 0 (table rowsB) (lexs [2, 3]) 20 = .ok none := rfl
  have ht : Out.Returns (parse 0 (table rowsB) (lexs [2, 3])) (some t) := ⟨N, ht⟩
  cases C15_unique 0 _ (table_wf _) _ ((C15_ordered_choice 0 _ (table_wf _) _ _).1 ht) ((parse_iff 0 _ (table_wf _) _).1 _ _ e)

/-- C81: without the condition that all nonterminals derive words, New may refuse an LL(1) grammar: `A -> A`. -/
theorem C81_productive_refuted : ¬ ∀ (g : Grammar Nat), g.WF → g.LL1 → Out.Returns (Verif.Topdown.new g) true := by
  intro h
  have hno : ∀ {ss w}, (table [(0, [[0]])]).Derives ss w → 0 ∉ ss := by
    intro ss w hd
    induction hd with
    | nil => simp
    | term ht _ ih =>
      intro hm
      rcases List.mem_cons.1 hm with e | hm
      · subst e
        cases ht
      · exact ih hm
    | nonterm hr _ _ ih _ =>
      obtain ⟨r, h1, rfl, _, h2⟩ := rule_row hr
      cases List.mem_singleton.1 h1
      exact absurd (by cases List.mem_singleton.1 (List.mem_of_getElem? h2); simp) ih
  have hrule : ∀ {A k p}, (table [(0, [[0]])]).Rule A k p → k = 0 := by
    intro A k p hr
    obtain ⟨r, h1, rfl, _, h2⟩ := rule_row hr
    cases List.mem_singleton.1 h1
    obtain ⟨hlt, _⟩ := List.getElem?_eq_some_iff.1 h2
    simpa using hlt
  obtain ⟨N, hN⟩ := h (table [(0, [[0]])]) (table_wf _) ⟨fun h1 h2 _ _ => (hrule h1).trans (hrule h2).symm, fun h1 h2 _ _ => (hrule h1).trans (hrule h2).symm,
    fun h1 h2 _ _ _ => (hrule h1).trans (hrule h2).symm⟩
  have e : Verif.Topdown.new (table [(0, [[0]])]) (N + 3) = .ok false := by
    have h3 : isLeftRecursive (table [(0, [[0]])]) 3 = .ok true := rfl
    rw [Verif.Topdown.new, (isLeftRecursive_mono _ 3 (N + 3) (by omega)).ok h3]
    rfl
  rw [hN (N + 3) (by omega)] at e
  cases e

end Verif.Props.LL1
