import Verif.Proofs.RemoveLRTerm
import Verif.Props.Grammar
/-
Properties of the removal of left recursion (C54, C55).

`removeLeftRecursion g fuel` models `RemoveLeftRecursion` for any grammar behind the interface. The
specification is Verif.Spec.RemoveLR. Conditions used below: `Full` (no nonterminal without
productions), `Fresh` (no symbol is called like a nonterminal with `'` appended), `Grounded` (a
nonterminal with a production that begins with itself has another one), `Single`, `SolidHeads`,
`SolidRests`.
-/
namespace Verif.Props.RemoveLR
open Verif.Spec Verif.Spec.Grammar Verif.Spec.RemoveLR Verif.LeftRecursion Verif.Grammar
open Verif.Props.Grammar (Shows)

variable {g : Spec.Grammar Str}

theorem run (hw : g.WF) (hnd : g.order.Nodup) (hfull : Full g) (hfresh : Fresh g) (hgr : Grounded g) (n : Nat) :
    removeLeftRecursion g n = .fuel ∨ ∃ out, removeLeftRecursion g n = .ok out ∧ Expanded g (canon g) ∧
      Shows out (removed g.order (canon g)) := by
  rcases ntLoop_spec (M := canon g) hw hnd hfull hfresh hgr (fun A ps qs _ hps h => canon_eq hps h) n g.order []
    _ rfl (mid_start g _ g.order.length) (by simp) with h | ⟨op, h, hm, hE⟩
  · left; unfold removeLeftRecursion; rw [h]; rfl
  · right; exact ⟨op.out, by unfold removeLeftRecursion; rw [h]; rfl, hE, hm.rep.shows hm.order⟩

theorem expanded_canon {M : Str → List (List Str)} (hM : Expanded g M) : Expanded g (canon g) := by
  intro A ps hA hps
  rw [canon_eq hps (hM A ps hA hps)]
  exact hM A ps hA hps

theorem run_fuel (hw : g.WF) (hnd : g.order.Nodup) (hfull : Full g) (hfresh : Fresh g) (hgr : Grounded g)
    (hE : Expanded g (canon g)) : ∃ N, ∀ n, N ≤ n → removeLeftRecursion g n ≠ .fuel := by
  obtain ⟨N, hN⟩ := ntLoop_fuel hw hnd hfull hfresh hgr hE g.order [] rfl
  refine ⟨N, fun n hn e => ?_⟩
  have h1 := hN n hn _ (mid_start g _ g.order.length)
  unfold removeLeftRecursion at e
  cases e2 : ntLoop g n ⟨empty, List.replicate g.order.length false, 0, false, SetSymbol.new⟩ g.order with
  | fuel => exact h1 e2
  | ok op => rw [e2] at e; cases e
  | panic => rw [e2] at e; cases e

/-- C54, when it terminates: under the conditions listed, RemoveLeftRecursion returns exactly if leading
symbols, followed through earlier nonterminals, never come back to themselves; otherwise it recurses
without end. It never panics. Missing: grammars violating the conditions (see the refutations). -/
theorem C54_returns_iff_partial (hw : g.WF) (hnd : g.order.Nodup) (hfull : Full g) (hfresh : Fresh g)
    (hgr : Grounded g) :
    (LeadsEnd g → ∃ out, Out.Returns (removeLeftRecursion g) out) ∧
    (¬ LeadsEnd g → Out.Diverges (removeLeftRecursion g)) ∧
    ∀ n, removeLeftRecursion g n ≠ .panic := by
  refine ⟨fun h => ?_, fun h n => ?_, fun n e => ?_⟩
  · obtain ⟨M, hM⟩ := (expanded_iff hw).2 h
    obtain ⟨N, hN⟩ := run_fuel hw hnd hfull hfresh hgr (expanded_canon hM)
    rcases run hw hnd hfull hfresh hgr N with h | ⟨out, h, _, _⟩
    · exact absurd h (hN N (Nat.le_refl _))
    · exact ⟨out, Out.returns_of (removeLeftRecursion_mono g) h⟩
  · rcases run hw hnd hfull hfresh hgr n with h' | ⟨out, _, hE, _⟩
    · exact h'
    · exact absurd ((expanded_iff hw).1 ⟨_, hE⟩) h
  · rcases run hw hnd hfull hfresh hgr n with h | ⟨out, h, _, _⟩ <;> rw [h] at e <;> cases e

/-- C54, what is returned: the grammar specified by `removed`, for the expansions of the productions. -/
theorem C54_result_partial (hw : g.WF) (hnd : g.order.Nodup) (hfull : Full g) (hfresh : Fresh g)
    (hgr : Grounded g) {out} (h : Out.Returns (removeLeftRecursion g) out) :
    ∃ M, Expanded g M ∧ Shows out (removed g.order M) ∧ (removed g.order M).WF := by
  obtain ⟨N, hN⟩ := h
  rcases run hw hnd hfull hfresh hgr N with h | ⟨out', h, hE, hs⟩
  · rw [hN N (Nat.le_refl _)] at h; cases h
  · rw [hN N (Nat.le_refl _)] at h; cases h
    exact ⟨_, hE, hs, removed_wf⟩

theorem noDouble {M} (hw : g.WF) (hs : Single g) (hM : Expanded g M) : NoDouble M g.order := by
  intro A hA t ht
  obtain ⟨ps, hps⟩ := Option.isSome_iff_exists.1 ((hw A).2 hA)
  exact hs A ps _ hA hps (hM A ps hA hps) t ht

theorem sentence_iff {M} (hw : g.WF) (hfresh : Fresh g) (hM : Expanded g M) (hd : NoDouble M g.order) :
    (∀ w, (removed g.order M).Sentence w ↔ g.Sentence w) ∧
    ∀ x, g.Occurs x → ∀ w, (removed g.order M).Derives [x] w ↔ g.Derives [x] w := by
  have key : ∀ x, g.Occurs x → ∀ w, (removed g.order M).Derives [x] w ↔ g.Derives [x] w := fun x hx w =>
    removed_lang hw hfresh hM hd (by simpa using old_of_fresh hfresh hx) w
  refine ⟨fun w => ?_, key⟩
  unfold Sentence
  rw [removed_start]
  constructor
  · rintro ⟨S, hS, h⟩
    exact ⟨S, hS, (key S (.inl (List.mem_of_mem_head? hS)) w).1 h⟩
  · rintro ⟨S, hS, h⟩
    exact ⟨S, hS, (key S (.inl (List.mem_of_mem_head? hS)) w).2 h⟩

/-- C54, the part that holds: if RemoveLeftRecursion returns and no production begins with its own
nonterminal twice, the grammar returned has the same sentences, and each symbol of the old grammar
derives the same words in both. Missing: `C54_language_refuted`, `C54_collision_refuted`,
`C54_grounded_refuted`, and termination (`C54_returns_refuted`). -/
theorem C54_language_partial (hw : g.WF) (hnd : g.order.Nodup) (hfull : Full g) (hfresh : Fresh g)
    (hgr : Grounded g) (hs : Single g) {out} (h : Out.Returns (removeLeftRecursion g) out) :
    ∃ G : Spec.Grammar Str, Shows out G ∧ G.WF ∧ (∀ w, G.Sentence w ↔ g.Sentence w) ∧
      ∀ x, g.Occurs x → ∀ w, G.Derives [x] w ↔ g.Derives [x] w := by
  obtain ⟨M, hM, h1, h2⟩ := C54_result_partial hw hnd hfull hfresh hgr h
  exact ⟨_, h1, h2, sentence_iff hw hfresh hM (noDouble hw hs hM)⟩

/-- C55, the part that holds: the grammar returned is not left recursive if no production begins with a
symbol that can vanish and what follows the leading symbol of a left recursive production cannot vanish
either. Missing: `C55_hidden_refuted`, `C55_rest_refuted`. -/
theorem C55_partial (hw : g.WF) (hnd : g.order.Nodup) (hfull : Full g) (hfresh : Fresh g)
    (hgr : Grounded g) (h1 : SolidHeads g) (h2 : SolidRests g) {out}
    (h : Out.Returns (removeLeftRecursion g) out) :
    ∃ G : Spec.Grammar Str, Shows out G ∧ ¬ G.LeftRecursive := by
  obtain ⟨M, hM, hs, _⟩ := C54_result_partial hw hnd hfull hfresh hgr h
  refine ⟨_, hs, removed_noLR hw hfresh hM h1 fun A hA q hq => ?_⟩
  obtain ⟨ps, hps⟩ := Option.isSome_iff_exists.1 ((hw A).2 hA)
  exact h2 A ps _ hA hps (hM A ps hA hps) q hq

theorem nil_of_noempty (he : ∀ A k, ¬ g.Rule A k []) {ss w : List Str} (h : g.Derives ss w) (hw : w = []) :
    ss = [] := by
  induction h with
  | nil => rfl
  | term => cases hw
  | nonterm hr _ _ ih1 ih2 =>
    obtain ⟨rfl, rfl⟩ := List.append_eq_nil_iff.1 hw
    rw [ih1 rfl] at hr
    exact absurd hr (he _ _)

/-- C55 for grammars without empty productions: whenever it returns, the result is not left recursive. -/
theorem C55_noempty_partial (hw : g.WF) (hnd : g.order.Nodup) (hfull : Full g) (hfresh : Fresh g)
    (hgr : Grounded g) (he : ∀ A k, ¬ g.Rule A k []) {out} (h : Out.Returns (removeLeftRecursion g) out) :
    ∃ G : Spec.Grammar Str, Shows out G ∧ ¬ G.LeftRecursive :=
  C55_partial hw hnd hfull hfresh hgr
    (fun _ _ _ _ _ hd => by cases nil_of_noempty he hd rfl)
    (fun _ _ _ _ _ _ _ _ _ hne hd => hne (nil_of_noempty he hd rfl)) h

/-- C54 and C55 for grammars that are not left recursive to begin with: RemoveLeftRecursion returns, the
language is the same, and the result is not left recursive either. -/
theorem C54_C55_nonrecursive (hw : g.WF) (hnd : g.order.Nodup) (hfull : Full g) (hfresh : Fresh g)
    (hlr : ¬ g.LeftRecursive) :
    ∃ out, ∃ G : Spec.Grammar Str, Out.Returns (removeLeftRecursion g) out ∧ Shows out G ∧ G.WF ∧
      (∀ w, G.Sentence w ↔ g.Sentence w) ∧ ¬ G.LeftRecursive := by
  have hgr := grounded_of hlr
  obtain ⟨out, h⟩ := (C54_returns_iff_partial hw hnd hfull hfresh hgr).1 (leadsEnd_of hlr)
  obtain ⟨M, hM, hs, hwf⟩ := C54_result_partial hw hnd hfull hfresh hgr h
  exact ⟨out, _, h, hs, hwf, (sentence_iff hw hfresh hM (noDouble_of hw hlr hM)).1,
    removed_keeps_noLR hw hfresh hlr hM⟩

theorem expands_prods (hh : ∀ A k F p, g.Rule A k (F :: p) → F ∉ before g A) {A ps qs}
    (hps : g.prods A = some ps) (h : Expands g (before g A) ps qs) : qs = ps := by
  refine h.unique (expands_self fun p hp F e => ?_)
  obtain ⟨k, hk⟩ := mem_rule hps hp
  obtain ⟨t, rfl⟩ := head_split e
  exact hh A k F t hk

/-- Clients see one grammar. -/
theorem shows_unique {out : Gram Str} {G G' : Spec.Grammar Str} (h : Shows out G) (h' : Shows out G') : G = G' := by
  obtain ⟨o, p⟩ := G
  obtain ⟨o', p'⟩ := G'
  have h1 := h.1.symm.trans h'.1
  simp only [Out.ok.injEq] at h1
  have h2 : p = p' := by
    funext x
    have := (h.2 (false, x)).symm.trans (h'.2 (false, x))
    simpa using this
  subst h1 h2
  rfl

/-- C54 and C55 for grammars whose only left recursion is direct: no production begins with an earlier
nonterminal, none is empty, none begins with its own nonterminal twice, and left recursive nonterminals
have another production. -/
theorem C54_C55_direct (hw : g.WF) (hnd : g.order.Nodup) (hfull : Full g) (hfresh : Fresh g)
    (he : ∀ A k, ¬ g.Rule A k []) (hh : ∀ A k F p, g.Rule A k (F :: p) → F ∉ before g A)
    (h2 : ∀ A k t, ¬ g.Rule A k (A :: A :: t))
    (hb : ∀ A k t, g.Rule A k (A :: t) → ∃ j p, g.Rule A j p ∧ p.head? ≠ some A) :
    ∃ out, ∃ G : Spec.Grammar Str, Out.Returns (removeLeftRecursion g) out ∧ Shows out G ∧ G.WF ∧
      (∀ w, G.Sentence w ↔ g.Sentence w) ∧ ¬ G.LeftRecursive := by
  have hgr : Grounded g := by
    rintro A ps qs hA hps h ⟨q, hq, e⟩
    obtain rfl := expands_prods hh hps h
    obtain ⟨k, hk⟩ := mem_rule hps hq
    obtain ⟨t, rfl⟩ := head_split e
    obtain ⟨j, p, hp, hne⟩ := hb A k t hk
    exact ⟨p, rule_mem hps hp, hne⟩
  have hs : Single g := by
    intro A ps qs hA hps h t ht
    obtain rfl := expands_prods hh hps h
    obtain ⟨k, hk⟩ := mem_rule hps ht
    exact h2 A k t hk
  obtain ⟨out, h⟩ := (C54_returns_iff_partial hw hnd hfull hfresh hgr).1 (leadsEnd_of_heads hh)
  obtain ⟨G, h3, h4, h5, _⟩ := C54_language_partial hw hnd hfull hfresh hgr hs h
  obtain ⟨G', h6, h7⟩ := C55_noempty_partial hw hnd hfull hfresh hgr he h
  obtain rfl : G = G' := shows_unique h3 h6
  exact ⟨out, G, h, h3, h4, h5, h7⟩

/-! ### Concrete cases -/

/-- A grammar given by its rows. -/
def rowsG (rows : List (Str × List (List Str))) : Spec.Grammar Str :=
  ⟨rows.map (·.1), fun x => (rows.find? (·.1 = x)).map (·.2)⟩

theorem rowsG_wf (rows) : (rowsG rows).WF := by
  intro x
  simp [rowsG, List.find?_isSome]

theorem rowsG_rule {rows A k p} (h : (rowsG rows).Rule A k p) : ∃ r ∈ rows, r.1 = A ∧ p ∈ r.2 := by
  obtain ⟨ps, e, hk⟩ := h
  simp only [rowsG, Option.map_eq_some_iff] at e
  obtain ⟨r, hr, rfl⟩ := e
  exact ⟨r, List.mem_of_find?_eq_some hr, by simpa using List.find?_some hr, List.mem_of_getElem? hk⟩

/-- Checks a property of all rules. -/
theorem rowsG_all {rows : List (Str × List (List Str))} {P : Str → List Str → Prop}
    (h : ∀ r ∈ rows, ∀ p ∈ r.2, P r.1 p) {A k p} (hr : (rowsG rows).Rule A k p) : P A p := by
  obtain ⟨r, h1, rfl, h2⟩ := rowsG_rule hr
  exact h r h1 p h2

theorem rowsG_full {rows : List (Str × List (List Str))} (h : ∀ r ∈ rows, r.2 ≠ []) : Full (rowsG rows) := by
  intro A e
  simp only [rowsG, Option.map_eq_some_iff] at e
  obtain ⟨r, hr, e⟩ := e
  exact h r (List.mem_of_find?_eq_some hr) e

theorem rowsG_fresh {rows : List (Str × List (List Str))}
    (h : ∀ r ∈ rows, ∀ r' ∈ rows, r'.1 ≠ primed r.1 ∧ ∀ p ∈ r'.2, primed r.1 ∉ p) : Fresh (rowsG rows) := by
  intro A hA ho
  obtain ⟨r, hr, rfl⟩ := List.mem_map.1 hA
  rcases ho with ho | ⟨B, k, p, hp, hx⟩
  · obtain ⟨r', hr', e⟩ := List.mem_map.1 ho
    exact (h r hr r' hr').1 e
  · obtain ⟨r', hr', _, h2⟩ := rowsG_rule hp
    exact (h r hr r' hr').2 p h2 hx

/-- `E -> E + T | T ; T -> T * F | F ; F -> ( E ) | i`. -/
def gExpr : List (Str × List (List Str)) :=
  [(['E'], [[['E'], ['+'], ['T']], [['T']]]), (['T'], [[['T'], ['*'], ['F']], [['F']]]),
   (['F'], [[['('], ['E'], [')']], [['i']]])]

example : ∃ out, ∃ G : Spec.Grammar Str, Out.Returns (removeLeftRecursion (rowsG gExpr)) out ∧ Shows out G ∧ G.WF ∧
    (∀ w, G.Sentence w ↔ (rowsG gExpr).Sentence w) ∧ ¬ G.LeftRecursive := by
  refine C54_C55_direct (rowsG_wf _) (by decide) (rowsG_full (by decide)) (rowsG_fresh (by decide)) ?_ ?_ ?_ ?_
  · intro A k h
    exact rowsG_all (P := fun _ p => p ≠ []) (by decide) h rfl
  · intro A k F p h
    exact rowsG_all (P := fun A p => ∀ F ∈ p.head?, F ∉ before (rowsG gExpr) A) (by decide) h F rfl
  · intro A k t h
    exact rowsG_all (P := fun A p => p.take 2 ≠ [A, A]) (by decide) h rfl
  · intro A k t h
    have : A ∈ [['E'], ['T']] := by
      have := rowsG_all (P := fun A p => p.head? = some A → A ∈ [['E'], ['T']]) (by decide) h rfl
      exact this
    rcases List.mem_cons.1 this with rfl | h
    · exact ⟨1, [['T']], ⟨_, rfl, rfl⟩, by decide⟩
    · rw [List.mem_singleton.1 h]
      exact ⟨1, [['F']], ⟨_, rfl, rfl⟩, by decide⟩

/-- The grammar read off a result. -/
def seen (o : Out (Gram Str)) : Option (List (Str × Option (List (List Str)))) :=
  match o with
  | .ok g =>
    match nonTerminals g with
    | .ok nts => some (nts.map fun x => (x, match readProductions g (.other x) with | .ok r => r | _ => none))
    | _ => none
  | _ => none

example : seen (removeLeftRecursion (rowsG gExpr) 5) = some
    [(['E'], some [[['T'], ['E', '\'']]]), (['E', '\''], some [[['+'], ['T'], ['E', '\'']], []]),
     (['T'], some [[['F'], ['T', '\'']]]), (['T', '\''], some [[['*'], ['F'], ['T', '\'']], []]),
     (['F'], some [[['('], ['E'], [')']], [['i']]])] := by decide +kernel

/-- `S -> A a | b ; A -> A c | S d | e`: left recursive through S and A. -/
def gInd : List (Str × List (List Str)) :=
  [(['S'], [[['A'], ['a']], [['b']]]), (['A'], [[['A'], ['c']], [['S'], ['d']], [['e']]])]

example : seen (removeLeftRecursion (rowsG gInd) 5) = some
    [(['S'], some [[['A'], ['a']], [['b']]]),
     (['A'], some [[['b'], ['d'], ['A', '\'']], [['e'], ['A', '\'']]]),
     (['A', '\''], some [[['c'], ['A', '\'']], [['a'], ['d'], ['A', '\'']], []])] := by decide +kernel

theorem gInd_expA : Expands (rowsG gInd) (before (rowsG gInd) ['A'])
    [[['A'], ['c']], [['S'], ['d']], [['e']]]
    [[['A'], ['c']], [['A'], ['a'], ['d']], [['b'], ['d']], [['e']]] := by
  refine .keep (by decide) (.subst (rs := [[['A'], ['a']], [['b']]]) (by decide) rfl ?_)
  exact .keep (by decide) (.keep (by decide) (.keep (by decide) .nil))

theorem gInd_exp : ∀ A ps qs, A ∈ (rowsG gInd).order → (rowsG gInd).prods A = some ps →
    Expands (rowsG gInd) (before (rowsG gInd) A) ps qs →
    (A = ['S'] ∧ qs = [[['A'], ['a']], [['b']]]) ∨
    (A = ['A'] ∧ qs = [[['A'], ['c']], [['A'], ['a'], ['d']], [['b'], ['d']], [['e']]]) := by
  intro A ps qs hA hps h
  have hA' : A = ['S'] ∨ A = ['A'] := by
    revert hA; simp [rowsG, gInd]
  rcases hA' with rfl | rfl
  · cases hps
    exact .inl ⟨rfl, h.unique (expands_self (by decide))⟩
  · cases hps
    exact .inr ⟨rfl, h.unique gInd_expA⟩

/-- The general theorems apply to it: indirect left recursion is removed. -/
example : ∃ out, ∃ G : Spec.Grammar Str, Out.Returns (removeLeftRecursion (rowsG gInd)) out ∧ Shows out G ∧
    (∀ w, G.Sentence w ↔ (rowsG gInd).Sentence w) ∧ ¬ G.LeftRecursive := by
  have hw := rowsG_wf gInd
  have hfull : Full (rowsG gInd) := rowsG_full (by decide)
  have hfresh : Fresh (rowsG gInd) := rowsG_fresh (by decide)
  have hnd : (rowsG gInd).order.Nodup := by decide
  have hgr : Grounded (rowsG gInd) := by
    intro A ps qs hA hps h _
    rcases gInd_exp A ps qs hA hps h with ⟨rfl, rfl⟩ | ⟨rfl, rfl⟩
    · exact ⟨[['b']], by simp, by decide⟩
    · exact ⟨[['e']], by simp, by decide⟩
  have hs : Single (rowsG gInd) := by
    intro A ps qs hA hps h t ht
    rcases gInd_exp A ps qs hA hps h with ⟨rfl, rfl⟩ | ⟨rfl, rfl⟩ <;> simp at ht
  have he : ∀ A k, ¬ (rowsG gInd).Rule A k [] := fun A k h =>
    rowsG_all (P := fun _ p => p ≠ []) (by decide) h rfl
  have hend : LeadsEnd (rowsG gInd) := by
    refine (expanded_iff hw).1 ⟨fun A => if A = ['S'] then [[['A'], ['a']], [['b']]] else
      [[['A'], ['c']], [['A'], ['a'], ['d']], [['b'], ['d']], [['e']]], ?_⟩
    intro A ps hA hps
    have hA' : A = ['S'] ∨ A = ['A'] := by
      revert hA; simp [rowsG, gInd]
    rcases hA' with rfl | rfl
    · cases hps; exact expands_self (by decide)
    · cases hps; exact gInd_expA
  obtain ⟨out, h⟩ := (C54_returns_iff_partial hw hnd hfull hfresh hgr).1 hend
  obtain ⟨G, h3, _, h5, _⟩ := C54_language_partial hw hnd hfull hfresh hgr hs h
  obtain ⟨G', h6, h7⟩ := C55_noempty_partial hw hnd hfull hfresh hgr he h
  obtain rfl : G = G' := shows_unique h3 h6
  exact ⟨out, G, h, h3, h5, h7⟩

/-- A case of `C54_C55_nonrecursive`: `A -> a | ; S -> A b S | c`, where A is replaced in S. -/
def gNon : List (Str × List (List Str)) :=
  [(['A'], [[['a']], []]), (['S'], [[['A'], ['b'], ['S']], [['c']]])]

theorem no_term {ss w : List Str} (h : g.Derives ss w) (hw : w = []) : ∀ x ∈ ss, ¬ g.Term x := by
  induction h with
  | nil => simp
  | term => cases hw
  | @nonterm A k p ss u v hr _ _ _ ih2 =>
    obtain ⟨rfl, rfl⟩ := List.append_eq_nil_iff.1 hw
    intro x hx
    rcases List.mem_cons.1 hx with rfl | hx
    · obtain ⟨ps, e, _⟩ := hr
      intro ht
      rw [show g.prods x = none from ht] at e
      cases e
    · exact ih2 rfl x hx

/-- A rank that goes down from each nonterminal to the symbols of its productions not preceded by a
terminal excludes left recursion. -/
theorem noLR_of_rank {rows : List (Str × List (List Str))} (rank : Str → Nat)
    (h : ∀ r ∈ rows, ∀ p ∈ r.2, ∀ i, i < p.length → (∀ x ∈ p.take i, ¬ (rowsG rows).Term x) →
      ∀ B ∈ p[i]?, rank B < rank r.1) : ¬ (rowsG rows).LeftRecursive := by
  have one : ∀ A B, (rowsG rows).LeftStep A B → rank B < rank A := by
    rintro A B ⟨k, pre, post, hr, hn⟩
    obtain ⟨r, h1, rfl, h2⟩ := rowsG_rule hr
    exact h r h1 _ h2 pre.length (by simp) (by simpa using no_term hn rfl) B (by simp)
  have all : ∀ A B, Plus (rowsG rows).LeftStep A B → rank B < rank A := by
    intro A B h
    induction h with
    | one h => exact one _ _ h
    | step h _ ih => exact Nat.lt_trans ih (one _ _ h)
  rintro ⟨A, hA⟩
  exact Nat.lt_irrefl _ (all A A hA)

example : ∃ out, ∃ G : Spec.Grammar Str, Out.Returns (removeLeftRecursion (rowsG gNon)) out ∧ Shows out G ∧ G.WF ∧
    (∀ w, G.Sentence w ↔ (rowsG gNon).Sentence w) ∧ ¬ G.LeftRecursive := by
  refine C54_C55_nonrecursive (rowsG_wf _) (by decide) (rowsG_full (by decide)) (rowsG_fresh (by decide)) ?_
  exact noLR_of_rank (fun x => if x = ['S'] then 2 else if x = ['A'] then 1 else 0) (by decide)

example : seen (removeLeftRecursion (rowsG gNon) 5) = some
    [(['A'], some [[['a']], []]), (['S'], some [[['a'], ['b'], ['S']], [['b'], ['S']], [['c']]])] := by decide +kernel

/-! ### Refutations -/

/-- What a client sees of a result. -/
def observe (out : Gram Str) : Spec.Grammar Str where
  order := match nonTerminals out with | .ok l => l | _ => []
  prods x := match readProductions out (.other x) with | .ok r => r | _ => none

theorem observe_eq {out : Gram Str} {G : Spec.Grammar Str} (h : Shows out G) : observe out = G := by
  obtain ⟨o, p⟩ := G
  have h1 : nonTerminals out = .ok o := h.1
  have h2 : ∀ x, readProductions out (.other x) = .ok (p x) := fun x => h.2 (false, x)
  simp only [observe, h1, h2]

/-- The grammar in a result. -/
def got (o : Out (Gram Str)) : Gram Str := match o with | .ok g => g | _ => empty

theorem got_returns {n : Nat} (h : (match removeLeftRecursion g n with | .ok _ => true | _ => false) = true) :
    Out.Returns (removeLeftRecursion g) (got (removeLeftRecursion g n)) := by
  cases e : removeLeftRecursion g n with
  | ok out => exact Out.returns_of (removeLeftRecursion_mono g) e
  | panic => rw [e] at h; cases h
  | fuel => rw [e] at h; cases h

/-- C54 is refuted as stated, termination: on `B -> B a | b ; C -> B x` RemoveLeftRecursion recurses
without end, because the productions substituted for B are the old, left recursive ones. -/
theorem C54_returns_refuted : ∃ g : Spec.Grammar Str, g.WF ∧ g.order.Nodup ∧ Full g ∧ Fresh g ∧ Grounded g ∧
    Out.Diverges (removeLeftRecursion g) := by
  let rows : List (Str × List (List Str)) := [(['B'], [[['B'], ['a']], [['b']]]), (['C'], [[['B'], ['x']]])]
  have hw := rowsG_wf rows
  have hfull : Full (rowsG rows) := rowsG_full (by decide)
  have hfresh : Fresh (rowsG rows) := rowsG_fresh (by decide)
  have hBB : LeadStep (rowsG rows) (before (rowsG rows) ['C']) ['B'] ['B'] :=
    ⟨by decide, 0, [], [['a']], ⟨_, rfl, rfl⟩, by simp⟩
  have hCB : LeadStep (rowsG rows) (before (rowsG rows) ['C']) ['C'] ['B'] :=
    ⟨by decide, 0, [], [['x']], ⟨_, rfl, rfl⟩, by simp⟩
  have hgr : Grounded (rowsG rows) := by
    intro A ps qs hA hps h _
    have hA' : A = ['B'] ∨ A = ['C'] := by revert hA; simp [rowsG, rows]
    rcases hA' with rfl | rfl
    · cases hps
      rw [h.unique (expands_self (by decide))]
      exact ⟨[['b']], by simp, by decide⟩
    · exfalso
      refine (expands_iff ?_ hps).1 ⟨qs, h⟩ ['B'] (.one hCB) (.one hBB)
      intro F hF
      exact Option.isSome_iff_exists.1 ((hw F).2 (before_sub hF))
  refine ⟨rowsG rows, hw, by decide, hfull, hfresh, hgr, ?_⟩
  refine (C54_returns_iff_partial hw (by decide) hfull hfresh hgr).2.1 fun h => ?_
  exact h ['C'] (by decide) ['B'] (.one hCB) (.one hBB)

theorem derives_count {G : Spec.Grammar Str} (P : Str → Bool)
    (h : ∀ A k p, G.Rule A k p → (p.filter P).length ≤ if P A then 1 else 0) {ss w} (hd : G.Derives ss w) :
    (w.filter P).length ≤ (ss.filter P).length := by
  induction hd with
  | nil => simp
  | @term t ss w _ _ ih => simp only [List.filter_cons]; split <;> first | (simp only [List.length_cons]; omega) | exact ih
  | @nonterm A k p ss u v hr _ _ ih1 ih2 =>
    have := h A k p hr
    simp only [List.filter_append, List.length_append, List.filter_cons]
    cases hA : P A
    · simp only [hA, Bool.false_eq_true, if_false] at this ⊢; omega
    · simp only [hA, if_true, List.length_cons] at this ⊢; omega

/-- C54 is refuted as stated, language: `E -> E E o | i` derives `i i o`, the result does not. -/
theorem C54_language_refuted : ∃ (g : Spec.Grammar Str) (out : Gram Str) (w : List Str), g.WF ∧ g.order.Nodup ∧
    Full g ∧ Fresh g ∧ Grounded g ∧ Out.Returns (removeLeftRecursion g) out ∧ g.Sentence w ∧
    ¬ (observe out).Sentence w := by
  let rows : List (Str × List (List Str)) := [(['E'], [[['E'], ['E'], ['o']], [['i']]])]
  let P : Str → Bool := fun x => x == ['E'] || x == ['i']
  have hM : Expanded (rowsG rows) (fun _ => [[['E'], ['E'], ['o']], [['i']]]) := by
    intro A ps hA hps
    have : A = ['E'] := by revert hA; simp [rowsG, rows]
    subst this
    cases hps
    exact expands_self (by decide)
  have hgr : Grounded (rowsG rows) := by
    intro A ps qs hA hps h _
    have : A = ['E'] := by revert hA; simp [rowsG, rows]
    subst this
    rw [h.unique (hM _ _ hA hps)]
    exact ⟨[['i']], by simp, by decide⟩
  have hw := rowsG_wf rows
  have hfull : Full (rowsG rows) := rowsG_full (by decide)
  have hfresh : Fresh (rowsG rows) := rowsG_fresh (by decide)
  have hret : Out.Returns (removeLeftRecursion (rowsG rows)) (got (removeLeftRecursion (rowsG rows) 5)) :=
    got_returns (by decide +kernel)
  refine ⟨rowsG rows, _, [['i'], ['i'], ['o']], hw, by decide, hfull, hfresh, hgr, hret, ?_, ?_⟩
  · refine ⟨['E'], rfl, ?_⟩
    have hi : (rowsG rows).Derives [['E']] [['i']] :=
      Derives.nonterm (k := 1) (u := [['i']]) (v := []) ⟨_, rfl, rfl⟩ (.term (by decide) .nil) .nil
    have h2 : (rowsG rows).Derives [['E'], ['E'], ['o']] [['i'], ['i'], ['o']] :=
      hi.append (hi.append (.term (by decide) .nil))
    exact Derives.nonterm (k := 0) (u := [['i'], ['i'], ['o']]) (v := []) ⟨_, rfl, rfl⟩ h2 .nil
  · obtain ⟨M, hM', hs, _⟩ := C54_result_partial hw (by decide) hfull hfresh hgr hret
    rw [observe_eq hs]
    rintro ⟨S, hS, hd⟩
    -- the rules of the result never increase the number of E and i
    have hME : M ['E'] = [[['E'], ['E'], ['o']], [['i']]] := (hM' _ _ (by decide) rfl).unique (hM _ _ (by decide) rfl)
    have hrule : ∀ A k p, (removed (rowsG rows).order M).Rule A k p → (p.filter P).length ≤ if P A then 1 else 0 := by
      rintro A k p ⟨ps, hps, hk⟩
      have hp := List.mem_of_getElem? hk
      by_cases hA : A = ['E']
      · subst hA
        rw [removed_mem (by decide)] at hps
        have hd : Direct M ['E'] := ⟨_, by rw [hME]; exact List.mem_cons_self .., rfl⟩
        rw [if_pos hd] at hps
        cases hps
        simp only [heads, hME] at hp
        clear hk hd
        revert p
        decide
      · have hA' : A ∉ (rowsG rows).order := by simpa [rowsG, rows] using hA
        simp only [removed, hA', if_false, Option.map_eq_some_iff] at hps
        obtain ⟨B, hB, rfl⟩ := hps
        have hB' : B = ['E'] := by
          have := List.mem_of_find?_eq_some hB
          revert this; simp [rowsG, rows]
        subst hB'
        simp only [tails, hME] at hp
        have : (p.filter P).length ≤ 0 := by
          clear hk hB
          revert p
          decide
        omega
    have hS' : S = ['E'] := by
      rw [removed_start] at hS
      exact (Option.some.inj hS).symm
    subst hS'
    have := derives_count P hrule hd
    revert this
    decide

theorem derives_closed {G : Spec.Grammar Str} (P : Str → Prop)
    (h : ∀ A k p, P A → G.Rule A k p → ∀ x ∈ p, P x) {ss w} (hd : G.Derives ss w) :
    (∀ x ∈ ss, P x) → ∀ x ∈ w, P x := by
  induction hd with
  | nil => simp
  | @term t ss w _ _ ih =>
    intro hs x hx
    rcases List.mem_cons.1 hx with rfl | hx
    · exact hs x (by simp)
    · exact ih (fun y hy => hs y (by simp [hy])) x hx
  | @nonterm A k p ss u v hr _ _ ih1 ih2 =>
    intro hs x hx
    rcases List.mem_append.1 hx with hx | hx
    · exact ih1 (h A k p (hs A (by simp)) hr) x hx
    · exact ih2 (fun y hy => hs y (by simp [hy])) x hx

/-- C54 is refuted for grammars that use the name of a new nonterminal: `A -> A a | b ; A' -> c` does not
derive `b c`, the result does, since both sets of productions end up under one name. -/
theorem C54_collision_refuted : ∃ (g : Spec.Grammar Str) (out : Gram Str) (w : List Str), g.WF ∧ g.order.Nodup ∧
    Full g ∧ Grounded g ∧ Single g ∧ Out.Returns (removeLeftRecursion g) out ∧ ¬ g.Sentence w ∧
    (observe out).Sentence w := by
  let rows : List (Str × List (List Str)) := [(['A'], [[['A'], ['a']], [['b']]]), (['A', '\''], [[['c']]])]
  have hh : ∀ A k F p, (rowsG rows).Rule A k (F :: p) → F ∉ before (rowsG rows) A := fun A k F p h =>
    rowsG_all (P := fun A p => ∀ F ∈ p.head?, F ∉ before (rowsG rows) A) (by decide) h F rfl
  refine ⟨rowsG rows, got (removeLeftRecursion (rowsG rows) 5), [['b'], ['c']], rowsG_wf _, by decide,
    rowsG_full (by decide), ?_, ?_, got_returns (by decide +kernel), ?_, ?_⟩
  · rintro A ps qs hA hps h ⟨q, hq, e⟩
    obtain rfl := expands_prods hh hps h
    have hA' : A = ['A'] ∨ A = ['A', '\''] := by revert hA; simp [rowsG, rows]
    rcases hA' with rfl | rfl <;> cases hps
    · exact ⟨[['b']], by simp, by decide⟩
    · exact ⟨[['c']], by simp, by decide⟩
  · intro A ps qs hA hps h t ht
    obtain rfl := expands_prods hh hps h
    obtain ⟨k, hk⟩ := mem_rule hps ht
    exact rowsG_all (P := fun A p => p.take 2 ≠ [A, A]) (by decide) hk rfl
  · rintro ⟨S, hS, hd⟩
    cases hS
    have := derives_closed (fun x => x ∈ [['A'], ['a'], ['b']]) (by
      intro A k p hA hr x hx
      exact rowsG_all (P := fun A p => A ∈ [['A'], ['a'], ['b']] → ∀ x ∈ p, x ∈ [['A'], ['a'], ['b']]) (by decide) hr hA x hx)
      hd (by simp) ['c'] (by simp)
    revert this
    decide
  · refine ⟨['A'], by decide +kernel, ?_⟩
    refine Derives.nonterm (k := 0) (p := [['b'], ['A', '\'']]) (u := [['b'], ['c']]) (v := [])
      ⟨[[['b'], ['A', '\'']]], by decide +kernel, rfl⟩ (.term (by decide +kernel) ?_) .nil
    exact Derives.nonterm (k := 2) (p := [['c']]) (u := [['c']]) (v := [])
      ⟨[[['a'], ['A', '\'']], [], [['c']]], by decide +kernel, rfl⟩ (.term (by decide +kernel) .nil) .nil

/-- C54 is refuted for nonterminals all of whose productions begin with themselves: from `A -> A a`, which
derives nothing, comes a grammar that lists A but has no productions for it, so that A reads as a
terminal. -/
theorem C54_grounded_refuted : ∃ (g : Spec.Grammar Str) (out : Gram Str), g.WF ∧ g.order.Nodup ∧ Full g ∧
    Fresh g ∧ Single g ∧ Out.Returns (removeLeftRecursion g) out ∧ (∀ w, ¬ g.Sentence w) ∧
    ['A'] ∈ (observe out).order ∧ (observe out).prods ['A'] = none ∧ (observe out).Sentence [['A']] := by
  let rows : List (Str × List (List Str)) := [(['A'], [[['A'], ['a']]])]
  have hh : ∀ A k F p, (rowsG rows).Rule A k (F :: p) → F ∉ before (rowsG rows) A := fun A k F p h =>
    rowsG_all (P := fun A p => ∀ F ∈ p.head?, F ∉ before (rowsG rows) A) (by decide) h F rfl
  refine ⟨rowsG rows, got (removeLeftRecursion (rowsG rows) 5), rowsG_wf _, by decide, rowsG_full (by decide),
    rowsG_fresh (by decide), ?_, got_returns (by decide +kernel), ?_, by decide +kernel, by decide +kernel, ?_⟩
  · intro A ps qs hA hps h t ht
    obtain rfl := expands_prods hh hps h
    obtain ⟨k, hk⟩ := mem_rule hps ht
    exact rowsG_all (P := fun A p => p.take 2 ≠ [A, A]) (by decide) hk rfl
  · rintro w ⟨S, hS, hd⟩
    cases hS
    have : ∀ ss w, (rowsG rows).Derives ss w → ['A'] ∉ ss := by
      intro ss w h
      induction h with
      | nil => simp
      | @term t ss w ht _ ih =>
        intro hm
        rcases List.mem_cons.1 hm with e | hm
        · subst e; revert ht; decide
        · exact ih hm
      | @nonterm A k p ss u v hr _ _ ih1 ih2 =>
        exact absurd (rowsG_all (P := fun _ p => ['A'] ∈ p) (by decide) hr) ih1
    exact this _ _ hd (by simp)
  · exact ⟨['A'], by decide +kernel, .term (by decide +kernel) .nil⟩

/-- From `A -> A` comes a grammar whose `NonTerminals` panics: the index of the new symbol is not in the
grammar's symbol set. -/
theorem C54_unusable_refuted : ∃ (g : Spec.Grammar Str) (out : Gram Str), g.WF ∧ g.order.Nodup ∧ Full g ∧
    Fresh g ∧ Out.Returns (removeLeftRecursion g) out ∧ nonTerminals out = .panic := by
  let rows : List (Str × List (List Str)) := [(['A'], [[['A']]])]
  refine ⟨rowsG rows, got (removeLeftRecursion (rowsG rows) 5), rowsG_wf _, by decide, rowsG_full (by decide),
    rowsG_fresh (by decide), got_returns (by decide +kernel), ?_⟩
  have h : (match nonTerminals (got (removeLeftRecursion (rowsG rows) 5)) with | .panic => true | _ => false) = true := by
    decide +kernel
  cases e : nonTerminals (got (removeLeftRecursion (rowsG rows) 5)) with
  | panic => rfl
  | ok l => rw [e] at h; cases h
  | fuel => rw [e] at h; cases h

/-- C55 is refuted as stated: the result for `A -> N A | a ; N ->` is still left recursive, through the
empty N. -/
theorem C55_hidden_refuted : ∃ (g : Spec.Grammar Str) (out : Gram Str), g.WF ∧ g.order.Nodup ∧ Full g ∧
    Fresh g ∧ Grounded g ∧ Single g ∧ Out.Returns (removeLeftRecursion g) out ∧ (observe out).LeftRecursive := by
  let rows : List (Str × List (List Str)) := [(['A'], [[['N'], ['A']], [['a']]]), (['N'], [[]])]
  have hh : ∀ A k F p, (rowsG rows).Rule A k (F :: p) → F ∉ before (rowsG rows) A := fun A k F p h =>
    rowsG_all (P := fun A p => ∀ F ∈ p.head?, F ∉ before (rowsG rows) A) (by decide) h F rfl
  refine ⟨rowsG rows, got (removeLeftRecursion (rowsG rows) 5), rowsG_wf _, by decide, rowsG_full (by decide),
    rowsG_fresh (by decide), ?_, ?_, got_returns (by decide +kernel), ['A'], .one ?_⟩
  · rintro A ps qs hA hps h ⟨q, hq, e⟩
    obtain rfl := expands_prods hh hps h
    obtain ⟨k, hk⟩ := mem_rule hps hq
    exact absurd e (rowsG_all (P := fun A p => p.head? ≠ some A) (by decide) hk)
  · intro A ps qs hA hps h t ht
    obtain rfl := expands_prods hh hps h
    obtain ⟨k, hk⟩ := mem_rule hps ht
    exact rowsG_all (P := fun A p => p.take 2 ≠ [A, A]) (by decide) hk rfl
  · refine ⟨0, [['N']], [], ⟨[[['N'], ['A']], [['a']]], by decide +kernel, rfl⟩, ?_⟩
    exact Derives.nonterm (k := 0) (p := []) (u := []) (v := []) ⟨[[]], by decide +kernel, rfl⟩ .nil .nil

/-- C55 is refuted even if no production begins with a symbol that can vanish: the result for
`A -> A N | a ; N -> n |` is left recursive, since `A' -> N A'`. -/
theorem C55_rest_refuted : ∃ (g : Spec.Grammar Str) (out : Gram Str), g.WF ∧ g.order.Nodup ∧ Full g ∧
    Fresh g ∧ Grounded g ∧ Single g ∧ SolidHeads g ∧ Out.Returns (removeLeftRecursion g) out ∧
    (observe out).LeftRecursive := by
  let rows : List (Str × List (List Str)) := [(['A'], [[['A'], ['N']], [['a']]]), (['N'], [[['n']], []])]
  have hh : ∀ A k F p, (rowsG rows).Rule A k (F :: p) → F ∉ before (rowsG rows) A := fun A k F p h =>
    rowsG_all (P := fun A p => ∀ F ∈ p.head?, F ∉ before (rowsG rows) A) (by decide) h F rfl
  refine ⟨rowsG rows, got (removeLeftRecursion (rowsG rows) 5), rowsG_wf _, by decide, rowsG_full (by decide),
    rowsG_fresh (by decide), ?_, ?_, ?_, got_returns (by decide +kernel), ['A', '\''], .one ?_⟩
  · rintro A ps qs hA hps h ⟨q, hq, e⟩
    obtain rfl := expands_prods hh hps h
    obtain ⟨k, hk⟩ := mem_rule hps hq
    have : A = ['A'] := rowsG_all (P := fun A p => p.head? = some A → A = ['A']) (by decide) hk e
    subst this
    cases hps
    exact ⟨[['a']], by simp, by decide⟩
  · intro A ps qs hA hps h t ht
    obtain rfl := expands_prods hh hps h
    obtain ⟨k, hk⟩ := mem_rule hps ht
    exact rowsG_all (P := fun A p => p.take 2 ≠ [A, A]) (by decide) hk rfl
  · intro A k X t hr hd
    have hX : X ∈ [['A'], ['a'], ['n']] :=
      rowsG_all (P := fun _ p => ∀ X ∈ p.head?, X ∈ [['A'], ['a'], ['n']]) (by decide) hr X rfl
    -- every derivation from these symbols keeps one of them
    have key : ∀ ss w, (rowsG rows).Derives ss w → w = [] → ∀ x ∈ ss, x ∉ [['A'], ['a'], ['n']] := by
      intro ss w h
      induction h with
      | nil => simp
      | term => intro e; cases e
      | @nonterm A k p ss u v hr _ _ ih1 ih2 =>
        intro e
        obtain ⟨rfl, rfl⟩ := List.append_eq_nil_iff.1 e
        intro x hx hin
        rcases List.mem_cons.1 hx with rfl | hx
        · have := rowsG_all (P := fun A p => A ∈ [['A'], ['a'], ['n']] → ∃ y ∈ p, y ∈ [['A'], ['a'], ['n']])
            (by decide) hr hin
          obtain ⟨y, hy, hy'⟩ := this
          exact ih1 rfl y hy hy'
        · exact ih2 rfl x hx hin
    exact key _ _ hd rfl X (by simp) hX
  · refine ⟨0, [['N']], [], ⟨[[['N'], ['A', '\'']], []], by decide +kernel, rfl⟩, ?_⟩
    exact Derives.nonterm (k := 1) (p := []) (u := []) (v := []) ⟨[[['n']], []], by decide +kernel, rfl⟩ .nil .nil

end Verif.Props.RemoveLR
