import Verif.Props.RemoveLR
import Verif.Props.LL1
import Verif.Proofs.DirectLL1
/-
A left recursive grammar can be parsed top-down once its left recursion is removed (C95).

`removeLeftRecursion` models `RemoveLeftRecursion` (grammar/left_recursion.go), `Topdown.new` and `Topdown.parse` model parser/topdown. The
grammars are those of `C54_C55_direct`: no production begins with an earlier nonterminal, none is empty, none begins with its own
nonterminal twice, and left recursive nonterminals have another production.
-/
namespace Verif.Props.DirectLL1
open Verif.Spec Verif.Spec.Grammar Verif.Spec.RemoveLR Verif.LeftRecursion Verif.Grammar
open Verif.Props.Grammar (Shows)
open Verif.Props.RemoveLR Verif.Topdown

variable {g : Spec.Grammar Str} {V : Type}

/-- C95, for any such grammar: New accepts the result, Parse returns on every input, and what it accepts are sentences of the grammar
given. Missing: that it accepts all of them (`C95_refuted`; `C95_exact_partial`). -/
theorem C95_runs_partial (ev : V) (hw : g.WF) (hnd : g.order.Nodup) (hfull : Full g) (hfresh : Fresh g)
    (he : ∀ A k, ¬ g.Rule A k []) (hh : ∀ A k F p, g.Rule A k (F :: p) → F ∉ before g A)
    (h2 : ∀ A k t, ¬ g.Rule A k (A :: A :: t))
    (hb : ∀ A k t, g.Rule A k (A :: t) → ∃ j p, g.Rule A j p ∧ p.head? ≠ some A) :
    ∃ out, ∃ G : Spec.Grammar Str, Out.Returns (removeLeftRecursion g) out ∧ Shows out G ∧ G.WF ∧ Out.Returns (new G) true ∧
      ∀ ls : List (Lexeme Str V), ∃ r, Out.Returns (parse ev G ls) r ∧ ∀ t, r = some t → g.Sentence (ls.map (·.kind)) ∧ IsParse G ls t := by
  obtain ⟨out, G, h1, hs, hG, hl, hlr⟩ := C54_C55_direct hw hnd hfull hfresh he hh h2 hb
  refine ⟨out, G, h1, hs, hG, ?_, fun ls => ?_⟩
  · obtain ⟨b, ⟨N, hN⟩, hb⟩ := Verif.Props.Topdown.C12_terminates_sound G hG
    cases b with
    | true => exact absurd (hb rfl) hlr
    | false => exact ⟨N, fun n hn => by simp [Verif.Topdown.new, hN n hn, Out.bind]⟩
  · obtain ⟨r, hr⟩ := Verif.Props.Topdown.C16_terminates_partial ev G hG hlr ls
    refine ⟨r, hr, ?_⟩
    rintro t rfl
    obtain ⟨N, hN⟩ := hr
    have hp := Verif.Props.Topdown.C14_sound ev G hG ls (hN N (Nat.le_refl _))
    exact ⟨(hl _).1 (Verif.Props.Topdown.C17_accepted_is_sentence ev G hG ls (hN N (Nat.le_refl _))), hp⟩

/-- C95, the part that holds: if, besides, one symbol of lookahead tells the productions apart once leading occurrences of a nonterminal in
its own productions are read as repetition, and every nonterminal derives a word, then New accepts the result and Parse returns on
every input: a tree if the input is a sentence of the grammar given, nil if it is not. Missing: grammars that violate the conditions
(`C95_refuted`). -/
theorem C95_exact_partial (ev : V) (hw : g.WF) (hnd : g.order.Nodup) (hfull : Full g) (hfresh : Fresh g)
    (he : ∀ A k, ¬ g.Rule A k []) (hh : ∀ A k F p, g.Rule A k (F :: p) → F ∉ before g A)
    (h2 : ∀ A k t, ¬ g.Rule A k (A :: A :: t))
    (hb : ∀ A k t, g.Rule A k (A :: t) → ∃ j p, g.Rule A j p ∧ p.head? ≠ some A)
    (hl : g.DirectLL1) (hp : g.Productive) :
    ∃ out, ∃ G : Spec.Grammar Str, Out.Returns (removeLeftRecursion g) out ∧ Shows out G ∧ Out.Returns (new G) true ∧
      ∀ ls : List (Lexeme Str V),
        (g.Sentence (ls.map (·.kind)) → ∃ t, Out.Returns (parse ev G ls) (some t) ∧ IsParse G ls t) ∧
        (¬ g.Sentence (ls.map (·.kind)) → Out.Returns (parse ev G ls) none) := by
  obtain ⟨out, G, h1, hs, hG, hlang, _⟩ := C54_C55_direct hw hnd hfull hfresh he hh h2 hb
  have hgr : Grounded g := by
    rintro A ps qs hA hps h ⟨q, hq, e⟩
    obtain rfl := expands_prods hh hps h
    obtain ⟨k, hk⟩ := mem_rule hps hq
    obtain ⟨t, rfl⟩ := head_split e
    obtain ⟨j, p, hp, hne⟩ := hb A k t hk
    exact ⟨p, rule_mem hps hp, hne⟩
  obtain ⟨M, hM, hs', _⟩ := C54_result_partial hw hnd hfull hfresh hgr h1
  obtain rfl : G = removed g.order M := shows_unique hs hs'
  have hpl : Plainly g M := by
    have hpr : ∀ A ∈ g.order, g.prods A = some (M A) := by
      intro A hA
      obtain ⟨ps, hps⟩ := Option.isSome_iff_exists.1 ((hw A).2 hA)
      rw [hps, expands_prods hh hps (hM A ps hA hps)]
    refine ⟨hw, hfresh, hM, hpr, fun ss hd => nil_of_noempty he hd rfl, fun A hA t ht => ?_⟩
    obtain ⟨k, hk⟩ := mem_rule (hpr A hA) ht
    exact h2 A k t hk
  refine ⟨out, _, h1, hs, Verif.Props.LL1.C81_new _ hG (hpl.ll1 hl) (hpl.productive hp), fun ls => ?_⟩
  have := Verif.Props.LL1.C81_exact ev _ hG (hpl.ll1 hl) (hpl.productive hp) hpl.emptyLast ls
  rwa [hlang] at this

/-! ### Concrete cases -/

/-- The conditions, by tables of first and following symbols. -/
theorem direct_of_tables {nul : Str → Bool} {fst fol : Str → List Str} {out : Str → List Str} (h : Tables g nul fst fol)
    (ho1 : ∀ B k p, g.Rule B k p → ∀ c ∈ ctxs (if p.head? = some B then p.tail else p), ∀ t ∈ fstS nul fst c.2, t ∈ out c.1)
    (ho2 : ∀ B k p, g.Rule B k p → ∀ c ∈ ctxs (if p.head? = some B then p.tail else p), nulS nul c.2 = true → ∀ t ∈ fol B, t ∈ out c.1)
    (h1 : ∀ A k p k' p', g.Rule A k p → g.Rule A k' p' → k ≠ k' → p.head? ≠ some A → p'.head? ≠ some A →
      ∀ t ∈ fstS nul fst p, t ∉ fstS nul fst p')
    (h2 : ∀ A k x k' x', g.Rule A k (A :: x) → g.Rule A k' (A :: x') → k ≠ k' → ∀ t ∈ fstS nul fst x, t ∉ fstS nul fst x')
    (h3 : ∀ A k x, g.Rule A k (A :: x) → ∀ t ∈ fstS nul fst x, t ∉ out A) : g.DirectLL1 where
  heads hr hr' n n' hd hd' := Classical.byContradiction fun hne =>
    h1 _ _ _ _ _ hr hr' hne n n' _ ((h.derives hd).2 _ _ rfl) ((h.derives hd').2 _ _ rfl)
  rests hr hr' hd hd' := Classical.byContradiction fun hne =>
    h2 _ _ _ _ _ hr hr' hne _ ((h.derives hd).2 _ _ rfl) ((h.derives hd').2 _ _ rfl)
  stop := by
    intro A k x t w hr hd ⟨B, j, u, y, hr', hne, ho⟩
    have hc : (A, y) ∈ ctxs (if (u ++ A :: y).head? = some B then (u ++ A :: y).tail else u ++ A :: y) := by
      split
      · next hB =>
        cases u with
        | nil => exact absurd rfl (hne (Option.some.inj hB).symm)
        | cons z u => exact mem_ctxs A y u
      · exact mem_ctxs A y u
    refine h3 A k x hr t ((h.derives hd).2 _ _ rfl) ?_
    rcases ho with ⟨w, hy⟩ | ⟨hy, hf⟩
    · exact ho1 B j _ hr' _ hc t ((h.derives hy).2 _ _ rfl)
    · exact ho2 B j _ hr' _ hc ((h.derives hy).1 rfl) t (h.follow hf)

/-- Checks a property of all pairs of productions of a nonterminal. -/
theorem rowsG_pair {rows : List (Str × List (List Str))} {P : Str → List Str × Nat → List Str × Nat → Prop}
    (h : ∀ r ∈ rows, ∀ p ∈ r.2.zipIdx, ∀ q ∈ r.2.zipIdx, P r.1 p q) {A k p k' p'} (hr : (rowsG rows).Rule A k p)
    (hr' : (rowsG rows).Rule A k' p') : P A (p, k) (p', k') := by
  obtain ⟨ps, e, hk⟩ := hr
  obtain ⟨ps', e', hk'⟩ := hr'
  rw [e] at e'
  cases e'
  simp only [rowsG, Option.map_eq_some_iff] at e
  obtain ⟨r, hr, rfl⟩ := e
  obtain rfl : r.1 = A := by simpa using List.find?_some hr
  exact h r (List.mem_of_find?_eq_some hr) _ (List.mem_zipIdx_iff_getElem?.2 hk) _ (List.mem_zipIdx_iff_getElem?.2 hk')

def fstE (x : Str) : List Str := if x ∈ [['E'], ['T'], ['F']] then [['('], ['i']] else [x]

def folE (x : Str) : List Str :=
  if x = ['E'] then [['+'], [')']] else if x ∈ [['T'], ['F']] then [['*'], ['+'], [')']] else [['('], ['i'], ['*'], ['+'], [')']]

def outE (x : Str) : List Str := if x = ['E'] then [[')']] else if x = ['T'] then [['+'], [')']] else folE x

theorem tablesE : Tables (rowsG gExpr) (fun _ => false) fstE folE where
  term t ht := by
    have : t ∉ [['E'], ['T'], ['F']] := fun hm => by
      have h := ((rowsG_wf gExpr) t).2 hm
      rw [ht] at h
      cases h
    simp [fstE, this]
  isNul A k p hr hn := absurd hn (rowsG_all (P := fun _ p => nulS (fun _ => false) p ≠ true) (by decide) hr)
  isFst A k p hr := rowsG_all (P := fun A p => ∀ t ∈ fstS (fun _ => false) fstE p, t ∈ fstE A) (by decide) hr
  next B k p hr := rowsG_all (P := fun B p => ∀ c ∈ ctxs p, ∀ t ∈ fstS (fun _ => false) fstE c.2, t ∈ folE c.1) (by decide) hr
  last B k p hr := rowsG_all (P := fun B p => ∀ c ∈ ctxs p, nulS (fun _ => false) c.2 = true → ∀ t ∈ folE B, t ∈ folE c.1) (by decide) hr

theorem gExpr_direct : (rowsG gExpr).DirectLL1 := by
  refine direct_of_tables (out := outE) tablesE (fun B k p hr => ?_) (fun B k p hr => ?_) (fun A k p k' p' hr hr' => ?_)
    (fun A k x k' x' hr hr' hne => ?_) (fun A k x hr => ?_)
  · exact rowsG_all (P := fun B p => ∀ c ∈ ctxs (if p.head? = some B then p.tail else p), ∀ t ∈ fstS (fun _ => false) fstE c.2,
      t ∈ outE c.1) (by decide) hr
  · exact rowsG_all (P := fun B p => ∀ c ∈ ctxs (if p.head? = some B then p.tail else p), nulS (fun _ => false) c.2 = true →
      ∀ t ∈ folE B, t ∈ outE c.1) (by decide) hr
  · exact rowsG_pair (P := fun A p q => p.2 ≠ q.2 → p.1.head? ≠ some A → q.1.head? ≠ some A → ∀ t ∈ fstS (fun _ => false) fstE p.1,
      t ∉ fstS (fun _ => false) fstE q.1) (by decide) hr hr'
  · exact absurd (rowsG_pair (P := fun A p q => p.1.head? = some A → q.1.head? = some A → p.2 = q.2) (by decide) hr hr' rfl rfl) hne
  · exact rowsG_all (P := fun A p => p.head? = some A → ∀ t ∈ fstS (fun _ => false) fstE p.tail, t ∉ outE A) (by decide) hr rfl

theorem f_derives : (rowsG gExpr).Derives [['F']] [['i']] :=
  .nonterm (k := 1) (p := [['i']]) (u := [['i']]) (v := []) ⟨_, rfl, rfl⟩ (.term rfl .nil) .nil

theorem t_derives : (rowsG gExpr).Derives [['T']] [['i']] :=
  .nonterm (k := 1) (p := [['F']]) (u := [['i']]) (v := []) ⟨_, rfl, rfl⟩ f_derives .nil

theorem e_derives : (rowsG gExpr).Derives [['E']] [['i']] :=
  .nonterm (k := 1) (p := [['T']]) (u := [['i']]) (v := []) ⟨_, rfl, rfl⟩ t_derives .nil

theorem gExpr_productive : (rowsG gExpr).Productive := by
  intro A ps h
  have : A ∈ [['E'], ['T'], ['F']] := ((rowsG_wf gExpr) A).1 (by rw [h]; rfl)
  simp only [List.mem_cons, List.not_mem_nil, or_false] at this
  rcases this with rfl | rfl | rfl
  · exact ⟨_, e_derives⟩
  · exact ⟨_, t_derives⟩
  · exact ⟨_, f_derives⟩

/-- The grammar of expressions, which is left recursive, meets all conditions. -/
theorem gExpr_exact : ∃ out, ∃ G : Spec.Grammar Str, Out.Returns (removeLeftRecursion (rowsG gExpr)) out ∧ Shows out G ∧
    Out.Returns (new G) true ∧ ∀ ls : List (Lexeme Str Nat),
      ((rowsG gExpr).Sentence (ls.map (·.kind)) → ∃ t, Out.Returns (parse 0 G ls) (some t) ∧ IsParse G ls t) ∧
      (¬ (rowsG gExpr).Sentence (ls.map (·.kind)) → Out.Returns (parse 0 G ls) none) := by
  refine C95_exact_partial 0 (rowsG_wf _) (by decide) (rowsG_full (by decide)) (rowsG_fresh (by decide)) ?_ ?_ ?_ ?_ gExpr_direct gExpr_productive
  · intro A k h
    exact rowsG_all (P := fun _ p => p ≠ []) (by decide) h rfl
  · intro A k F p h
    exact rowsG_all (P := fun A p => ∀ F ∈ p.head?, F ∉ before (rowsG gExpr) A) (by decide) h F rfl
  · intro A k t h
    exact rowsG_all (P := fun A p => p.take 2 ≠ [A, A]) (by decide) h rfl
  · intro A k t h
    have : A ∈ [['E'], ['T']] := rowsG_all (P := fun A p => p.head? = some A → A ∈ [['E'], ['T']]) (by decide) h rfl
    rcases List.mem_cons.1 this with rfl | h
    · exact ⟨1, [['T']], ⟨_, rfl, rfl⟩, by decide⟩
    · rw [List.mem_singleton.1 h]
      exact ⟨1, [['F']], ⟨_, rfl, rfl⟩, by decide⟩

/-- The grammar given is left recursive: New refuses it. -/
example : Out.Returns (new (rowsG gExpr)) false := by
  have h1 : isLeftRecursive (rowsG gExpr) 9 = .ok true := Verif.Props.Topdown.isB_eq (by decide +kernel)
  obtain ⟨N, hN⟩ := Out.returns_of (isLeftRecursive_mono (rowsG gExpr)) h1
  exact ⟨N, fun n hn => by simp [Verif.Topdown.new, hN n hn, Out.bind]⟩

/-- `S -> A a ; A -> A a | b`. -/
def gGreedy : List (Str × List (List Str)) := [(['S'], [[['A'], ['a']]]), (['A'], [[['A'], ['a']], [['b']]])]

def isNil {α V : Type} (o : Out (Option (PN α V))) : Bool := match o with | .ok none => true | _ => false

/-- C95 is refuted without the condition on lookahead: after the removal of left recursion from `S -> A a ; A -> A a | b`, the new
nonterminal `A' -> a A' |` takes every `a`, and the sentence `b a` is not accepted. -/
theorem C95_refuted : ∃ (g : Spec.Grammar Str) (out : Gram Str) (G : Spec.Grammar Str) (ls : List (Lexeme Str Nat)),
    g.WF ∧ g.order.Nodup ∧ Full g ∧ Fresh g ∧ (∀ A k, ¬ g.Rule A k []) ∧ (∀ A k F p, g.Rule A k (F :: p) → F ∉ before g A) ∧
    (∀ A k t, ¬ g.Rule A k (A :: A :: t)) ∧ (∀ A k t, g.Rule A k (A :: t) → ∃ j p, g.Rule A j p ∧ p.head? ≠ some A) ∧ g.Productive ∧
    Out.Returns (removeLeftRecursion g) out ∧ Shows out G ∧ Out.Returns (new G) true ∧ g.Sentence (ls.map (·.kind)) ∧
    Out.Returns (parse 0 G ls) none := by
  have he : ∀ A k, ¬ (rowsG gGreedy).Rule A k [] := fun A k h => rowsG_all (P := fun _ p => p ≠ []) (by decide) h rfl
  have hh : ∀ A k F p, (rowsG gGreedy).Rule A k (F :: p) → F ∉ before (rowsG gGreedy) A := fun A k F p h =>
    rowsG_all (P := fun A p => ∀ F ∈ p.head?, F ∉ before (rowsG gGreedy) A) (by decide) h F rfl
  have h2 : ∀ A k t, ¬ (rowsG gGreedy).Rule A k (A :: A :: t) := fun A k t h =>
    rowsG_all (P := fun A p => p.take 2 ≠ [A, A]) (by decide) h rfl
  have hb : ∀ A k t, (rowsG gGreedy).Rule A k (A :: t) → ∃ j p, (rowsG gGreedy).Rule A j p ∧ p.head? ≠ some A := by
    intro A k t h
    have : A = ['A'] := rowsG_all (P := fun A p => p.head? = some A → A = ['A']) (by decide) h rfl
    subst this
    exact ⟨1, [['b']], ⟨_, rfl, rfl⟩, by decide⟩
  obtain ⟨out, G, h1, hs, hw, hn, hp⟩ := C95_runs_partial (V := Nat) 0 (rowsG_wf gGreedy) (by decide) (rowsG_full (by decide))
    (rowsG_fresh (by decide)) he hh h2 hb
  have hA : (rowsG gGreedy).Derives [['A']] [['b']] :=
    .nonterm (k := 1) (p := [['b']]) (u := [['b']]) (v := []) ⟨_, rfl, rfl⟩ (.term rfl .nil) .nil
  have hS : (rowsG gGreedy).Derives [['S']] [['b'], ['a']] :=
    .nonterm (k := 0) (p := [['A'], ['a']]) (u := [['b'], ['a']]) (v := []) ⟨_, rfl, rfl⟩ (Derives.append hA (.term rfl .nil)) .nil
  let ls : List (Lexeme Str Nat) := [⟨['b'], 1, 1, 0⟩, ⟨['a'], 2, 1, 1⟩]
  refine ⟨rowsG gGreedy, out, G, ls, rowsG_wf _, by decide, rowsG_full (by decide), rowsG_fresh (by decide), he, hh, h2, hb, ?_, h1, hs, hn,
    ⟨_, rfl, hS⟩, ?_⟩
  · intro A ps h
    have : A ∈ [['S'], ['A']] := ((rowsG_wf gGreedy) A).1 (by rw [h]; rfl)
    simp only [List.mem_cons, List.not_mem_nil, or_false] at this
    rcases this with rfl | rfl
    · exact ⟨_, hS⟩
    · exact ⟨_, hA⟩
  · have hG : G = observe (got (removeLeftRecursion (rowsG gGreedy) 6)) := by
      have := (got_returns (g := rowsG gGreedy) (n := 6) (by decide +kernel)).unique h1
      rw [this, observe_eq hs]
    have hnil : isNil (parse 0 G ls 40) = true := by
      rw [hG]
      decide +kernel
    have e : parse 0 G ls 40 = .ok none := by
      revert hnil
      cases parse 0 G ls 40 with
      | ok r =>
        cases r with
        | none => intro _; rfl
        | some _ => intro h; cases h
      | panic => intro h; cases h
      | fuel => intro h; cases h
    exact (Verif.Props.Topdown.C15_ordered_choice 0 G hw ls none).2 ((Verif.Props.Topdown.parse_iff 0 G hw ls).1 _ _ e)

end Verif.Props.DirectLL1
