import Verif.Proofs.RegexGramReduce
import Verif.Proofs.RegexGramNames
import Verif.Props.Grammar
/-
C49–C51: grammar/regexgram/regexgram.go. The rules `R` are those shown by the tree that comes out of
parsing and reducing the text (`RulesShown`).
-/
namespace Verif.Props.RegexGram
open Verif Verif.Spec Verif.RegexGram
open Verif.Props.Grammar (Shows shows_of_rep)

/-! ### C50: alternatives -/

/-- C50, `mergeRules`: every pair, ordered by the first then the second component. -/
theorem C50_merge (a b : List (List Str)) :
    (mergeRules a b).length = a.length * b.length ∧
    ∀ (i j : Nat) (x y : List Str), a[i]? = some x → b[j]? = some y →
      (mergeRules a b)[i * b.length + j]? = some (x ++ y) := by
  induction a with
  | nil => simp [mergeRules]
  | cons c a ih =>
    have e : mergeRules (c :: a) b = b.map (c ++ ·) ++ mergeRules a b := by simp [mergeRules]
    rw [e]
    refine ⟨by simp [ih.1, Nat.succ_mul, Nat.add_comm], ?_⟩
    intro i j x y hi hj
    have hjl : j < b.length := (List.getElem?_eq_some_iff.1 hj).1
    cases i with
    | zero =>
      simp only [List.getElem?_cons_zero, Option.some.injEq] at hi
      subst hi
      rw [Nat.zero_mul, Nat.zero_add, List.getElem?_append_left (by simpa using hjl)]
      simp [hj]
    | succ i =>
      rw [List.getElem?_cons_succ] at hi
      rw [List.getElem?_append_right (by simp [Nat.succ_mul]; omega), List.length_map]
      have : (i + 1) * b.length + j - b.length = i * b.length + j := by rw [Nat.succ_mul]; omega
      rw [this]
      exact ih.2 i j x y hi hj

/-- One item taken from each list: `Picks rs is ps` says that `ps` are the items at the positions `is`. -/
inductive Picks : List (List (List Str)) → List Nat → List (List Str) → Prop
  | nil : Picks [] [] []
  | cons {r rs i is p ps} : r[i]? = some p → Picks rs is ps → Picks (r :: rs) (i :: is) (p :: ps)

/-- The position of a choice when choices are listed with the last position changing fastest. -/
def place (rs : List (List (List Str))) (is : List Nat) : Nat :=
  (rs.zip is).foldl (fun n x => n * x.1.length + x.2) 0

theorem reduce_picks : ∀ (rs : List (List (List Str))) (acc : List (List Str)) (is : List Nat) (ps : List (List Str)) (i : Nat)
    (p : List Str), acc[i]? = some p → Picks rs is ps →
    (rs.foldl mergeRules acc)[(rs.zip is).foldl (fun n x => n * x.1.length + x.2) i]? = some (p ++ ps.flatten) := by
  intro rs
  induction rs with
  | nil => intro acc is ps i p h hp; cases hp; simpa using h
  | cons r rs ih =>
    intro acc is ps i p h hp
    cases hp with
    | @cons _ _ j js q qs hj hp =>
    simp only [List.zip_cons_cons, List.foldl_cons, List.flatten_cons]
    rw [← List.append_assoc]
    exact ih _ _ _ _ _ ((C50_merge acc r).2 i j p q h hj) hp

theorem reduce_length (rs : List (List (List Str))) : ∀ acc : List (List Str),
    (rs.foldl mergeRules acc).length = (rs.map List.length).foldl (· * ·) acc.length := by
  induction rs with
  | nil => simp
  | cons r rs ih => intro acc; simp only [List.foldl_cons, List.map_cons, ih, (C50_merge acc r).1]

/-- C50, `reduce`: for one or more lists, every choice of an item from each, concatenated in order,
the last position changing fastest; nothing at all for no lists. -/
theorem C50_reduce (r : List (List Str)) (rs : List (List (List Str))) :
    (reduce (r :: rs)).length = ((r :: rs).map List.length).foldl (· * ·) 1 ∧
    (∀ is ps, Picks (r :: rs) is ps → (reduce (r :: rs))[place (r :: rs) is]? = some ps.flatten) ∧
    reduce [] = [] := by
  refine ⟨?_, ?_, rfl⟩
  · rw [reduce, reduce_length]; simp
  · intro is ps h
    cases h with
    | @cons _ _ i is p ps hi hp =>
    rw [reduce, place]
    simp only [List.zip_cons_cons, List.foldl_cons, Nat.zero_mul, Nat.zero_add, List.flatten_cons]
    exact reduce_picks rs r is ps i p hi hp

/-- Non-trivial case of C50: `(A|B) (C?) (D|E)`, the choice B, nothing, E. -/
example :
    let A : Str := ['A']; let B : Str := ['B']; let C : Str := ['C']; let D : Str := ['D']; let E : Str := ['E']
    let rs : List (List (List Str)) := [[[A], [B]], [[C], []], [[D], [E]]]
    Picks rs [1, 1, 1] [[B], [], [E]] ∧ place rs [1, 1, 1] = 7 ∧ (reduce rs)[7]? = some [B, E] ∧ (reduce rs).length = 8 :=
  ⟨.cons rfl (.cons rfl (.cons rfl .nil)), rfl, rfl, rfl⟩

/-! ### C49: the grammar -/

mutual
theorem expand_alts : ∀ (x : Rx), .group [] ∉ x.parts → expand x = x.alts
  | .sym s, _ => by simp [expand, Rx.alts]
  | .opt x, h => by
    rw [expand, Rx.alts, expand_alts x (fun h' => h (by rw [Rx.parts]; exact List.mem_cons_of_mem _ h'))]
  | .rep x, _ => by simp [expand, Rx.alts]
  | .or xs, h => by
    rw [expand, Rx.alts, (expands_alts xs (fun h' => h (by rw [Rx.parts]; exact List.mem_cons_of_mem _ h'))).1]
  | .group xs, h => by
    have h1 := (expands_alts xs (fun h' => h (by rw [Rx.parts]; exact List.mem_cons_of_mem _ h'))).2
    cases xs with
    | nil => simp [Rx.parts] at h
    | cons x xs =>
      have h2 := h1 [[]]
      rw [expands, List.foldl_cons] at h2
      have e : mergeRules [[]] (expand x) = expand x := by simp [mergeRules]
      rw [e] at h2
      rw [expand, expands, reduce, Rx.alts, h2]
      simp
theorem expands_alts : ∀ (xs : List Rx), .group [] ∉ Rx.partss xs → (expands xs).flatten = Rx.anys xs ∧
    ∀ acc, (expands xs).foldl mergeRules acc = acc.flatMap fun a => (Rx.seqs xs).map fun b => a ++ b
  | [], _ => by simp [expands, Rx.anys, Rx.seqs]
  | x :: xs, h => by
    rw [Rx.partss, List.mem_append, not_or] at h
    have h1 := expand_alts x h.1
    obtain ⟨h2, h3⟩ := expands_alts xs h.2
    refine ⟨by rw [expands, List.flatten_cons, h1, h2, Rx.anys], ?_⟩
    intro acc
    rw [expands, List.foldl_cons, h3, h1, mergeRules, Rx.seqs]
    simp only [List.flatMap_assoc, List.map_flatMap, List.flatMap_map, List.map_map]
    congr 1; funext a; congr 1; funext b; congr 1; funext c; simp
end

theorem rulesOf_plain {q : Str × List Rx} (h : .group [] ∉ Rx.partss q.2) :
    rulesOf q = (Rx.seqs q.2).map fun p => (q.1, p) := by
  rw [rulesOf, (expands_alts q.2 h).2]
  simp

/-- C49: `evalGrammar` returns (no panic, no endless loop) on every tree that shows rules, and the result
is a grammar. -/
theorem C49_returns {R : RxRules} {root : PN Str Str} (h : RulesShown [] R root.kids) :
    ∃ g b G, Out.Returns (fun n => evalGrammar n root) (g, b) ∧ Shows g G := by
  obtain ⟨g, b, tail, h1, h2, _⟩ := evalGrammar_spec h
  exact ⟨g, b, _, h1, shows_of_rep h2⟩

/-- C49, the whole result: the grammar records the plain rules of the rules, in order, followed by those
of one helper for each repeated expression. -/
theorem C49_grammar_partial {R : RxRules} {root : PN Str Str} (h : RulesShown [] R root.kids) (hs : R.Solid) (hd : R.Distinct) :
    ∃ g b, ∃ L : List Rx, Out.Returns (fun n => evalGrammar n root) (g, b) ∧ L.Nodup ∧ (∀ x, x ∈ L ↔ .rep x ∈ R.parts) ∧
      Shows g (record (RxRules.plain (R ++ L.flatMap Rx.more))) := by
  obtain ⟨g, b, tail, h1, h2, h3, h4, ⟨L, rfl, hL⟩, _⟩ := evalGrammar_spec h
  have hmem : ∀ x ∈ L, .rep x ∈ R.parts := by
    intro x hx
    obtain ⟨y, hy, e | e⟩ := h3 (nm x, [x, .sym (nm x)]) (List.mem_flatMap.2 ⟨x, hx, by simp⟩)
    · simp only [Prod.mk.injEq, List.cons.injEq] at e
      rw [e.2.1]; exact hy
    · simp at e
  refine ⟨g, b, L, h1, (List.pairwise_map.1 hL).imp fun h e => h (congrArg nm e), ?_, ?_⟩
  · refine fun x => ⟨hmem x, fun hx => ?_⟩
    have h5 := (Prods.all ⟨h3, h4⟩ hd hx).1
    rcases List.mem_append.1 h5 with h5 | h5
    · exact absurd rfl (hd.undeclared x hx _ h5)
    · obtain ⟨y, hy, h6⟩ := List.mem_flatMap.1 h5
      simp only [List.mem_cons, Prod.mk.injEq, List.cons.injEq, reduceCtorEq, and_false, List.not_mem_nil, or_false] at h6
      rw [h6.2.1]; exact hy
  · have e : (R ++ pairs L).flatMap rulesOf = RxRules.plain (R ++ L.flatMap Rx.more) := by
      unfold RxRules.plain
      have : pairs L = L.flatMap Rx.more := rfl
      rw [this]
      refine List.flatMap_congr fun q hq => ?_
      refine rulesOf_plain fun hg => ?_
      rcases List.mem_append.1 hq with hq | hq
      · exact hs.group (List.mem_flatMap.2 ⟨q, hq, hg⟩)
      · obtain ⟨x, hx, hq⟩ := List.mem_flatMap.1 hq
        simp only [Rx.more, List.mem_cons, List.not_mem_nil, or_false] at hq
        rcases hq with rfl | rfl
        · simp only [Rx.partss, Rx.parts, List.append_nil, List.mem_append, List.mem_singleton, reduceCtorEq, or_false] at hg
          exact hs.group (rules_parts_trans (hmem x hx) (by rw [Rx.parts]; exact List.mem_cons_of_mem _ hg))
        · simp [Rx.partss] at hg
    rw [e] at h2
    exact shows_of_rep h2

/-- Prefix property of the order of nonterminals. -/
theorem order_head {α : Type} [DecidableEq α] (adds : List (α × List α)) :
    (record adds).order.head? = (adds.head?).map (·.1) := by
  have : ∀ (xs o : List α), o ≠ [] → (xs.foldl (fun o A => if A ∈ o then o else o ++ [A]) o).head? = o.head? := by
    intro xs
    induction xs with
    | nil => intro o _; rfl
    | cons x xs ih =>
      intro o ho
      rw [List.foldl_cons]
      split
      · exact ih o ho
      · rw [ih _ (by simp), List.head?_append_of_ne_nil _ ho]
  cases adds with
  | nil => rfl
  | cons a adds =>
    simp only [record, List.map_cons, List.foldl_cons, List.not_mem_nil, if_false, List.nil_append]
    exact this _ [a.1] (by simp)

/-- C49, words: without empty groups and with names of their own for the repetitions, every symbol
other than these names derives exactly the words the rules give it; terminals are the symbols without a
rule, and the start symbol is that of the first rule. -/
theorem C49_words_partial {R : RxRules} {root : PN Str Str} (h : RulesShown [] R root.kids) (hs : R.Solid) (hd : R.Distinct) :
    ∃ g b G, Out.Returns (fun n => evalGrammar n root) (g, b) ∧ Shows g G ∧
      (∀ s, s ∉ R.helpers → ∀ w, G.Derives [s] w ↔ RxWords R [.sym s] w) ∧
      (∀ s, s ∉ R.helpers → (G.Term s ↔ ∀ r, (s, r) ∉ R)) ∧
      G.order.head? = R.head?.map (·.1) := by
  obtain ⟨g, b, tail, h1, h2, h3, h4, ⟨L, eL, hL⟩, _⟩ := evalGrammar_spec h
  have hn : ∀ s, s ∉ R.helpers → ∀ x, .rep x ∈ R.parts → s ≠ nm x := fun s hs x hx e => hs (mem_helpers.2 ⟨x, hx, e⟩)
  refine ⟨g, b, gram R tail, h1, shows_of_rep h2, ?_, ?_, ?_⟩
  · intro s hs' w
    exact language hs hd ⟨h3, h4⟩ (hn s hs') w
  · intro s hs'
    rw [gram_term hs hd ⟨h3, h4⟩]
    exact ⟨fun h => h.1, fun h => ⟨h, hn s hs'⟩⟩
  · rw [gram, order_head]
    cases R with
    | nil =>
      cases tail with
      | nil => rfl
      | cons q tail =>
        obtain ⟨x, hx, _⟩ := h3 q (by simp)
        simp [RxRules.parts] at hx
    | cons r R =>
      obtain ⟨p, hp⟩ := sel_nonempty r.2
        (fun h => hs.group (List.mem_flatMap.2 ⟨r, by simp, h⟩)) (fun h => hs.or (List.mem_flatMap.2 ⟨r, by simp, h⟩))
      have hp : (r.1, p) ∈ rulesOf r := mem_rulesOf.2 ⟨rfl, hp⟩
      cases e : rulesOf r with
      | nil => rw [e] at hp; simp at hp
      | cons x xs =>
        have hx : x ∈ rulesOf r := by rw [e]; simp
        simp only [List.cons_append, List.flatMap_cons, e, List.head?_cons, Option.map_some, Option.some.injEq]
        exact (mem_rulesOf (q := r) (A := x.1) (r := x.2)).1 hx |>.1

/-- C49 for rules that can be written with plain names: the sentences of the grammar are the words of
the first nonterminal. -/
theorem C49_sentences_partial {R : RxRules} {root : PN Str Str} (h : RulesShown [] R root.kids) (hw : R.Writable) :
    ∃ g b G, Out.Returns (fun n => evalGrammar n root) (g, b) ∧ Shows g G ∧
      (∀ r ∈ R, ∀ w, G.Derives [r.1] w ↔ RxWords R [.sym r.1] w) ∧
      ∀ w, G.Sentence w ↔ ∃ r, R.head? = some r ∧ RxWords R [.sym r.1] w := by
  have hd := distinct_of_writable hw
  obtain ⟨g, b, G, h1, h2, h3, _, h5⟩ := C49_words_partial h (solid_of_writable hw) hd
  have hnt : ∀ r ∈ R, r.1 ∉ R.helpers := by
    intro r hr hh
    obtain ⟨x, hx, e⟩ := mem_helpers.1 hh
    exact hd.undeclared x hx r hr e
  refine ⟨g, b, G, h1, h2, fun r hr w => h3 r.1 (hnt r hr) w, ?_⟩
  intro w
  unfold Spec.Grammar.Sentence
  rw [h5]
  constructor
  · rintro ⟨S, e, hS⟩
    cases hr : R.head? with
    | none => rw [hr] at e; cases e
    | some r =>
      rw [hr] at e
      simp only [Option.map_some, Option.some.injEq] at e
      subst e
      exact ⟨r, rfl, (h3 _ (hnt r (List.mem_of_mem_head? hr)) w).1 hS⟩
  · rintro ⟨r, e, hr⟩
    exact ⟨r.1, by rw [e]; rfl, (h3 _ (hnt r (List.mem_of_mem_head? e)) w).2 hr⟩

/-! ### C51: the reducer -/

mutual
theorem hides_clean (H : List Str) : ∀ ts : List (PN Str Str), ∀ k ∈ PN.kindss (PN.hides H ts), k ∉ H
  | [], k, hk => by simp [PN.hides, PN.kindss] at hk
  | .node l ks :: ts, k, hk => by
    rw [PN.hides] at hk
    by_cases h : l.kind ∈ H
    · rw [if_pos h, kindss_append, List.mem_append] at hk
      exact hk.elim (hides_clean H ks k) (hides_clean H ts k)
    · rw [if_neg h, PN.kindss, PN.kinds, List.mem_append, List.mem_cons] at hk
      rcases hk with (rfl | hk) | hk
      · exact h
      · exact hides_clean H ks k hk
      · exact hides_clean H ts k hk
theorem kindss_append : ∀ ts us : List (PN Str Str), PN.kindss (ts ++ us) = PN.kindss ts ++ PN.kindss us
  | [], us => rfl
  | t :: ts, us => by rw [List.cons_append, PN.kindss, PN.kindss, kindss_append ts us, List.append_assoc]
end

theorem fringes_append (f : Str → Bool) : ∀ ts us : List (PN Str Str),
    PN.fringes f (ts ++ us) = PN.fringes f ts ++ PN.fringes f us
  | [], us => by simp [PN.fringes]
  | t :: ts, us => by rw [List.cons_append, PN.fringes, PN.fringes, fringes_append f ts us, List.append_assoc]

theorem hides_cons (H : List Str) (t : PN Str Str) (ts : List (PN Str Str)) :
    PN.hides H (t :: ts) = PN.hides H [t] ++ PN.hides H ts := by
  cases t with
  | node l ks =>
  rw [PN.hides, PN.hides]
  by_cases h : l.kind ∈ H
  · rw [if_pos h, if_pos h]; simp [PN.hides]
  · rw [if_neg h, if_neg h]; simp [PN.hides]

theorem hides_fringe {G : Spec.Grammar Str} {H : List Str}
    (hG : ∀ A k p, G.Rule A k p → ∀ s ∈ p, s ∈ H → ¬ G.Term s) {t : PN Str Str} (ht : t.Valid G)
    (hk : t.kind ∈ H → ¬ G.Term t.kind) :
    PN.fringes (fun s => (G.prods s).isNone) (PN.hides H [t]) = t.fringe (fun s => (G.prods s).isNone) := by
  induction ht with
  | @leaf l h =>
    have : l.kind ∉ H := fun h' => hk h' h
    simp [PN.hides, this, PN.fringes]
  | @inner l ks k p hr hp hv ih =>
    have hks : PN.fringes (fun s => (G.prods s).isNone) (PN.hides H ks) = PN.fringes (fun s => (G.prods s).isNone) ks := by
      have hs : ∀ t ∈ ks, t.kind ∈ H → ¬ G.Term t.kind := fun t ht => hG _ _ _ hr _ (hp ▸ List.mem_map_of_mem ht)
      clear hr hp hv hk
      induction ks with
      | nil => simp [PN.hides]
      | cons t ts ih2 =>
        rw [hides_cons, fringes_append, PN.fringes, ih t (by simp) (hs t (by simp)),
          ih2 (fun t ht => ih t (by simp [ht])) (fun t ht => hs t (by simp [ht]))]
    obtain ⟨ps, hps, _⟩ := hr
    rw [PN.hides, PN.fringe]
    by_cases h : l.kind ∈ H
    · rw [if_pos h]
      simp [PN.hides, hks, hps]
    · rw [if_neg h]
      simp [PN.hides, PN.fringes, PN.fringe, hks]

/-- C51: the reducer made with the grammar, on any derivation tree of the grammar from a symbol other
than the helpers: the reduction returns the tree with every helper node replaced by its children (and
so on inside), no node of a helper kind is left, and the leaves are the same. Symbols are words, as the
lexer makes them; that they do not contain a star is all that matters. -/
theorem C51_hide {R : RxRules} {root : PN Str Str} (h : RulesShown [] R root.kids)
    (hw : ∀ s, .sym s ∈ R.parts → '*' ∉ s) :
    ∃ g b G, Out.Returns (fun n => evalGrammar n root) (g, b) ∧ Shows g G ∧
      ∀ t : PN Str Str, t.Valid G → t.kind ∉ R.helpers →
        Out.Returns (fun n => Tree.reduce (reducerOf (σ := Unit) n b) (some t) ()) (some (PN.hide R.helpers t), ()) ∧
        (∀ k ∈ (PN.hide R.helpers t).kinds, k ∉ R.helpers) ∧
        (PN.hide R.helpers t).fringe (fun s => (G.prods s).isNone) = t.fringe (fun s => (G.prods s).isNone) := by
  obtain ⟨g, b, tail, h1, h2, h3, h4, _, h6⟩ := evalGrammar_spec h
  have fresh : ∀ x, .rep x ∈ R.parts → ∀ s, .sym s ∈ R.parts → s ≠ nm x := by
    rintro x _ s hs rfl
    exact hw _ hs (by simp [nm, Rx.text])
  refine ⟨g, b, gram R tail, h1, shows_of_rep h2, ?_⟩
  intro t ht hk
  have e := (red_hide fresh h3 h6 ht).1 hk
  refine ⟨?_, ?_, ?_⟩
  · obtain ⟨N, hN⟩ := rawReduce_red (σ := Unit) b t
    exact ⟨N, fun n hn => by simp only [Tree.reduce, hN n hn, Out.bind_ok, e]⟩
  · cases t with
    | node l ks =>
    intro k hk'
    rw [PN.hide, PN.kinds, List.mem_cons] at hk'
    rcases hk' with rfl | hk'
    · exact hk
    · exact hides_clean _ _ k hk'
  · have := hides_fringe (H := R.helpers) ?_ ht (fun h => absurd h hk)
    · cases t with
      | node l ks =>
      have hk : l.kind ∉ R.helpers := hk
      rw [← this]
      simp [PN.hides, PN.hide, hk, PN.fringes]
    · intro A k p hr s hs hh hterm
      have hterm : ∀ q, (s, q) ∉ (R ++ tail).flatMap rulesOf := record_term.1 hterm
      rcases rule_syms fresh h3 h6 hr hs with h | h | ⟨rfl, _⟩
      · exact h hh
      · obtain ⟨q, hq, _, x, hx, rfl⟩ := (bl_mem h6 A s).1 h
        obtain ⟨y, _, _, _, h7⟩ := h4 q hq x hx
        exact hterm [] (List.mem_flatMap.2 ⟨_, h7, mem_rulesOf.2 ⟨rfl, .nil⟩⟩)
      · obtain ⟨k', hr'⟩ : ∃ k, (record ((R ++ tail).flatMap rulesOf)).Rule s k p := ⟨k, hr⟩
        exact hterm p (record_rule.1 ⟨k', hr'⟩)

/-! ### The hypotheses can be met -/

mutual
/-- A tree that shows the expression. -/
def treeOf : Rx → PN Str Str
  | .sym s => .node ⟨"symbol".toList, s, 0, 0⟩ []
  | .opt x => .node ⟨"OptSymbol".toList, [], 0, 0⟩ [treeOf x]
  | .or xs => .node ⟨"OrSymbol".toList, [], 0, 0⟩ (treesOf xs)
  | .group xs => .node ⟨"Group".toList, [], 0, 0⟩ (treesOf xs)
  | .rep x => .node ⟨"RepSymbol".toList, [], 0, 0⟩ [treeOf x]
/-- Trees that show the expressions. -/
def treesOf : List Rx → List (PN Str Str)
  | [] => []
  | x :: xs => treeOf x :: treesOf xs
end

mutual
theorem treeOf_shows : ∀ x : Rx, x.Shown (treeOf x)
  | .sym s => by simp [Rx.Shown, treeOf, PN.kind, PN.lx]
  | .opt x => by rw [Rx.Shown, treeOf]; exact ⟨rfl, _, rfl, treeOf_shows x⟩
  | .or xs => by rw [Rx.Shown, treeOf]; exact ⟨rfl, treesOf_show xs⟩
  | .group xs => by rw [Rx.Shown, treeOf]; exact ⟨rfl, treesOf_show xs⟩
  | .rep x => by rw [Rx.Shown, treeOf]; exact ⟨rfl, _, rfl, treeOf_shows x⟩
theorem treesOf_show : ∀ xs : List Rx, Rx.Showns xs (treesOf xs)
  | [] => by rw [Rx.Showns, treesOf]
  | x :: xs => by rw [Rx.Showns]; exact ⟨treeOf x, treesOf xs, by rw [treesOf], treeOf_shows x, treesOf_show xs⟩
end

/-- A tree with a Production for each rule. -/
def rootOf (R : RxRules) : PN Str Str :=
  .node ⟨"Grammar".toList, [], 0, 0⟩ (R.map fun r => .node ⟨"Production".toList, r.1, 0, 0⟩ (treesOf r.2))

/-- Every list of rules is shown by a tree. -/
theorem rootOf_shows (R : RxRules) : RulesShown [] R (rootOf R).kids := by
  have : ∀ (R : RxRules) (nt : Str), RulesShown nt R (R.map fun r => .node ⟨"Production".toList, r.1, 0, 0⟩ (treesOf r.2)) := by
    intro R
    induction R with
    | nil => intro nt; rw [RulesShown]; rfl
    | cons r R ih =>
      intro nt
      rw [RulesShown]
      exact ⟨_, _, rfl, treesOf_show r.2, ⟨fun _ => rfl, fun h => absurd rfl h⟩, ih r.1⟩
  exact this R []

/-- Rules with all operators, nested: `S -> (A|B* c)* S?` and `B -> b|(x y)`, `B ->`. -/
def exR : RxRules :=
  [(['S'], [.rep (.group [.or [.sym ['A'], .rep (.sym ['B'])], .sym ['c']]), .opt (.sym ['S'])]),
   (['B'], [.or [.sym ['b'], .group [.sym ['x'], .sym ['y']]]]),
   (['B'], [])]

/-- Non-trivial case of C49: all hypotheses are met. -/
example : RulesShown [] exR (rootOf exR).kids ∧ exR.Writable ∧ exR.Solid ∧ exR.Distinct := by
  have h : exR.Writable := by
    refine ⟨by decide, ?_, ?_, ?_⟩
    · intro s hs
      simp [RxRules.parts, exR, Rx.partss, Rx.parts] at hs
      rcases hs with rfl | rfl | rfl | rfl | rfl | rfl | rfl <;> exact ⟨by decide, by decide⟩
    · intro r hr
      simp [exR] at hr
      rcases hr with rfl | rfl | rfl <;> exact ⟨by simp, by decide⟩
    · simp [RxRules.parts, exR, Rx.partss, Rx.parts]
  exact ⟨rootOf_shows _, h, solid_of_writable h, distinct_of_writable h⟩

/-- ... and the grammar has the productions expected. -/
example : (match evalGrammar 10 (rootOf exR) with
    | .ok (g, _) => Grammar.showBool (Verif.Grammar.nonTerminals g)
        [['S'], ['B'], "(A|B*_c)*".toList, "B*".toList] &&
      Grammar.showBool (Verif.Grammar.readProductions g (.other "(A|B*_c)*".toList))
        (some [[['A'], ['c'], "(A|B*_c)*".toList], ["B*".toList, ['c'], "(A|B*_c)*".toList], []])
    | _ => false) = true := by decide +kernel

/-- A word of the rules: `b b c A c`. -/
example : RxWords exR [.sym ['S']] [['b'], ['b'], ['c'], ['A'], ['c']] := by
  have A : ∀ {xs w}, RxWords exR xs w → RxWords exR (.sym ['A'] :: xs) (['A'] :: w) := fun h => .term (by simp [exR]) h
  have b : ∀ {xs w}, RxWords exR xs w → RxWords exR (.sym ['b'] :: xs) (['b'] :: w) := fun h => .term (by simp [exR]) h
  have c : ∀ {xs w}, RxWords exR xs w → RxWords exR (.sym ['c'] :: xs) (['c'] :: w) := fun h => .term (by simp [exR]) h
  have B : ∀ {xs w}, RxWords exR xs w → RxWords exR (.sym ['B'] :: xs) (['b'] :: w) := fun {xs w} h =>
    .nonterm (u := [['b']]) (v := w) (r := [.or [.sym ['b'], .group [.sym ['x'], .sym ['y']]]]) (by simp [exR])
      (.or (x := .sym ['b']) (by simp) (b .nil)) h
  refine .nonterm (u := [['b'], ['b'], ['c'], ['A'], ['c']]) (v := []) (List.mem_cons_self ..) ?_ .nil
  refine .repMore (.group ?_)
  refine .or (x := .rep (.sym ['B'])) (by simp) (.repMore (B (.repMore (B (.repNone (c ?_))))))
  refine .repMore (.group (.or (x := .sym ['A']) (by simp) (A (c (.repNone (.optNone .nil))))))

/-! ### Refutations -/

/-- C49 does not hold for rules with an empty group, even if all names are distinct: the production is
dropped, so that in `S -> A ()` the symbol S is not a nonterminal any more. -/
theorem C49_group_refuted : ∃ (R : RxRules) (root : PN Str Str), RulesShown [] R root.kids ∧ R.Distinct ∧
    ∃ g b G, Out.Returns (fun n => evalGrammar n root) (g, b) ∧ Shows g G ∧
      ∃ s w, RxWords R [.sym s] w ∧ ¬ G.Derives [s] w := by
  let R : RxRules := [(['S'], [.sym ['A'], .group []])]
  have hrep : ∀ x, .rep x ∉ R.parts := by
    intro x hx
    simp [R, RxRules.parts, Rx.partss, Rx.parts] at hx
  refine ⟨R, rootOf R, rootOf_shows R, ⟨fun x _ hx => absurd hx (hrep x), fun x hx => absurd hx (hrep x),
    fun x hx => absurd hx (hrep x)⟩, ?_⟩
  obtain ⟨g, b, tail, h1, h2, h3, _⟩ := evalGrammar_spec (rootOf_shows R)
  have ht : tail = [] := by
    cases tail with
    | nil => rfl
    | cons q tail => obtain ⟨x, hx, _⟩ := h3 q (by simp); exact absurd hx (hrep x)
  subst ht
  have e : (R ++ []).flatMap rulesOf = [] := by decide +kernel
  rw [e] at h2
  refine ⟨g, b, _, h1, shows_of_rep h2, ['S'], [['A']], ?_, ?_⟩
  · exact .nonterm (u := [['A']]) (v := []) (List.mem_cons_self ..)
      (.term (by simp [R]) (.group (by simpa using .nil))) .nil
  · intro h
    generalize hw : [['A']] = w at h
    cases h with
    | term _ _ => simp at hw
    | nonterm hr _ _ =>
      obtain ⟨ps, hps, _⟩ := hr
      simp [record] at hps

theorem derives_avoid {G : Spec.Grammar Str} {c : Str} (hG : ∀ A k p, G.Rule A k p → c ∉ p) {ss w : List Str}
    (h : G.Derives ss w) : c ∉ ss → c ∉ w := by
  induction h with
  | nil => simp
  | term _ _ ih =>
    intro hc
    rw [List.mem_cons, not_or] at hc ⊢
    exact ⟨hc.1, ih hc.2⟩
  | nonterm hr _ _ ih1 ih2 =>
    intro hc
    rw [List.mem_cons, not_or] at hc
    rw [List.mem_append, not_or]
    exact ⟨ih1 (hG _ _ _ hr), ih2 hc.2⟩

/-- `S -> (A B)*`, `T -> (A_B)*`. -/
def clashR : RxRules := [(['S'], [.rep (.group [.sym ['A'], .sym ['B']])]), (['T'], [.rep (.group [.sym ['A', '_', 'B']])])]

theorem clashR_solid : clashR.Solid :=
  ⟨by simp [clashR, RxRules.parts, Rx.partss, Rx.parts], by simp [clashR, RxRules.parts, Rx.partss, Rx.parts]⟩

theorem clash {root : PN Str Str} (h : RulesShown [] clashR root.kids) :
    ∃ g b G, Out.Returns (fun n => evalGrammar n root) (g, b) ∧ Shows g G ∧
      ∃ r ∈ clashR, ∃ w, RxWords clashR [.sym r.1] w ∧ ¬ G.Derives [r.1] w := by
  let x1 : Rx := .group [.sym ['A'], .sym ['B']]
  let x2 : Rx := .group [.sym ['A', '_', 'B']]
  let R : RxRules := [(['S'], [.rep x1]), (['T'], [.rep x2])]
  have h : RulesShown [] R root.kids := h
  show ∃ g b G, Out.Returns (fun n => evalGrammar n root) (g, b) ∧ Shows g G ∧
      ∃ r ∈ R, ∃ w, RxWords R [.sym r.1] w ∧ ¬ G.Derives [r.1] w
  obtain ⟨g, b, tail, h1, h2, h3, h4, ⟨L, rfl, hL⟩, _⟩ := evalGrammar_spec h
  refine ⟨g, b, _, h1, shows_of_rep h2, ?_⟩
  have hmem : ∀ x ∈ L, x = x1 ∨ x = x2 := by
    intro x hx
    obtain ⟨y, hy, e | e⟩ := h3 (nm x, [x, .sym (nm x)]) (List.mem_flatMap.2 ⟨x, hx, by simp⟩)
    · simp only [Prod.mk.injEq, List.cons.injEq] at e
      obtain rfl := e.2.1
      simpa [R, RxRules.parts, Rx.partss, Rx.parts, x1, x2] using hy
    · simp at e
  have hn : nm x1 = nm x2 := by decide
  have hL1 : L = [] ∨ L = [x1] ∨ L = [x2] := by
    match L, hmem, hL with
    | [], _, _ => exact .inl rfl
    | [x], hm, _ => exact .inr ((hm x (by simp)).imp (congrArg (fun x => [x])) (congrArg (fun x => [x])))
    | x :: y :: l, hm, hl =>
      have e : nm x = nm y := by
        rcases hm x (by simp) with rfl | rfl <;> rcases hm y (by simp) with rfl | rfl <;> simp [hn]
      simp [e] at hl
  have noA : ∀ (adds : List (Str × List Str)) (c : Str), (∀ q ∈ adds, c ∉ q.2) → ∀ s w, s ≠ c → c ∈ w →
      ¬ (record adds).Derives [s] w := by
    intro adds c ha s w hs hw hd
    refine derives_avoid (c := c) ?_ hd (by simpa using hs.symm) hw
    intro A k p hr
    exact ha _ (record_rule.1 ⟨k, hr⟩)
  have words : ∀ r ∈ R, ∀ x w, r.2 = [.rep x] → RxWords R [x] w → RxWords R [.sym r.1] w := by
    intro r hr x w e hx
    have h := words_append hx (.repNone (x := x) .nil)
    rw [List.append_nil] at h
    have : RxWords R [.rep x] w := .repMore h
    have := RxWords.nonterm (s := r.1) (r := r.2) (xs := []) hr (e ▸ this) .nil
    simpa using this
  rcases hL1 with rfl | rfl | rfl
  · obtain ⟨y, e, _, h5, _⟩ := h4 (['S'], [.rep x1]) (by simp [R]) x1 (by simp [topRepss, topReps])
    have : nm x1 = "(A_B)*".toList := by decide
    rw [this] at h5
    simp [R, pairs] at h5
  · refine ⟨(['T'], [.rep x2]), by simp [R], [['A', '_', 'B']], words _ (by simp [R]) x2 _ rfl ?_, ?_⟩
    · exact .group (.term (by simp [R]) .nil)
    · exact noA _ ['A', '_', 'B'] (by decide +kernel) _ _ (by decide) (by simp)
  · refine ⟨(['S'], [.rep x1]), by simp [R], [['A'], ['B']], words _ (by simp [R]) x1 _ rfl ?_, ?_⟩
    · exact .group (.term (by simp [R]) (.term (by simp [R]) .nil))
    · exact noA _ ['A'] (by decide +kernel) _ _ (by decide) (by simp)

/-- C49 does not hold when the names of repetitions collide, even without empty groups: in
`S -> (A B)*`, `T -> (A_B)*` both repetitions get the name `(A_B)*`, and one helper. -/
theorem C49_names_refuted : ∃ (R : RxRules) (root : PN Str Str), RulesShown [] R root.kids ∧ R.Solid ∧
    ∃ g b G, Out.Returns (fun n => evalGrammar n root) (g, b) ∧ Shows g G ∧
      ∃ r ∈ R, ∃ w, RxWords R [.sym r.1] w ∧ ¬ G.Derives [r.1] w :=
  ⟨clashR, rootOf clashR, rootOf_shows clashR, clashR_solid, clash (rootOf_shows clashR)⟩

/-- Non-trivial case of C51: a derivation tree of `R* c` over `a a c` with helper nodes three deep. -/
example :
    let a : PN Str Str := .node ⟨['a'], ['1'], 1, 1⟩ []
    let c : PN Str Str := .node ⟨['c'], ['2'], 1, 3⟩ []
    let h : List (PN Str Str) → PN Str Str := .node ⟨['a', '*'], [], 0, 0⟩
    let t : PN Str Str := .node ⟨['S'], [], 0, 0⟩ [h [a, h [a, h []]], c]
    let R : RxRules := [(['S'], [.rep (.sym ['a']), .sym ['c']])]
    R.helpers = [['a', '*']] ∧ PN.hide [['a', '*']] t = .node ⟨['S'], [], 0, 0⟩ [a, a, c] ∧
    (match evalGrammar 10 (rootOf R) with
      | .ok (_, b) => (match Tree.reduce (reducerOf (σ := Unit) 10 b) (some t) () with
        | .ok (some t', _) => t'.same (.node ⟨['S'], [], 0, 0⟩ [a, a, c])
        | _ => false)
      | _ => false) = true := by
  refine ⟨by decide +kernel, by simp [PN.hide, PN.hides], by decide +kernel⟩

end Verif.Props.RegexGram
