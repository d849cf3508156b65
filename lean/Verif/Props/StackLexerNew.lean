import Verif.Proofs.StackLexerNew
import Verif.Proofs.Numeral
import Verif.Props.StackLexer
/-
C46, C47: `New` of lexer/stacklexer/construct.go. `regexp.Compile` is an arbitrary partial function from
texts to regexps, and the iteration order of the map of sub-lexers an arbitrary list `ord` that has
every name.
-/
namespace Verif.Props.StackLexerNew
open Verif Verif.SetSymbol Verif.StackLexer Verif.Spec
open Verif.SimpleLexer (Bytes Lx Kind)
open Verif.Props.StackLexer (lxsOf reX reNl reWord ofMatch)

/-! ### Specification -/

/-- The rules of a sub-lexer are the entries `v`, each with its position in `v` as priority. -/
structure Entries (names : List Bytes) (s : Sub) (v : List (Bytes × Body)) : Prop where
  keys : (v.map Prod.fst).Nodup
  rules : ∀ (k : Nat) (r : Rule), s.rules[k]? = some (some r) → r.kind = k ∧ ∃ (i : Nat) (w : Bytes),
    r.priority = (i : Int) ∧ names[k]? = some w ∧ v[i]? = some (w, bodyOf r)
  all : ∀ (i : Nat) (w : Bytes) (b : Body), v[i]? = some (w, b) → ∃ (k : Nat) (r : Rule),
    s.rules[k]? = some (some r) ∧ r.priority = (i : Int) ∧ names[k]? = some w ∧ bodyOf r = b

/-- What the text for the stack means: `k > 0` carets pop `k`, another text is the name of the sub-lexer
to push (none if it is empty). -/
def MoveMeans (s push : Bytes) (pop : Nat) : Prop :=
  (0 < pop ∧ push = [] ∧ s = List.replicate pop 94) ∨ (pop = 0 ∧ push = s ∧ ∀ k, 0 < k → s ≠ List.replicate k 94)

/-- What an element of a rewriting means: a text with a digit in it is the number of a section (0 if it
is not a number), one without is a literal. -/
def ElemMeans (s : Bytes) (e : Submatch) : Prop :=
  ((∀ c ∈ s, byteNumerals.digit c = none) ∧ e = ⟨-1, s⟩) ∨
  ((∃ c ∈ s, ∃ d, byteNumerals.digit c = some d) ∧ e.str = [] ∧
    IntOf byteNumerals s e.section_)

/-- What a rewriting means: its elements, which have bars between them; none if it is empty. -/
def RewriteMeans (s : Bytes) : Option (List Submatch) → Prop
  | none => s = []
  | some es => s ≠ [] ∧ ∃ ps : List Bytes, ps ≠ [] ∧ [124].intercalate ps = s ∧ (∀ p ∈ ps, 124 ∉ p) ∧
      List.Forall₂ ElemMeans ps es

/-- What a line of a definition stands for: the name of a sub-lexer inherits from it; any other line is a
rule, for which the word is the regexp if there is no other. -/
inductive Stands (compile : Bytes → Option Re) (d : Defs) (m : Line) : Item Bytes Bytes Body → Prop
  | inh : m.word ∈ d.map Prod.fst → Stands compile d m (.inh m.word)
  | own {re push pop subs} : m.word ∉ d.map Prod.fst → (m.re = [] → compile m.word = some re) →
      (m.re ≠ [] → compile m.re = some re) → MoveMeans m.move push pop → RewriteMeans m.subs subs →
      Stands compile d m (.own (m.word, ⟨re, m.minus, push, pop, subs⟩))

theorem moveOfText_of {s push : Bytes} {pop : Nat} (h : MoveMeans s push pop) : moveOfText s = (push, pop) := by
  unfold moveOfText
  rcases h with ⟨h1, rfl, rfl⟩ | ⟨rfl, rfl, h3⟩
  · rw [if_pos]
    · simp
    · exact ⟨by intro h; rw [List.replicate_eq_nil_iff] at h; omega, by simp⟩
  · rw [if_neg]
    rintro ⟨h1, h2⟩
    refine h3 push.length (List.length_pos_iff.2 h1) (List.eq_replicate_iff.2 ⟨rfl, fun b hb => ?_⟩)
    simpa using List.all_eq_true.1 h2 b hb

theorem splitBar_none : ∀ {p : Bytes}, 124 ∉ p → splitBar p = [p]
  | [], _ => rfl
  | x :: p, h => by
    rw [List.mem_cons, not_or] at h
    rw [splitBar, if_neg (fun e => h.1 e.symm), splitBar_none h.2]

theorem splitBar_cons : ∀ {p q : Bytes}, 124 ∉ p → splitBar (p ++ 124 :: q) = p :: splitBar q
  | [], q, _ => by rw [List.nil_append, splitBar, if_pos rfl]
  | x :: p, q, h => by
    rw [List.mem_cons, not_or] at h
    rw [List.cons_append, splitBar, if_neg (fun e => h.1 e.symm), splitBar_cons h.2]

theorem splitBar_of : ∀ (ps : List Bytes), ps ≠ [] → (∀ p ∈ ps, 124 ∉ p) → splitBar ([124].intercalate ps) = ps
  | [p], _, h => by
    rw [show [124].intercalate [p] = p by simp [List.intercalate]]
    exact splitBar_none (h p (by simp))
  | p :: q :: ps, _, h => by
    have e : [124].intercalate (p :: q :: ps) = p ++ 124 :: [124].intercalate (q :: ps) := by
      simp [List.intercalate, List.intersperse]
    rw [e, splitBar_cons (h p (by simp)), splitBar_of (q :: ps) (by simp) (fun x hx => h x (by simp [hx]))]

theorem elem_of {p : Bytes} {e : Submatch} (h : ElemMeans p e) :
    (if p.any isDigit then (⟨atoi p, []⟩ : Submatch) else ⟨-1, p⟩) = e := by
  rcases h with ⟨h1, rfl⟩ | ⟨⟨c, hc, d, h1⟩, h2, h3⟩
  · rw [if_neg]
    intro ha
    obtain ⟨c, hc, hd⟩ := List.any_eq_true.1 ha
    have := byteDigit.2 ⟨hd, rfl⟩
    rw [h1 c hc] at this
    cases this
  · rw [if_pos (List.any_eq_true.2 ⟨c, hc, (byteDigit.1 h1).1⟩)]
    cases e with
    | mk sec str =>
    simp only at h2 h3
    subst h2
    rw [batoi_int h3]

theorem parseSubmatches_of {s : Bytes} {es : Option (List Submatch)} (h : RewriteMeans s es) : parseSubmatches s = es := by
  unfold parseSubmatches
  cases es with
  | none => exact if_pos h
  | some es =>
    obtain ⟨h1, ps, h2, rfl, h3, h4⟩ := h
    rw [if_neg h1, splitBar_of ps h2 h3]
    congr 1
    clear h1 h2 h3
    induction h4 with
    | nil => rfl
    | cons h _ ih => rw [List.map_cons, elem_of h, ih]

theorem Stands.denotes {compile : Bytes → Option Re} {d : Defs} {m : Line} {i : Item Bytes Bytes Body}
    (h : Stands compile d m i) : Denotes compile d m i := by
  cases h with
  | inh h => exact .inh h
  | @own re push pop subs h1 h2 h3 h4 h5 =>
    have := Denotes.own (compile := compile) (re := re) h1 (by
      by_cases h : m.re = []
      · rw [if_pos h]; exact h2 h
      · rw [if_neg h]; exact h3 h)
    rw [moveOfText_of h4, parseSubmatches_of h5] at this
    exact this

/-- Every text for the stack means something, and one thing only; likewise for rewritings. -/
theorem means_total (s : Bytes) : (∃ push pop, MoveMeans s push pop) ∧ ∃ es, RewriteMeans s es := by
  refine ⟨?_, ?_⟩
  · by_cases h : ∃ k, 0 < k ∧ s = List.replicate k 94
    · obtain ⟨k, h1, h2⟩ := h; exact ⟨[], k, .inl ⟨h1, rfl, h2⟩⟩
    · exact ⟨s, 0, .inr ⟨rfl, rfl, fun k hk e => h ⟨k, hk, e⟩⟩⟩
  · by_cases h : s = []
    · exact ⟨none, h⟩
    · have split : ∀ s : Bytes, ∃ ps : List Bytes, ps ≠ [] ∧ [124].intercalate ps = s ∧ ∀ p ∈ ps, 124 ∉ p := by
        intro s
        induction s with
        | nil => exact ⟨[[]], by simp, by simp [List.intercalate], by simp⟩
        | cons c s ih =>
          obtain ⟨ps, h1, h2, h3⟩ := ih
          obtain ⟨p, ps, rfl⟩ := List.exists_cons_of_ne_nil h1
          by_cases hc : c = 124
          · subst hc
            refine ⟨[] :: p :: ps, by simp, ?_, ?_⟩
            · rw [← h2]; simp [List.intercalate, List.intersperse]
            · intro q hq
              rw [List.mem_cons] at hq
              rcases hq with rfl | hq
              · simp
              · exact h3 q hq
          · refine ⟨(c :: p) :: ps, by simp, ?_, ?_⟩
            · rw [← h2]; cases ps <;> simp [List.intercalate, List.intersperse]
            · intro q hq
              rw [List.mem_cons] at hq
              rcases hq with rfl | hq
              · rw [List.mem_cons, not_or]; exact ⟨fun e => hc e.symm, h3 p (by simp)⟩
              · exact h3 q (by simp [hq])
      have elem : ∀ p : Bytes, ∃ e, ElemMeans p e := by
        intro p
        by_cases hp : ∀ c ∈ p, byteNumerals.digit c = none
        · exact ⟨_, .inl ⟨hp, rfl⟩⟩
        · have hd : ∃ c ∈ p, ∃ d, byteNumerals.digit c = some d := by
            by_contra hn
            refine hp fun c hc => ?_
            cases hd : byteNumerals.digit c with
            | none => rfl
            | some d => exact absurd ⟨c, hc, d, hd⟩ hn
          obtain ⟨i, hi⟩ := intOf_ex byteNumerals p
          exact ⟨⟨i, []⟩, .inr ⟨hd, rfl, hi⟩⟩
      obtain ⟨ps, h1, h2, h3⟩ := split s
      have : ∃ es, List.Forall₂ ElemMeans ps es := by
        clear h1 h2 h3
        induction ps with
        | nil => exact ⟨[], .nil⟩
        | cons p ps ih => obtain ⟨es, h⟩ := ih; obtain ⟨e, he⟩ := elem p; exact ⟨e :: es, .cons he h⟩
      obtain ⟨es, he⟩ := this
      exact ⟨some es, h, ps, h1, h2, h3, he⟩

/-- Non-trivial cases: `^^^` pops three; `1|-|x2` is section 1, a literal, and section 0. -/
example : MoveMeans [94, 94, 94] [] 3 ∧ RewriteMeans [49, 124, 45, 124, 120, 50] (some [⟨1, []⟩, ⟨-1, [45]⟩, ⟨0, []⟩]) := by
  refine ⟨.inl ⟨by decide, rfl, rfl⟩, by decide, [[49], [45], [120, 50]], by decide, by decide, by decide, ?_⟩
  refine .cons (.inr ⟨⟨49, by decide, 1, by decide⟩, rfl, intOf_small (.plain (n := 1) (.one (by decide))) (by decide)⟩)
    (.cons (.inl ⟨by decide, rfl⟩) (.cons (.inr ⟨⟨50, by decide, 2, by decide⟩, rfl, .inr ⟨?_, rfl⟩⟩) .nil))
  intro i hi
  cases hi with
  | plain h =>
    obtain ⟨c, cs, e, h⟩ := h.head
    cases e
    revert h; decide

/-- `items` is what the sub-lexers of a definition stand for: names are distinct, every line that is the
name of a sub-lexer inherits from it, every other line is a rule whose regexp compiles; and inheritance
is acyclic, as witnessed by a rank. -/
structure WellFormed (compile : Bytes → Option Re) (d : Defs) (items : Bytes → List (Item Bytes Bytes Body)) :
    Prop where
  names : (d.map Prod.fst).Nodup
  lines : ∀ x ls, (x, ls) ∈ d → List.Forall₂ (Stands compile d) ls (items x)
  undef : ∀ x, x ∉ d.map Prod.fst → items x = []
  acyclic : ∃ rank : Bytes → Nat, ∀ x y, Item.inh y ∈ items x → rank y < rank x

theorem WellFormed.good {compile : Bytes → Option Re} {d : Defs} {items : Bytes → List (Item Bytes Bytes Body)}
    (h : WellFormed compile d items) : ∃ rank, GoodDefs compile d items rank := by
  obtain ⟨rank, hr⟩ := h.acyclic
  refine ⟨rank, ⟨fun x => ?_, hr⟩⟩
  by_cases hx : x ∈ d.map Prod.fst
  · obtain ⟨⟨x', ls⟩, hm, rfl⟩ := List.mem_map.1 hx
    rw [linesOf_mem h.names hm]
    exact (h.lines _ _ hm).imp fun _ _ h => h.denotes
  · rw [h.undef x hx]
    have : linesOf d x = [] := by
      unfold linesOf
      cases hf : d.reverse.find? fun y => y.1 == x with
      | none => rfl
      | some y =>
        obtain ⟨hm, hp⟩ := find_last _ _ hf
        exact absurd (List.mem_map.2 ⟨y, hm, by simpa using hp⟩) hx
    rw [this]
    exact .nil

/-! ### Claims -/

/-- C47 fails for every definition: `New` returns and its error is nil, whether or not inheritance is
cyclic, whether or not the regexps compile. (It does return: neither cycles nor the propagation of
rules to heirs make it run forever.) -/
theorem C47_refuted (compile : Bytes → Option Re) (ord : List Bytes) (d : Defs) :
    ∃ l, Out.Returns (newLexer compile ord d) (l, false) := by
  obtain ⟨st, h1, -⟩ := parseAll_spec compile d ord (initSt d) (initSt_inv d) rfl
  refine ⟨lexerOf d st, undone d (initSt d) + 1, fun n hn => ?_⟩
  have := h1 n (by omega)
  unfold initSt at this
  unfold newLexer
  rw [this]
  rfl

/-- All that is said about the lexers built from well-formed definitions, for iteration orders that may have other names in them. -/
theorem built (compile : Bytes → Option Re) (ord : List Bytes) (d : Defs)
    (items : Bytes → List (Item Bytes Bytes Body)) (hd : WellFormed compile d items)
    (hord : ∀ x ∈ d.map Prod.fst, x ∈ ord) :
    ∃ l D, Out.Returns (newLexer compile ord d) (l, false) ∧
      Visits items [] [] ((ord.filter fun x => decide (x ∈ d.map Prod.fst)).map Item.inh) D l.set.symb2str ∧ l.set.symb2str.Nodup ∧
      (∀ x, l.lexers x ≠ none ↔ x ∈ d.map Prod.fst) ∧
      (∀ x ls d', d = (x, ls) :: d' → l.start = l.lexers x) ∧
      ∀ x s, l.lexers x = some s → ∃ v, Entries l.set.symb2str s v ∧ CollectsBy l.set.symb2str items (items x) [] v := by
  obtain ⟨rank, hgood⟩ := hd.good
  obtain ⟨st, h1, hi, hs, hg⟩ := parseAll_spec compile d ord (initSt d) (initSt_inv d) rfl
  obtain ⟨hsem, hdone, hvis⟩ := hg items rank hgood (by intro x i _ h; cases h)
  obtain ⟨D, -, hv⟩ := hvis [] (fun x => ⟨fun h => (by cases h), fun h => (by cases h)⟩)
  refine ⟨lexerOf d st, D, ⟨undone d (initSt d) + 1, fun n hn => ?_⟩, hv, hi.set.nodup, ?_, ?_, ?_⟩
  · have := h1 n (by omega)
    unfold initSt at this
    unfold newLexer
    rw [this]
    rfl
  · intro x
    rw [← lexersOf_isSome]
    simp only [lexerOf, ne_eq, Option.map_eq_none_iff, ← Option.isSome_iff_ne_none, Option.isSome_iff_exists]
  · intro x ls d' e
    have hx : x ∈ d.map Prod.fst := by rw [e]; simp
    obtain ⟨i, hi⟩ := lexersOf_isSome.2 hx
    obtain ⟨ls', hi'⟩ := lexersOf_some hi
    have h0 : i = 0 := by
      have h2 : (d.map Prod.fst)[i]? = some x := by rw [List.getElem?_map, hi']; rfl
      have h3 : (d.map Prod.fst)[0]? = some x := by rw [e]; rfl
      obtain ⟨a1, a2⟩ := List.getElem?_eq_some_iff.1 h2
      obtain ⟨b1, b2⟩ := List.getElem?_eq_some_iff.1 h3
      exact (List.Nodup.getElem_inj_iff hd.names).1 (a2.trans b2.symm)
    subst h0
    simp only [lexerOf, hi, Option.map_some]
    rw [if_neg (by rw [e]; simp)]
  · intro x s hx
    simp only [lexerOf, Option.map_eq_some_iff] at hx
    obtain ⟨i, hi', rfl⟩ := hx
    have hx : x ∈ d.map Prod.fst := lexersOf_isSome.1 ⟨i, hi'⟩
    obtain ⟨v, hv, hc⟩ := hsem x i hi' (hdone x (hord x hx) hx) (by rw [hs.stack]; rfl)
    exact ⟨v, ⟨hv.keys, hv.rules, hv.all⟩, hc⟩

/-- The rules of a lexer built from a well-formed definition are those declared, own ones in the order
of declaration, with an inherited block at the place of the line that inherits; an entry whose kind is
there already is ignored. Only the order within an inherited block is not as declared
(`C46_refuted`); `C46_exact` says what it is. -/
theorem C46_contents_partial (compile : Bytes → Option Re) (ord : List Bytes) (d : Defs)
    (items : Bytes → List (Item Bytes Bytes Body)) (hd : WellFormed compile d items)
    (hord : ∀ x ∈ d.map Prod.fst, x ∈ ord) :
    ∃ l, Out.Returns (newLexer compile ord d) (l, false) ∧
      (∀ x, l.lexers x ≠ none ↔ x ∈ d.map Prod.fst) ∧
      (∀ x ls d', d = (x, ls) :: d' → l.start = l.lexers x) ∧
      ∀ x s, l.lexers x = some s → ∃ v, Entries l.set.symb2str s v ∧ Collects items (items x) [] v := by
  obtain ⟨l, D, h1, -, -, h2, h3, h4⟩ := built compile ord d items hd hord
  refine ⟨l, h1, h2, h3, fun x s hs => ?_⟩
  obtain ⟨v, hv, hc⟩ := h4 x s hs
  exact ⟨v, hv, hc.collects⟩

/-- What the rules are exactly, for every iteration order `ord` of the map of sub-lexers: go through the sub-lexers in that order,
through those a line inherits from when it is met, and through none twice; this gives the kinds `K` in the order in which they are first
met. The rules of a sub-lexer are those declared, with an inherited block at the place of the line that inherits, and with the rules in
this block ordered as their kinds are in `K`. Both `K` and the rules are determined by this. -/
theorem C46_exact (compile : Bytes → Option Re) (ord : List Bytes) (d : Defs)
    (items : Bytes → List (Item Bytes Bytes Body)) (hd : WellFormed compile d items) (hord : ord.Perm (d.map Prod.fst)) :
    ∃ l D K, Out.Returns (newLexer compile ord d) (l, false) ∧ l.set.symb2str = K ∧ Visits items [] [] (ord.map Item.inh) D K ∧
      (∀ D' K', Visits items [] [] (ord.map Item.inh) D' K' → K' = K) ∧
      (∀ x, l.lexers x ≠ none ↔ x ∈ d.map Prod.fst) ∧
      (∀ x ls d', d = (x, ls) :: d' → l.start = l.lexers x) ∧
      ∀ x s, l.lexers x = some s → ∃ v, Entries K s v ∧ CollectsBy K items (items x) [] v ∧
        ∀ v', CollectsBy K items (items x) [] v' → v' = v := by
  obtain ⟨l, D, h1, hv, hn, h2, h3, h4⟩ := built compile ord d items hd fun x hx => hord.symm.subset hx
  rw [List.filter_eq_self.2 fun x hx => decide_eq_true (hord.subset hx)] at hv
  refine ⟨l, D, _, h1, rfl, hv, fun D' K' h => (h.unique hv).2, h2, h3, fun x s hs => ?_⟩
  obtain ⟨v, hv, hc⟩ := h4 x s hs
  exact ⟨v, hv, hc, fun v' h => h.unique hn hc⟩

theorem WellFormed.inherits {compile : Bytes → Option Re} {d : Defs} {items : Bytes → List (Item Bytes Bytes Body)}
    (h : WellFormed compile d items) {x y : Bytes} (hy : Item.inh y ∈ items x) : y ∈ d.map Prod.fst := by
  by_cases hx : x ∈ d.map Prod.fst
  · obtain ⟨⟨x', ls⟩, hm, rfl⟩ := List.mem_map.1 hx
    obtain ⟨i, hi⟩ := List.mem_iff_getElem?.1 hy
    obtain ⟨m, hm'⟩ : ∃ m, Stands compile d m (.inh y) := by
      have hf := h.lines _ _ hm
      simp only at hy
      clear hi hm hx
      generalize items x' = is at hf hy
      induction hf with
      | nil => cases hy
      | cons h1 _ ih =>
        rcases List.mem_cons.1 hy with e | e
        · exact ⟨_, e ▸ h1⟩
        · exact ih e
    cases hm' with
    | inh h => exact h
  · rw [h.undef x hx] at hy
    cases hy

/-- If the sub-lexers that are inherited from do not inherit themselves, and have no kinds that other sub-lexers declare, the rules of all
sub-lexers are as declared, for every iteration order: what C46 claims. -/
theorem C46_plain_partial (compile : Bytes → Option Re) (ord : List Bytes) (d : Defs)
    (items : Bytes → List (Item Bytes Bytes Body)) (hd : WellFormed compile d items) (hord : ord.Perm (d.map Prod.fst))
    (hplain : ∀ x y, Item.inh y ∈ items x → (∀ i ∈ items y, ∃ e, i = .own e) ∧
      ∀ z, z ≠ y → ∀ p q, Item.own p ∈ items y → Item.own q ∈ items z → p.1 ≠ q.1) :
    ∃ l, Out.Returns (newLexer compile ord d) (l, false) ∧ (∀ x, l.lexers x ≠ none ↔ x ∈ d.map Prod.fst) ∧
      (∀ x ls d', d = (x, ls) :: d' → l.start = l.lexers x) ∧
      ∀ x s, l.lexers x = some s → ∃ v, Entries l.set.symb2str s v ∧ Declares items (items x) [] v := by
  obtain ⟨l, D, h1, hv, hn, h2, h3, h4⟩ := built compile ord d items hd fun x hx => hord.symm.subset hx
  rw [List.filter_eq_self.2 fun x hx => decide_eq_true (hord.subset hx)] at hv
  refine ⟨l, h1, h2, h3, fun x s hs => ?_⟩
  obtain ⟨v, hv', hc⟩ := h4 x s hs
  refine ⟨v, hv', hc.declares hn fun y hy u hu => ?_⟩
  obtain ⟨z, hz⟩ : ∃ z, Item.inh y ∈ items z := by
    generalize hi : items x = is at hy
    clear hs hv' hc hu
    induction hy generalizing x with
    | here h => exact ⟨x, hi ▸ h⟩
    | through _ _ ih => exact ih _ rfl
  obtain ⟨ho, hq⟩ := hplain z y hz
  refine (Visits.plain ho hq hu hv (fun p q _ h => ?_) (fun h => by cases h) (fun _ p _ h => by cases h)).1
    (hv.seen.2 y (List.mem_map.2 ⟨y, hord.symm.subset (hd.inherits hz), rfl⟩))
  obtain ⟨_, _, h⟩ := List.mem_map.1 h
  cases h

/-- Two iteration orders give each sub-lexer the same rules, except for priorities; and the same
priorities too in sub-lexers that do not inherit. -/
theorem C46_same_rules_partial (compile : Bytes → Option Re) (ord ord' : List Bytes) (d : Defs)
    (items : Bytes → List (Item Bytes Bytes Body)) (hd : WellFormed compile d items)
    (hord : ∀ x ∈ d.map Prod.fst, x ∈ ord) (hord' : ∀ x ∈ d.map Prod.fst, x ∈ ord') :
    ∃ l l', Out.Returns (newLexer compile ord d) (l, false) ∧ Out.Returns (newLexer compile ord' d) (l', false) ∧
      (∀ x, l.lexers x ≠ none ↔ l'.lexers x ≠ none) ∧
      ∀ x s s', l.lexers x = some s → l'.lexers x = some s' → ∃ v v', Entries l.set.symb2str s v ∧
        Entries l'.set.symb2str s' v' ∧ v.Perm v' ∧ ((∀ y, Item.inh y ∉ items x) → v = v') := by
  obtain ⟨l, h1, h2, -, h3⟩ := C46_contents_partial compile ord d items hd hord
  obtain ⟨l', h1', h2', -, h3'⟩ := C46_contents_partial compile ord' d items hd hord'
  refine ⟨l, l', h1, h1', fun x => (h2 x).trans (h2' x).symm, ?_⟩
  intro x s s' hs hs'
  obtain ⟨v, hv, hc⟩ := h3 x s hs
  obtain ⟨v', hv', hc'⟩ := h3' x s' hs'
  exact ⟨v, v', hv, hv', hc.perm hc' (.refl _), fun hn => hc.unique hn hc'⟩

/-! ### Concrete cases -/

/-- Compiles `x`, the newline, and `w` for `[a-z]+`; nothing else. -/
def comp (s : Bytes) : Option Re :=
  if s = [120] then some reX else if s = [10] then some reNl else if s = [119] then some reWord else none

def line (word : Bytes) (re : Bytes := []) : Line := ⟨word, re, [], [], false⟩

/-- ```
== m ==
  s
== s ==
  a /x/
  b /x/
== o ==
  k /\n/
``` -/
def defOf (k : Bytes) : Defs := [([109], [line [115]]), ([115], [line [97] [120], line [98] [120]]), ([111], [line k [10]])]

/-- The same with `b` for `k`. -/
def defABC : Defs := defOf [98]

/-- What it stands for. -/
def itemsOf (k x : Bytes) : List (Item Bytes Bytes Body) :=
  if x = [109] then [.inh [115]]
  else if x = [115] then [.own ([97], ⟨reX, false, [], 0, none⟩), .own ([98], ⟨reX, false, [], 0, none⟩)]
  else if x = [111] then [.own (k, ⟨reNl, false, [], 0, none⟩)] else []

/-- The names of the kinds of the lexemes for an input, with the lexer of a definition. -/
def kindsFor (ord : List Bytes) (d : Defs) (b : Bytes) : Option (List (Option Bytes)) :=
  match newLexer comp ord d 9 with
  | .ok (l, false) =>
    match lex 20 l b with
    | .ok (lxs, l') => some (lxs.map fun x =>
      match x.kind with
      | .idx i => l'.set.symb2str[i]?
      | .plain s => some s)
    | _ => none
  | _ => none

/-- The definition is well-formed. -/
theorem defOf_wf {k : Bytes} (hk : k ∉ [[109], [115], [111]]) : WellFormed comp (defOf k) (itemsOf k) := by
  have en : (defOf k).map Prod.fst = [[109], [115], [111]] := rfl
  refine ⟨by rw [en]; decide, ?_, ?_, ⟨fun x => if x = [109] then 1 else 0, ?_⟩⟩
  · have own : ∀ {w r : Bytes} {re : Re}, w ∉ (defOf k).map Prod.fst → (if r = [] then comp w else comp r) = some re →
        Stands comp (defOf k) (line w r) (.own (w, ⟨re, false, [], 0, none⟩)) := by
      intro w r re h1 h2
      refine .own h1 (fun h => by rw [if_pos (show r = [] from h)] at h2; exact h2)
        (fun h => by rw [if_neg (show r ≠ [] from h)] at h2; exact h2)
        (.inr ⟨rfl, rfl, fun n hn e => ?_⟩) rfl
      have := congrArg List.length e
      simp [line] at this
      omega
    intro x ls h
    simp only [defOf, List.mem_cons, Prod.mk.injEq, List.not_mem_nil, or_false] at h
    rcases h with ⟨rfl, rfl⟩ | ⟨rfl, rfl⟩ | ⟨rfl, rfl⟩
    · exact .cons (.inh (by rw [en]; decide)) .nil
    · exact .cons (own (by rw [en]; decide) rfl) (.cons (own (by rw [en]; decide) rfl) .nil)
    · exact .cons (own hk rfl) .nil
  · intro x hx
    simp only [en, List.mem_cons, List.not_mem_nil, or_false, not_or] at hx
    unfold itemsOf
    rw [if_neg hx.1, if_neg hx.2.1, if_neg hx.2.2]
  · intro x y h
    unfold itemsOf at h
    split at h
    · next hx =>
      simp only [List.mem_cons, Item.inh.injEq, List.not_mem_nil, or_false] at h
      subst h; subst hx
      decide
    · split at h
      · simp at h
      · split at h <;> simp at h

theorem defABC_wf : WellFormed comp defABC (itemsOf [98]) := defOf_wf (by decide)

/-- C46 fails: `m` inherits `a` and `b`, both matching `x`, from `s`, where `a` is declared first and
wins. If the map is iterated over from `m`, an `x` is lexed as `a`; if it happens to start with `o`, the
same `x` is lexed as `b`. -/
theorem C46_refuted :
    kindsFor [[109], [115], [111]] defABC [120] = some [some [97]] ∧
    kindsFor [[111], [109], [115]] defABC [120] = some [some [98]] := by decide +kernel

/-- The hypotheses of the theorems above hold for it. -/
example : ∃ l l', Out.Returns (newLexer comp [[109], [115], [111]] defABC) (l, false) ∧
    Out.Returns (newLexer comp [[111], [109], [115]] defABC) (l', false) ∧
    (∀ x, l.lexers x ≠ none ↔ l'.lexers x ≠ none) := by
  obtain ⟨l, l', h1, h2, h3, -⟩ := C46_same_rules_partial comp [[109], [115], [111]] [[111], [109], [115]] defABC _
    defABC_wf (by decide) (by decide)
  exact ⟨l, l', h1, h2, h3⟩

/-- The kinds of `defABC` are met in another order if the map is iterated over from `o`; the rules of `m`, by `C46_exact`, in that of the
kinds. -/
example : ∃ l D s v, Out.Returns (newLexer comp [[111], [109], [115]] defABC) (l, false) ∧ l.set.symb2str = [[98], [97]] ∧
    D = ([[115], [109], [111]] : List Bytes) ∧ l.lexers [109] = some s ∧ Entries [[98], [97]] s v ∧ v.map Prod.fst = [[98], [97]] := by
  obtain ⟨l, D, K, h1, h2, h3, h4, h5, -, h6⟩ := C46_exact comp [[111], [109], [115]] defABC _ defABC_wf (by decide)
  have hv : Visits (itemsOf [98]) [] [] ([[111], [109], [115]].map Item.inh) [[115], [109], [111]] [[98], [97]] :=
    .new (by decide) (.own .nil) (.new (by decide) (.new (by decide) (.own (.own .nil)) .nil) (.old (by decide) .nil))
  obtain ⟨hD, hK⟩ := hv.unique h3
  subst hK
  cases hs : l.lexers [109] with
  | none => exact absurd hs ((h5 _).2 (by decide))
  | some s =>
    obtain ⟨v, h7, -, h8⟩ := h6 _ s hs
    refine ⟨l, D, s, v, h1, h2, hD.symm, hs, h7, ?_⟩
    rw [← h8 [([98], ⟨reX, false, [], 0, none⟩), ([97], ⟨reX, false, [], 0, none⟩)]
      (.inh (.own (.own .nil)) (.swap _ _ _) (.refl _) .nil)]
    rfl

/-- With `c` for `k` nothing depends on the iteration order: the rules of `m` are always those of `s`, in their order. -/
example (ord : List Bytes) (hord : ord.Perm [[109], [115], [111]]) : ∃ l s v, Out.Returns (newLexer comp ord (defOf [99])) (l, false) ∧
    l.lexers [109] = some s ∧ Entries l.set.symb2str s v ∧ v.map Prod.fst = [[97], [98]] := by
  obtain ⟨l, h1, h2, -, h3⟩ := C46_plain_partial comp ord (defOf [99]) (itemsOf [99]) (defOf_wf (by decide)) hord (by
    intro x y hy
    have : y = [115] := by
      unfold itemsOf at hy
      split at hy
      · simpa using hy
      · split at hy
        · simp at hy
        · split at hy <;> simp at hy
    subst this
    refine ⟨fun i hi => ?_, fun z hz p q hp hq => ?_⟩
    · simp [itemsOf] at hi
      rcases hi with rfl | rfl
      · exact ⟨_, rfl⟩
      · exact ⟨_, rfl⟩
    · have hq' : q.1 = [99] := by
        unfold itemsOf at hq
        split at hq
        · simp at hq
        · split at hq
          · simp at hq; rw [hq]
          · simp at hq
      simp [itemsOf] at hp
      rcases hp with rfl | rfl <;> rw [hq'] <;> decide)
  cases hs : l.lexers [109] with
  | none => exact absurd hs ((h2 _).2 (by decide))
  | some s =>
    obtain ⟨v, hv, hd⟩ := h3 _ s hs
    refine ⟨l, s, v, h1, hs, hv, ?_⟩
    cases hd with
    | inh hd hn =>
      cases hn
      cases hd with
      | own hd => cases hd with
        | own hd => cases hd; rfl

/-- C47: two sub-lexers that inherit from each other. In either iteration order `m` loses everything
after the line that inherits: the rule `b /w/` is dropped without an error being returned, and a `y` is
not lexed. -/
def cyclic : Defs := [([109], [line [97] [120], line [110], line [98] [119]]), ([110], [line [109]])]

theorem C47_cyclic : kindsFor [[109], [110]] cyclic [120, 121] = some [some [97], some [69, 114, 114, 111, 114]] ∧
    kindsFor [[110], [109]] cyclic [120, 121] = some [some [97], some [69, 114, 114, 111, 114]] := by decide +kernel

/-- C47: a regexp that does not compile, in the second line; the third, `c /w/`, is dropped without an
error being returned. With the bad line removed the third counts. -/
theorem C47_regexp :
    kindsFor [[109]] [([109], [line [97] [120], line [98] [40], line [99] [119]])] [120, 121] =
      some [some [97], some [69, 114, 114, 111, 114]] ∧
    kindsFor [[109]] [([109], [line [97] [120], line [99] [119]])] [120, 121] = some [some [99]] := by
  decide +kernel

/-- With a bad regexp in a sub-lexer that is inherited from, the iteration order decides whether the
heir gets the rules that precede it: if the heir is parsed first it gets nothing, otherwise it gets
them. -/
theorem C46_bad_refuted :
    kindsFor [[109], [115]] [([109], [line [115]]), ([115], [line [97] [120], line [98] [40]])] [120] =
      some [some [69, 114, 114, 111, 114]] ∧
    kindsFor [[115], [109]] [([109], [line [115]]), ([115], [line [97] [120], line [98] [40]])] [120] =
      some [some [97]] := by decide +kernel

/-- A second sub-lexer with the name of the first: the lexer starts in an empty sub-lexer. -/
example : kindsFor [[109]] [([109], [line [97] [120]]), ([109], [line [97] [120]])] [120] =
    some [some [69, 114, 114, 111, 114]] := by decide +kernel

end Verif.Props.StackLexerNew
