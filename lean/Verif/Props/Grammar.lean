import Verif.Proofs.GrammarRound
/-
Properties of grammar/grammar.go (C09-C11). The specification of a grammar as the record of added
rules, and of texts defining rules, is Verif.Spec.GrammarDef.
-/
namespace Verif.Props.Grammar
open Verif.SetSymbol Verif.Spec Verif.Grammar

section
variable {α : Type} [DecidableEq α]

/-- What clients see of `g` is the grammar `G`: `NonTerminals` lists the nonterminals of `G`, and
`Productions` of any symbol, passed as a foreign symbol or as the grammar's own, lists its productions
in `G` and is nil if `G` has none. -/
def Shows (g : Gram α) (G : Spec.Grammar α) : Prop :=
  nonTerminals g = .ok G.order ∧ ∀ x : Bool × α, readProductions g (arg g.set x) = .ok (G.prods x.2)

theorem shows_of_rep {g : Gram α} {adds} (h : Rep g adds) : Shows g (record adds) :=
  ⟨h.nonTerminals, fun x => by obtain ⟨_, _, _, e⟩ := h.productions x; exact e⟩

/-- The rules added by a history of calls; a nil production adds the empty production. -/
def addsOf : List (GOp α) → List (α × List α)
  | [] => []
  | .add A p :: h => (A.2, (p.getD []).map (·.2)) :: addsOf h
  | _ :: h => addsOf h

theorem grun_rep (h : List (GOp α)) : ∀ {g : Gram α} {adds}, Rep g adds →
    ∃ g', grun g h = .ok g' ∧ Rep g' (adds ++ addsOf h) := by
  induction h with
  | nil => intro g adds hr; exact ⟨g, rfl, by simpa [addsOf] using hr⟩
  | cons o h ih =>
    intro g adds hr
    cases o with
    | add A p =>
      obtain ⟨g1, e, hr1⟩ := hr.add A p
      obtain ⟨g2, e2, hr2⟩ := ih hr1
      refine ⟨g2, ?_, by simpa [addsOf] using hr2⟩
      simp only [grun, gstep, e, Out.bind_ok]; exact e2
    | productions A =>
      obtain ⟨g1, ⟨r, e⟩, hr1, _⟩ := hr.productions A
      obtain ⟨g2, e2, hr2⟩ := ih hr1
      refine ⟨g2, ?_, by simpa [addsOf] using hr2⟩
      simp only [grun, gstep, e, Out.bind_ok]; exact e2
    | nonTerminals =>
      obtain ⟨g2, e2, hr2⟩ := ih hr
      refine ⟨g2, ?_, by simpa [addsOf] using hr2⟩
      simp only [grun, gstep, hr.nonTerminals, Out.bind_ok]; exact e2

/-- **C09.** After any history of calls of Add, Productions and NonTerminals on an empty grammar
(symbols passed as foreign symbols or as the grammar's own, nil productions allowed), no call has
panicked and clients see exactly the record of the Add calls. -/
theorem C09_history (h : List (GOp α)) :
    ∃ g, grun empty h = .ok g ∧ Shows g (record (addsOf h)) := by
  obtain ⟨g, e, hr⟩ := grun_rep h (rep_empty (α := α))
  exact ⟨g, e, shows_of_rep (by simpa using hr)⟩

/-- What the record says (C09): a symbol has productions iff it was the left side of an Add; they are
the right sides in call order; the nonterminals are the left sides, each once, and in order of their
first Add. -/
theorem C09_record (adds : List (α × List α)) :
    (∀ A, (record adds).prods A = none ↔ ∀ p, (A, p) ∉ adds) ∧
    (∀ A ps, (record adds).prods A = some ps → ps = adds.filterMap fun x => if x.1 = A then some x.2 else none) ∧
    (record adds).order.Nodup ∧ (∀ A, A ∈ (record adds).order ↔ ∃ p, (A, p) ∈ adds) ∧
    (∀ A B p pre post, adds = pre ++ (A, p) :: post → (∀ q, (A, q) ∉ pre) → (∀ q, (B, q) ∉ pre) →
      B ≠ A → B ∈ (record adds).order → [A, B].Sublist (record adds).order) := by
  refine ⟨?_, ?_, record_order_nodup adds, ?_, ?_⟩
  · intro A
    have hw := record_wf adds A
    rw [record_mem_order] at hw
    constructor
    · intro h p hp
      rw [h] at hw
      exact absurd (hw.2 (List.mem_map.2 ⟨_, hp, rfl⟩)) (by simp)
    · intro h
      cases e : (record adds).prods A with
      | none => rfl
      | some ps =>
        rw [e] at hw
        obtain ⟨x, hx, rfl⟩ := List.mem_map.1 (hw.1 rfl)
        exact absurd hx (h x.2)
  · intro A ps h
    simp only [record] at h
    split at h
    · cases h
      generalize adds = l
      induction l with
      | nil => rfl
      | cons x l ih =>
        by_cases hx : x.1 = A
        · simp [hx, ih]
        · simp [hx, ih]
    · cases h
  · intro A
    rw [record_mem_order, List.mem_map]
    exact ⟨fun ⟨x, hx, e⟩ => ⟨x.2, by rw [← e]; exact hx⟩, fun ⟨p, hp⟩ => ⟨_, hp, rfl⟩⟩
  · intro A B p pre post e hA hB hne hBo
    subst e
    have hmono : ∀ (l o : List α), o <+: l.foldl (fun o A => if A ∈ o then o else o ++ [A]) o := by
      intro l
      induction l with
      | nil => intro o; exact List.prefix_refl _
      | cons x l ih =>
        intro o
        rw [List.foldl_cons]
        split
        · exact ih o
        · exact (List.prefix_append o [x]).trans (ih _)
    have hApre : A ∉ (record pre).order := by
      rw [record_mem_order]
      intro h
      obtain ⟨x, hx, rfl⟩ := List.mem_map.1 h
      exact hA _ hx
    have hBpre : B ∉ (record pre).order := by
      rw [record_mem_order]
      intro h
      obtain ⟨x, hx, rfl⟩ := List.mem_map.1 h
      exact hB _ hx
    have e1 : (record (pre ++ (A, p) :: post)).order =
        (post.map (·.1)).foldl (fun o A => if A ∈ o then o else o ++ [A]) ((record pre).order ++ [A]) := by
      have e0 : (record (pre ++ (A, p) :: post)).order = ((pre ++ (A, p) :: post).map (·.1)).foldl
          (fun o A => if A ∈ o then o else o ++ [A]) [] := rfl
      rw [e0, List.map_append, List.map_cons, List.foldl_append, List.foldl_cons]
      exact congrArg (fun o => (post.map (·.1)).foldl (fun o A => if A ∈ o then o else o ++ [A]) o) (if_neg hApre)
    obtain ⟨t, ht⟩ := hmono (post.map (·.1)) ((record pre).order ++ [A])
    rw [← e1] at ht
    rw [← ht] at hBo ⊢
    have hBt : B ∈ t := by
      rcases List.mem_append.1 hBo with h | h
      · rcases List.mem_append.1 h with h | h
        · exact absurd h hBpre
        · simp at h; exact absurd h hne
      · exact h
    have h1 : [A].Sublist ((record pre).order ++ [A]) := List.sublist_append_right _ _
    have h2 : [B].Sublist t := List.singleton_sublist.2 hBt
    exact h1.append h2

end

/-- **C10.** `New` fails exactly on the texts that have a line with two arrows; otherwise the grammar it
builds shows the record of the rules of the text. -/
theorem C10_new (text : Str) (lines : List Str) (hl : Pieces '\n' text lines) :
    (new text = none ↔ ∃ l ∈ lines, BadLine l) ∧
    ∀ r, Rules none lines r → ∃ g, new text = some g ∧ Shows g (record r) := by
  have e := pieces_unique hl
  subst e
  constructor
  · constructor
    · intro h
      rcases new_spec text with ⟨hb, _⟩ | ⟨g, r, e, _, _⟩
      · exact hb
      · rw [h] at e; cases e
    · rintro ⟨l, hl, hb⟩
      rcases new_spec text with ⟨_, e⟩ | ⟨g, r, _, hr, _⟩
      · exact e
      · exact absurd hb (rules_not_bad hr l hl)
  · intro r hr
    rcases new_spec text with ⟨⟨l, hl, hb⟩, _⟩ | ⟨g, r', e, h1, h2⟩
    · exact absurd hb (rules_not_bad hr l hl)
    · have := rules_unique hr h1
      subst this
      exact ⟨g, e, shows_of_rep h2⟩

/-- The specification used by `C10_new` is total and unambiguous: every text has exactly one list of
lines, and lines without two arrows have exactly one list of rules. -/
theorem C10_spec_total (text : Str) :
    (∃ lines, Pieces '\n' text lines ∧ (∀ lines', Pieces '\n' text lines' → lines' = lines) ∧
      ((∀ l ∈ lines, ¬ BadLine l) → ∃ r, Rules none lines r ∧ ∀ r', Rules none lines r' → r' = r)) := by
  refine ⟨split '\n' text, split_pieces _ _, fun l h => pieces_unique h, fun h => ?_⟩
  rcases new_spec text with ⟨⟨l, hl, hb⟩, _⟩ | ⟨g, r, _, h1, _⟩
  · exact absurd hb (h l hl)
  · exact ⟨r, h1, fun r' h' => rules_unique h' h1⟩

/-- **C11.** If `New` accepts a text, `String` of the grammar returns a text which `New` accepts, and
the grammar it then builds shows the same nonterminals and productions in the same order. -/
theorem C11_round_trip {text : Str} {g : Gram Str} (h : new text = some g) :
    ∃ G txt g', Shows g G ∧ string g = .ok txt ∧ new txt = some g' ∧ Shows g' G := by
  rcases new_spec text with ⟨_, e⟩ | ⟨g1, r, e, h1, h2⟩
  · rw [h] at e; cases e
  · rw [h] at e; cases e
    have hp := split_pieces '\n' text
    have hg := rules_good h1 (fun l hl => (pieces_mem hp l hl).1) (by simp)
    obtain ⟨txt, g', hs, hn, adds', hr', he⟩ := string_new h2 hg
    exact ⟨record r, txt, g', shows_of_rep h2, hs, hn, he ▸ shows_of_rep hr'⟩

/-- Names that survive `String` and `New`: not empty, no white space around, no newline, no arrow
inside; and no blank inside if used in a production. -/
def Printable (adds : List (Str × List Str)) : Prop := GoodAdds adds

/-- **C11**, for grammars built with Add: the round trip holds if all names are printable. -/
theorem C11_round_trip_add {h : List (GOp Str)} {g : Gram Str} (hg : grun empty h = .ok g)
    (hp : Printable (addsOf h)) :
    ∃ txt g', string g = .ok txt ∧ new txt = some g' ∧ Shows g' (record (addsOf h)) := by
  obtain ⟨g1, e, hr⟩ := grun_rep h (rep_empty (α := Str))
  rw [hg] at e; cases e
  obtain ⟨txt, g', hs, hn, adds', hr', he⟩ := string_new (by simpa using hr) hp
  exact ⟨txt, g', hs, hn, he ▸ shows_of_rep hr'⟩

/-! ### Examples -/

/-- Non-trivial case of C09: reads in between, own symbols, a nil production. -/
def exH : List (GOp Nat) :=
  [.productions (false, 7), .add (false, 1) (some [(false, 7), (false, 2)]), .nonTerminals, .add (false, 2) none,
   .productions (true, 2), .add (true, 1) (some [(true, 2)])]

example : addsOf exH = [(1, [7, 2]), (2, []), (1, [2])] := rfl
example : (record (addsOf exH)).order = [1, 2] ∧ (record (addsOf exH)).prods 1 = some [[7, 2], [2]] ∧
    (record (addsOf exH)).prods 7 = none := by decide

def showBool {β : Type} [DecidableEq β] (o : Out β) (r : β) : Bool := match o with | .ok x => decide (x = r) | _ => false

/-- Non-trivial case of C10 and C11: blank lines, odd spacing, a continued rule, an empty production, a
nonterminal with a blank. -/
def exT : Str := "\n  E E  ->  int op\n -> \n\n  x  y \n".toList

example : (match new exT with
    | some g => showBool (nonTerminals g) ["E E".toList] &&
        showBool (readProductions g (.other "E E".toList))
          (some [["int".toList, "op".toList], [], ["x".toList, "y".toList]]) &&
        showBool (string g) "E E -> int op\n    -> \n    -> x y".toList
    | none => false) = true := by decide +kernel

example : new "a -> b\nc -> d -> e".toList = none := by
  refine ((C10_new _ _ (split_pieces _ _)).1).2 ⟨"c -> d -> e".toList, by decide, "c ".toList, " d ".toList, " e".toList, by decide⟩

/-- A text without left side adds to START. -/
example : (match new "a b".toList with
    | some g => showBool (nonTerminals g) ["START".toList] | none => false) = true := by decide +kernel

example : Printable [("E E".toList, ["int".toList])] := by
  intro x hx
  simp at hx
  subst hx
  have hf : ∀ s : Str, '-' ∉ s → ¬ arrow <:+: s := fun s h hi => h (hi.subset (by simp [arrow]))
  refine ⟨⟨by decide, ⟨by decide, by decide⟩, by decide, hf _ (by decide)⟩, ?_⟩
  intro t ht
  simp at ht
  subst ht
  exact ⟨⟨by decide, ⟨by decide, by decide⟩, by decide, hf _ (by decide)⟩, by decide⟩

/-- Without printable names the round trip of an added grammar can fail: a symbol "a b" in a
production comes back as two symbols. -/
theorem C11_add_refuted : ∃ (h : List (GOp Str)) (g : Gram Str) (txt : Str) (g' : Gram Str),
    grun empty h = .ok g ∧ string g = .ok txt ∧ new txt = some g' ∧
    ¬ Shows g' (record (addsOf h)) := by
  let h : List (GOp Str) := [.add (false, "S".toList) (some [(false, "a b".toList)])]
  obtain ⟨g, e, _⟩ := C09_history h
  have key : (match grun empty h with
    | .ok g => (match string g with
      | .ok txt => (match new txt with
        | some g' => showBool (readProductions g' (.other "S".toList)) (some [["a".toList, "b".toList]])
        | none => false)
      | _ => false)
    | _ => false) = true := by decide +kernel
  rw [e] at key
  simp only at key
  cases e2 : string g with
  | panic => rw [e2] at key; cases key
  | fuel => rw [e2] at key; cases key
  | ok txt =>
    rw [e2] at key
    simp only at key
    cases e3 : new txt with
    | none => rw [e3] at key; cases key
    | some g' =>
      rw [e3] at key
      simp only at key
      refine ⟨h, g, txt, g', e, e2, e3, fun hs => ?_⟩
      have h2 := hs.2 (false, "S".toList)
      have h2 : readProductions g' (.other "S".toList) = _ := h2
      rw [h2] at key
      revert key
      decide +kernel

end Verif.Props.Grammar
