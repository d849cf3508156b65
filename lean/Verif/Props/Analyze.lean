import Verif.Proofs.AnalyzeLift
import Verif.Props.Topdown
/-
Properties of the grammar analysis (C52, C53, C63, C64).

`analyze g fuel` models `Analyze`; `hasFirst`, `contains`, `nonTerminal` and `hasNilInFirst` model the
queries on its result. The specification is Verif.Spec.First.
-/
namespace Verif.Props.Analyze
open Verif.Spec Verif.Spec.Grammar Verif.Analyze
open Verif.Props.Packrat (table table_wf)
open Verif.Props.Topdown (isB isB_eq)

variable {α : Type} [DecidableEq α]

theorem good_of {g : Grammar α} (hg : g.WF) {a} (h : Out.Returns (analyze g) a) :
    ∃ fst, Good g a fst := by
  obtain ⟨a', fst, h', hG⟩ := analyze_spec g hg
  cases h.unique h'
  exact ⟨fst, hG⟩

/-- **C64**: Analyze returns for every grammar, left recursive or not, and does not panic; with fuel
above the number of symbols the recursion is never cut short. -/
theorem C64_returns (g : Grammar α) (hg : g.WF) :
    (∃ a, Out.Returns (analyze g) a) ∧ ∀ n, analyze g n ≠ .panic := by
  obtain ⟨a, _, h, _⟩ := analyze_spec g hg
  refine ⟨⟨a, h⟩, fun n hp => ?_⟩
  obtain ⟨N, hN⟩ := h
  have := (analyze_mono g n (max n N) (by omega)).panic hp
  rw [hN _ (by omega)] at this
  cases this

/-! ### HasFirst -/

/-- C52, one half of the part that holds: if leftmost chains to empty productions only start at symbols
that can vanish, HasFirst answers true only for symbols that begin a sentential form. Missing: other
grammars (`C52_sound_refuted`). -/
theorem C52_sound_partial (g : Grammar α) (hg : g.WF) (hn : g.LeftNilIsNullable) {a}
    (h : Out.Returns (analyze g) a) {A t} (hf : hasFirst a A t = true) : g.First A t := by
  obtain ⟨fst, hG⟩ := good_of hg h
  rcases (hG.hasFirst A t).1 hf with h | ⟨rfl, _⟩
  · exact first_iff.2 (.inr (Plus.mono (fun _ _ => ScanStep.left hn) (hG.sound A t h).2))
  · exact first_iff.2 (.inl rfl)

/-- C52, the other half of the part that holds: if no nonterminal reaches itself through symbols
preceded only by symbols with leftmost chains to empty productions, every terminal that begins a
sentential form of a nonterminal is reported. Missing: other grammars (`C52_complete_refuted`). -/
theorem C52_complete_partial (g : Grammar α) (hg : g.WF) (ha : g.ScanAcyclic) {a}
    (h : Out.Returns (analyze g) a) {A t} (hA : A ∈ g.order) (ht : g.Term t) (hf : g.First A t) :
    hasFirst a A t = true := by
  obtain ⟨fst, hG⟩ := good_of hg h
  rcases first_iff.1 hf with rfl | hp
  · have := (hg A).2 hA
    rw [show g.prods A = none from ht] at this
    cases this
  · exact (hG.hasFirst A t).2 (.inl (hG.complete ha A t ht (Plus.mono (fun _ _ => LeftStep.scan) hp)))

/-- C52, the part that holds: HasFirst is exact for grammars that are not left recursive and in which
every symbol with a leftmost chain to an empty production derives the empty word. -/
theorem C52_exact_partial (g : Grammar α) (hg : g.WF) (hlr : ¬ g.LeftRecursive)
    (hn : g.LeftNilIsNullable) {a} (h : Out.Returns (analyze g) a) {A t} (hA : A ∈ g.order)
    (ht : g.Term t) : hasFirst a A t = true ↔ g.First A t :=
  ⟨C52_sound_partial g hg hn h, C52_complete_partial g hg (scanAcyclic_of hn hlr) h hA ht⟩

/-- C52 for grammars without empty productions that are not left recursive. -/
theorem C52_exact_noempty_partial (g : Grammar α) (hg : g.WF) (hlr : ¬ g.LeftRecursive)
    (hn : ∀ A k, ¬ g.Rule A k []) {a} (h : Out.Returns (analyze g) a) {A t} (hA : A ∈ g.order)
    (ht : g.Term t) : hasFirst a A t = true ↔ g.First A t :=
  C52_exact_partial g hg hlr (fun _ h => absurd h (not_leftNil hn)) h hA ht

/-- What HasFirst answers about a nonterminal and a terminal is always a chain of the documented kind:
each symbol on it is preceded in its production only by symbols with leftmost chains to an empty
production. No hypothesis on the grammar. -/
theorem C52_scan (g : Grammar α) (hg : g.WF) {a} (h : Out.Returns (analyze g) a) {A t}
    (hA : A ∈ g.order) (ht : g.Term t) (hf : hasFirst a A t = true) : Plus g.ScanStep A t := by
  obtain ⟨fst, hG⟩ := good_of hg h
  rcases (hG.hasFirst A t).1 hf with h | ⟨rfl, _⟩
  · exact (hG.sound A t h).2
  · have := (hg A).2 hA
    rw [show g.prods A = none from ht] at this
    cases this

/-! ### HasNilInFirst -/

/-- C63, the half that holds for every grammar: HasNilInFirst answers true only if leftmost children
lead to an empty production. -/
theorem C63_sound (g : Grammar α) (hg : g.WF) {a} (h : Out.Returns (analyze g) a) {A}
    (hf : hasNilInFirst a A = true) : g.LeftNil A := by
  obtain ⟨fst, hG⟩ := good_of hg h
  exact hG.nilSound A hf

/-- C63, the part that holds: HasNilInFirst is exact for grammars without scan cycles. Missing: grammars
with such cycles (`C63_refuted`). -/
theorem C63_exact_partial (g : Grammar α) (hg : g.WF) (ha : g.ScanAcyclic) {a}
    (h : Out.Returns (analyze g) a) (A) : hasNilInFirst a A = true ↔ g.LeftNil A := by
  obtain ⟨fst, hG⟩ := good_of hg h
  exact ⟨hG.nilSound A, hG.nilComplete ha A⟩

/-! ### Contains and NonTerminal -/

/-- C53, the half that holds for every grammar: Contains answers true only for symbols that occur in
the grammar, NonTerminal only for nonterminals. -/
theorem C53_sound (g : Grammar α) (hg : g.WF) {a} (h : Out.Returns (analyze g) a) (x) :
    (contains a x = true → g.Occurs x) ∧ (nonTerminal a x = true → x ∈ g.order) := by
  obtain ⟨fst, hG⟩ := good_of hg h
  have key : ∀ {A t}, Plus g.ScanStep A t → A ∈ g.order := by
    have : ∀ {A t}, g.ScanStep A t → A ∈ g.order := by
      rintro A t ⟨k, pre, post, ⟨ps, e, _⟩, _⟩
      exact (hg A).1 (by simp [e])
    intro A t h
    cases h with
    | one r => exact this r
    | step r _ => exact this r
  constructor
  · intro hc
    rcases hG.containsSound x hc with ⟨t, ht⟩ | ⟨_, A, k, pre, post, hr, _⟩
    · exact .inl (key (hG.sound x t ht).2)
    · exact .inr ⟨A, k, _, hr, by simp⟩
  · intro hc
    obtain ⟨t, ht⟩ := (hG.nonTerminal x).1 hc
    exact key (hG.sound x t ht).2

/-- C53, the part that holds for nonterminals: without scan cycles, and if every nonterminal has a
production that is not empty, NonTerminal is exact and Contains holds of every nonterminal. Missing:
other grammars (`C53_nonterminal_refuted`). -/
theorem C53_nonterminal_partial (g : Grammar α) (hg : g.WF) (ha : g.ScanAcyclic)
    (hn : ∀ A ∈ g.order, ∃ k X p, g.Rule A k (X :: p)) {a} (h : Out.Returns (analyze g) a) (x) :
    (nonTerminal a x = true ↔ x ∈ g.order) ∧ (x ∈ g.order → contains a x = true) := by
  obtain ⟨fst, hG⟩ := good_of hg h
  refine ⟨⟨(C53_sound g hg h x).2, fun hx => ?_⟩, fun hx => ?_⟩
  · exact (hG.nonTerminal x).2 (hG.nonempty ha hn x hx)
  · obtain ⟨t, ht⟩ := hG.nonempty ha hn x hx
    exact hG.containsNT x t ht

/-- C53, the part that holds for terminals: under the hypotheses of `C52_exact_partial`, Contains holds
of exactly those terminals that begin a sentential form of some nonterminal. Missing: the terminals
that only occur elsewhere, for which Contains is false (`C53_terminal_refuted`). -/
theorem C53_terminal_partial (g : Grammar α) (hg : g.WF) (hlr : ¬ g.LeftRecursive)
    (hn : g.LeftNilIsNullable) {a} (h : Out.Returns (analyze g) a) {t} (ht : g.Term t) :
    contains a t = true ↔ ∃ A ∈ g.order, g.First A t := by
  have ha := scanAcyclic_of hn hlr
  obtain ⟨fst, hG⟩ := good_of hg h
  have hord : ∀ {A B}, g.ScanStep A B → A ∈ g.order := by
    rintro A B ⟨k, pre, post, ⟨ps, e, _⟩, _⟩
    exact (hg A).1 (by simp [e])
  constructor
  · intro hc
    rcases hG.containsSound t hc with ⟨u, hu⟩ | ⟨_, A, hs⟩
    · have hp := (hG.sound t u hu).2
      exfalso
      have : ∀ B, ¬ g.ScanStep t B := by
        rintro B ⟨k, pre, post, ⟨ps, e, _⟩, _⟩
        rw [show g.prods t = none from ht] at e
        cases e
      cases hp with
      | one r => exact this _ r
      | step r _ => exact this _ r
    · exact ⟨A, hord hs, (hs.left hn).first⟩
  · rintro ⟨A, hA, hf⟩
    rcases first_iff.1 hf with rfl | hp
    · have := (hg A).2 hA
      rw [show g.prods A = none from ht] at this
      cases this
    · exact hG.containsT A t (hG.complete ha A t ht (Plus.mono (fun _ _ => LeftStep.scan) hp))

/-! ### Concrete cases and refutations -/

/-- Run a query on the analysis. -/
def ask (g : Grammar Nat) (n : Nat) (q : Analytics Nat → Bool) : Out Bool := (analyze g n).map q

theorem ask_returns {g : Grammar Nat} {n q b} (h : ask g n q = .ok b) :
    ∃ a, Out.Returns (analyze g) a ∧ q a = b := by
  unfold ask at h
  cases e : analyze g n with
  | ok a =>
    rw [e] at h
    exact ⟨a, Out.returns_of (analyze_mono g) e, Out.ok.inj h⟩
  | panic => rw [e] at h; cases h
  | fuel => rw [e] at h; cases h

/-- `A -> B x | a ; B -> A y | b`: A = 0, B = 1, x = 2, a = 3, y = 4, b = 5. -/
def gMutual : Grammar Nat := table [(0, [[1, 2], [3]]), (1, [[0, 4], [5]])]

/-- C52 is false: with left recursion firsts are missed. In `A -> B x | a ; B -> A y | b` the word
`a y` is derived by B, but HasFirst(B, a) is false. -/
theorem C52_complete_refuted : ¬ ∀ (g : Grammar Nat), g.WF → ∀ a, Out.Returns (analyze g) a →
    ∀ A ∈ g.order, ∀ t, g.Term t → g.First A t → hasFirst a A t = true := by
  intro h
  obtain ⟨a, ha, e⟩ := ask_returns (g := gMutual) (n := 9) (q := fun a => hasFirst a 1 3) (b := false)
    (isB_eq (by decide +kernel))
  have := h gMutual (table_wf _) a ha 1 (by decide) 3 (by decide) (first_iff.2 (.inr (.step (b := 0)
    ⟨0, [], [4], ⟨_, rfl, rfl⟩, .nil⟩ (.one ⟨1, [], [], ⟨_, rfl, rfl⟩, .nil⟩))))
  rw [this] at e
  cases e

/-- `Y -> B X | y ; B -> D e ; D -> ; X -> Y x`: Y = 0, B = 1, X = 2, D = 3, y = 4, e = 5, x = 6. -/
def gHidden : Grammar Nat := table [(0, [[1, 2], [4]]), (1, [[3, 5]]), (3, [[]]), (2, [[0, 6]])]

/-- The symbols leftmost steps lead to in `gHidden`. -/
def hiddenNext : Nat → List Nat
  | 0 => [1, 4]
  | 1 => [3, 5]
  | 2 => [0]
  | _ => []

theorem no_term_nil {β : Type} {g : Grammar β} {ss w : List β} (h : g.Derives ss w) :
    w = [] → ∀ x ∈ ss, ¬ g.Term x := by
  induction h with
  | nil => simp
  | term => intro e; cases e
  | @nonterm B k p ss u v hr _ _ _ ih2 =>
    intro e x hx
    obtain ⟨rfl, rfl⟩ := List.append_eq_nil_iff.1 e
    rcases List.mem_cons.1 hx with rfl | hx
    · obtain ⟨ps, e, _⟩ := hr
      intro hT
      rw [show g.prods x = none from hT] at e
      cases e
    · exact ih2 rfl x hx

theorem nil_rule {β : Type} {g : Grammar β} {ss w : List β} {A : β} (h : g.Derives ss w) (hw : w = [])
    (hs : ss = [A]) : ∃ k p, g.Rule A k p ∧ g.Derives p [] := by
  cases h with
  | nil => cases hs
  | term => cases hw
  | nonterm hr hp _ =>
    obtain ⟨rfl, rfl⟩ := List.append_eq_nil_iff.1 hw
    cases hs
    exact ⟨_, _, hr, hp⟩

theorem not_nullable_of_term {β : Type} {g : Grammar β} {A : β} {p : List β} {t : β}
    (hA : ∀ k q, g.Rule A k q → q = p) (ht : t ∈ p) (htt : g.Term t) : ¬ g.Derives [A] [] := by
  intro h
  obtain ⟨k, q, hr, hp⟩ := nil_rule h rfl rfl
  rw [hA _ _ hr] at hp
  exact no_term_nil hp rfl t ht htt

theorem rule_cases {rows : List (Nat × List (List Nat))} {A k p} (h : (table rows).Rule A k p) :
    ∃ r ∈ rows, r.1 = A ∧ p ∈ r.2 := by
  obtain ⟨ps, e, hk⟩ := h
  simp only [table, Option.map_eq_some_iff] at e
  obtain ⟨r, hr, rfl⟩ := e
  exact ⟨r, List.mem_of_find?_eq_some hr, by simpa using List.find?_some hr, List.mem_of_getElem? hk⟩

/-- Splits of a list at an element. -/
theorem split_cases {X : Nat} {pre post : List Nat} {p : List Nat} (h : p = pre ++ X :: post) :
    ∃ i, p[i]? = some X ∧ pre = p.take i := by
  refine ⟨pre.length, ?_, ?_⟩ <;> simp [h]

theorem hidden_step {A B : Nat} (h : gHidden.LeftStep A B) : B ∈ hiddenNext A := by
  obtain ⟨k, pre, post, hr, hn⟩ := h
  have hB : ¬ gHidden.Derives [1] [] := by
    refine not_nullable_of_term (p := [3, 5]) (t := 5) ?_ (by simp) (by decide)
    intro k q hq
    obtain ⟨r, hr, h1, h2⟩ := rule_cases hq
    simp only [List.mem_cons, List.not_mem_nil, or_false] at hr
    rcases hr with rfl | rfl | rfl | rfl <;> simp at h1 h2 ⊢
    exact h2
  obtain ⟨r, hr, h1, h2⟩ := rule_cases hr
  simp only [List.mem_cons, List.not_mem_nil, or_false] at hr
  rcases hr with rfl | rfl | rfl | rfl
  · subst h1
    simp only [List.mem_cons, List.not_mem_nil, or_false] at h2
    rcases h2 with h2 | h2
    · cases pre with
      | nil => cases h2; simp [hiddenNext]
      | cons Y pre =>
        simp only [List.cons_append, List.cons.injEq] at h2
        obtain ⟨rfl, h2⟩ := h2
        exact absurd ((Derives.append_nil_iff (a := [1])).1 hn).1 hB
    · cases pre with
      | nil => cases h2; simp [hiddenNext]
      | cons Y pre => simp at h2
  · subst h1
    simp only [List.mem_cons, List.not_mem_nil, or_false] at h2
    have : B ∈ [3, 5] := by rw [← h2]; simp
    simpa [hiddenNext] using this
  · simp at h2
  · subst h1
    simp only [List.mem_cons, List.not_mem_nil, or_false] at h2
    cases pre with
    | nil => cases h2; simp [hiddenNext]
    | cons Y pre =>
      simp only [List.cons_append, List.cons.injEq] at h2
      obtain ⟨rfl, h2⟩ := h2
      have hY : ¬ gHidden.Derives [0] [] := by
        intro hd
        obtain ⟨k, p, hr, hp⟩ := nil_rule hd rfl rfl
        obtain ⟨r, hr, h1, h2⟩ := rule_cases hr
        simp only [List.mem_cons, List.not_mem_nil, or_false] at hr
        rcases hr with rfl | rfl | rfl | rfl <;> simp at h1 h2
        rcases h2 with rfl | rfl
        · exact hB ((Derives.append_nil_iff (a := [1]) (b := [2])).1 hp).1
        · exact no_term_nil hp rfl 4 (by simp) (by decide)
      exact absurd ((Derives.append_nil_iff (a := [0])).1 hn).1 hY

/-- C52 is false even without left recursion: in `Y -> B X | y ; B -> D e ; D -> ; X -> Y x` the symbol
B is scanned past although it cannot vanish, so X is analysed while Y is in progress and
HasFirst(X, e) is false, though X derives a form beginning with e. -/
theorem C52_nolr_refuted : ¬ ∀ (g : Grammar Nat), g.WF → ¬ g.LeftRecursive → ∀ a,
    Out.Returns (analyze g) a → ∀ A ∈ g.order, ∀ t, g.Term t → g.First A t → hasFirst a A t = true := by
  intro h
  obtain ⟨a, ha, e⟩ := ask_returns (g := gHidden) (n := 9) (q := fun a => hasFirst a 2 5) (b := false)
    (isB_eq (by decide +kernel))
  have hnlr : ¬ gHidden.LeftRecursive := by
    rintro ⟨A, hA⟩
    -- leftmost steps go down in this rank
    let rk : Nat → Nat := fun x => if x = 2 then 3 else if x = 0 then 2 else if x = 1 then 1 else 0
    have hstep : ∀ A B, gHidden.LeftStep A B → rk B < rk A := by
      intro A B h
      have := hidden_step h
      unfold hiddenNext at this
      split at this <;> simp at this
      · rcases this with rfl | rfl <;> decide
      · rcases this with rfl | rfl <;> decide
      · subst this; decide
    have : ∀ A B, Plus gHidden.LeftStep A B → rk B < rk A := by
      intro A B h
      induction h with
      | one r => exact hstep _ _ r
      | step r _ ih => exact Nat.lt_trans ih (hstep _ _ r)
    exact Nat.lt_irrefl _ (this A A hA)
  have := h gHidden (table_wf _) hnlr a ha 2 (by decide) 5 (by decide) (first_iff.2 (.inr
    (.step (b := 0) ⟨0, [], [6], ⟨_, rfl, rfl⟩, .nil⟩ (.step (b := 1) ⟨0, [], [2], ⟨_, rfl, rfl⟩, .nil⟩
      (.one ⟨0, [3], [], ⟨_, rfl, rfl⟩, .nonterm (k := 0) (p := []) (u := []) (v := []) ⟨_, rfl, rfl⟩ .nil
        .nil⟩)))))
  rw [this] at e
  cases e

/-- C52 is false in the other direction too: in
`A -> B c ; B -> D e ; D ->` HasFirst(A, c) is true though every word of A begins with e. -/
theorem C52_sound_refuted : ¬ ∀ (g : Grammar Nat), g.WF → ∀ a, Out.Returns (analyze g) a →
    ∀ A ∈ g.order, ∀ t, g.Term t → hasFirst a A t = true → g.First A t := by
  intro h
  obtain ⟨a, ha, e⟩ := ask_returns (g := table [(0, [[1, 3]]), (1, [[2, 4]]), (2, [[]])]) (n := 9)
    (q := fun a => hasFirst a 0 3) (b := true) (isB_eq (by decide +kernel))
  have hf := h _ (table_wf _) a ha 0 (by decide) 3 (by decide) e
  have hB : ¬ (table [(0, [[1, 3]]), (1, [[2, 4]]), (2, [[]])]).Derives [1] [] := by
    refine not_nullable_of_term (p := [2, 4]) (t := 4) ?_ (by simp) (by decide)
    intro k q hq
    obtain ⟨r, hr, h1, h2⟩ := rule_cases hq
    simp only [List.mem_cons, List.not_mem_nil, or_false] at hr
    rcases hr with rfl | rfl | rfl <;> simp at h1 h2 ⊢
    exact h2
  have hstep : ∀ A B, (table [(0, [[1, 3]]), (1, [[2, 4]]), (2, [[]])]).LeftStep A B → B ≠ 3 := by
    rintro A B ⟨k, pre, post, hr, hn⟩ rfl
    obtain ⟨r, hr, h1, h2⟩ := rule_cases hr
    simp only [List.mem_cons, List.not_mem_nil, or_false] at hr
    rcases hr with rfl | rfl | rfl
    · simp only [List.mem_cons, List.not_mem_nil, or_false] at h2
      cases pre with
      | nil => cases h2
      | cons Y pre =>
        simp only [List.cons_append, List.cons.injEq] at h2
        obtain ⟨rfl, h2⟩ := h2
        exact hB ((Derives.append_nil_iff (a := [1])).1 hn).1
    · simp only [List.mem_cons, List.not_mem_nil, or_false] at h2
      have : (3 : Nat) ∈ [2, 4] := by rw [← h2]; simp
      simp at this
    · simp at h2
  rcases first_iff.1 hf with h | h
  · cases h
  · have hplus : ∀ A B, Plus (table [(0, [[1, 3]]), (1, [[2, 4]]), (2, [[]])]).LeftStep A B → B ≠ 3 := by
      intro A B h
      induction h with
      | one r => exact hstep _ _ r
      | step _ _ ih => exact ih
    exact hplus _ _ h rfl

/-- C63 is false: in `A -> B x | ; B -> A y` the symbol B is analysed while A is in progress, so
HasNilInFirst(B) is false though its leftmost child A has an empty production. -/
theorem C63_refuted : ¬ ∀ (g : Grammar Nat), g.WF → ∀ a, Out.Returns (analyze g) a →
    ∀ A, g.LeftNil A → hasNilInFirst a A = true := by
  intro h
  obtain ⟨a, ha, e⟩ := ask_returns (g := table [(0, [[1, 2], []]), (1, [[0, 3]])]) (n := 9)
    (q := fun a => hasNilInFirst a 1) (b := false) (isB_eq (by decide +kernel))
  have := h _ (table_wf _) a ha 1 (.left (k := 0) (B := 0) (p := [3]) ⟨_, rfl, rfl⟩
    (.empty (k := 1) ⟨_, rfl, rfl⟩))
  rw [this] at e
  cases e

/-- C53 is false for nonterminals: one with only an empty production is neither contained nor a
nonterminal, according to the analysis. -/
theorem C53_nonterminal_refuted : ¬ ∀ (g : Grammar Nat), g.WF → ∀ a, Out.Returns (analyze g) a →
    ∀ x ∈ g.order, contains a x = true ∨ nonTerminal a x = true := by
  intro h
  obtain ⟨a, ha, e⟩ := ask_returns (g := table [(0, [[1, 2]]), (1, [[]])]) (n := 9)
    (q := fun a => contains a 1 || nonTerminal a 1) (b := false) (isB_eq (by decide +kernel))
  have := h _ (table_wf _) a ha 1 (by decide)
  rcases this with h | h <;> simp [h] at e

/-- C53 is false for terminals: in `A -> x z` the terminal z occurs, but Contains(z) is false. -/
theorem C53_terminal_refuted : ¬ ∀ (g : Grammar Nat), g.WF → ∀ a, Out.Returns (analyze g) a →
    ∀ x, g.Occurs x → contains a x = true := by
  intro h
  obtain ⟨a, ha, e⟩ := ask_returns (g := table [(0, [[1, 2]])]) (n := 9)
    (q := fun a => contains a 2) (b := false) (isB_eq (by decide +kernel))
  have := h _ (table_wf _) a ha 2 (.inr ⟨0, 0, [1, 2], ⟨_, rfl, rfl⟩, by simp⟩)
  rw [this] at e
  cases e

/-- HasFirst of a terminal and itself depends on the rest of the grammar: in `A -> x z` it is false for x,
which is a first of A, and true for z, which is not. -/
theorem C52_terminal_self : ∃ g : Grammar Nat, g.WF ∧ ∃ a, Out.Returns (analyze g) a ∧
    g.Term 1 ∧ g.Term 2 ∧ hasFirst a 1 1 = false ∧ hasFirst a 2 2 = true := by
  obtain ⟨a, ha, e⟩ := ask_returns (g := table [(0, [[1, 2]])]) (n := 9)
    (q := fun a => !hasFirst a 1 1 && hasFirst a 2 2) (b := true) (isB_eq (by decide +kernel))
  simp only [Bool.and_eq_true, Bool.not_eq_true'] at e
  exact ⟨_, table_wf _, a, ha, by decide, by decide, e.1, e.2⟩

/-- `A -> B C | x ; B -> y | ; C -> z`, the second grammar of analyze/analysis_test.go:54-58 (A = 0,
B = 1, C = 2, x = 3, y = 4, z = 5): it meets the hypotheses of every theorem above that has any, except
being free of empty productions. -/
def gTest : Grammar Nat := table [(0, [[1, 2], [3]]), (1, [[4], []]), (2, [[5]])]

theorem gTest_rule {A k p} (h : gTest.Rule A k p) :
    (A = 0 ∧ (p = [1, 2] ∨ p = [3])) ∨ (A = 1 ∧ (p = [4] ∨ p = [])) ∨ (A = 2 ∧ p = [5]) := by
  obtain ⟨r, hr, h1, h2⟩ := rule_cases h
  simp only [List.mem_cons, List.not_mem_nil, or_false] at hr
  rcases hr with rfl | rfl | rfl <;> simp at h1 h2 <;> subst h1 <;> simp [h2]

theorem gTest_leftNil {A} (h : gTest.LeftNil A) : A = 0 ∨ A = 1 := by
  cases h with
  | empty hr => rcases gTest_rule hr with ⟨rfl, _⟩ | ⟨rfl, _⟩ | ⟨rfl, h⟩ <;> simp at *
  | left hr hl =>
    rcases gTest_rule hr with ⟨rfl, _⟩ | ⟨rfl, _⟩ | ⟨rfl, h⟩
    · simp
    · simp
    · cases h
      exfalso
      cases hl with
      | empty hr => rcases gTest_rule hr with ⟨h, _⟩ | ⟨h, _⟩ | ⟨h, _⟩ <;> simp at h
      | left hr => rcases gTest_rule hr with ⟨h, _⟩ | ⟨h, _⟩ | ⟨h, _⟩ <;> simp at h

theorem gTest_scan {A B} (h : gTest.ScanStep A B) : A < B := by
  obtain ⟨k, pre, post, hr, _⟩ := h
  have hm : ∀ p : List Nat, p = pre ++ B :: post → B ∈ p := fun p e => by rw [e]; simp
  rcases gTest_rule hr with ⟨rfl, h | h⟩ | ⟨rfl, h | h⟩ | ⟨rfl, h⟩ <;>
    have := hm _ h.symm <;> simp at this <;> omega

theorem gTest_acyclic : gTest.ScanAcyclic := by
  intro A h
  have : ∀ A B, Plus gTest.ScanStep A B → A < B := by
    intro A B h
    induction h with
    | one r => exact gTest_scan r
    | step r _ ih => exact Nat.lt_trans (gTest_scan r) ih
  exact Nat.lt_irrefl _ (this A A h)

-- C52: the answers of the repository's test are the right ones for every pair, not just those asked
example {a} (h : Out.Returns (analyze gTest) a) {A t} (hA : A ∈ gTest.order) (ht : gTest.Term t)
    (hf : gTest.First A t) : hasFirst a A t = true :=
  C52_complete_partial gTest (table_wf _) gTest_acyclic h hA ht hf

example {a} (h : Out.Returns (analyze gTest) a) (A) : hasNilInFirst a A = true ↔ gTest.LeftNil A :=
  C63_exact_partial gTest (table_wf _) gTest_acyclic h A

example {a} (h : Out.Returns (analyze gTest) a) (x) : nonTerminal a x = true ↔ x ∈ gTest.order :=
  (C53_nonterminal_partial gTest (table_wf _) gTest_acyclic (by
    intro A hA
    simp only [gTest, table, List.map_cons, List.map_nil, List.mem_cons, List.not_mem_nil, or_false] at hA
    rcases hA with rfl | rfl | rfl
    · exact ⟨0, 1, [2], _, rfl, rfl⟩
    · exact ⟨0, 4, [], _, rfl, rfl⟩
    · exact ⟨0, 5, [], _, rfl, rfl⟩) h x).1

/-- `A -> B x | a ; B -> b A`: no empty productions, not left recursive, recursive. -/
def gPlain : Grammar Nat := table [(0, [[1, 2], [3]]), (1, [[5, 0]])]

theorem gPlain_rule {A k p} (h : gPlain.Rule A k p) :
    (A = 0 ∧ (p = [1, 2] ∨ p = [3])) ∨ (A = 1 ∧ p = [5, 0]) := by
  obtain ⟨r, hr, h1, h2⟩ := rule_cases h
  simp only [List.mem_cons, List.not_mem_nil, or_false] at hr
  rcases hr with rfl | rfl <;> simp at h1 h2 <;> subst h1 <;> simp [h2]

theorem gPlain_noempty : ∀ A k, ¬ gPlain.Rule A k [] := by
  intro A k h
  rcases gPlain_rule h with ⟨_, h | h⟩ | ⟨_, h⟩ <;> cases h

theorem gPlain_not_lr : ¬ gPlain.LeftRecursive := by
  have hstep : ∀ A B, gPlain.LeftStep A B → A < B := by
    rintro A B ⟨k, pre, post, hr, hn⟩
    cases pre with
    | cons X pre => exact absurd (hn.leftNil rfl X (by simp)) (not_leftNil gPlain_noempty)
    | nil => rcases gPlain_rule hr with ⟨rfl, h | h⟩ | ⟨rfl, h⟩ <;> cases h <;> decide
  rintro ⟨A, h⟩
  have : ∀ A B, Plus gPlain.LeftStep A B → A < B := by
    intro A B h
    induction h with
    | one r => exact hstep _ _ r
    | step r _ ih => exact Nat.lt_trans (hstep _ _ r) ih
  exact Nat.lt_irrefl _ (this A A h)

-- C52 and C53: exact on a grammar meeting the hypotheses; b is a first of A, x is not contained
example {a} (h : Out.Returns (analyze gPlain) a) : hasFirst a 0 5 = true ∧ hasFirst a 0 2 = false ∧
    contains a 2 = false := by
  have hst : ∀ A t, Plus gPlain.LeftStep A t → t ≠ 2 := by
    intro A t hp
    induction hp with
    | one r =>
      obtain ⟨k, pre, post, hr, hn⟩ := r
      cases pre with
      | cons X pre => exact absurd (hn.leftNil rfl X (by simp)) (not_leftNil gPlain_noempty)
      | nil => rcases gPlain_rule hr with ⟨rfl, h | h⟩ | ⟨rfl, h⟩ <;> cases h <;> decide
    | step _ _ ih => exact ih
  have hno : ∀ A ∈ gPlain.order, ¬ gPlain.First A 2 := by
    intro A hA hf
    rcases first_iff.1 hf with rfl | hp
    · simp [gPlain, table] at hA
    · exact hst _ _ hp rfl
  refine ⟨?_, ?_, ?_⟩
  · refine (C52_exact_noempty_partial gPlain (table_wf _) gPlain_not_lr gPlain_noempty h (by decide)
      (by decide)).2 (first_iff.2 (.inr (.step (b := 1) ⟨0, [], [2], ⟨_, rfl, rfl⟩, .nil⟩
        (.one ⟨0, [], [0], ⟨_, rfl, rfl⟩, .nil⟩))))
  · have := C52_exact_noempty_partial gPlain (table_wf _) gPlain_not_lr gPlain_noempty h (A := 0) (t := 2)
      (by decide) (by decide)
    exact Bool.eq_false_iff.2 fun e => hno 0 (by decide) (this.1 e)
  · have := C53_terminal_partial gPlain (table_wf _) gPlain_not_lr
      (fun _ h => absurd h (not_leftNil gPlain_noempty)) h (t := 2) (by decide)
    exact Bool.eq_false_iff.2 fun e => by
      obtain ⟨A, hA, hf⟩ := this.1 e
      exact hno A hA hf

end Verif.Props.Analyze
