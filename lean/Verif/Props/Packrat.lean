import Verif.Proofs.Packrat.Lift
import Verif.Proofs.Packrat.Fuel
import Verif.Proofs.Packrat.LiftBest
/-
Properties of the packrat parser (C18-C24).

Vocabulary: `Grammar`, `Derives`, `Sentence`, `IsParse`, `FirstChoice`, `Positioned`, `CycleFree` are
the specification in Verif.Spec.CFG. `parse ev g ls fuel` is the model of `packrat.Parse` on a fresh
parser; `ev` is the empty string as a lexeme value. `Out.Returns (parse ev g ls) r` says the call
returns `r`.
-/
namespace Verif.Props.Packrat
open Verif.Spec Verif.Spec.Grammar Verif.Packrat Verif.SetSymbol

variable {α V : Type} [DecidableEq α]

/-- Everything about one parse; the claims below are its parts. -/
theorem parse_spec (ev : V) (g : Grammar α) (hg : g.WF) (ls : List (Lexeme α V))
    (hl : ∀ l ∈ ls, g.Term l.kind) :
    (∃ t, Out.Returns (parse ev g ls) (some t) ∧ IsParse g ls t ∧
      (g.CycleFree → t.FirstChoice g) ∧ t.Positioned g ev ∧ (g.CycleFree → t.Best g)) ∨
    (¬ g.Sentence (ls.map (·.kind)) ∧
      ((g.order = [] ∨ ls ≠ []) ∧ Out.Returns (parse ev g ls) none ∨
       ls = [] ∧ ∃ S, g.order.head? = some S ∧
        Out.Returns (parse ev g ls) (some (.node ⟨S, ev, -1, 0⟩ [])))) := by
  cases ho : g.order with
  | nil =>
    right
    refine ⟨by rintro ⟨S, hS, _⟩; simp [ho] at hS, .inl ⟨.inl rfl, 0, fun n _ => by simp [parse, ho]⟩⟩
  | cons S rest =>
    obtain ⟨s, es, hs, hls, h0⟩ := loadSet_ok g hg ls
    have h0 := h0 S (by simp [ho])
    have hS : S ∈ s.symb2str := List.mem_of_getElem? h0
    have hSi : symIdx s S = 0 := symIdx_unique hs.inv h0
    have hSo : (g.prods S).isSome := (hg S).2 (by simp [ho])
    let env := mkEnv g s ls
    let lx : List (Lexeme Nat V) := ls.map fun l => ⟨symIdx s l.kind, l.val, l.line, l.col⟩
    have hlx : lx.map (·.kind) = env.lex := by simp [lx, env, mkEnv]
    have hok : EnvOK env (g.order.map (symIdx s)).toFinset := by
      have key : ∀ i, (idxProds g s i).isSome ↔ i ∈ g.order.map (symIdx s) := by
        intro i
        rw [List.mem_map]
        constructor
        · intro hi
          unfold idxProds at hi
          split at hi
          · cases hi
          · rename_i x hx
            refine ⟨x, (hg x).1 ?_, symIdx_unique hs.inv hx⟩
            rwa [Option.isSome_map] at hi
        · rintro ⟨x, hx, rfl⟩
          rw [idxProds_symIdx hs.inv (hs.order x hx), Option.isSome_map]
          exact (hg x).2 hx
      refine ⟨?_, ?_, ?_⟩
      · intro i
        show decide (i ∈ g.order.map (symIdx s)) = (idxProds g s i).isSome
        rw [Bool.eq_iff_iff, decide_eq_true_iff, key]
      · intro i hi
        simpa using (key i).1 hi
      · intro k hk
        obtain ⟨l, hlm, rfl⟩ := List.mem_map.1 hk
        show idxProds g s (symIdx s l.kind) = none
        have ht : g.prods l.kind = none := hl l hlm
        rw [idxProds_symIdx hs.inv (hls l hlm), ht]; rfl
    have hsn : (env.prods (symIdx s S)).isSome := by
      show (idxProds g s (symIdx s S)).isSome
      rw [idxProds_symIdx hs.inv hS, Option.isSome_map]; exact hSo
    have hlen : lx.length = ls.length := by simp [lx]
    -- naming the lexemes gives them back
    have hback : lx.map (mapLx (nm s S)) = ls := by
      simp only [lx, List.map_map]
      conv => rhs; rw [← List.map_id ls]
      refine List.map_congr_left fun l hlm => ?_
      simp [mapLx, nm_symIdx hs.inv (hls l hlm)]
    have hparse : ∀ n r, parseIdx ev env (symIdx s S) lx n = .ok r →
        parse ev g ls n = match r with
          | none => .ok none
          | some t => (nameTree s t).bind fun t' => .ok (some t') := by
      intro n r e
      simp only [parse, ho, es, Out.bind_ok]
      show (parseIdx ev env (symIdx s S) lx n).bind _ = _
      rw [e]
      cases r <;> rfl
    have hmap : (ls.map (·.kind)).map (symIdx s) = env.lex := by simp [env, mkEnv]
    rcases parseIdx_spec hok (symIdx s S) hsn ev lx hlx (Nat.le_refl _) with ⟨t, et, ht⟩ | ⟨hno, hr⟩
    · left
      have hgram : env.gram = ⟨[], idxProds g s⟩ := rfl
      have hv := ht.valid; have hf := ht.first; have hp := ht.pos; have hfr := ht.fringe
      have hb := ht.best
      have hfr : t.fringe (fun x => (idxProds g s x).isNone) = lx := by
        have : slice lx (⟨symIdx s S, 0, lx.length⟩ : Key).start lx.length = lx := slice_full lx
        exact hfr.trans this
      rw [hgram] at hv hf hp hb
      have hin : InR (⟨[], idxProds g s⟩ : Grammar Nat) s.symb2str.length t := by
        intro l hl
        have hl : l ∈ t.fringe (fun x => (idxProds g s x).isNone) := hl
        rw [hfr] at hl
        obtain ⟨l', hl', rfl⟩ := List.mem_map.1 hl
        exact (List.getElem?_eq_some_iff.1 (symIdx_get hs.inv (hls l' hl'))).1
      obtain ⟨h1, h2, h3⟩ := tree_down hs S hv hin
      refine ⟨mapPN (nm s S) t, ?_, ⟨?_, h2, ?_⟩, ?_, ?_⟩
      · refine Out.returns_of (parse_mono ev g ls) ((hparse _ _ et).trans ?_)
        simp only [h1, Out.bind_ok]
      · rw [mapPN_kind, ht.kind, nm_symIdx hs.inv hS]; simp [ho]
      · rw [h3, hfr, hback]
      · intro hc
        exact first_down hg hs S (hf (cycleFree_up hs hc)) hv hin
      · exact ⟨pos_down S hp hin, fun hc => best_down hg hs S (hb (cycleFree_up hs hc)) hv hin⟩
    · right
      refine ⟨?_, ?_⟩
      · rintro ⟨S', hS', hd⟩
        simp only [ho, List.head?_cons, Option.some.injEq] at hS'
        subst hS'
        have := derives_up (o := []) hs hg hd (by simpa using hS)
        rw [hmap] at this
        exact hno (der_iff_derives.2 this)
      · rcases hr with ⟨hne, e⟩ | ⟨hnil, e⟩
        · left
          refine ⟨.inr ?_, ?_⟩
          · intro h; apply hne; simp [lx, h]
          · exact Out.returns_of (parse_mono ev g ls) (hparse _ _ e)
        · right
          refine ⟨by simpa [lx] using hnil, S, by simp, ?_⟩
          refine Out.returns_of (parse_mono ev g ls) ((hparse _ _ e).trans ?_)
          simp [nameTree, nameTrees, h0, Out.bind]

/-- C18: packrat parsing terminates without panicking for every grammar (left recursive, ambiguous,
cyclic, with empty productions), if no lexeme has a nonterminal as its kind. -/
theorem C18_terminates (ev : V) (g : Grammar α) (hg : g.WF) (ls : List (Lexeme α V))
    (hl : ∀ l ∈ ls, g.Term l.kind) : ∃ r, Out.Returns (parse ev g ls) r := by
  rcases parse_spec ev g hg ls hl with ⟨t, h, _⟩ | ⟨_, ⟨_, h⟩ | ⟨_, S, _, h⟩⟩
  · exact ⟨_, h⟩
  · exact ⟨_, h⟩
  · exact ⟨_, h⟩

/-- C19: a returned tree for a non-empty input is a derivation tree of exactly that input. -/
theorem C19_sound (ev : V) (g : Grammar α) (hg : g.WF) (ls : List (Lexeme α V)) (hne : ls ≠ [])
    (hl : ∀ l ∈ ls, g.Term l.kind) {n t} (h : parse ev g ls n = .ok (some t)) : IsParse g ls t := by
  rcases parse_spec ev g hg ls hl with ⟨t', h', hp, _⟩ | ⟨_, ⟨_, h'⟩ | ⟨hn, _⟩⟩
  · have := h'.eq_of (parse_mono ev g ls) h
    cases this; exact hp
  · have := h'.eq_of (parse_mono ev g ls) h
    cases this
  · exact absurd hn hne

/-- C20: every sentence is accepted, with a derivation tree of the input. -/
theorem C20_complete (ev : V) (g : Grammar α) (hg : g.WF) (ls : List (Lexeme α V))
    (hl : ∀ l ∈ ls, g.Term l.kind) (hs : g.Sentence (ls.map (·.kind))) :
    ∃ t, Out.Returns (parse ev g ls) (some t) ∧ IsParse g ls t := by
  rcases parse_spec ev g hg ls hl with ⟨t, h, hp, _⟩ | ⟨hno, _⟩
  · exact ⟨t, h, hp⟩
  · exact absurd hs hno

/-- C21, the part that holds: a non-empty input that is not a sentence is rejected. Missing: the
empty input, for which the claim is false (`C21_refuted`). -/
theorem C21_rejects_partial (ev : V) (g : Grammar α) (hg : g.WF) (ls : List (Lexeme α V)) (hne : ls ≠ [])
    (hl : ∀ l ∈ ls, g.Term l.kind) (hs : ¬ g.Sentence (ls.map (·.kind))) :
    Out.Returns (parse ev g ls) none := by
  rcases parse_spec ev g hg ls hl with ⟨t, h, hp, _⟩ | ⟨_, ⟨_, h⟩ | ⟨hn, _⟩⟩
  · exact absurd (isParse_sentence hp) hs
  · exact h
  · exact absurd hn hne

/-- C21 for the empty input: Parse always returns a tree with the start symbol at its root. -/
theorem C21_empty_input (ev : V) (g : Grammar α) (hg : g.WF) {S} (hS : g.order.head? = some S) :
    ∃ t, Out.Returns (parse ev g []) (some t) ∧ t.kind = S := by
  rcases parse_spec ev g hg [] (by simp) with ⟨t, h, hp, _⟩ | ⟨_, ⟨h1, h⟩ | ⟨hn, S', hS', h⟩⟩
  · refine ⟨t, h, ?_⟩
    have := hp.1
    rw [hS] at this
    exact (Option.some.inj this).symm
  · rcases h1 with h1 | h1
    · simp [h1] at hS
    · exact absurd rfl h1
  · refine ⟨_, h, ?_⟩
    rw [hS] at hS'
    exact (Option.some.inj hS').symm

/-- C22: in a grammar without cyclic derivations every node of the result uses the first production
that can derive the words below it. -/
theorem C22_first_production (ev : V) (g : Grammar α) (hg : g.WF) (ls : List (Lexeme α V)) (hne : ls ≠ [])
    (hl : ∀ l ∈ ls, g.Term l.kind) (hc : g.CycleFree) {n t} (h : parse ev g ls n = .ok (some t)) :
    t.FirstChoice g := by
  rcases parse_spec ev g hg ls hl with ⟨t', h', _, hp, _⟩ | ⟨_, ⟨_, h'⟩ | ⟨hn, _⟩⟩
  · have := h'.eq_of (parse_mono ev g ls) h
    cases this; exact hp hc
  · have := h'.eq_of (parse_mono ev g ls) h
    cases this
  · exact absurd hn hne

/-- C24: leaves keep their lexeme (see C19); every inner node has the position of its first child, or
`(-1, 0)` if it has none. -/
theorem C24_positions (ev : V) (g : Grammar α) (hg : g.WF) (ls : List (Lexeme α V)) (hne : ls ≠ [])
    (hl : ∀ l ∈ ls, g.Term l.kind) {n t} (h : parse ev g ls n = .ok (some t)) :
    t.Positioned g ev ∧ t.fringe (fun s => (g.prods s).isNone) = ls := by
  rcases parse_spec ev g hg ls hl with ⟨t', h', hi, _, hp, _⟩ | ⟨_, ⟨_, h'⟩ | ⟨hn, _⟩⟩
  · have := h'.eq_of (parse_mono ev g ls) h
    cases this; exact ⟨hp, hi.2.2⟩
  · have := h'.eq_of (parse_mono ev g ls) h
    cases this
  · exact absurd hn hne

/-! ### Concrete cases -/

/-- A grammar given by a table. -/
def table (rows : List (Nat × List (List Nat))) : Grammar Nat :=
  ⟨rows.map (·.1), fun x => (rows.find? (·.1 = x)).map (·.2)⟩

theorem table_wf (rows) : (table rows).WF := by
  intro x
  simp [table, List.find?_isSome]

/-- Lexemes with consecutive columns. -/
def lexs (ks : List Nat) : List (Lexeme Nat Nat) := ks.zipIdx.map fun k => ⟨k.1, 100 + k.2, 1, k.2⟩

/-- `E -> E op E | int` with E = 0, op = 1, int = 2: left recursive and ambiguous. -/
def gE : Grammar Nat := table [(0, [[0, 1, 0], [2]])]

/-- `S -> S S | S | a |`: cyclic, ambiguous, left recursive, with an empty production. -/
def gS : Grammar Nat := table [(0, [[0, 0], [0], [1], []])]

-- C18, C20 on an ambiguous left recursive grammar: int op int op int is parsed
example : ∃ t, Out.Returns (parse 0 gE (lexs [2, 1, 2, 1, 2])) (some t) ∧
    IsParse gE (lexs [2, 1, 2, 1, 2]) t := by
  have int : ∀ w, gE.Derives [] w → gE.Derives [0] (2 :: w) := by
    intro w h; cases h
    exact .nonterm (k := 1) (p := [2]) ⟨_, rfl, rfl⟩ (.term (by decide) .nil) .nil
  refine C20_complete 0 gE (table_wf _) _ (by decide) ⟨0, rfl, ?_⟩
  have bin : ∀ w v, gE.Derives [0] w → gE.Derives [0] v → gE.Derives [0] (w ++ 1 :: v) := by
    intro w v h1 h2
    have h3 : gE.Derives [0, 1, 0] (w ++ 1 :: v) := h1.append (.term (by decide) h2)
    have := Derives.nonterm (g := gE) (A := 0) (k := 0) (ss := []) ⟨_, rfl, rfl⟩ h3 .nil
    simpa using this
  exact bin _ _ (bin _ _ (int _ .nil) (int _ .nil)) (int _ .nil)

-- C18 on a cyclic grammar
example : ∃ r, Out.Returns (parse 0 gS (lexs [1, 1])) r :=
  C18_terminates 0 gS (table_wf _) _ (by decide)

/-- Does the outcome equal this tree (computable equality test, for the examples)? -/
def isTree (o : Out (Option (PN Nat Nat))) (t : PN Nat Nat) : Bool :=
  match o with
  | .ok (some t') => t'.same t
  | _ => false

/-- Is the outcome the nil result? -/
def isNil (o : Out (Option (PN Nat Nat))) : Bool :=
  match o with
  | .ok none => true
  | _ => false

/-- Is the outcome a panic? -/
def isPanic (o : Out (Option (PN Nat Nat))) : Bool :=
  match o with
  | .panic => true
  | _ => false

theorem isPanic_eq {o} (h : isPanic o = true) : o = .panic := by
  unfold isPanic at h
  split at h
  · rfl
  · cases h

-- the result for the ambiguous grammar, by evaluation of the model: left associative
example : isTree (parse 0 gE (lexs [2, 1, 2, 1, 2]) 60)
    (.node ⟨0, 0, 1, 0⟩ [
      .node ⟨0, 0, 1, 0⟩ [.node ⟨0, 0, 1, 0⟩ [.node ⟨2, 100, 1, 0⟩ []], .node ⟨1, 101, 1, 1⟩ [],
        .node ⟨0, 0, 1, 2⟩ [.node ⟨2, 102, 1, 2⟩ []]],
      .node ⟨1, 103, 1, 3⟩ [],
      .node ⟨0, 0, 1, 4⟩ [.node ⟨2, 104, 1, 4⟩ []]]) = true := by decide +kernel

-- C21: a non-sentence is rejected
example : isNil (parse 0 gE (lexs [2, 1]) 60) = true := by decide +kernel

/-- C21 is false for the empty input: the grammar `E -> E op E | int` does not derive the empty
word, yet Parse returns a tree. -/
theorem C21_refuted : ¬ ∀ (g : Grammar Nat), g.WF → ∀ ls : List (Lexeme Nat Nat),
    (∀ l ∈ ls, g.Term l.kind) → ¬ g.Sentence (ls.map (·.kind)) →
    Out.Returns (parse 0 g ls) none := by
  intro h
  have hno : ¬ gE.Sentence [] := by
    rintro ⟨S, hS, hd⟩
    have key : ∀ ss w, gE.Derives ss w → ss.length ≤ w.length := by
      intro ss w h
      induction h with
      | nil => simp
      | term _ _ ih => simpa using ih
      | @nonterm A k p ss u v hr _ _ ih1 ih2 =>
        have : 1 ≤ p.length := by
          obtain ⟨ps, e, e2⟩ := hr
          have hp := List.mem_of_getElem? e2
          have hps : ps = [[0, 1, 0], [2]] := by
            by_cases hA : A = 0
            · subst hA; exact (Option.some.inj e).symm
            · have hA' : ¬ 0 = A := fun h => hA h.symm
              simp [gE, table, hA'] at e
          subst hps
          simp at hp
          rcases hp with rfl | rfl <;> simp
        simp; omega
    simpa using key _ _ hd
  have h1 := h gE (table_wf _) [] (by simp) hno
  obtain ⟨t, h2, _⟩ := C21_empty_input (V := Nat) 0 gE (table_wf _) (S := 0) rfl
  exact absurd (h1.unique h2) (by simp)

/-- `A -> N y ; N ->` with A = 0, N = 1, y = 2. -/
def gA : Grammar Nat := table [(0, [[1, 2]]), (1, [[]])]

/-- C23 is false: a lexeme whose kind names a nonterminal makes Parse panic (comparePriority indexes
past the children of the childless memo entry made for the lexeme). -/
theorem C23_refuted : ¬ ∀ (g : Grammar Nat), g.WF → ∀ ls : List (Lexeme Nat Nat),
    ¬ Out.Panics (parse 0 g ls) := by
  intro h
  refine h gA (table_wf _) (lexs [0]) ⟨60, fun n hn => ?_⟩
  exact (parse_mono 0 gA _ 60 n hn).panic (isPanic_eq (by decide +kernel))

/-- C23, the part that holds: no panic if no lexeme kind is a nonterminal. -/
theorem C23_no_panic_partial (ev : V) (g : Grammar α) (hg : g.WF) (ls : List (Lexeme α V))
    (hl : ∀ l ∈ ls, g.Term l.kind) (n : Nat) : parse ev g ls n ≠ .panic := by
  intro h
  obtain ⟨r, N, hN⟩ := C18_terminates ev g hg ls hl
  have h1 := hN (max n N) (by omega)
  have h2 := (parse_mono ev g ls n (max n N) (by omega)).panic h
  rw [h1] at h2; cases h2

/-- Concrete case: a grammar with left recursion, with lexemes of its terminals. -/
example (n : Nat) : parse 0 gE (lexs [2, 1, 2]) n ≠ .panic :=
  C23_no_panic_partial 0 gE (table_wf _) _ (by decide) n

end Verif.Props.Packrat
