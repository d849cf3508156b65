import Verif.Proofs.RegexGramSpell
import Verif.Props.RegexGram
import Verif.Props.Packrat
/-
C68: grammar/regexgram/regexgram.go from the lexemes of a definition to the grammar and the reducer.
-/
namespace Verif.Props.RegexGramNew
open Verif Verif.Spec Verif.RegexGram
open Verif.Props.Grammar (Shows)

/-- The lexemes are ones the lexer can make: each is for a token. -/
def Lexed (ls : List (Lexeme Str Str)) : Prop := ∀ l ∈ ls, ∃ t : RxTok, t.Is l

theorem lexed_of_spells : ∀ {ts : List RxTok} {ls : List (Lexeme Str Str)}, Spells ts ls → Lexed ls
  | [], _, h => by simp only [Spells] at h; subst h; intro l hl; cases hl
  | t :: ts, _, ⟨l, rest, e, h1, h2⟩ => by
    subst e
    intro l' hl
    rcases List.mem_cons.1 hl with rfl | hl
    · exact ⟨t, h1⟩
    · exact lexed_of_spells h2 l' hl

theorem lexed_terms {G : Spec.Grammar Str} (hG : RG G) {ls : List (Lexeme Str Str)} (h : Lexed ls) : ∀ l ∈ ls, G.Term l.kind := by
  intro l hl
  obtain ⟨t, ht⟩ := h l hl
  rw [ht.1]
  exact hG.term _ (kind_term t)

theorem read_of {G : Spec.Grammar Str} (hg : grmr = .ok G) {ls : List (Lexeme Str Str)} {t t' : PN Str Str}
    (h : Out.Returns (Packrat.parse [] G ls) (some t)) (hr : Red t t') : Out.Returns (fun n => readLexemes n ls) (some t') := by
  obtain ⟨N, hN⟩ := h
  refine ⟨N, fun n hn => ?_⟩
  have hr : Tree.rawReduce rdcr t () = .ok (t', ()) := hr
  simp only [readLexemes, hg, Out.bind_ok, hN n hn, Tree.reduce, hr]

theorem read_none {G : Spec.Grammar Str} (hg : grmr = .ok G) {ls : List (Lexeme Str Str)}
    (h : Out.Returns (Packrat.parse [] G ls) none) : Out.Returns (fun n => readLexemes n ls) none := by
  obtain ⟨N, hN⟩ := h
  exact ⟨N, fun n hn => by simp only [readLexemes, hg, Out.bind_ok, hN n hn, Tree.reduce]⟩

/-- **C68, reading.** The lexemes of a definition are parsed, and the reduced tree shows its rules. -/
theorem C68_reads {L : List RxLine} {b1 b2 : Bool} {ls : List (Lexeme Str Str)} (h : RxDef L) (hs : Spells (defToks b1 b2 L) ls) :
    ∃ t, Out.Returns (fun n => readLexemes n ls) (some t) ∧ RulesShown [] (linesRules [] L) t.kids := by
  obtain ⟨G, hg, hG, wf⟩ := grmr_eq
  have hw : G.Sentence (ls.map (·.kind)) := by rw [spells_kinds hs]; exact def_sentence hG h b1 b2
  obtain ⟨t, h1, h2⟩ := Verif.Props.Packrat.C20_complete [] G wf ls (lexed_terms hG (lexed_of_spells hs)) hw
  obtain ⟨t', L', c1, c2, h3, h4, h5, h6⟩ := read_parse hG h2
  obtain ⟨rfl, -, -⟩ := def_unique h h4 (spells_unique hs h5)
  exact ⟨t', read_of hg h1 h3, h6⟩

/-- **C68, only definitions.** Lexemes that are not those of a definition are rejected. -/
theorem C68_rejects {ls : List (Lexeme Str Str)} (hne : ls ≠ []) (hl : Lexed ls)
    (hno : ∀ L b1 b2, RxDef L → ¬ Spells (defToks b1 b2 L) ls) : Out.Returns (fun n => newLexemes n ls) none := by
  obtain ⟨G, hg, hG, wf⟩ := grmr_eq
  have ht := lexed_terms hG hl
  have hr : Out.Returns (fun n => readLexemes n ls) none := by
    refine read_none hg (Verif.Props.Packrat.C21_rejects_partial [] G wf ls hne ht fun hs => ?_)
    obtain ⟨t, h1, h2⟩ := Verif.Props.Packrat.C20_complete [] G wf ls ht hs
    obtain ⟨t', L', c1, c2, h3, h4, h5, h6⟩ := read_parse hG h2
    exact hno _ _ _ h4 h5
  obtain ⟨N, hN⟩ := hr
  exact ⟨N, fun n hn => by simp only [newLexemes]; rw [show readLexemes n ls = .ok none from hN n hn]; rfl⟩

theorem new_of {ls : List (Lexeme Str Str)} {t : PN Str Str} {r} (h : Out.Returns (fun n => readLexemes n ls) (some t))
    (hr : Out.Returns (fun n => evalGrammar n t) r) : Out.Returns (fun n => newLexemes n ls) (some r) := by
  obtain ⟨N, hN⟩ := h
  obtain ⟨M, hM⟩ := hr
  refine ⟨max N M, fun n hn => ?_⟩
  have e1 : readLexemes n ls = .ok (some t) := hN n (by omega)
  have e2 : evalGrammar n t = .ok r := hM n (by omega)
  simp only [newLexemes, e1, Out.bind_ok, e2]

/-- **C68.** `New` accepts exactly the definitions: for any lexemes the lexer can make it returns a
grammar if they spell a definition and an error if not. -/
theorem C68_accepts {ls : List (Lexeme Str Str)} (hne : ls ≠ []) (hl : Lexed ls) :
    (Out.Returns (fun n => newLexemes n ls) none ∧ ∀ L b1 b2, RxDef L → ¬ Spells (defToks b1 b2 L) ls) ∨
    ∃ g b, Out.Returns (fun n => newLexemes n ls) (some (g, b)) ∧ ∃ L b1 b2, RxDef L ∧ Spells (defToks b1 b2 L) ls ∧
      ∃ G, Shows g G := by
  by_cases h : ∃ L b1 b2, RxDef L ∧ Spells (defToks b1 b2 L) ls
  · obtain ⟨L, b1, b2, h1, h2⟩ := h
    obtain ⟨t, h3, h4⟩ := C68_reads h1 h2
    obtain ⟨g, b, G, h5, h6⟩ := Verif.Props.RegexGram.C49_returns h4
    exact .inr ⟨g, b, new_of h3 h5, L, b1, b2, h1, h2, G, h6⟩
  · have hno : ∀ L b1 b2, RxDef L → ¬ Spells (defToks b1 b2 L) ls := fun L b1 b2 h1 h2 => h ⟨L, b1, b2, h1, h2⟩
    exact .inl ⟨C68_rejects hne hl hno, hno⟩

/-- **C68, the words.** If the names of repetitions are names of their own and no group is empty, the
grammar `New` returns has the words of the rules written, from every nonterminal; the start symbol is the
nonterminal of the first line. -/
theorem C68_words {L : List RxLine} {b1 b2 : Bool} {ls : List (Lexeme Str Str)} (h : RxDef L)
    (hs : Spells (defToks b1 b2 L) ls) (hsol : (linesRules [] L).Solid) (hd : (linesRules [] L).Distinct) :
    ∃ g b G, Out.Returns (fun n => newLexemes n ls) (some (g, b)) ∧ Shows g G ∧
      (∀ s, s ∉ (linesRules [] L).helpers → ∀ w, G.Derives [s] w ↔ RxWords (linesRules [] L) [.sym s] w) ∧
      (∀ s, s ∉ (linesRules [] L).helpers → (G.Term s ↔ ∀ r, (s, r) ∉ linesRules [] L)) ∧
      ∃ n, (∃ xs, L.head? = some (some n, xs)) ∧ G.order.head? = some n ∧
        ∀ w, G.Sentence w ↔ RxWords (linesRules [] L) [.sym n] w := by
  obtain ⟨t, h3, h4⟩ := C68_reads h hs
  obtain ⟨g, b, G, h5, h6, h7, h8, h9⟩ := Verif.Props.RegexGram.C49_words_partial h4 hsol hd
  refine ⟨g, b, G, new_of h3 h5, h6, h7, h8, ?_⟩
  obtain ⟨n, xs, L', rfl⟩ := h.first
  have ho : G.order.head? = some n := h9
  refine ⟨n, ⟨xs, rfl⟩, ho, fun w => ?_⟩
  have hn : n ∉ (linesRules [] ((some n, xs) :: L')).helpers := by
    intro hh
    obtain ⟨x, hx, e⟩ := mem_helpers.1 hh
    exact hd.undeclared x hx (n, xs) (by simp [linesRules]) e
  constructor
  · rintro ⟨S, hS, hw⟩
    rw [ho] at hS
    cases hS
    exact (h7 n hn w).1 hw
  · exact fun hw => ⟨n, ho, (h7 n hn w).2 hw⟩

/-- **C68, the whole grammar.** It records the plain rules of the lines in order, then those of one
helper for each repetition. -/
theorem C68_grammar {L : List RxLine} {b1 b2 : Bool} {ls : List (Lexeme Str Str)} (h : RxDef L)
    (hs : Spells (defToks b1 b2 L) ls) (hsol : (linesRules [] L).Solid) (hd : (linesRules [] L).Distinct) :
    ∃ g b, ∃ K : List Rx, Out.Returns (fun n => newLexemes n ls) (some (g, b)) ∧ K.Nodup ∧
      (∀ x, x ∈ K ↔ .rep x ∈ (linesRules [] L).parts) ∧
      Shows g (record (RxRules.plain (linesRules [] L ++ K.flatMap Rx.more))) := by
  obtain ⟨t, h3, h4⟩ := C68_reads h hs
  obtain ⟨g, b, K, h5, h6, h7, h8⟩ := Verif.Props.RegexGram.C49_grammar_partial h4 hsol hd
  exact ⟨g, b, K, new_of h3 h5, h6, h7, h8⟩

/-- **C68, the reducer.** On derivation trees of the grammar from any other symbol than the helpers, the
reducer takes out the helper nodes and changes nothing else. -/
theorem C68_reducer {L : List RxLine} {b1 b2 : Bool} {ls : List (Lexeme Str Str)} (h : RxDef L)
    (hs : Spells (defToks b1 b2 L) ls) (hw : ∀ s, .sym s ∈ (linesRules [] L).parts → '*' ∉ s) :
    ∃ g b G, Out.Returns (fun n => newLexemes n ls) (some (g, b)) ∧ Shows g G ∧
      ∀ t : PN Str Str, t.Valid G → t.kind ∉ (linesRules [] L).helpers →
        Out.Returns (fun n => Tree.reduce (reducerOf (σ := Unit) n b) (some t) ()) (some (PN.hide (linesRules [] L).helpers t), ()) := by
  obtain ⟨t, h3, h4⟩ := C68_reads h hs
  obtain ⟨g, b, G, h5, h6, h7⟩ := Verif.Props.RegexGram.C51_hide h4 hw
  exact ⟨g, b, G, new_of h3 h5, h6, fun t ht hk => (h7 t ht hk).1⟩

/-! ### The hypotheses can be met -/

/-- Lexemes for tokens; those other than symbols have no text here. -/
def lexemesOf (ts : List RxTok) : List (Lexeme Str Str) :=
  ts.map fun t => ⟨t.kind, match t with | .sym s => s | _ => [], 0, 0⟩

theorem spells_lexemesOf : ∀ ts : List RxTok, Spells ts (lexemesOf ts)
  | [] => rfl
  | t :: ts => by
    refine ⟨⟨t.kind, match t with | .sym s => s | _ => [], 0, 0⟩, lexemesOf ts, rfl, ⟨rfl, ?_⟩, spells_lexemesOf ts⟩
    rintro s rfl
    rfl

/-- The lines of a definition with all operators, nested:
```
S -> (A|B* c)* S?
B -> b|(x y)
  ->
```
-/
def exL : List RxLine :=
  [(some ['S'], [.rep (.group [.or [.sym ['A'], .rep (.sym ['B'])], .sym ['c']]), .opt (.sym ['S'])]),
   (some ['B'], [.or [.sym ['b'], .group [.sym ['x'], .sym ['y']]]]),
   (none, [])]

/-- Non-trivial case of C68: a definition with all operators, whose names are their own. -/
example : RxDef exL ∧ Spells (defToks true true exL) (lexemesOf (defToks true true exL)) ∧
    linesRules [] exL = Verif.Props.RegexGram.exR ∧ (linesRules [] exL).Solid ∧ (linesRules [] exL).Distinct ∧
    (defToks true true exL).length = 26 := by
  have e : linesRules [] exL = Verif.Props.RegexGram.exR := rfl
  have h : Verif.Props.RegexGram.exR.Writable := by
    refine ⟨by decide, ?_, ?_, ?_⟩
    · intro s hs
      simp [RxRules.parts, Verif.Props.RegexGram.exR, Rx.partss, Rx.parts] at hs
      rcases hs with rfl | rfl | rfl | rfl | rfl | rfl | rfl <;> exact ⟨by decide, by decide⟩
    · intro r hr
      simp [Verif.Props.RegexGram.exR] at hr
      rcases hr with rfl | rfl | rfl <;> exact ⟨by simp, by decide⟩
    · simp [RxRules.parts, Verif.Props.RegexGram.exR, Rx.partss, Rx.parts]
  refine ⟨⟨⟨_, _, _, rfl⟩, by decide⟩, spells_lexemesOf _, e, ?_, ?_, by decide⟩
  · rw [e]; exact solid_of_writable h
  · rw [e]; exact distinct_of_writable h

mutual
theorem rx_count : ∀ x : Rx, x.toks.count .lp = x.toks.count .rp
  | .sym s => by simp [Rx.toks]
  | .opt x => by simp [Rx.toks, rx_count x]
  | .rep x => by simp [Rx.toks, rx_count x]
  | .group xs => by simp [Rx.toks, (rxs_count xs).1]
  | .or xs => by rw [Rx.toks, (rxs_count xs).2]
theorem rxs_count : ∀ xs : List Rx, (Rx.toksAll xs).count .lp = (Rx.toksAll xs).count .rp ∧
    (Rx.toksOr xs).count .lp = (Rx.toksOr xs).count .rp
  | [] => ⟨rfl, rfl⟩
  | x :: xs => by
    obtain ⟨h1, h2⟩ := rxs_count xs
    refine ⟨by simp [Rx.toksAll, rx_count x, h1], ?_⟩
    rw [Rx.toksOr]
    split <;> simp [rx_count x, h2]
end

theorem lines_count : ∀ L : List RxLine, (L.flatMap RxLine.toks).count .lp = (L.flatMap RxLine.toks).count .rp
  | [] => rfl
  | (some n, xs) :: L => by simp [List.flatMap_cons, RxLine.toks, (rxs_count xs).1, lines_count L]
  | (none, xs) :: L => by simp [List.flatMap_cons, RxLine.toks, (rxs_count xs).1, lines_count L]

/-- Non-trivial case of the rejection: `S -> (A` has lexemes the lexer makes but is no definition. -/
example : Lexed (lexemesOf [.nl, .sym ['S'], .rarr, .lp, .sym ['A']]) ∧
    ∀ L b1 b2, RxDef L → ¬ Spells (defToks b1 b2 L) (lexemesOf [.nl, .sym ['S'], .rarr, .lp, .sym ['A']]) := by
  refine ⟨lexed_of_spells (spells_lexemesOf _), fun L b1 b2 h hs => ?_⟩
  have e := spells_unique hs (spells_lexemesOf _)
  have h1 : (defToks b1 b2 L).count .lp = (defToks b1 b2 L).count .rp := by
    unfold defToks
    rw [List.count_append, List.count_append, List.count_append, List.count_append, lines_count]
    cases b1 <;> cases b2 <;> rfl
  rw [e] at h1
  exact absurd h1 (by decide)

end Verif.Props.RegexGramNew
