import Verif.Model.RegexGramNew
import Verif.Spec.RegexGramText
import Verif.Proofs.GrammarText
import Verif.Proofs.Lit
/-
Reading regex grammars: every derivation tree of the grammar of regex grammars reduces to a tree that
shows rules, and its leaves spell these rules.
-/
namespace Verif.RegexGram
open Verif Verif.Spec

/-- The productions of the grammar of regex grammars. -/
def rgRows : List (Str × List (List Str)) :=
  [("Grammar".toList, [["NL".toList, "Production".toList, "Productions".toList, "NL".toList]]),
   ("Productions".toList, [["Production".toList, "Productions".toList], ["ContinueProd".toList, "Productions".toList], []]),
   ("Production".toList, [["nl".toList, "symbol".toList, "rarr".toList, "Symbols".toList]]),
   ("ContinueProd".toList, [["nl".toList, "rarr".toList, "Symbols".toList]]),
   ("Symbols".toList, [["Symbol".toList, "Symbols".toList], []]),
   ("Symbol".toList, [["Group".toList], ["OrSymbol".toList], ["RepSymbol".toList], ["OptSymbol".toList], ["symbol".toList]]),
   ("Group".toList, [["(".toList, "Symbols".toList, ")".toList]]),
   ("OptSymbol".toList, [["Group".toList, "optional".toList], ["symbol".toList, "optional".toList]]),
   ("RepSymbol".toList, [["Group".toList, "repeats".toList], ["symbol".toList, "repeats".toList]]),
   ("OrSymbol".toList, [["Group".toList, "or".toList, "MoreOr".toList], ["OptSymbol".toList, "or".toList, "MoreOr".toList],
     ["RepSymbol".toList, "or".toList, "MoreOr".toList], ["symbol".toList, "or".toList, "MoreOr".toList]]),
   ("MoreOr".toList, [["Group".toList, "or".toList, "MoreOr".toList], ["OptSymbol".toList, "or".toList, "MoreOr".toList],
     ["RepSymbol".toList, "or".toList, "MoreOr".toList], ["symbol".toList, "or".toList, "MoreOr".toList],
     ["Group".toList], ["OptSymbol".toList], ["RepSymbol".toList], ["symbol".toList]]),
   ("NL".toList, [["nl".toList], []])]

/-- The same as single rules. -/
def rgAdds : List (Str × List Str) := rgRows.flatMap fun r => r.2.map fun p => (r.1, p)

/-- The terminals. -/
def rgTerms : List Str :=
  ["nl".toList, "rarr".toList, "repeats".toList, "optional".toList, "or".toList, "(".toList, ")".toList, "symbol".toList]

/-- A grammar with these productions. -/
structure RG (G : Spec.Grammar Str) : Prop where
  order : G.order = rgRows.map (·.1)
  prods : ∀ r ∈ rgRows, G.prods r.1 = some r.2
  term : ∀ t ∈ rgTerms, G.Term t

/-- A test for it. -/
def rgTest (G : Spec.Grammar Str) : Bool :=
  decide (G.order = rgRows.map (·.1)) && (rgRows.all fun r => decide (G.prods r.1 = some r.2)) &&
    rgTerms.all fun t => decide (G.prods t = none)

theorem rg_of_test {G : Spec.Grammar Str} (h : rgTest G = true) : RG G := by
  simp only [rgTest, Bool.and_eq_true, decide_eq_true_eq, List.all_eq_true] at h
  exact ⟨h.1.1, h.1.2, h.2⟩

set_option maxRecDepth 10000 in
/-- The grammar the code makes. -/
theorem grmr_eq : ∃ G, grmr = .ok G ∧ RG G ∧ G.WF := by
  have h : Grammar.readRules none (Grammar.split '\n' grammarProductions) = some rgAdds := by
    unfold grammarProductions rgAdds rgRows
    simp only [litToList]
    decide +kernel
  have ht : rgTest (record rgAdds) = true := by
    unfold rgTest rgAdds rgTerms rgRows
    simp only [litToList]
    decide +kernel
  obtain ⟨g, e, h2⟩ := Grammar.new_of_readRules h
  refine ⟨Grammar.view g, congrArg mustGrammar e, ?_, ?_⟩
  · rw [Grammar.view_rep h2]
    exact rg_of_test ht
  · rw [Grammar.view_rep h2]
    exact Grammar.record_wf _

theorem RG.grammar {G : Spec.Grammar Str} (h : RG G) : G.prods "Grammar".toList = some [["NL".toList, "Production".toList, "Productions".toList, "NL".toList]] :=
  h.prods ("Grammar".toList, _) (by decide)
theorem RG.productions {G : Spec.Grammar Str} (h : RG G) : G.prods "Productions".toList = some [["Production".toList, "Productions".toList], ["ContinueProd".toList, "Productions".toList], []] :=
  h.prods ("Productions".toList, _) (by decide)
theorem RG.production {G : Spec.Grammar Str} (h : RG G) : G.prods "Production".toList = some [["nl".toList, "symbol".toList, "rarr".toList, "Symbols".toList]] :=
  h.prods ("Production".toList, _) (by decide)
theorem RG.cont {G : Spec.Grammar Str} (h : RG G) : G.prods "ContinueProd".toList = some [["nl".toList, "rarr".toList, "Symbols".toList]] :=
  h.prods ("ContinueProd".toList, _) (by decide)
theorem RG.symbols {G : Spec.Grammar Str} (h : RG G) : G.prods "Symbols".toList = some [["Symbol".toList, "Symbols".toList], []] :=
  h.prods ("Symbols".toList, _) (by decide)
theorem RG.symbol {G : Spec.Grammar Str} (h : RG G) : G.prods "Symbol".toList = some [["Group".toList], ["OrSymbol".toList], ["RepSymbol".toList], ["OptSymbol".toList], ["symbol".toList]] :=
  h.prods ("Symbol".toList, _) (by decide)
theorem RG.group {G : Spec.Grammar Str} (h : RG G) : G.prods "Group".toList = some [["(".toList, "Symbols".toList, ")".toList]] :=
  h.prods ("Group".toList, _) (by decide)
theorem RG.opt {G : Spec.Grammar Str} (h : RG G) : G.prods "OptSymbol".toList = some [["Group".toList, "optional".toList], ["symbol".toList, "optional".toList]] :=
  h.prods ("OptSymbol".toList, _) (by decide)
theorem RG.rep {G : Spec.Grammar Str} (h : RG G) : G.prods "RepSymbol".toList = some [["Group".toList, "repeats".toList], ["symbol".toList, "repeats".toList]] :=
  h.prods ("RepSymbol".toList, _) (by decide)
theorem RG.or {G : Spec.Grammar Str} (h : RG G) : G.prods "OrSymbol".toList = some [["Group".toList, "or".toList, "MoreOr".toList], ["OptSymbol".toList, "or".toList, "MoreOr".toList], ["RepSymbol".toList, "or".toList, "MoreOr".toList], ["symbol".toList, "or".toList, "MoreOr".toList]] :=
  h.prods ("OrSymbol".toList, _) (by decide)
theorem RG.more {G : Spec.Grammar Str} (h : RG G) : G.prods "MoreOr".toList = some [["Group".toList, "or".toList, "MoreOr".toList], ["OptSymbol".toList, "or".toList, "MoreOr".toList], ["RepSymbol".toList, "or".toList, "MoreOr".toList], ["symbol".toList, "or".toList, "MoreOr".toList], ["Group".toList], ["OptSymbol".toList], ["RepSymbol".toList], ["symbol".toList]] :=
  h.prods ("MoreOr".toList, _) (by decide)
theorem RG.nl {G : Spec.Grammar Str} (h : RG G) : G.prods "NL".toList = some [["nl".toList], []] :=
  h.prods ("NL".toList, _) (by decide)

/-! ### Spelling -/

theorem spells_append {a b : List RxTok} : ∀ {x y : List (Lexeme Str Str)}, Spells a x → Spells b y → Spells (a ++ b) (x ++ y) := by
  induction a with
  | nil => intro x y h1 h2; simp only [Spells] at h1; subst h1; exact h2
  | cons t ts ih =>
    rintro x y ⟨l, rest, rfl, h, h1⟩ h2
    exact ⟨l, rest ++ y, rfl, h, ih h1 h2⟩

theorem spells_split {a b : List RxTok} : ∀ {z : List (Lexeme Str Str)}, Spells (a ++ b) z → ∃ x y, z = x ++ y ∧ Spells a x ∧ Spells b y := by
  induction a with
  | nil => intro z h; exact ⟨[], z, rfl, rfl, h⟩
  | cons t ts ih =>
    rintro z ⟨l, rest, rfl, h, h1⟩
    obtain ⟨x, y, rfl, h2, h3⟩ := ih h1
    exact ⟨l :: x, y, rfl, ⟨l, x, rfl, h, h2⟩, h3⟩

theorem spells_one {t : RxTok} {l : Lexeme Str Str} (h : t.Is l) : Spells [t] [l] := ⟨l, [], rfl, h, rfl⟩

/-! ### Trees -/

/-- Leaves. -/
abbrev fr (G : Spec.Grammar Str) (t : PN Str Str) : List (Lexeme Str Str) := t.fringe (fun s => (G.prods s).isNone)

/-- The tree reduces to another. -/
def Red (t t' : PN Str Str) : Prop := Tree.rawReduce rdcr t () = .ok (t', ())

/-- Reduction of trees. -/
inductive Reds : List (PN Str Str) → List (PN Str Str) → Prop
  | nil : Reds [] []
  | cons {t t' ts ts'} : Red t t' → Reds ts ts' → Reds (t :: ts) (t' :: ts')

theorem rawReduces_of {ts ts' : List (PN Str Str)} (h : Reds ts ts') : Tree.rawReduces rdcr ts () = .ok (ts', ()) := by
  induction h with
  | nil => rfl
  | cons h _ ih => rw [Tree.rawReduces, h, Out.bind_ok, ih]; rfl

/-- What the reducer does with one node whose children are reduced. -/
def Acts (p p' : PN Str Str) : Prop := (match (rdcr p.kind).join with | none => .ok (p, ()) | some f => f p ()) = Out.ok (p', ())

theorem red_node {l : Lexeme Str Str} {ks ks' t'} (h : Reds ks ks') (ha : Acts (.node l ks') t') : Red (.node l ks) t' := by
  unfold Red
  rw [Tree.rawReduce, rawReduces_of h, Out.bind_ok]
  unfold Acts at ha
  cases e : (rdcr l.kind).join with
  | none => rw [show (PN.node l ks').kind = l.kind from rfl, e] at ha; exact ha
  | some f => rw [show (PN.node l ks').kind = l.kind from rfl, e] at ha; exact ha

section acts
variable {l : Lexeme Str Str} {a b c d : PN Str Str}

theorem acts_term (h : l.kind ∈ rgTerms ++ ["NL".toList]) (ks) : Acts (.node l ks) (.node l ks) := by
  obtain ⟨k, v, i, j⟩ := l
  have : ∀ k ∈ rgTerms ++ ["NL".toList], (rdcr k).join.isNone = true := by decide
  have h := this k h
  unfold Acts
  show (match (rdcr k).join with | none => _ | some f => _) = _
  rw [Option.isNone_iff_eq_none.1 h]

theorem acts_symbols (h : l.kind = "Symbols".toList) : Acts (.node l [a, b]) (.node l (a :: b.kids)) := by
  obtain ⟨k, v, i, j⟩ := l; cases h; rfl
theorem acts_symbols0 (h : l.kind = "Symbols".toList) : Acts (.node l []) (.node l []) := by
  obtain ⟨k, v, i, j⟩ := l; cases h; rfl
theorem acts_symbol (h : l.kind = "Symbol".toList) : Acts (.node l [a]) a := by
  obtain ⟨k, v, i, j⟩ := l; cases h; cases a; rfl
theorem acts_group (h : l.kind = "Group".toList) : Acts (.node l [a, b, c]) (.node l b.kids) := by
  obtain ⟨k, v, i, j⟩ := l; cases h; rfl
theorem acts_opt (h : l.kind = "OptSymbol".toList) : Acts (.node l [a, b]) (.node l [a]) := by
  obtain ⟨k, v, i, j⟩ := l; cases h; rfl
theorem acts_rep (h : l.kind = "RepSymbol".toList) : Acts (.node l [a, b]) (.node l [a]) := by
  obtain ⟨k, v, i, j⟩ := l; cases h; rfl
theorem acts_or (h : l.kind = "OrSymbol".toList) : Acts (.node l [a, b, c]) (.node l (a :: c.kids)) := by
  obtain ⟨k, v, i, j⟩ := l; cases h; rfl
theorem acts_more (h : l.kind = "MoreOr".toList) : Acts (.node l [a, b, c]) (.node l (a :: c.kids)) := by
  obtain ⟨k, v, i, j⟩ := l; cases h; rfl
theorem acts_more1 (h : l.kind = "MoreOr".toList) : Acts (.node l [a]) (.node l [a]) := by
  obtain ⟨k, v, i, j⟩ := l; cases h; rfl
theorem acts_production (h : l.kind = "Production".toList) :
    Acts (.node l [a, b, c, d]) (.node ⟨"Production".toList, b.lx.val, b.lx.line, b.lx.col⟩ d.kids) := by
  obtain ⟨k, v, i, j⟩ := l; cases h; simp [Acts]; rfl
theorem acts_continue (h : l.kind = "ContinueProd".toList) : Acts (.node l [a, b, c]) (.node l c.kids) := by
  obtain ⟨k, v, i, j⟩ := l; cases h; rfl
theorem acts_productions (h : l.kind = "Productions".toList) : Acts (.node l [a, b]) (.node l (a :: b.kids)) := by
  obtain ⟨k, v, i, j⟩ := l; cases h; rfl
theorem acts_productions0 (h : l.kind = "Productions".toList) : Acts (.node l []) (.node l []) := by
  obtain ⟨k, v, i, j⟩ := l; cases h; rfl
theorem acts_grammar (h : l.kind = "Grammar".toList) (ha : a.kind = "NL".toList) (hd : d.kind = "NL".toList) :
    Acts (.node l [a, b, c, d]) (.node l (b :: c.kids)) := by
  obtain ⟨k, v, i, j⟩ := l; obtain ⟨⟨k1, v1, i1, j1⟩, ks1⟩ := a; obtain ⟨⟨k2, v2, i2, j2⟩, ks2⟩ := d
  cases h; cases ha; cases hd; rfl
end acts

/-! ### Derivation trees -/

theorem kids1 {ks : List (PN Str Str)} {A : Str} (h : ks.map PN.kind = [A]) : ∃ a, ks = [a] ∧ a.kind = A := by
  match ks, h with
  | [a], h => exact ⟨a, rfl, by simpa using h⟩

theorem kids2 {ks : List (PN Str Str)} {A B : Str} (h : ks.map PN.kind = [A, B]) : ∃ a b, ks = [a, b] ∧ a.kind = A ∧ b.kind = B := by
  match ks, h with
  | [a, b], h =>
    simp only [List.map_cons, List.map_nil, List.cons.injEq, and_true] at h
    exact ⟨a, b, rfl, h.1, h.2⟩

theorem kids3 {ks : List (PN Str Str)} {A B C : Str} (h : ks.map PN.kind = [A, B, C]) :
    ∃ a b c, ks = [a, b, c] ∧ a.kind = A ∧ b.kind = B ∧ c.kind = C := by
  match ks, h with
  | [a, b, c], h =>
    simp only [List.map_cons, List.map_nil, List.cons.injEq, and_true] at h
    exact ⟨a, b, c, rfl, h.1, h.2.1, h.2.2⟩

theorem kids4 {ks : List (PN Str Str)} {A B C D : Str} (h : ks.map PN.kind = [A, B, C, D]) :
    ∃ a b c d, ks = [a, b, c, d] ∧ a.kind = A ∧ b.kind = B ∧ c.kind = C ∧ d.kind = D := by
  match ks, h with
  | [a, b, c, d], h =>
    simp only [List.map_cons, List.map_nil, List.cons.injEq, and_true] at h
    exact ⟨a, b, c, d, rfl, h.1, h.2.1, h.2.2.1, h.2.2.2⟩

/-- What a derivation tree is reduced to and what its leaves spell, by its kind. -/
structure Reads (G : Spec.Grammar Str) (t : PN Str Str) : Prop where
  tok : ∀ x : RxTok, t.kind = x.kind → Red t t ∧ fr G t = [t.lx]
  unit : t.kind = "Group".toList → ∃ t' x, Red t t' ∧ Rx.Shown x t' ∧ x.unit = true ∧ Spells x.toks (fr G t)
  opt : t.kind = "OptSymbol".toList → ∃ t' x, Red t t' ∧ Rx.Shown x t' ∧ x.factor = true ∧ Spells x.toks (fr G t)
  rep : t.kind = "RepSymbol".toList → ∃ t' x, Red t t' ∧ Rx.Shown x t' ∧ x.factor = true ∧ Spells x.toks (fr G t)
  or : t.kind = "OrSymbol".toList → ∃ t' x, Red t t' ∧ Rx.Shown x t' ∧ x.writable = true ∧ Spells x.toks (fr G t)
  more : t.kind = "MoreOr".toList → ∃ t' xs, Red t t' ∧ Rx.Showns xs t'.kids ∧ xs ≠ [] ∧ Rx.factors xs = true ∧
    Spells (Rx.toksOr xs) (fr G t)
  symbol : t.kind = "Symbol".toList → ∃ t' x, Red t t' ∧ Rx.Shown x t' ∧ x.writable = true ∧ Spells x.toks (fr G t)
  symbols : t.kind = "Symbols".toList → ∃ t' xs, Red t t' ∧ Rx.Showns xs t'.kids ∧ Rx.writables xs = true ∧
    Spells (Rx.toksAll xs) (fr G t)
  production : t.kind = "Production".toList → ∃ t' n xs, Red t t' ∧ t'.kind = "Production".toList ∧ t'.lx.val = n ∧
    Rx.Showns xs t'.kids ∧ Rx.writables xs = true ∧ Spells (RxLine.toks (some n, xs)) (fr G t)
  cont : t.kind = "ContinueProd".toList → ∃ t' xs, Red t t' ∧ t'.kind = "ContinueProd".toList ∧
    Rx.Showns xs t'.kids ∧ Rx.writables xs = true ∧ Spells (RxLine.toks (none, xs)) (fr G t)
  productions : t.kind = "Productions".toList → ∃ t' L, Red t t' ∧ (∀ nt, RulesShown nt (linesRules nt L) t'.kids) ∧
    (∀ l ∈ L, Rx.writables l.2 = true) ∧ Spells (L.flatMap RxLine.toks) (fr G t)
  nl : t.kind = "NL".toList → ∃ t', ∃ b : Bool, Red t t' ∧ t'.kind = "NL".toList ∧ Spells (if b then [.nl] else []) (fr G t)

theorem kind_term : ∀ x : RxTok, x.kind ∈ rgTerms
  | .nl => .head _
  | .rarr => .tail _ (.head _)
  | .rep => .tail _ (.tail _ (.head _))
  | .opt => .tail _ (.tail _ (.tail _ (.head _)))
  | .or => .tail _ (.tail _ (.tail _ (.tail _ (.head _))))
  | .lp => .tail _ (.tail _ (.tail _ (.tail _ (.tail _ (.head _)))))
  | .rp => .tail _ (.tail _ (.tail _ (.tail _ (.tail _ (.tail _ (.head _))))))
  | .sym _ => .tail _ (.tail _ (.tail _ (.tail _ (.tail _ (.tail _ (.tail _ (.head _)))))))

section
variable {G : Spec.Grammar Str} {t : PN Str Str}

theorem Reads.one (h : Reads G t) {x : RxTok} (hk : t.kind = x.kind) (hs : ∀ s, x ≠ .sym s) : Red t t ∧ Spells [x] (fr G t) := by
  obtain ⟨h1, h2⟩ := h.tok x hk
  exact ⟨h1, by rw [h2]; exact spells_one ⟨hk, fun s e => absurd e (hs s)⟩⟩

theorem Reads.sym (h : Reads G t) (hk : t.kind = "symbol".toList) :
    Red t t ∧ Rx.Shown (.sym t.lx.val) t ∧ Spells [.sym t.lx.val] (fr G t) := by
  obtain ⟨h1, h2⟩ := h.tok (.sym t.lx.val) hk
  exact ⟨h1, ⟨hk, rfl⟩, by rw [h2]; exact spells_one ⟨hk, fun s e => by cases e; rfl⟩⟩

/-- Groups and symbols. -/
theorem Reads.units (h : Reads G t) (hk : t.kind = "Group".toList ∨ t.kind = "symbol".toList) :
    ∃ t' x, Red t t' ∧ Rx.Shown x t' ∧ x.unit = true ∧ Spells x.toks (fr G t) := by
  rcases hk with hk | hk
  · exact h.unit hk
  · obtain ⟨h1, h2, h3⟩ := h.sym hk
    exact ⟨t, _, h1, h2, rfl, h3⟩

theorem factor_of_unit {x : Rx} (h : x.unit = true) : x.factor = true := by
  cases x <;> simp_all [Rx.unit, Rx.factor]

theorem writable_of_factor {x : Rx} (h : x.factor = true) : x.writable = true := by
  cases x <;> simp_all [Rx.writable, Rx.factor]

/-- Factors. -/
theorem Reads.factors (h : Reads G t) (hk : t.kind = "Group".toList ∨ t.kind = "OptSymbol".toList ∨
    t.kind = "RepSymbol".toList ∨ t.kind = "symbol".toList) :
    ∃ t' x, Red t t' ∧ Rx.Shown x t' ∧ x.factor = true ∧ Spells x.toks (fr G t) := by
  rcases hk with hk | hk | hk | hk
  · obtain ⟨t', x, h1, h2, h3, h4⟩ := h.units (.inl hk)
    exact ⟨t', x, h1, h2, factor_of_unit h3, h4⟩
  · exact h.opt hk
  · exact h.rep hk
  · obtain ⟨t', x, h1, h2, h3, h4⟩ := h.units (.inr hk)
    exact ⟨t', x, h1, h2, factor_of_unit h3, h4⟩

end

theorem toksOr_cons {x : Rx} {xs : List Rx} (h : xs ≠ []) : Rx.toksOr (x :: xs) = x.toks ++ (.or :: Rx.toksOr xs) := by
  rw [Rx.toksOr]
  cases xs with
  | nil => exact absurd rfl h
  | cons => rfl

theorem reads_valid {G : Spec.Grammar Str} (hG : RG G) {t : PN Str Str} (hv : t.Valid G) : Reads G t := by
  induction hv with
  | @leaf l h =>
    have no : ∀ {A}, A ∈ rgRows.map (·.1) → l.kind ≠ A := by
      rintro A hm rfl
      obtain ⟨r, hr, e⟩ := List.mem_map.1 hm
      have := hG.prods r hr
      rw [show r.1 = l.kind from e, h] at this; cases this
    constructor
    case tok =>
      intro x hx
      have hx : l.kind = x.kind := hx
      refine ⟨red_node .nil (acts_term (List.mem_append_left _ (by rw [hx]; exact kind_term x)) _), ?_⟩
      show PN.fringe _ _ = _
      rw [PN.fringe, show (G.prods l.kind).isNone = true from by rw [h]; rfl]
      rfl
    all_goals
      intro hk
      exact absurd hk (no (by decide))
  | @inner l ks k p hr hp hvs ih =>
    obtain ⟨ps, hps, hk⟩ := hr
    have hm : ks.map PN.kind ∈ ps := hp ▸ List.mem_of_getElem? hk
    clear hk hp hvs
    have hfr : fr G (.node l ks) = PN.fringes (fun s => (G.prods s).isNone) ks := by
      show PN.fringe _ _ = _
      rw [PN.fringe, show (G.prods l.kind).isNone = false from by rw [hps]; rfl]
      rfl
    rw [← show (PN.node l ks).kind = l.kind from rfl] at hps
    have use : ∀ {A qs}, (PN.node l ks).kind = A → G.prods A = some qs → l.kind = A ∧ ks.map PN.kind ∈ qs := by
      rintro A qs rfl h
      rw [hps] at h; cases h
      exact ⟨rfl, hm⟩
    constructor
    case tok =>
      intro x hx
      have := hG.term _ (kind_term x)
      rw [← hx, Spec.Grammar.Term, hps] at this
      cases this
    case unit =>
      intro h
      obtain ⟨hl, h⟩ := use h hG.group
      simp only [List.mem_cons, List.not_mem_nil, or_false] at h
      obtain ⟨a, b, c, rfl, ha, hb, hc⟩ := kids3 h
      obtain ⟨a1, a2⟩ := (ih a (by simp)).one (x := .lp) ha (by simp)
      obtain ⟨b', xs, b1, b2, b3, b4⟩ := (ih b (by simp)).symbols hb
      obtain ⟨c1, c2⟩ := (ih c (by simp)).one (x := .rp) hc (by simp)
      refine ⟨_, .group xs, red_node (.cons a1 (.cons b1 (.cons c1 .nil))) (acts_group hl), ⟨hl, b2⟩, by rw [Rx.unit]; exact b3, ?_⟩
      rw [hfr]
      simp only [PN.fringes, List.append_nil]
      exact spells_append a2 (spells_append b4 c2)
    case opt =>
      intro h
      obtain ⟨hl, h⟩ := use h hG.opt
      simp only [List.mem_cons, List.not_mem_nil, or_false] at h
      have h' : ∃ a b, ks = [a, b] ∧ (a.kind = "Group".toList ∨ a.kind = "symbol".toList) ∧ b.kind = "optional".toList := by
        rcases h with h | h
        · obtain ⟨a, b, e, h1, h2⟩ := kids2 h; exact ⟨a, b, e, .inl h1, h2⟩
        · obtain ⟨a, b, e, h1, h2⟩ := kids2 h; exact ⟨a, b, e, .inr h1, h2⟩
      obtain ⟨a, b, rfl, ha, hb⟩ := h'
      obtain ⟨a', x, a1, a2, a3, a4⟩ := (ih a (by simp)).units ha
      obtain ⟨b1, b2⟩ := (ih b (by simp)).one (x := .opt) hb (by simp)
      refine ⟨_, .opt x, red_node (.cons a1 (.cons b1 .nil)) (acts_opt hl), ⟨hl, a', rfl, a2⟩, by rw [Rx.factor]; exact a3, ?_⟩
      rw [hfr]
      simp only [PN.fringes, List.append_nil]
      exact spells_append a4 b2
    case rep =>
      intro h
      obtain ⟨hl, h⟩ := use h hG.rep
      simp only [List.mem_cons, List.not_mem_nil, or_false] at h
      have h' : ∃ a b, ks = [a, b] ∧ (a.kind = "Group".toList ∨ a.kind = "symbol".toList) ∧ b.kind = "repeats".toList := by
        rcases h with h | h
        · obtain ⟨a, b, e, h1, h2⟩ := kids2 h; exact ⟨a, b, e, .inl h1, h2⟩
        · obtain ⟨a, b, e, h1, h2⟩ := kids2 h; exact ⟨a, b, e, .inr h1, h2⟩
      obtain ⟨a, b, rfl, ha, hb⟩ := h'
      obtain ⟨a', x, a1, a2, a3, a4⟩ := (ih a (by simp)).units ha
      obtain ⟨b1, b2⟩ := (ih b (by simp)).one (x := .rep) hb (by simp)
      refine ⟨_, .rep x, red_node (.cons a1 (.cons b1 .nil)) (acts_rep hl), ⟨hl, a', rfl, a2⟩, by rw [Rx.factor]; exact a3, ?_⟩
      rw [hfr]
      simp only [PN.fringes, List.append_nil]
      exact spells_append a4 b2
    case or =>
      intro h
      obtain ⟨hl, h⟩ := use h hG.or
      simp only [List.mem_cons, List.not_mem_nil, or_false] at h
      have h' : ∃ a b c, ks = [a, b, c] ∧ (a.kind = "Group".toList ∨ a.kind = "OptSymbol".toList ∨
          a.kind = "RepSymbol".toList ∨ a.kind = "symbol".toList) ∧ b.kind = "or".toList ∧ c.kind = "MoreOr".toList := by
        rcases h with h | h | h | h
        · obtain ⟨a, b, c, e, h1, h2⟩ := kids3 h; exact ⟨a, b, c, e, .inl h1, h2⟩
        · obtain ⟨a, b, c, e, h1, h2⟩ := kids3 h; exact ⟨a, b, c, e, .inr (.inl h1), h2⟩
        · obtain ⟨a, b, c, e, h1, h2⟩ := kids3 h; exact ⟨a, b, c, e, .inr (.inr (.inl h1)), h2⟩
        · obtain ⟨a, b, c, e, h1, h2⟩ := kids3 h; exact ⟨a, b, c, e, .inr (.inr (.inr h1)), h2⟩
      obtain ⟨a, b, c, rfl, ha, hb, hc⟩ := h'
      obtain ⟨a', x, a1, a2, a3, a4⟩ := (ih a (by simp)).factors ha
      obtain ⟨b1, b2⟩ := (ih b (by simp)).one (x := .or) hb (by simp)
      obtain ⟨c', xs, c1, c2, c3, c4, c5⟩ := (ih c (by simp)).more hc
      refine ⟨_, .or (x :: xs), red_node (.cons a1 (.cons b1 (.cons c1 .nil))) (acts_or hl), ⟨hl, a', c'.kids, rfl, a2, c2⟩, ?_, ?_⟩
      · rw [Rx.writable, Rx.factors, a3, c4]
        cases xs with
        | nil => exact absurd rfl c3
        | cons => simp
      · rw [hfr, Rx.toks, toksOr_cons c3]
        simp only [PN.fringes, List.append_nil]
        exact spells_append a4 (spells_append b2 c5)
    case more =>
      intro h
      obtain ⟨hl, h⟩ := use h hG.more
      simp only [List.mem_cons, List.not_mem_nil, or_false] at h
      have h' : (∃ a b c, ks = [a, b, c] ∧ (a.kind = "Group".toList ∨ a.kind = "OptSymbol".toList ∨
          a.kind = "RepSymbol".toList ∨ a.kind = "symbol".toList) ∧ b.kind = "or".toList ∧ c.kind = "MoreOr".toList) ∨
          ∃ a, ks = [a] ∧ (a.kind = "Group".toList ∨ a.kind = "OptSymbol".toList ∨
          a.kind = "RepSymbol".toList ∨ a.kind = "symbol".toList) := by
        rcases h with h | h | h | h | h | h | h | h
        · obtain ⟨a, b, c, e, h1, h2⟩ := kids3 h; exact .inl ⟨a, b, c, e, .inl h1, h2⟩
        · obtain ⟨a, b, c, e, h1, h2⟩ := kids3 h; exact .inl ⟨a, b, c, e, .inr (.inl h1), h2⟩
        · obtain ⟨a, b, c, e, h1, h2⟩ := kids3 h; exact .inl ⟨a, b, c, e, .inr (.inr (.inl h1)), h2⟩
        · obtain ⟨a, b, c, e, h1, h2⟩ := kids3 h; exact .inl ⟨a, b, c, e, .inr (.inr (.inr h1)), h2⟩
        · obtain ⟨a, e, h1⟩ := kids1 h; exact .inr ⟨a, e, .inl h1⟩
        · obtain ⟨a, e, h1⟩ := kids1 h; exact .inr ⟨a, e, .inr (.inl h1)⟩
        · obtain ⟨a, e, h1⟩ := kids1 h; exact .inr ⟨a, e, .inr (.inr (.inl h1))⟩
        · obtain ⟨a, e, h1⟩ := kids1 h; exact .inr ⟨a, e, .inr (.inr (.inr h1))⟩
      rcases h' with ⟨a, b, c, rfl, ha, hb, hc⟩ | ⟨a, rfl, ha⟩
      · obtain ⟨a', x, a1, a2, a3, a4⟩ := (ih a (by simp)).factors ha
        obtain ⟨b1, b2⟩ := (ih b (by simp)).one (x := .or) hb (by simp)
        obtain ⟨c', xs, c1, c2, c3, c4, c5⟩ := (ih c (by simp)).more hc
        refine ⟨_, x :: xs, red_node (.cons a1 (.cons b1 (.cons c1 .nil))) (acts_more hl), ⟨a', c'.kids, rfl, a2, c2⟩, by simp, ?_, ?_⟩
        · rw [Rx.factors, a3, c4]; rfl
        · rw [hfr, toksOr_cons c3]
          simp only [PN.fringes, List.append_nil]
          exact spells_append a4 (spells_append b2 c5)
      · obtain ⟨a', x, a1, a2, a3, a4⟩ := (ih a (by simp)).factors ha
        refine ⟨_, [x], red_node (.cons a1 .nil) (acts_more1 hl), ⟨a', [], rfl, a2, rfl⟩, by simp, ?_, ?_⟩
        · rw [Rx.factors, a3]; rfl
        · rw [hfr]
          simpa only [PN.fringes, List.append_nil, Rx.toksOr, List.isEmpty_nil, if_true] using a4
    case symbol =>
      intro h
      obtain ⟨hl, h⟩ := use h hG.symbol
      simp only [List.mem_cons, List.not_mem_nil, or_false] at h
      have h' : ∃ a, ks = [a] ∧ ((a.kind = "Group".toList ∨ a.kind = "OptSymbol".toList ∨
          a.kind = "RepSymbol".toList ∨ a.kind = "symbol".toList) ∨ a.kind = "OrSymbol".toList) := by
        rcases h with h | h | h | h | h
        · obtain ⟨a, e, h1⟩ := kids1 h; exact ⟨a, e, .inl (.inl h1)⟩
        · obtain ⟨a, e, h1⟩ := kids1 h; exact ⟨a, e, .inr h1⟩
        · obtain ⟨a, e, h1⟩ := kids1 h; exact ⟨a, e, .inl (.inr (.inr (.inl h1)))⟩
        · obtain ⟨a, e, h1⟩ := kids1 h; exact ⟨a, e, .inl (.inr (.inl h1))⟩
        · obtain ⟨a, e, h1⟩ := kids1 h; exact ⟨a, e, .inl (.inr (.inr (.inr h1)))⟩
      obtain ⟨a, rfl, ha⟩ := h'
      have h2 : ∃ t' x, Red a t' ∧ Rx.Shown x t' ∧ x.writable = true ∧ Spells x.toks (fr G a) := by
        rcases ha with ha | ha
        · obtain ⟨a', x, a1, a2, a3, a4⟩ := (ih a (by simp)).factors ha
          exact ⟨a', x, a1, a2, writable_of_factor a3, a4⟩
        · exact (ih a (by simp)).or ha
      obtain ⟨a', x, a1, a2, a3, a4⟩ := h2
      refine ⟨a', x, red_node (.cons a1 .nil) (acts_symbol hl), a2, a3, ?_⟩
      rw [hfr]
      simpa only [PN.fringes, List.append_nil] using a4
    case symbols =>
      intro h
      obtain ⟨hl, h⟩ := use h hG.symbols
      simp only [List.mem_cons, List.not_mem_nil, or_false] at h
      rcases h with h | h
      · obtain ⟨a, b, rfl, ha, hb⟩ := kids2 h
        obtain ⟨a', x, a1, a2, a3, a4⟩ := (ih a (by simp)).symbol ha
        obtain ⟨b', xs, b1, b2, b3, b4⟩ := (ih b (by simp)).symbols hb
        refine ⟨_, x :: xs, red_node (.cons a1 (.cons b1 .nil)) (acts_symbols hl), ⟨a', b'.kids, rfl, a2, b2⟩, ?_, ?_⟩
        · rw [Rx.writables, a3, b3]; rfl
        · rw [hfr]
          simp only [PN.fringes, List.append_nil]
          exact spells_append a4 b4
      · have : ks = [] := by simpa using h
        subst this
        refine ⟨_, [], red_node .nil (acts_symbols0 hl), rfl, rfl, ?_⟩
        rw [hfr]; rfl
    case production =>
      intro h
      obtain ⟨hl, h⟩ := use h hG.production
      simp only [List.mem_cons, List.not_mem_nil, or_false] at h
      obtain ⟨a, b, c, d, rfl, ha, hb, hc, hd⟩ := kids4 h
      obtain ⟨a1, a2⟩ := (ih a (by simp)).one (x := .nl) ha (by simp)
      obtain ⟨b1, b2, b3⟩ := (ih b (by simp)).sym hb
      obtain ⟨c1, c2⟩ := (ih c (by simp)).one (x := .rarr) hc (by simp)
      obtain ⟨d', xs, d1, d2, d3, d4⟩ := (ih d (by simp)).symbols hd
      refine ⟨_, b.lx.val, xs, red_node (.cons a1 (.cons b1 (.cons c1 (.cons d1 .nil)))) (acts_production hl), rfl, rfl, d2, d3, ?_⟩
      rw [hfr]
      simp only [PN.fringes, List.append_nil]
      exact spells_append a2 (spells_append b3 (spells_append c2 d4))
    case cont =>
      intro h
      obtain ⟨hl, h⟩ := use h hG.cont
      simp only [List.mem_cons, List.not_mem_nil, or_false] at h
      obtain ⟨a, c, d, rfl, ha, hc, hd⟩ := kids3 h
      obtain ⟨a1, a2⟩ := (ih a (by simp)).one (x := .nl) ha (by simp)
      obtain ⟨c1, c2⟩ := (ih c (by simp)).one (x := .rarr) hc (by simp)
      obtain ⟨d', xs, d1, d2, d3, d4⟩ := (ih d (by simp)).symbols hd
      refine ⟨_, xs, red_node (.cons a1 (.cons c1 (.cons d1 .nil))) (acts_continue hl), hl, d2, d3, ?_⟩
      rw [hfr]
      simp only [PN.fringes, List.append_nil]
      exact spells_append a2 (spells_append c2 d4)
    case productions =>
      intro h
      obtain ⟨hl, h⟩ := use h hG.productions
      simp only [List.mem_cons, List.not_mem_nil, or_false] at h
      rcases h with h | h | h
      · obtain ⟨a, b, rfl, ha, hb⟩ := kids2 h
        obtain ⟨a', n, xs, a1, a2, a3, a4, a5, a6⟩ := (ih a (by simp)).production ha
        obtain ⟨b', L, b1, b2, b3, b4⟩ := (ih b (by simp)).productions hb
        refine ⟨_, (some n, xs) :: L, red_node (.cons a1 (.cons b1 .nil)) (acts_productions hl),
          fun nt => ⟨a', b'.kids, rfl, a4, ⟨fun _ => a3, fun h => absurd a2 h⟩, b2 n⟩, ?_, ?_⟩
        · intro x hx
          rcases List.mem_cons.1 hx with rfl | hx
          · exact a5
          · exact b3 x hx
        · rw [hfr]
          simp only [PN.fringes, List.append_nil, List.flatMap_cons]
          exact spells_append a6 b4
      · obtain ⟨a, b, rfl, ha, hb⟩ := kids2 h
        obtain ⟨a', xs, a1, a2, a4, a5, a6⟩ := (ih a (by simp)).cont ha
        obtain ⟨b', L, b1, b2, b3, b4⟩ := (ih b (by simp)).productions hb
        refine ⟨_, (none, xs) :: L, red_node (.cons a1 (.cons b1 .nil)) (acts_productions hl),
          fun nt => ⟨a', b'.kids, rfl, a4, ⟨fun h => absurd (a2.symm.trans h) (by decide), fun _ => rfl⟩, b2 nt⟩, ?_, ?_⟩
        · intro x hx
          rcases List.mem_cons.1 hx with rfl | hx
          · exact a5
          · exact b3 x hx
        · rw [hfr]
          simp only [PN.fringes, List.append_nil, List.flatMap_cons]
          exact spells_append a6 b4
      · have : ks = [] := by simpa using h
        subst this
        refine ⟨_, [], red_node .nil (acts_productions0 hl), fun _ => rfl, by simp, ?_⟩
        rw [hfr]; rfl
    case nl =>
      intro h
      obtain ⟨hl, h⟩ := use h hG.nl
      simp only [List.mem_cons, List.not_mem_nil, or_false] at h
      rcases h with h | h
      · obtain ⟨a, rfl, ha⟩ := kids1 h
        obtain ⟨a1, a2⟩ := (ih a (by simp)).one (x := .nl) ha (by simp)
        refine ⟨_, true, red_node (.cons a1 .nil) (acts_term (by rw [hl]; decide) _), hl, ?_⟩
        rw [hfr]
        simpa only [PN.fringes, List.append_nil, if_true] using a2
      · have : ks = [] := by simpa using h
        subst this
        refine ⟨_, false, red_node .nil (acts_term (by rw [hl]; decide) _), hl, ?_⟩
        rw [hfr]; rfl

/-- A parse of lexemes reduces to a tree that shows the rules of some definition, which the lexemes spell. -/
theorem read_parse {G : Spec.Grammar Str} (hG : RG G) {ls : List (Lexeme Str Str)} {t : PN Str Str} (h : IsParse G ls t) :
    ∃ t' L b1 b2, Red t t' ∧ RxDef L ∧ Spells (defToks b1 b2 L) ls ∧ RulesShown [] (linesRules [] L) t'.kids := by
  obtain ⟨h1, h2, h3⟩ := h
  rw [hG.order] at h1
  have hk : t.kind = "Grammar".toList := by
    have : some "Grammar".toList = some t.kind := h1
    exact (Option.some.inj this).symm
  cases h2 with
  | @leaf l h =>
    have h : G.prods (PN.node l []).kind = none := h
    rw [hk, hG.grammar] at h
    cases h
  | @inner l ks k p hr hp hvs =>
    obtain ⟨ps, hps, hk'⟩ := hr
    have hl : l.kind = "Grammar".toList := hk
    rw [hl, hG.grammar] at hps
    cases hps
    have hm := List.mem_of_getElem? hk'
    rw [← hp, List.mem_singleton] at hm
    obtain ⟨a, b, c, d, rfl, ha, hb, hc, hd⟩ := kids4 hm
    have ih := fun t ht => reads_valid hG (hvs t ht)
    obtain ⟨a', b1, a1, a2, a3⟩ := (ih a (by simp)).nl ha
    obtain ⟨b', n, xs, p1, p2, p3, p4, p5, p6⟩ := (ih b (by simp)).production hb
    obtain ⟨c', L, q1, q2, q3, q4⟩ := (ih c (by simp)).productions hc
    obtain ⟨d', b2, d1, d2, d3⟩ := (ih d (by simp)).nl hd
    refine ⟨_, (some n, xs) :: L, b1, b2, red_node (.cons a1 (.cons p1 (.cons q1 (.cons d1 .nil)))) (acts_grammar hl a2 d2),
      ⟨⟨n, xs, L, rfl⟩, ?_⟩, ?_, ?_⟩
    · intro x hx
      rcases List.mem_cons.1 hx with rfl | hx
      · exact p5
      · exact q3 x hx
    · rw [← h3, PN.fringe, show (G.prods l.kind).isNone = false from by rw [hl, hG.grammar]; rfl]
      simp only [Bool.false_eq_true, if_false, PN.fringes, List.append_nil, defToks, List.flatMap_cons, List.append_assoc]
      exact spells_append a3 (spells_append p6 (spells_append q4 d3))
    · exact ⟨b', c'.kids, rfl, p4, ⟨fun _ => p3, fun h => absurd p2 h⟩, q2 n⟩

end Verif.RegexGram
