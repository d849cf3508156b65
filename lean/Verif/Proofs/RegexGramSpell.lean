import Verif.Proofs.RegexGramRead
import Verif.Proofs.CFG
/-
Writing regex grammars: what is written is a sentence of the grammar of regex grammars, and can be read
back in one way only.
-/
namespace Verif.RegexGram
open Verif Verif.Spec

/-! ### Sentences -/

/-- The kinds of tokens. -/
abbrev kinds (ts : List RxTok) : List Str := ts.map RxTok.kind

section
variable {G : Spec.Grammar Str}

theorem derive {A : Str} {p : List Str} {ps : List (List Str)} {w : List Str} (h : G.prods A = some ps) (hp : p ∈ ps)
    (hd : G.Derives p w) : G.Derives [A] w := by
  obtain ⟨k, hk⟩ := List.mem_iff_getElem?.1 hp
  have := Spec.Grammar.Derives.nonterm (g := G) (ss := []) (v := []) ⟨ps, h, hk⟩ hd .nil
  simpa using this

theorem derive_tok (hG : RG G) (t : RxTok) : G.Derives [t.kind] [t.kind] := .term (hG.term _ (kind_term t)) .nil

theorem derive_app {a b u v : List Str} (h1 : G.Derives a u) (h2 : G.Derives b v) : G.Derives (a ++ b) (u ++ v) :=
  h1.append h2

mutual
theorem rx_derives (hG : RG G) : ∀ x : Rx,
    (x.unit = true → ∃ A ∈ ["Group".toList, "symbol".toList], G.Derives [A] (kinds x.toks)) ∧
    (x.factor = true → ∃ A ∈ ["Group".toList, "OptSymbol".toList, "RepSymbol".toList, "symbol".toList], G.Derives [A] (kinds x.toks)) ∧
    (x.writable = true → G.Derives ["Symbol".toList] (kinds x.toks))
  | .sym s => by
    have h : G.Derives ["symbol".toList] (kinds (Rx.sym s).toks) := derive_tok hG (.sym s)
    exact ⟨fun _ => ⟨_, by decide, h⟩, fun _ => ⟨_, by decide, h⟩, fun _ => derive hG.symbol (by decide) h⟩
  | .group xs => by
    have key : Rx.writables xs = true → G.Derives ["Group".toList] (kinds (Rx.group xs).toks) := by
      intro h
      have h1 := (rxs_derives hG xs).1 h
      refine derive hG.group (List.mem_singleton.2 rfl) ?_
      have := derive_app (derive_tok hG .lp) (derive_app h1 (derive_tok hG .rp))
      simp only [kinds, Rx.toks, List.map_cons, List.map_append, List.map_nil]
      exact this
    simp only [Rx.unit, Rx.factor, Rx.writable]
    exact ⟨fun h => ⟨_, by decide, key h⟩, fun h => ⟨_, by decide, key h⟩, fun h => derive hG.symbol (by decide) (key h)⟩
  | .opt x => by
    have key : x.unit = true → G.Derives ["OptSymbol".toList] (kinds (Rx.opt x).toks) := by
      intro h
      obtain ⟨A, hA, h1⟩ := (rx_derives hG x).1 h
      have := derive_app h1 (derive_tok hG .opt)
      have h2 : [A, "optional".toList] ∈ [["Group".toList, "optional".toList], ["symbol".toList, "optional".toList]] := by
        simp only [List.mem_cons, List.not_mem_nil, or_false] at hA
        rcases hA with rfl | rfl <;> simp
      refine derive hG.opt h2 ?_
      simp only [kinds, Rx.toks, List.map_cons, List.map_append, List.map_nil]
      exact this
    simp only [Rx.unit, Rx.factor, Rx.writable]
    exact ⟨fun h => (by simp at h), fun h => ⟨_, by decide, key h⟩, fun h => derive hG.symbol (by decide) (key h)⟩
  | .rep x => by
    have key : x.unit = true → G.Derives ["RepSymbol".toList] (kinds (Rx.rep x).toks) := by
      intro h
      obtain ⟨A, hA, h1⟩ := (rx_derives hG x).1 h
      have := derive_app h1 (derive_tok hG .rep)
      have h2 : [A, "repeats".toList] ∈ [["Group".toList, "repeats".toList], ["symbol".toList, "repeats".toList]] := by
        simp only [List.mem_cons, List.not_mem_nil, or_false] at hA
        rcases hA with rfl | rfl <;> simp
      refine derive hG.rep h2 ?_
      simp only [kinds, Rx.toks, List.map_cons, List.map_append, List.map_nil]
      exact this
    simp only [Rx.unit, Rx.factor, Rx.writable]
    exact ⟨fun h => (by simp at h), fun h => ⟨_, by decide, key h⟩, fun h => derive hG.symbol (by decide) (key h)⟩
  | .or xs => by
    simp only [Rx.unit, Rx.factor, Rx.writable, Rx.toks]
    refine ⟨fun h => (by simp at h), fun h => (by simp at h), fun h => derive hG.symbol (p := ["OrSymbol".toList]) (by decide) ?_⟩
    simp only [Bool.and_eq_true, decide_eq_true_eq] at h
    exact (rxs_derives hG xs).2.2 h.1 h.2
theorem rxs_derives (hG : RG G) : ∀ xs : List Rx,
    (Rx.writables xs = true → G.Derives ["Symbols".toList] (kinds (Rx.toksAll xs))) ∧
    (xs ≠ [] → Rx.factors xs = true → G.Derives ["MoreOr".toList] (kinds (Rx.toksOr xs))) ∧
    (2 ≤ xs.length → Rx.factors xs = true → G.Derives ["OrSymbol".toList] (kinds (Rx.toksOr xs)))
  | [] => ⟨fun _ => derive hG.symbols (p := []) (by decide) .nil, fun h => absurd rfl h, fun h => absurd h (by simp)⟩
  | x :: xs => by
    refine ⟨?_, ?_, ?_⟩
    · intro h
      simp only [Rx.writables, Bool.and_eq_true] at h
      have := derive_app ((rx_derives hG x).2.2 h.1) ((rxs_derives hG xs).1 h.2)
      refine derive hG.symbols (p := ["Symbol".toList, "Symbols".toList]) (by decide) ?_
      simpa [kinds, Rx.toksAll] using this
    · intro _ h
      simp only [Rx.factors, Bool.and_eq_true] at h
      obtain ⟨A, hA, h1⟩ := (rx_derives hG x).2.1 h.1
      by_cases hx : xs = []
      · subst hx
        have h2 : [A] ∈ [["Group".toList], ["OptSymbol".toList], ["RepSymbol".toList], ["symbol".toList]] := by
          simp only [List.mem_cons, List.not_mem_nil, or_false] at hA
          rcases hA with rfl | rfl | rfl | rfl <;> simp
        refine derive hG.more (.tail _ (.tail _ (.tail _ (.tail _ h2)))) ?_
        simpa [kinds, Rx.toksOr] using h1
      · have := derive_app h1 (derive_app (derive_tok hG .or) ((rxs_derives hG xs).2.1 hx h.2))
        have h2 : [A, "or".toList, "MoreOr".toList] ∈ [["Group".toList, "or".toList, "MoreOr".toList],
            ["OptSymbol".toList, "or".toList, "MoreOr".toList],
            ["RepSymbol".toList, "or".toList, "MoreOr".toList], ["symbol".toList, "or".toList, "MoreOr".toList]] := by
          simp only [List.mem_cons, List.not_mem_nil, or_false] at hA
          rcases hA with rfl | rfl | rfl | rfl <;> simp
        refine derive hG.more (List.mem_append_left [["Group".toList], ["OptSymbol".toList], ["RepSymbol".toList], ["symbol".toList]] h2) ?_
        rw [toksOr_cons hx, kinds, List.map_append]
        exact this
    · intro hl h
      simp only [Rx.factors, Bool.and_eq_true] at h
      obtain ⟨A, hA, h1⟩ := (rx_derives hG x).2.1 h.1
      have hx : xs ≠ [] := by rintro rfl; simp at hl
      have := derive_app h1 (derive_app (derive_tok hG .or) ((rxs_derives hG xs).2.1 hx h.2))
      have h2 : [A, "or".toList, "MoreOr".toList] ∈ [["Group".toList, "or".toList, "MoreOr".toList],
          ["OptSymbol".toList, "or".toList, "MoreOr".toList],
          ["RepSymbol".toList, "or".toList, "MoreOr".toList], ["symbol".toList, "or".toList, "MoreOr".toList]] := by
        simp only [List.mem_cons, List.not_mem_nil, or_false] at hA
        rcases hA with rfl | rfl | rfl | rfl <;> simp
      refine derive hG.or h2 ?_
      rw [toksOr_cons hx, kinds, List.map_append]
      exact this
end

theorem nl_derives (hG : RG G) (b : Bool) : G.Derives ["NL".toList] (kinds (if b then [.nl] else [])) := by
  cases b with
  | true => exact derive hG.nl (.head _) (derive_tok hG .nl)
  | false => exact derive hG.nl (.tail _ (.head _)) .nil

theorem line_derives (hG : RG G) {l : RxLine} (h : Rx.writables l.2 = true) :
    (∀ n, l.1 = some n → G.Derives ["Production".toList] (kinds l.toks)) ∧
    (l.1 = none → G.Derives ["ContinueProd".toList] (kinds l.toks)) := by
  obtain ⟨o, xs⟩ := l
  have hx := (rxs_derives hG xs).1 h
  refine ⟨?_, ?_⟩
  · rintro n rfl
    refine derive hG.production (.head _) ?_
    have := derive_app (derive_tok hG .nl) (derive_app (derive_tok hG (.sym n)) (derive_app (derive_tok hG .rarr) hx))
    exact this
  · rintro rfl
    refine derive hG.cont (.head _) ?_
    have := derive_app (derive_tok hG .nl) (derive_app (derive_tok hG .rarr) hx)
    exact this

theorem lines_derive (hG : RG G) : ∀ {L : List RxLine}, (∀ l ∈ L, Rx.writables l.2 = true) →
    G.Derives ["Productions".toList] (kinds (L.flatMap RxLine.toks))
  | [], _ => derive hG.productions (.tail _ (.tail _ (.head _))) .nil
  | l :: L, h => by
    have h1 := line_derives hG (h l (by simp))
    have h2 := lines_derive hG (L := L) fun l hl => h l (by simp [hl])
    rw [List.flatMap_cons, kinds, List.map_append]
    cases e : l.1 with
    | some n => exact derive hG.productions (.head _) (derive_app (h1.1 n e) h2)
    | none => exact derive hG.productions (.tail _ (.head _)) (derive_app (h1.2 e) h2)

/-- What is written is a sentence. -/
theorem def_sentence (hG : RG G) {L : List RxLine} (h : RxDef L) (b1 b2 : Bool) : G.Sentence (kinds (defToks b1 b2 L)) := by
  obtain ⟨n, xs, L', rfl⟩ := h.first
  refine ⟨"Grammar".toList, by rw [hG.order]; rfl, derive hG.grammar (.head _) ?_⟩
  have h1 := (line_derives hG (h.right (some n, xs) (by simp))).1 n rfl
  have h2 := lines_derive hG (L := L') fun l hl => h.right l (by simp [hl])
  have := derive_app (nl_derives hG b1) (derive_app h1 (derive_app h2 (nl_derives hG b2)))
  simpa [kinds, defToks] using this
end

theorem spells_kinds : ∀ {ts : List RxTok} {ls : List (Lexeme Str Str)}, Spells ts ls → ls.map (·.kind) = kinds ts
  | [], _, h => by simp only [Spells] at h; subst h; rfl
  | t :: ts, _, ⟨l, rest, e, h1, h2⟩ => by
    subst e
    rw [List.map_cons, spells_kinds h2, h1.1]
    rfl

/-! ### Reading back -/

/-- The number of a kind of token. -/
def RxTok.tag : RxTok → Fin 8
  | .nl => 0 | .rarr => 1 | .rep => 2 | .opt => 3 | .or => 4 | .lp => 5 | .rp => 6 | .sym _ => 7

/-- The kinds, by number. -/
def tagKind : Fin 8 → Str := fun i =>
  ["nl".toList, "rarr".toList, "repeats".toList, "optional".toList, "or".toList, "(".toList, ")".toList, "symbol".toList][i]

theorem tagKind_tag (a : RxTok) : tagKind (RxTok.tag a) = a.kind := by cases a <;> rfl

theorem tagKind_inj : ∀ i j : Fin 8, tagKind i = tagKind j → i = j := by decide

theorem kind_inj {a b : RxTok} (h : a.kind = b.kind) : a = b ∨ ∃ s s', a = .sym s ∧ b = .sym s' := by
  rw [← tagKind_tag, ← tagKind_tag] at h
  have := tagKind_inj _ _ h
  cases a <;> cases b <;> simp [RxTok.tag] at this ⊢

theorem spells_unique : ∀ {ts ts' : List RxTok} {ls : List (Lexeme Str Str)}, Spells ts ls → Spells ts' ls → ts = ts'
  | [], [], _, _, _ => rfl
  | [], t :: ts, ls, h, ⟨l, rest, e, _⟩ => by simp only [Spells] at h; subst h; cases e
  | t :: ts, [], ls, ⟨l, rest, e, _⟩, h => by simp only [Spells] at h; subst h; cases e
  | t :: ts, t' :: ts', _, ⟨l, rest, e, h1, h2⟩, ⟨l', rest', e', h1', h2'⟩ => by
    subst e
    cases e'
    rw [spells_unique h2 h2']
    rcases kind_inj (h1.1.symm.trans h1'.1) with rfl | ⟨s, s', rfl, rfl⟩
    · rfl
    · rw [← h1.2 s rfl, ← h1'.2 s' rfl]

/-- No `?` or `*` comes next. -/
def NoPost (r : List RxTok) : Prop := ∀ t, r.head? = some t → t ≠ .opt ∧ t ≠ .rep

/-- No `?`, `*` or `|` comes next. -/
def NoMore (r : List RxTok) : Prop := ∀ t, r.head? = some t → t ≠ .opt ∧ t ≠ .rep ∧ t ≠ .or

/-- The end, a line break or a closing parenthesis comes next. -/
def Stop (r : List RxTok) : Prop := ∀ t, r.head? = some t → t = .nl ∨ t = .rp

theorem NoMore.post {r} (h : NoMore r) : NoPost r := fun t e => ⟨(h t e).1, (h t e).2.1⟩

theorem Stop.more {r} (h : Stop r) : NoMore r := fun t e => by rcases h t e with rfl | rfl <;> simp

/-- Units can be read back whatever follows. -/
def UInj (x : Rx) : Prop := ∀ y r r', y.unit = true → x.toks ++ r = y.toks ++ r' → x = y ∧ r = r'
/-- So can factors. -/
def FInj (x : Rx) : Prop := ∀ y r r', y.factor = true → NoPost r → NoPost r' → x.toks ++ r = y.toks ++ r' → x = y ∧ r = r'
/-- So can alternatives. -/
def OInj (xs : List Rx) : Prop := ∀ ys r r', ys ≠ [] → Rx.factors ys = true → NoMore r → NoMore r' →
  Rx.toksOr xs ++ r = Rx.toksOr ys ++ r' → xs = ys ∧ r = r'
/-- So can single expressions. -/
def WInj (x : Rx) : Prop := ∀ y r r', y.writable = true → NoMore r → NoMore r' → x.toks ++ r = y.toks ++ r' → x = y ∧ r = r'
/-- So can sequences. -/
def AInj (xs : List Rx) : Prop := ∀ ys r r', Rx.writables ys = true → Stop r → Stop r' →
  Rx.toksAll xs ++ r = Rx.toksAll ys ++ r' → xs = ys ∧ r = r'

/-- A factor is a unit with nothing, `?` or `*` after it. -/
theorem factor_parts {x : Rx} (h : x.factor = true) : ∃ u p, u.unit = true ∧ x.toks = u.toks ++ p ∧
    (x = u ∧ p = [] ∨ x = .opt u ∧ p = [.opt] ∨ x = .rep u ∧ p = [.rep]) := by
  cases x with
  | sym s => exact ⟨.sym s, [], rfl, by simp, .inl ⟨rfl, rfl⟩⟩
  | group xs => exact ⟨.group xs, [], by simpa [Rx.unit, Rx.factor] using h, by simp, .inl ⟨rfl, rfl⟩⟩
  | opt u => exact ⟨u, [.opt], by simpa [Rx.factor] using h, by rw [Rx.toks], .inr (.inl ⟨rfl, rfl⟩)⟩
  | rep u => exact ⟨u, [.rep], by simpa [Rx.factor] using h, by rw [Rx.toks], .inr (.inr ⟨rfl, rfl⟩)⟩
  | or xs => simp [Rx.factor] at h

theorem finj {x u : Rx} {p : List RxTok} (hu : UInj u) (hx : x.toks = u.toks ++ p)
    (hc : x = u ∧ p = [] ∨ x = .opt u ∧ p = [.opt] ∨ x = .rep u ∧ p = [.rep]) : FInj x := by
  intro y r r' hy hr hr' e
  obtain ⟨v, q, hv, hyv, hd⟩ := factor_parts hy
  rw [hx, hyv, List.append_assoc, List.append_assoc] at e
  obtain ⟨rfl, e2⟩ := hu v _ _ hv e
  rcases hc with ⟨rfl, rfl⟩ | ⟨rfl, rfl⟩ | ⟨rfl, rfl⟩ <;> rcases hd with ⟨rfl, rfl⟩ | ⟨rfl, rfl⟩ | ⟨rfl, rfl⟩
  · exact ⟨rfl, by simpa using e2⟩
  · simp only [List.nil_append, List.singleton_append] at e2; subst e2; exact absurd rfl (hr _ rfl).1
  · simp only [List.nil_append, List.singleton_append] at e2; subst e2; exact absurd rfl (hr _ rfl).2
  · simp only [List.nil_append, List.singleton_append] at e2; subst e2; exact absurd rfl (hr' _ rfl).1
  · exact ⟨rfl, by simpa using e2⟩
  · simp at e2
  · simp only [List.nil_append, List.singleton_append] at e2; subst e2; exact absurd rfl (hr' _ rfl).2
  · simp at e2
  · exact ⟨rfl, by simpa using e2⟩

theorem oinj {x : Rx} {xs : List Rx} (hx : FInj x) (hxs : xs ≠ [] → OInj xs) : OInj (x :: xs) := by
  intro ys r r' hne hy hr hr' e
  cases ys with
  | nil => exact absurd rfl hne
  | cons y ys =>
  simp only [Rx.factors, Bool.and_eq_true] at hy
  have or_post : ∀ q, NoPost (RxTok.or :: q) := fun q t h => by simp only [List.head?_cons, Option.some.injEq] at h; subst h; simp
  by_cases h1 : xs = [] <;> by_cases h2 : ys = []
  · subst h1; subst h2
    simp only [Rx.toksOr, List.isEmpty_nil, if_true, List.append_nil] at e
    obtain ⟨rfl, e2⟩ := hx y _ _ hy.1 hr.post hr'.post e
    exact ⟨rfl, e2⟩
  · subst h1
    rw [toksOr_cons h2] at e
    simp only [Rx.toksOr, List.isEmpty_nil, if_true, List.append_nil, List.append_assoc] at e
    obtain ⟨rfl, e2⟩ := hx y _ _ hy.1 hr.post (or_post _) e
    subst e2
    exact absurd rfl (hr _ rfl).2.2
  · subst h2
    rw [toksOr_cons h1] at e
    simp only [Rx.toksOr, List.isEmpty_nil, if_true, List.append_nil, List.append_assoc] at e
    obtain ⟨rfl, e2⟩ := hx y _ _ hy.1 (or_post _) hr'.post e
    subst e2
    exact absurd rfl (hr' _ rfl).2.2
  · rw [toksOr_cons h1, toksOr_cons h2] at e
    simp only [List.append_assoc] at e
    obtain ⟨rfl, e2⟩ := hx y _ _ hy.1 (or_post _) (or_post _) e
    simp only [List.cons.injEq, true_and] at e2
    obtain ⟨rfl, e3⟩ := hxs h1 ys _ _ h2 hy.2 hr hr' e2
    exact ⟨rfl, e3⟩

/-- The alternatives of an expression: itself if there is no choice. -/
def altsOf : Rx → List Rx
  | .or xs => xs
  | x => [x]

theorem altsOf_factor {x : Rx} (h : x.factor = true) : altsOf x = [x] := by
  cases x <;> simp_all [altsOf, Rx.factor]

theorem writable_alts {x : Rx} (h : x.writable = true) : x.factor = true ∨ ∃ xs, x = .or xs ∧ 2 ≤ xs.length ∧ Rx.factors xs = true := by
  cases x with
  | or xs => simp only [Rx.writable, Bool.and_eq_true, decide_eq_true_eq] at h; exact .inr ⟨xs, rfl, h⟩
  | _ => left; simpa [Rx.writable, Rx.factor] using h

theorem altsOf_toks {x : Rx} (h : x.writable = true) : x.toks = Rx.toksOr (altsOf x) ∧ altsOf x ≠ [] ∧ Rx.factors (altsOf x) = true := by
  rcases writable_alts h with h | ⟨xs, rfl, h1, h2⟩
  · rw [altsOf_factor h]
    exact ⟨by simp [Rx.toksOr], by simp, by simp [Rx.factors, h]⟩
  · refine ⟨by rw [Rx.toks]; rfl, ?_, h2⟩
    show xs ≠ []
    rintro rfl
    simp at h1

theorem altsOf_inj {x y : Rx} (hx : x.writable = true) (hy : y.writable = true) (e : altsOf x = altsOf y) : x = y := by
  rcases writable_alts hx with h | ⟨xs, rfl, h1, h2⟩ <;> rcases writable_alts hy with h' | ⟨ys, rfl, h1', h2'⟩
  · rw [altsOf_factor h, altsOf_factor h'] at e
    exact List.head_eq_of_cons_eq e
  · rw [altsOf_factor h] at e
    have e : [x] = ys := e
    subst e; simp at h1'
  · rw [altsOf_factor h'] at e
    have e : xs = [y] := e
    subst e; simp at h1
  · exact congrArg Rx.or e

theorem winj {x : Rx} (hx : x.writable = true) (h : OInj (altsOf x)) : WInj x := by
  intro y r r' hy hr hr' e
  obtain ⟨e1, -, -⟩ := altsOf_toks hx
  obtain ⟨e2, h2, h3⟩ := altsOf_toks hy
  rw [e1, e2] at e
  obtain ⟨h4, h5⟩ := h _ _ _ h2 h3 hr hr' e
  exact ⟨altsOf_inj hx hy h4, h5⟩

theorem unit_starts {x : Rx} (h : x.unit = true) : ∃ t rest, x.toks = t :: rest ∧ (t = .lp ∨ ∃ s, t = .sym s) := by
  cases x with
  | sym s => exact ⟨_, _, by rw [Rx.toks], .inr ⟨s, rfl⟩⟩
  | group xs => exact ⟨_, _, by rw [Rx.toks], .inl rfl⟩
  | _ => simp [Rx.unit] at h

theorem factor_starts {x : Rx} (h : x.factor = true) : ∃ t rest, x.toks = t :: rest ∧ (t = .lp ∨ ∃ s, t = .sym s) := by
  obtain ⟨u, p, h1, h2, -⟩ := factor_parts h
  obtain ⟨t, rest, e, h3⟩ := unit_starts h1
  exact ⟨t, rest ++ p, by rw [h2, e]; rfl, h3⟩

theorem writable_starts {x : Rx} (h : x.writable = true) : ∃ t rest, x.toks = t :: rest ∧ (t = .lp ∨ ∃ s, t = .sym s) := by
  obtain ⟨e, h1, h2⟩ := altsOf_toks h
  cases ha : altsOf x with
  | nil => exact absurd ha h1
  | cons y ys =>
    rw [ha] at e h2
    simp only [Rx.factors, Bool.and_eq_true] at h2
    obtain ⟨t, rest, e', h3⟩ := factor_starts h2.1
    rw [Rx.toksOr, e'] at e
    exact ⟨t, _, e, h3⟩

theorem all_more {xs : List Rx} (h : Rx.writables xs = true) {r : List RxTok} (hr : Stop r) : NoMore (Rx.toksAll xs ++ r) := by
  cases xs with
  | nil => exact hr.more
  | cons x xs =>
    simp only [Rx.writables, Bool.and_eq_true] at h
    obtain ⟨t, rest, e, h1⟩ := writable_starts h.1
    intro t' ht
    rw [Rx.toksAll, e] at ht
    simp only [List.cons_append, List.head?_cons, Option.some.injEq] at ht
    subst ht
    rcases h1 with rfl | ⟨s, rfl⟩ <;> simp

theorem ainj_nil : AInj [] := by
  intro ys r r' hy hr _ e
  cases ys with
  | nil => exact ⟨rfl, e⟩
  | cons y ys =>
    simp only [Rx.writables, Bool.and_eq_true] at hy
    obtain ⟨t, rest, e', h1⟩ := writable_starts hy.1
    simp only [Rx.toksAll, e', List.nil_append, List.cons_append] at e
    subst e
    have := hr _ rfl
    rcases h1 with rfl | ⟨s, rfl⟩ <;> simp at this

theorem ainj_cons {x : Rx} {xs : List Rx} (hx : x.writable = true) (hxs : Rx.writables xs = true) (h1 : WInj x) (h2 : AInj xs) : AInj (x :: xs) := by
  intro ys r r' hy hr hr' e
  cases ys with
  | nil =>
    obtain ⟨t, rest, e', h3⟩ := writable_starts hx
    simp only [Rx.toksAll, e', List.nil_append, List.cons_append] at e
    subst e
    have := hr' _ rfl
    rcases h3 with rfl | ⟨s, rfl⟩ <;> simp at this
  | cons y ys =>
    simp only [Rx.writables, Bool.and_eq_true] at hy
    simp only [Rx.toksAll, List.append_assoc] at e
    obtain ⟨rfl, e2⟩ := h1 y _ _ hy.1 (all_more hxs hr) (all_more hy.2 hr') e
    obtain ⟨rfl, e3⟩ := h2 ys _ _ hy.2 hr hr' e2
    exact ⟨rfl, e3⟩

theorem uinj_sym (s : Str) : UInj (.sym s) := by
  intro y r r' hy e
  cases y with
  | sym s' =>
    simp only [Rx.toks, List.singleton_append, List.cons.injEq, RxTok.sym.injEq] at e
    exact ⟨by rw [e.1], e.2⟩
  | group ys => simp [Rx.toks] at e
  | _ => simp [Rx.unit] at hy

theorem uinj_group {xs : List Rx} (h : AInj xs) : UInj (.group xs) := by
  intro y r r' hy e
  cases y with
  | sym s' => simp [Rx.toks] at e
  | group ys =>
    simp only [Rx.toks, List.cons_append, List.cons.injEq, true_and, List.append_assoc, List.nil_append] at e
    have st : ∀ q, Stop (RxTok.rp :: q) := fun q t h => by simp only [List.head?_cons, Option.some.injEq] at h; exact .inr h.symm
    obtain ⟨rfl, e2⟩ := h ys _ _ (by simpa [Rx.unit] using hy) (st _) (st _) e
    simp only [List.cons.injEq, true_and] at e2
    exact ⟨rfl, e2⟩
  | _ => simp [Rx.unit] at hy

mutual
theorem rx_inj : ∀ x : Rx, (x.unit = true → UInj x) ∧ (x.factor = true → FInj x) ∧ (x.writable = true → WInj x)
  | .sym s => by
    have h1 := uinj_sym s
    have h2 : FInj (.sym s) := finj h1 (p := []) (by simp) (.inl ⟨rfl, rfl⟩)
    exact ⟨fun _ => h1, fun _ => h2, fun h => winj h (oinj h2 (fun h => absurd rfl h))⟩
  | .group xs => by
    have h1 : Rx.writables xs = true → UInj (.group xs) := fun h => uinj_group ((rxs_inj xs).1 h)
    have h2 : Rx.writables xs = true → FInj (.group xs) := fun h => finj (h1 h) (p := []) (by simp) (.inl ⟨rfl, rfl⟩)
    refine ⟨fun h => h1 (by simpa [Rx.unit] using h), fun h => h2 (by simpa [Rx.factor] using h), fun h => ?_⟩
    exact winj h (oinj (h2 (by simpa [Rx.writable] using h)) (fun h => absurd rfl h))
  | .opt x => by
    have h2 : x.unit = true → FInj (.opt x) := fun h => finj ((rx_inj x).1 h) (p := [.opt]) (by rw [Rx.toks]) (.inr (.inl ⟨rfl, rfl⟩))
    refine ⟨fun h => by simp [Rx.unit] at h, fun h => h2 (by simpa [Rx.factor] using h), fun h => ?_⟩
    exact winj h (oinj (h2 (by simpa [Rx.writable] using h)) (fun h => absurd rfl h))
  | .rep x => by
    have h2 : x.unit = true → FInj (.rep x) := fun h => finj ((rx_inj x).1 h) (p := [.rep]) (by rw [Rx.toks]) (.inr (.inr ⟨rfl, rfl⟩))
    refine ⟨fun h => by simp [Rx.unit] at h, fun h => h2 (by simpa [Rx.factor] using h), fun h => ?_⟩
    exact winj h (oinj (h2 (by simpa [Rx.writable] using h)) (fun h => absurd rfl h))
  | .or xs => by
    refine ⟨fun h => by simp [Rx.unit] at h, fun h => by simp [Rx.factor] at h, fun h => winj h ?_⟩
    simp only [Rx.writable, Bool.and_eq_true, decide_eq_true_eq] at h
    exact (rxs_inj xs).2 (by rintro rfl; simp at h) h.2
theorem rxs_inj : ∀ xs : List Rx, (Rx.writables xs = true → AInj xs) ∧ (xs ≠ [] → Rx.factors xs = true → OInj xs)
  | [] => ⟨fun _ => ainj_nil, fun h => absurd rfl h⟩
  | x :: xs => by
    refine ⟨fun h => ?_, fun _ h => ?_⟩
    · simp only [Rx.writables, Bool.and_eq_true] at h
      exact ainj_cons h.1 h.2 ((rx_inj x).2.2 h.1) ((rxs_inj xs).1 h.2)
    · simp only [Rx.factors, Bool.and_eq_true] at h
      exact oinj ((rx_inj x).2.1 h.1) fun hx => (rxs_inj xs).2 hx h.2
end

theorem stop_lines (L : List RxLine) (b : Bool) : Stop (L.flatMap RxLine.toks ++ (if b then [.nl] else [])) := by
  intro t ht
  cases L with
  | nil => cases b <;> simp at ht; exact .inl ht.symm
  | cons l L =>
    obtain ⟨_ | n, xs⟩ := l <;> simp [RxLine.toks] at ht <;> exact .inl ht.symm

theorem lines_inj : ∀ {L L' : List RxLine} {b b' : Bool}, (∀ l ∈ L, Rx.writables l.2 = true) → (∀ l ∈ L', Rx.writables l.2 = true) →
    L.flatMap RxLine.toks ++ (if b then [RxTok.nl] else []) = L'.flatMap RxLine.toks ++ (if b' then [.nl] else []) → L = L' ∧ b = b'
  | [], [], b, b', _, _, e => by cases b <;> cases b' <;> simp_all
  | [], (o, xs) :: L', b, b', _, _, e => by cases b <;> cases o <;> simp [RxLine.toks] at e
  | (o, xs) :: L, [], b, b', _, _, e => by cases b' <;> cases o <;> simp [RxLine.toks] at e
  | (o, xs) :: L, (o', xs') :: L', b, b', h, h', e => by
    have key : ∀ {u v}, Rx.toksAll xs ++ (L.flatMap RxLine.toks ++ (if b then [RxTok.nl] else [])) = u →
        Rx.toksAll xs' ++ (L'.flatMap RxLine.toks ++ (if b' then [RxTok.nl] else [])) = v → u = v → xs = xs' ∧ L = L' ∧ b = b' := by
      rintro u v rfl rfl e
      obtain ⟨h1, h2⟩ := (rxs_inj xs).1 (h (o, xs) (by simp)) _ _ _ (h' (o', xs') (by simp)) (stop_lines L b) (stop_lines L' b') e
      exact ⟨h1, lines_inj (fun l hl => h l (by simp [hl])) (fun l hl => h' l (by simp [hl])) h2⟩
    rw [List.flatMap_cons, List.flatMap_cons, List.append_assoc, List.append_assoc] at e
    cases o with
    | none =>
      cases o' with
      | none =>
        simp only [RxLine.toks, List.cons_append, List.cons.injEq, true_and] at e
        obtain ⟨rfl, rfl, rfl⟩ := key rfl rfl e
        exact ⟨rfl, rfl⟩
      | some n => simp [RxLine.toks] at e
    | some n =>
      cases o' with
      | none => simp [RxLine.toks] at e
      | some n' =>
        simp only [RxLine.toks, List.cons_append, List.cons.injEq, true_and, RxTok.sym.injEq] at e
        obtain ⟨rfl, e2⟩ := e
        obtain ⟨rfl, rfl, rfl⟩ := key rfl rfl e2
        exact ⟨rfl, rfl⟩

/-- What is written determines the definition. -/
theorem def_unique {L L' : List RxLine} {b1 b2 b1' b2' : Bool} (h : RxDef L) (h' : RxDef L')
    (e : defToks b1 b2 L = defToks b1' b2' L') : L = L' ∧ b1 = b1' ∧ b2 = b2' := by
  obtain ⟨n, xs, K, eK⟩ := h.first
  obtain ⟨n', xs', K', eK'⟩ := h'.first
  have hb : b1 = b1' := by
    subst eK; subst eK'
    cases b1 <;> cases b1' <;> simp [defToks, RxLine.toks] at e <;> rfl
  subst hb
  unfold defToks at e
  rw [List.append_assoc, List.append_assoc] at e
  obtain ⟨h1, h2⟩ := lines_inj h.right h'.right (List.append_cancel_left e)
  exact ⟨h1, rfl, h2⟩

end Verif.RegexGram
