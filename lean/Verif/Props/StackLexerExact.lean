import Verif.Props.StackLexerPanic
import Verif.Proofs.StackLexerExact
import Verif.Proofs.LexText
/-
C108: exactly what `Lex` of a stack lexer does in either mode (lexer/stacklexer/lex.go), and C45, exactly when it panics. Regular expressions are leftmost searches as in C44.
-/
namespace Verif.Props.StackLexerExact
open Verif Verif.SetSymbol Verif.StackLexer Verif.Spec Verif.Props.StackLexer
open Verif.SimpleLexer (Bytes Lx)
open Verif.Props.SimpleLexer (seen inserted)

/-! ### Specification -/

/-- The rewriting of the rule uses a section that the match does not have, or one that took no part in a match found by a
search that began with the input (`c = 0`). `g` are the groups. -/
def Unmakable (r : Rule) (c : Nat) (g : List (Int × Int)) : Prop :=
  ∃ ss x, r.submatches = some ss ∧ x ∈ ss ∧ x.section_ ≠ -1 ∧
    (x.section_ < 0 ∨ (g.length : Int) < x.section_ ∨ (c = 0 ∧ 0 < x.section_ ∧ g[x.section_.toNat - 1]? = some (-1, -1)))

/-- The rule of the sub-lexer that is taken at `p` in the default mode, with its match found by a search at `q`. -/
def Chosen (m : Rule → Bytes → Option Nat) (b : Bytes) (ev : List Nat) (s : Sub) (p : Nat) (r : Rule) (n q : Nat) : Prop :=
  Furthest (fun r => some r ∈ s.rules) m (fun r => r.priority) b ev p r n q

/-- The same in priority mode. -/
def ChosenFirst (m : Rule → Bytes → Option Nat) (b : Bytes) (ev : List Nat) (s : Sub) (p : Nat) (r : Rule) (n q : Nat) : Prop :=
  Foremost (fun r => some r ∈ s.rules) m (fun r => r.priority) b ev p r n q

/-- The rule chosen is taken with the value made of that match. -/
def Takes (chosen : List Nat → Sub → Nat → Rule → Nat → Nat → Prop) (b : Bytes) (ev : List Nat) (s : Sub) (p : Nat) (k : Tok)
    (n : Nat) : Prop :=
  ∃ q g, chosen ev s p k.1 n q ∧ k.1.re.find (b.drop q) = some (p - q, p - q + n, g) ∧ ¬ Unmakable k.1 q g ∧
    k.2 = made k.1 (b.drop q) (p - q) (p - q + n) g

/-- The value of it cannot be made. -/
def Breaks (chosen : List Nat → Sub → Nat → Rule → Nat → Nat → Prop) (b : Bytes) (ev : List Nat) (s : Sub) (p : Nat) : Prop :=
  ∃ r n q g, chosen ev s p r n q ∧ r.re.find (b.drop q) = some (p - q, p - q + n, g) ∧ Unmakable r q g

/-- Lexing with the sub-lexers of `l` from the outermost one `s`, as in `Goes`. -/
def Lexing (l : Lexer) (m : Rule → Bytes → Option Nat) (chosen : List Nat → Sub → Nat → Rule → Nat → Nat → Prop) (b : Bytes)
    (s : Sub) : Option (List (Seg Tok)) → Prop :=
  Goes (Takes chosen b) (NoneAt m b) (Breaks chosen b) (leads l.lexers) b [0] [s] 0

/-- The rules search leftmost for what context-independent matchers `m` match, never the empty string. -/
def Searches (l : Lexer) (m : Rule → Bytes → Option Nat) (step : Bytes → Nat) : Prop :=
  ∀ s, Reach l s → ∀ r, some r ∈ s.rules →
    Leftmost step (m r) r.re.bounds ∧ (∀ x, m r x ≠ some 0) ∧ 0 ≤ r.priority

/-- What the rules match in the input begins at rune starts, as it does if all positions are. -/
def AtStarts (l : Lexer) (m : Rule → Bytes → Option Nat) (step : Bytes → Nat) (b : Bytes) : Prop :=
  ∀ s, Reach l s → ∀ r, some r ∈ s.rules → ∀ p, p ≤ b.length → m r (b.drop p) ≠ none → Bd step b p

/-! ### Auxiliary facts -/

theorem subPiece_panic {b : Bytes} {r : Rule} {loc : Loc} (hf : r.re.find (b.drop loc.off) = some (loc.a, loc.e, loc.groups))
    (hoff : loc.off ≤ b.length) (x : Submatch) : subPiece b loc x = .panic ↔ x.section_ ≠ -1 ∧
      (x.section_ < 0 ∨ (loc.groups.length : Int) < x.section_ ∨
        (loc.off = 0 ∧ 0 < x.section_ ∧ loc.groups[x.section_.toNat - 1]? = some (-1, -1))) := by
  unfold subPiece
  by_cases h1 : x.section_ = -1
  · simp [h1]
  rw [if_neg h1]
  by_cases h0 : x.section_ < 0
  · simp [h1, h0, sectionOf]
  rw [sectionOf_eq _ (by omega)]
  cases hy : ((loc.a, loc.e) :: loc.groups : List (Int × Int))[x.section_.toNat]? with
  | none =>
    have := List.getElem?_eq_none_iff.1 hy
    simp only [List.length_cons] at this
    simp only [true_iff]
    exact ⟨h1, .inr (.inl (by omega))⟩
  | some y =>
    obtain ⟨i, j⟩ := y
    have hlt : x.section_.toNat < loc.groups.length + 1 := by
      have := (List.getElem?_eq_some_iff.1 hy).1
      simpa using this
    simp only
    unfold goSlice
    rcases section_bound hf hy with hb | ⟨h2, h3, h4⟩
    · cases hb
      have hz : x.section_ ≠ 0 := by
        intro hz
        rw [hz] at hy
        simp at hy
      obtain ⟨k, hk⟩ : ∃ k, x.section_.toNat = k + 1 := ⟨x.section_.toNat - 1, by omega⟩
      rw [hk, List.getElem?_cons_succ] at hy
      by_cases ho : loc.off = 0
      · rw [if_neg (by omega)]
        simp only [true_iff]
        refine ⟨h1, .inr (.inr ⟨ho, by omega, ?_⟩)⟩
        rw [hk]
        exact hy
      · rw [if_pos (by omega)]
        simp only [reduceCtorEq, false_iff, not_and, not_or]
        exact fun _ => ⟨by omega, by omega, fun h => absurd h ho⟩
    · rw [List.length_drop] at h4
      simp only at h2 h3 h4
      rw [if_pos (by omega)]
      simp only [reduceCtorEq, false_iff, not_and, not_or]
      refine fun _ => ⟨by omega, by omega, fun _ hp he => ?_⟩
      obtain ⟨k, hk⟩ : ∃ k, x.section_.toNat = k + 1 := ⟨x.section_.toNat - 1, by omega⟩
      rw [hk, List.getElem?_cons_succ] at hy
      rw [hk, Nat.add_sub_cancel, hy] at he
      cases he
      omega

theorem subValue_panic {b : Bytes} {loc : Loc} : ∀ ss : List Submatch,
    subValue b loc ss = .panic ↔ ∃ x ∈ ss, subPiece b loc x = .panic
  | [] => by simp [subValue]
  | x :: ss => by
    have ih := subValue_panic (b := b) (loc := loc) ss
    simp only [List.mem_cons, exists_eq_or_imp, ← ih, subValue]
    cases hp : subPiece b loc x with
    | panic => simp [Out.bind]
    | fuel => exact absurd hp (subPiece_ne_fuel _ _ _)
    | ok v =>
      cases hs : subValue b loc ss with
      | ok w => simp [Out.bind]
      | fuel => exact absurd hs (subValue_ne_fuel _ _ _)
      | panic => simp [Out.bind]

theorem value_panic {b : Bytes} {r : Rule} {loc : Loc} (hf : r.re.find (b.drop loc.off) = some (loc.a, loc.e, loc.groups))
    (hoff : loc.off ≤ b.length) : value b r loc = .panic ↔ Unmakable r loc.off loc.groups := by
  unfold value Unmakable
  cases hm : r.submatches with
  | none => simp
  | some ss =>
    simp only [subValue_panic, subPiece_panic hf hoff, Option.some.injEq]
    constructor
    · rintro ⟨x, hx, h⟩
      exact ⟨ss, x, rfl, hx, h⟩
    · rintro ⟨ss', x, rfl, hx, h⟩
      exact ⟨x, hx, h⟩

theorem goes_mono {σ κ : Type} {takes takes' : List Nat → σ → Nat → κ → Nat → Prop} {dead : σ → Nat → Prop}
    {broken broken' : List Nat → σ → Nat → Prop} {move : κ → Option (Move σ)} {b : Bytes}
    (ht : ∀ ev s p k n, takes ev s p k n → 0 < n → takes' ev s p k n) (hb : ∀ ev s p, broken ev s p → broken' ev s p)
    {ev : List Nat} {st : List σ} {p : Nat} {o : Option (List (Seg κ))} (h : Goes takes dead broken move b ev st p o) :
    Goes takes' dead broken' move b ev st p o := by
  induction h with
  | done => exact .done
  | last h pos le => exact .last (ht _ _ _ _ _ h pos) pos le
  | tok h pos lt hm fits _ ih => exact .tok (ht _ _ _ _ _ h pos) pos lt hm fits ih
  | stuck h pos lt hm => exact .stuck (ht _ _ _ _ _ h pos) pos lt hm
  | broken lt h => exact .broken lt (hb _ _ _ h)
  | fall lt h _ ih => exact .fall lt h ih
  | err pos le h stop _ ih => exact .err pos le h stop ih

theorem off_le {b : Bytes} {r : Rule} {p n q : Nat} {g : List (Int × Int)}
    (hf : r.re.find (b.drop q) = some (p - q, p - q + n, g)) (hn : 0 < n) : q ≤ b.length := by
  have := r.re.bound _ _ _ _ hf
  rw [List.length_drop] at this
  omega

theorem exact_of (l : Lexer) (m : Rule → Bytes → Option Nat) (step : Bytes → Nat) (C : Choice) (hR : Searches l m step)
    (b : Bytes) (hB : AtStarts l m step b)
    (G : GoodH l.compare b (TakesH C b) (DeadH m b) (BrokenH C b) (fun s => Regular m step s ∧ Starts m step b s) (VHist m step b)) :
    (l.start = none → Out.Panics fun n => lex n l b) ∧ ∀ s, l.start = some s → ∃ o, Lexing l m C b s o ∧
      (o = none → Out.Panics fun n => lex n l b) ∧
      ∀ segs, o = some segs → NoAdjacentErrors segs ∧ ∃ lxs l', Out.Returns (fun n => lex n l b) (lxs, l') ∧
        lxs.map seen = (inserted l.startKind l.startVal).map seen ++
          segs.filterMap (emitted (str l.set l.error).2) ++ (inserted l.endKind l.endVal).map seen := by
  refine ⟨fun hs => ⟨0, fun n _ => ?_⟩, fun s hs => ?_⟩
  · show lex n l b = _
    unfold lex; rw [hs]
  obtain ⟨o, h1, h2, h3⟩ := lex_goes G hs ⟨hR s (.inl hs), hB s (.inl hs)⟩
    (fun x t ht => ⟨hR t (.inr ⟨x, ht⟩), hB t (.inr ⟨x, ht⟩)⟩) (Nat.le_refl (2 * b.length + 1))
  refine ⟨o, ?_, fun ho => ⟨2 * b.length + 1, fun n hn => (lex_mono l b _ n hn).panic (h2 ho)⟩, fun segs ho => ?_⟩
  · unfold Lexing
    rw [leads_eq]
    refine goes_mono ?_ ?_ h1
    · rintro ev s p k n ⟨q, g, hF, hf, hv⟩ hn
      refine ⟨q, g, hF, hf, fun hu => ?_, value_made (loc := ⟨p - q, p - q + n, g, q⟩) hf hv⟩
      rw [(value_panic (loc := ⟨p - q, p - q + n, g, q⟩) hf (off_le hf hn)).2 hu] at hv
      cases hv
    · rintro ev s p ⟨r, n, q, g, hF, hf, hv, hle⟩
      exact ⟨r, n, q, g, hF, hf, (value_panic (loc := ⟨p - q, p - q + n, g, q⟩) hf hle).1 hv⟩
  · obtain ⟨h4, h5⟩ := h3 segs ho
    refine ⟨h4, _, _, ⟨2 * b.length + 1, fun n hn => (lex_mono l b _ n hn).ok h5⟩, ?_⟩
    rw [List.map_append, List.map_append, render_seen, pre_eq, post_eq]

theorem unique_of (l : Lexer) (m : Rule → Bytes → Option Nat) (C : Choice) (b : Bytes) (s : Sub) (hs : l.start = some s)
    (hrule : ∀ ev s p r n q, C ev s p r n q → some r ∈ s.rules ∧ m r (b.drop p) = some n)
    (cdet : ∀ ev s p r n q r' n' q', Reach l s → C ev s p r n q → C ev s p r' n' q' → r = r' ∧ n = n' ∧ q = q')
    (o o' : Option (List (Seg Tok))) (h : Lexing l m C b s o) (h' : Lexing l m C b s o') : o = o' := by
  refine goes_unique (Reach l) ?_ ?_ ?_ ?_ ?_ ?_ (fun x hx => by rw [List.mem_singleton.1 hx]; exact .inl hs) h h'
  · intro s k _ ev p n _ t hm
    rw [leads_eq] at hm
    simp only [moveOf] at hm
    split at hm
    · cases hm
    · split at hm
      · obtain ⟨u, hu, e⟩ := Option.map_eq_some_iff.1 hm
        cases e
        exact .inr ⟨_, hu⟩
      · cases hm
  · rintro ev s p ⟨r, v⟩ n ⟨r', v'⟩ n' hs ⟨q, g, hF, hf, -, hv⟩ ⟨q', g', hF', hf', -, hv'⟩
    simp only at hF hf hv hF' hf' hv'
    obtain ⟨rfl, rfl, rfl⟩ := cdet _ _ _ _ _ _ _ _ _ hs hF hF'
    rw [hf] at hf'
    cases hf'
    rw [hv, hv']
    exact ⟨rfl, rfl⟩
  · rintro ev s p k n hs hn ⟨q, g, hF, hf, -, -⟩
    have hb := k.1.re.bound _ _ _ _ hf
    rw [List.length_drop] at hb
    omega
  · rintro ev s p k n ⟨q, g, hF, -⟩ hd
    cases (hd _ (hrule _ _ _ _ _ _ hF).1).symm.trans (hrule _ _ _ _ _ _ hF).2
  · rintro ev s p ⟨r, n, q, g, hF, -⟩ hd
    cases (hd _ (hrule _ _ _ _ _ _ hF).1).symm.trans (hrule _ _ _ _ _ _ hF).2
  · rintro ev s p k n hs ⟨q, g, hF, hf, hu, -⟩ ⟨r, n', q', g', hF', hf', hu'⟩
    obtain ⟨rfl, rfl, rfl⟩ := cdet _ _ _ _ _ _ _ _ _ hs hF hF'
    rw [hf] at hf'
    cases hf'
    exact hu hu'

theorem panics_of (l : Lexer) (b : Bytes) {L : Sub → Option (List (Seg Tok)) → Prop}
    (huniq : ∀ s, l.start = some s → ∀ o o', L s o → L s o' → o = o') {P : List (Seg Tok) → Prop} {Q : List (Seg Tok) → List Lx → Prop}
    (hex : (l.start = none → Out.Panics fun n => lex n l b) ∧ ∀ s, l.start = some s → ∃ o, L s o ∧
      (o = none → Out.Panics fun n => lex n l b) ∧
      ∀ segs, o = some segs → P segs ∧ ∃ lxs l', Out.Returns (fun n => lex n l b) (lxs, l') ∧ Q segs lxs) :
    (Out.Panics fun n => lex n l b) ↔ l.start = none ∨ ∃ s, l.start = some s ∧ L s none := by
  obtain ⟨h1, h2⟩ := hex
  constructor
  · intro h
    cases hs : l.start with
    | none => exact .inl rfl
    | some s =>
      obtain ⟨o, g1, -, g3⟩ := h2 s hs
      cases o with
      | none => exact .inr ⟨s, rfl, g1⟩
      | some segs =>
        obtain ⟨-, lxs, l', ⟨N, hN⟩, -⟩ := g3 segs rfl
        obtain ⟨M, hM⟩ := h
        have a := hN (max N M) (by omega)
        have c := hM (max N M) (by omega)
        simp only at a c
        rw [a] at c
        cases c
  · rintro (h | ⟨s, hs, h⟩)
    · exact h1 h
    · obtain ⟨o, g1, g2, -⟩ := h2 s hs
      exact g2 (huniq s hs _ _ g1 h)

/-! ### The claims -/

/-- **C108.** In the default mode, for every input in which what the rules match begins at rune starts: `Lex` panics if there is no
sub-lexer. Otherwise lexing has an outcome, where at every position the rule is taken whose match ends furthest from where
it was searched for, and a rule is searched for where its sub-lexer becomes current and at the end of every token that
leaves it current. If the outcome is `none` then `Lex` panics, else it returns the lexemes of the pieces. -/
theorem C108_exact (l : Lexer) (hc : l.compare = lengthThenPriority) (m : Rule → Bytes → Option Nat) (step : Bytes → Nat)
    (hsync : Sync step) (hR : Searches l m step) (b : Bytes) (hB : AtStarts l m step b) :
    (l.start = none → Out.Panics fun n => lex n l b) ∧ ∀ s, l.start = some s → ∃ o, Lexing l m (Chosen m b) b s o ∧
      (o = none → Out.Panics fun n => lex n l b) ∧
      ∀ segs, o = some segs → NoAdjacentErrors segs ∧ ∃ lxs l', Out.Returns (fun n => lex n l b) (lxs, l') ∧
        lxs.map seen = (inserted l.startKind l.startVal).map seen ++
          segs.filterMap (emitted (str l.set l.error).2) ++ (inserted l.endKind l.endVal).map seen := by
  exact exact_of l m step _ hR b hB (by rw [hc]; exact good_furthest hsync b _ rfl)

/-- **C108.** The same in priority mode, where at every position the rule of the first priority is taken of those that
match there. -/
theorem C108_priority (l : Lexer) (hc : l.compare = priorityThenLength) (m : Rule → Bytes → Option Nat) (step : Bytes → Nat)
    (hsync : Sync step) (hR : Searches l m step) (b : Bytes) (hB : AtStarts l m step b) :
    (l.start = none → Out.Panics fun n => lex n l b) ∧ ∀ s, l.start = some s → ∃ o, Lexing l m (ChosenFirst m b) b s o ∧
      (o = none → Out.Panics fun n => lex n l b) ∧
      ∀ segs, o = some segs → NoAdjacentErrors segs ∧ ∃ lxs l', Out.Returns (fun n => lex n l b) (lxs, l') ∧
        lxs.map seen = (inserted l.startKind l.startVal).map seen ++
          segs.filterMap (emitted (str l.set l.error).2) ++ (inserted l.endKind l.endVal).map seen := by
  exact exact_of l m step _ hR b hB (by rw [hc]; exact good_foremostH hsync b _ rfl)

/-- The rules are distinguished by their priorities. -/
def Ranked (l : Lexer) : Prop :=
  ∀ s, Reach l s → ∀ r r', some r ∈ s.rules → some r' ∈ s.rules → r.priority = r'.priority → r = r'

/-- **C108.** If the rules of each sub-lexer have different priorities, there is one outcome. -/
theorem C108_unique (l : Lexer) (m : Rule → Bytes → Option Nat) (hP : Ranked l) (b : Bytes) (s : Sub)
    (hs : l.start = some s) (o o' : Option (List (Seg Tok))) (h : Lexing l m (Chosen m b) b s o)
    (h' : Lexing l m (Chosen m b) b s o') : o = o' := by
  refine unique_of l m (Chosen m b) b s hs ?_ ?_ o o' h h'
  · rintro ev s p r n q ⟨h1, h2, -⟩
    exact ⟨h1, h2⟩
  · rintro ev s p r n q r' n' q' hs ⟨h1, h2, h3, h4⟩ ⟨g1, g2, g3, g4⟩
    have e1 := h4 r' n' q' g1 g2 g3
    have e2 := g4 r n q h1 h2 h3
    have e : r = r' := hP s hs r r' h1 g1 (by simp only at e1 e2; omega)
    subst e
    cases h2.symm.trans g2
    exact ⟨rfl, rfl, since_unique h3 g3⟩

/-- **C108.** So it is in priority mode. -/
theorem C108_priority_unique (l : Lexer) (m : Rule → Bytes → Option Nat) (hP : Ranked l) (b : Bytes) (s : Sub)
    (hs : l.start = some s) (o o' : Option (List (Seg Tok))) (h : Lexing l m (ChosenFirst m b) b s o)
    (h' : Lexing l m (ChosenFirst m b) b s o') : o = o' := by
  refine unique_of l m (ChosenFirst m b) b s hs ?_ ?_ o o' h h'
  · rintro ev s p r n q ⟨h1, h2, -⟩
    exact ⟨h1, h2⟩
  · rintro ev s p r n q r' n' q' hs ⟨h1, h2, h3, h4⟩ ⟨g1, g2, g3, g4⟩
    have e1 := h4 r' n' q' g1 g2 g3
    have e2 := g4 r n q h1 h2 h3
    have e : r = r' := hP s hs r r' h1 g1 (by simp only at e1 e2; omega)
    subst e
    cases h2.symm.trans g2
    exact ⟨rfl, rfl, since_unique h3 g3⟩

/-- **C45**, when `Lex` panics in the default mode: exactly if there is no sub-lexer or lexing cannot go on, as one of the
pieces pushes a sub-lexer that does not exist, pops in the outermost one, or has a rewriting that cannot be made. -/
theorem C45_default_exact (l : Lexer) (hc : l.compare = lengthThenPriority) (m : Rule → Bytes → Option Nat) (step : Bytes → Nat)
    (hsync : Sync step) (hR : Searches l m step) (hP : Ranked l) (b : Bytes) (hB : AtStarts l m step b) :
    (Out.Panics fun n => lex n l b) ↔ l.start = none ∨ ∃ s, l.start = some s ∧ Lexing l m (Chosen m b) b s none :=
  panics_of l b (C108_unique l m hP b) (C108_exact l hc m step hsync hR b hB)

/-- **C45**, when `Lex` panics in priority mode, whatever the rewritings. -/
theorem C45_priority_exact (l : Lexer) (hc : l.compare = priorityThenLength) (m : Rule → Bytes → Option Nat) (step : Bytes → Nat)
    (hsync : Sync step) (hR : Searches l m step) (hP : Ranked l) (b : Bytes) (hB : AtStarts l m step b) :
    (Out.Panics fun n => lex n l b) ↔ l.start = none ∨ ∃ s, l.start = some s ∧ Lexing l m (ChosenFirst m b) b s none :=
  panics_of l b (C108_priority_unique l m hP b) (C108_priority l hc m step hsync hR b hB)

/-- **C44**, after an error too: a rule taken at `p` may match less than another only if it was searched for earlier. -/
theorem C108_longest {m : Rule → Bytes → Option Nat} {b : Bytes} {ev : List Nat} {s : Sub} {p : Nat} {r : Rule} {n q : Nat}
    (h : Chosen m b ev s p r n q) {r' : Rule} {n' q' : Nat} (hr : some r' ∈ s.rules) (hm : m r' (b.drop p) = some n')
    (hq : Since (fun i => m r' (b.drop i) ≠ none) ev p q') (hlt : n < n') (hle : q' ≤ p) : q < q' := by
  have := h.2.2.2 r' n' q' hr hm hq
  omega

/-! ### A concrete lexer -/

/-- The rules `x`, which pushes a sub-lexer that does not exist, and `word /[a-z]+/`. -/
def late : Lexer := mkLexer [rule 0 reX 0 [99], rule 1 reWord 1] []

/-- What its rules match. -/
def lateM (r : Rule) : Bytes → Option Nat := if r.kind = 0 then litM [120] else plusM lower

theorem late_rule {s : Sub} (h : Reach late s) {r : Rule} (hr : some r ∈ s.rules) :
    some r = rule 0 reX 0 [99] ∨ some r = rule 1 reWord 1 := by
  have h : s = ⟨[rule 0 reX 0 [99], rule 1 reWord 1]⟩ ∨ s = ⟨[]⟩ := by
    rcases h with h | ⟨x, h⟩
    · exact .inl (Option.some.inj h).symm
    · simp only [late, mkLexer] at h
      split at h
      · exact .inl (Option.some.inj h).symm
      · split at h
        · exact .inr (Option.some.inj h).symm
        · cases h
  rcases h with rfl | rfl
  · simpa using hr
  · simp at hr

/-- The hypotheses are met by it. -/
theorem late_searches : Searches late lateM runeLen ∧ Ranked late := by
  constructor
  · intro s hs r hr
    rcases late_rule hs hr with h | h <;> cases h
    · exact ⟨ofMatch_leftmost (litM _) (litM_bound _), litM_ne_zero _ (by simp), by simp⟩
    · exact ⟨ofMatch_leftmost (plusM lower) (plusM_bound _), plusM_ne_zero _, by simp⟩
  · intro s hs r r' hr hr' hp
    rcases late_rule hs hr with h | h <;> rcases late_rule hs hr' with h' | h' <;> cases h <;> cases h' <;>
      first
        | rfl
        | (exfalso; revert hp; decide)

/-- Whatever the input, as its rules begin with ASCII letters. -/
theorem late_starts (b : Bytes) : AtStarts late lateM runeLen b := by
  intro s hs r hr p hp hm
  suffices h : ∃ x t, b.drop p = x :: t ∧ x.toNat < 0x80 by
    obtain ⟨x, t, h1, h2⟩ := h
    exact Verif.SimpleLexer.bd_at_ascii p b p x t (Nat.le_refl _) h1 h2
  cases hd : b.drop p with
  | nil =>
    rw [hd] at hm
    rcases late_rule hs hr with h | h <;> cases h <;> exact absurd (by decide) hm
  | cons x t =>
    refine ⟨x, t, rfl, ?_⟩
    rw [hd] at hm
    rcases late_rule hs hr with h | h <;> cases h
    · by_cases hx : x = 120
      · subst hx; decide
      · exact absurd (by simp [lateM, litM, Ne.symm hx]) hm
    · by_cases hx : lower x = true
      · simp only [lower, Bool.and_eq_true, decide_eq_true_eq] at hx
        have := UInt8.le_iff_toNat_le.1 hx.2
        have e : (122 : UInt8).toNat = 122 := rfl
        omega
      · exact absurd (by simp [lateM, plusM, hx]) hm

/-- "xxa" is a word, though `x` matches too. -/
example : lxsOf (lex 20 late [120, 120, 97]) = some [⟨.idx 1, [120, 120, 97], 1, 1, false⟩] := by decide +kernel

/-- In "aa:xx" the rule `x` is taken after the error, so `Lex` panics and lexing cannot go on. -/
example : Lexing late lateM (Chosen lateM [97, 97, 58, 120, 120]) [97, 97, 58, 120, 120] ⟨[rule 0 reX 0 [99], rule 1 reWord 1]⟩ none := by
  have hp : Out.Panics fun n => lex n late [97, 97, 58, 120, 120] := by
    refine ⟨20, fun n hn => (lex_mono late _ 20 n hn).panic ?_⟩
    have : panics (lex 20 late [97, 97, 58, 120, 120]) = true := by decide +kernel
    revert this
    cases lex 20 late [97, 97, 58, 120, 120] <;> simp [panics]
  rcases (C45_default_exact late rfl lateM runeLen sync_runeLen late_searches.1 late_searches.2 _ (late_starts _)).1 hp with h | ⟨s, hs, h⟩
  · cases h
  · cases hs
    exact h

/-- So it is in "aéxx", which has a position that is no rune start. -/
example : Out.Panics fun n => lex n late [97, 0xC3, 0xA9, 120, 120] := by
  refine ⟨20, fun n hn => (lex_mono late _ 20 n hn).panic ?_⟩
  have : panics (lex 20 late [97, 0xC3, 0xA9, 120, 120]) = true := by decide +kernel
  revert this
  cases lex 20 late [97, 0xC3, 0xA9, 120, 120] <;> simp [panics]

/-- In "aa:xx" `x` was searched for at the beginning, and `word` again after "aa". -/
example : Since (fun i => litM [120] ([97, 97, 58, 120, 120].drop i) ≠ none) [2, 0] 3 0 ∧
    Since (fun i => plusM lower ([97, 97, 58, 120, 120].drop i) ≠ none) [2, 0] 3 2 := by
  refine ⟨⟨by simp, by simp, fun i _ h => ?_, fun _ q hq h => by omega⟩, ⟨by simp, by simp, fun i h1 h => ?_, fun _ q hq h => ?_⟩⟩
  · have : i = 0 ∨ i = 1 ∨ i = 2 := by omega
    rcases this with rfl | rfl | rfl <;> decide
  · have : i = 2 := by omega
    subst this
    decide
  · refine ⟨0, ?_, by omega, by decide⟩
    simp only [List.mem_cons, List.not_mem_nil, or_false] at hq
    omega

/-- The same lexer in priority mode. -/
def first : Lexer := { late with compare := priorityThenLength }

/-- In "xxa" it takes `x`, which comes first though `word` matches more, so `Lex` panics and lexing cannot go on. -/
example : Lexing first lateM (ChosenFirst lateM [120, 120, 97]) [120, 120, 97] ⟨[rule 0 reX 0 [99], rule 1 reWord 1]⟩ none := by
  have hp : Out.Panics fun n => lex n first [120, 120, 97] := by
    refine ⟨20, fun n hn => (lex_mono first _ 20 n hn).panic ?_⟩
    have : panics (lex 20 first [120, 120, 97]) = true := by decide +kernel
    revert this
    cases lex 20 first [120, 120, 97] <;> simp [panics]
  rcases (C45_priority_exact first rfl lateM runeLen sync_runeLen late_searches.1 late_searches.2 _ (late_starts _)).1 hp with h | ⟨s, hs, h⟩
  · cases h
  · cases hs
    exact h

/-- In "ab:x" it returns: an `x` that ends the input leads nowhere. -/
example : (lxsOf (lex 20 first [97, 98, 58, 120])).map (·.map fun x => x.val) = some [[97, 98], [58], [120]] := by decide +kernel

end Verif.Props.StackLexerExact
