import Verif.Props.StackLexer
import Verif.Proofs.StackLexerPanic
/-
C45: what makes `Lex` of a stack lexer panic (lexer/stacklexer/lex.go). Regular expressions are arbitrary
functions with in-bounds results, or leftmost searches as in C60.
-/
namespace Verif.Props.StackLexer
open Verif Verif.SetSymbol Verif.StackLexer Verif.Spec
open Verif.SimpleLexer (Bytes Lx)

/-! ### Specification -/

/-- At `p` a rule of the sub-lexer is found, by a search from `c`, whose rewriting uses a section that
does not exist, or one that takes no part in the match while the search began with the input. -/
def BadRewriting (b : Bytes) (s : Sub) (p : Nat) : Prop :=
  ∃ r, some r ∈ s.rules ∧ ∃ c n g, c ≤ p ∧ r.re.find (b.drop c) = some (p - c, p - c + n, g) ∧
    ∃ ss x, r.submatches = some ss ∧ x ∈ ss ∧ x.section_ ≠ -1 ∧
      (x.section_ < 0 ∨ (g.length : Int) < x.section_ ∨
        (c = 0 ∧ 0 < x.section_ ∧ g[x.section_.toNat - 1]? = some (-1, -1)))

/-- Where a rule leads (see `leads`). -/
def leadsTo (lexers : Bytes → Option Sub) (r : Rule) : Option (Move Sub) := leads lexers (r, [])

/-- The rule with the highest priority among those of the sub-lexer that match at `p`. -/
def First (m : Rule → Bytes → Option Nat) (b : Bytes) (_ : Mode) (s : Sub) (p : Nat) (r : Rule) (n : Nat) : Prop :=
  some r ∈ s.rules ∧ m r (b.drop p) = some n ∧
    ∀ j n', some j ∈ s.rules → m j (b.drop p) = some n' → r.priority ≤ j.priority

/-- No rule of the sub-lexer matches at `p`. -/
def NoneAt (m : Rule → Bytes → Option Nat) (b : Bytes) (s : Sub) (p : Nat) : Prop :=
  ∀ r, some r ∈ s.rules → m r (b.drop p) = none

/-! ### Auxiliary facts -/

private theorem breaks_bad {b : Bytes} {s : Sub} {p : Nat} (h : Breaks b s p) : BadRewriting b s p := by
  obtain ⟨r, ⟨a, e, g, off⟩, hr, ha, hoff, hf, hv⟩ := h
  simp only at ha hoff hf
  have hb := r.re.bound _ _ _ _ hf
  refine ⟨r, hr, off, e - a, g, by omega, ?_, ?_⟩
  · rw [show p - off = a by omega, show a + (e - a) = e by omega]; exact hf
  unfold value at hv
  cases hm : r.submatches with
  | none => rw [hm] at hv; cases hv
  | some ss =>
    rw [hm] at hv
    simp only at hv
    have key : ∃ x ∈ ss, subPiece b ⟨a, e, g, off⟩ x = .panic := by
      clear hm
      induction ss with
      | nil => cases hv
      | cons x ss ih =>
        simp only [subValue] at hv
        cases hp : subPiece b ⟨a, e, g, off⟩ x with
        | panic => exact ⟨x, List.mem_cons_self .., hp⟩
        | fuel => exact absurd hp (subPiece_ne_fuel _ _ _)
        | ok v =>
          rw [hp] at hv
          simp only [Out.bind_ok] at hv
          cases hs : subValue b ⟨a, e, g, off⟩ ss with
          | ok w => rw [hs] at hv; cases hv
          | fuel => exact absurd hs (subValue_ne_fuel _ _ _)
          | panic =>
            obtain ⟨y, hy, h⟩ := ih hs
            exact ⟨y, List.mem_cons_of_mem _ hy, h⟩
    obtain ⟨x, hx, hp⟩ := key
    refine ⟨ss, x, rfl, hx, ?_⟩
    unfold subPiece at hp
    by_cases h1 : x.section_ = -1
    · rw [if_pos h1] at hp; cases hp
    refine ⟨h1, ?_⟩
    rw [if_neg h1] at hp
    by_cases h0 : x.section_ < 0
    · exact .inl h0
    right
    rw [sectionOf_eq _ (by omega)] at hp
    cases hy : ((a, e) :: g : List (Int × Int))[x.section_.toNat]? with
    | none =>
      left
      have := List.getElem?_eq_none_iff.1 hy
      simp only [List.length_cons] at this
      omega
    | some y =>
      right
      obtain ⟨i, j⟩ := y
      simp only at hp
      rw [hy] at hp
      simp only at hp
      unfold goSlice at hp
      split at hp
      · cases hp
      · next hc =>
        rcases section_bound (b := b) (loc := ⟨a, e, g, off⟩) hf hy with hb | ⟨h2, h3, h4⟩
        · cases hb
          refine ⟨?_, ?_, ?_⟩
          · by_cases h0 : off = 0
            · exact h0
            · exact absurd ⟨by omega, by omega, by omega⟩ hc
          · by_cases hz : x.section_ = 0
            · rw [hz] at hy
              simp at hy
            · omega
          · obtain ⟨k, hk⟩ : ∃ k, x.section_.toNat = k + 1 := ⟨x.section_.toNat - 1, by
              by_cases hz : x.section_ = 0
              · rw [hz] at hy
                simp at hy
              · omega⟩
            rw [hk, List.getElem?_cons_succ] at hy
            rw [hk]
            exact hy
        · rw [List.length_drop] at h4
          simp only at h2 h3 h4
          exact absurd ⟨by omega, by omega, by omega⟩ hc

private theorem crash_map {takes : Mode → σ → Nat → κ → Nat → Prop} {takes' : Mode → σ → Nat → κ' → Nat → Prop}
    {dead dead' : σ → Nat → Prop} {move : κ → Option (Move σ)} {move' : κ' → Option (Move σ)}
    {broken broken' : σ → Nat → Prop} {b : Bytes} (g : κ → κ')
    (ht : ∀ f s p k n, 0 < n → takes f s p k n → takes' f s p (g k) n) (hm : ∀ k, move' (g k) = move k)
    (hd : ∀ s p, p < b.length → dead s p → dead' s p) (hb : ∀ s p, broken s p → broken' s p)
    {f : Mode} {st : List σ} {p : Nat} (h : Crash takes dead move broken b f st p) :
    Crash takes' dead' move' broken' b f st p := by
  induction h with
  | broken le h => exact .broken le (hb _ _ h)
  | nowhere h pos lt hmv => exact .nowhere (ht _ _ _ _ _ pos h) pos lt ((hm _).trans hmv)
  | outermost h pos lt hmv => exact .outermost (ht _ _ _ _ _ pos h) pos lt ((hm _).trans hmv)
  | tok h pos lt hmv fits _ ih => exact .tok (ht _ _ _ _ _ pos h) pos lt ((hm _).trans hmv) fits ih
  | fall lt h _ ih => exact .fall lt (hd _ _ lt h) ih
  | err pos lt h _ ih => exact .err pos lt (fun i h1 h2 => hd _ i (by omega) (h i h1 h2)) ih

private theorem run_map {takes : Mode → σ → Nat → κ → Nat → Prop} {takes' : Mode → σ → Nat → κ' → Nat → Prop}
    {dead dead' : σ → Nat → Prop} {move : κ → Option (Move σ)} {move' : κ' → Option (Move σ)} {b : Bytes} (g : κ → κ')
    (ht : ∀ f s p k n, 0 < n → takes f s p k n → takes' f s p (g k) n) (hm : ∀ k, move' (g k) = move k)
    (hd : ∀ s p, p < b.length → dead s p → dead' s p)
    {f : Mode} {st : List σ} {p : Nat} {segs : List (Seg κ)} (h : Run takes dead move b f st p segs) :
    ∃ segs', Run takes' dead' move' b f st p segs' := by
  induction h with
  | done => exact ⟨_, .done⟩
  | last h pos le => exact ⟨_, .last (ht _ _ _ _ _ pos h) pos le⟩
  | tok h pos lt hmv fits _ ih =>
    obtain ⟨_, ih⟩ := ih
    exact ⟨_, .tok (ht _ _ _ _ _ pos h) pos lt ((hm _).trans hmv) fits ih⟩
  | fall lt h _ ih =>
    obtain ⟨_, ih⟩ := ih
    exact ⟨_, .fall lt (hd _ _ lt h) ih⟩
  | err pos le h stop _ ih =>
    obtain ⟨_, ih⟩ := ih
    refine ⟨_, .err pos le (fun i h1 h2 => hd _ i (by omega) (h i h1 h2)) ?_ ih⟩
    rcases stop with h | ⟨k, n, h1, h2⟩
    · exact .inl h
    · exact .inr ⟨g k, n, h1, ht _ _ _ _ _ h1 h2⟩

/-- Lexing that can be completed does not break off, if what is taken is determined. -/
private theorem run_not_crash {takes takes' : Mode → σ → Nat → κ → Nat → Prop} {dead : σ → Nat → Prop}
    {move : κ → Option (Move σ)} {broken : σ → Nat → Prop} {b : Bytes}
    (det : ∀ f s p k n k' n', takes f s p k n → takes' f s p k' n' → k = k' ∧ n = n')
    (excl : ∀ f s p k n, takes f s p k n → ¬ dead s p)
    (excl' : ∀ f s p k n, takes' f s p k n → ¬ dead s p) (nb : ∀ s p, ¬ broken s p)
    {f : Mode} {st : List σ} {p : Nat} (h : Crash takes dead move broken b f st p) :
    ∀ segs, ¬ Run takes' dead move b f st p segs := by
  induction h with
  | broken le h => exact absurd h (nb _ _)
  | nowhere h pos lt hmv =>
    intro segs hr
    cases hr with
    | done => omega
    | last h' pos' le' => obtain ⟨rfl, rfl⟩ := det _ _ _ _ _ _ _ h h'; omega
    | tok h' pos' lt' hm' _ _ => obtain ⟨rfl, rfl⟩ := det _ _ _ _ _ _ _ h h'; rw [hmv] at hm'; cases hm'
    | fall lt' h' _ => exact excl _ _ _ _ _ h h'
    | err pos' le' h' _ _ => exact excl _ _ _ _ _ h (h' _ (Nat.le_refl _) pos')
  | outermost h pos lt hmv =>
    intro segs hr
    cases hr with
    | done => omega
    | last h' pos' le' => obtain ⟨rfl, rfl⟩ := det _ _ _ _ _ _ _ h h'; omega
    | tok h' pos' lt' hm' fits' _ =>
      obtain ⟨rfl, rfl⟩ := det _ _ _ _ _ _ _ h h'
      rw [hmv] at hm'
      cases hm'
      exact fits' rfl
    | err pos' le' h' _ _ => exact excl _ _ _ _ _ h (h' _ (Nat.le_refl _) pos')
  | tok h pos lt hmv _ _ ih =>
    intro segs hr
    cases hr with
    | done => omega
    | last h' pos' le' => obtain ⟨rfl, rfl⟩ := det _ _ _ _ _ _ _ h h'; omega
    | tok h' pos' lt' hm' _ hr' =>
      obtain ⟨rfl, rfl⟩ := det _ _ _ _ _ _ _ h h'
      rw [hmv] at hm'
      cases hm'
      exact ih _ hr'
    | fall lt' h' _ => exact excl _ _ _ _ _ h h'
    | err pos' le' h' _ _ => exact excl _ _ _ _ _ h (h' _ (Nat.le_refl _) pos')
  | fall lt h _ ih =>
    intro segs hr
    cases hr with
    | done => omega
    | last h' pos' le' => exact excl' _ _ _ _ _ h' h
    | tok h' pos' lt' hm' _ _ => exact excl' _ _ _ _ _ h' h
    | fall lt' h' hr' => exact ih _ hr'
  | @err f s p q pos lt h _ ih =>
    intro segs hr
    cases hr with
    | done => omega
    | last h' pos' le' => exact excl' _ _ _ _ _ h' (h _ (Nat.le_refl _) pos)
    | tok h' pos' lt' hm' _ _ => exact excl' _ _ _ _ _ h' (h _ (Nat.le_refl _) pos)
    | @err _ _ _ q' segs pos' le' h' stop hr' =>
      have e : f.afterErr.afterErr = f.afterErr := by cases f <;> rfl
      rcases Nat.lt_trichotomy q q' with hq | rfl | hq
      · exact ih _ (.err hq le' (fun i h1 h2 => h' i (by omega) h2) (by rw [e]; exact stop) (by rw [e]; exact hr'))
      · exact ih _ hr'
      · rcases stop with h1 | ⟨k, n, h1, h2⟩
        · omega
        · exact excl' _ _ _ _ _ h2 (h _ (by omega) hq)

/-! ### The claims -/

/-- C45, what a panic of `Lex` means: for every stack lexer and input, if `Lex` panics then there is no
sub-lexer at all, or lexing as in `C43_lossless` comes to a piece whose rewriting cannot be made, to a
piece that pushes a sub-lexer that does not exist, or to a piece of the outermost sub-lexer that pops —
the last two not at the end of the input. -/
theorem C45_panic_causes (l : Lexer) (b : Bytes) (h : Out.Panics fun n => lex n l b) :
    l.start = none ∨ ∃ s, l.start = some s ∧
      Crash (Found b) (fun _ _ => True) (leads l.lexers) (BadRewriting b) b .taken [s] 0 := by
  obtain ⟨N, hN⟩ := h
  cases hs : l.start with
  | none => exact .inl rfl
  | some s =>
    refine .inr ⟨s, rfl, ?_⟩
    rw [leads_eq]
    exact crash_map id (fun _ _ _ _ _ _ h => claims_found h) (fun _ => rfl) (fun _ _ _ h => h) (fun _ _ h => breaks_bad h.2)
      (lex_panic (good_any l.compare b) (fun _ _ _ _ h => h) (fun _ _ => trivial) hs (hN N (Nat.le_refl _)))

/-- C45, when `Lex` panics: in priority mode, for lexers whose rules search leftmost for what
context-independent matchers `m` match, never the empty string, have different priorities within a
sub-lexer, and have rewritings that use the whole match and groups that always take part, and inputs all
of whose positions are rune starts: `Lex` panics exactly if there is no sub-lexer, or lexing, with the
matching rule of the highest priority taken everywhere, comes to a piece, not the last of the input, that
pushes a sub-lexer that does not exist or pops in the outermost one. -/
theorem C45_panics_exact_partial (l : Lexer) (hc : l.compare = priorityThenLength)
    (m : Rule → Bytes → Option Nat) (step : Bytes → Nat) (hsync : Sync step)
    (hR : ∀ s, Reach l s → ∀ r, some r ∈ s.rules →
      Leftmost step (m r) r.re.bounds ∧ (∀ x, m r x ≠ some 0) ∧ 0 ≤ r.priority)
    (hP : ∀ s, Reach l s → ∀ r r', some r ∈ s.rules → some r' ∈ s.rules → r.priority = r'.priority → r = r')
    (hS : ∀ s, Reach l s → ∀ r, some r ∈ s.rules → SafeSubs r)
    (b : Bytes) (hB : ∀ p, p ≤ b.length → Bd step b p) :
    (Out.Panics fun n => lex n l b) ↔ l.start = none ∨ ∃ s, l.start = some s ∧
      Crash (First m b) (NoneAt m b) (leadsTo l.lexers) (fun _ _ => False) b .taken [s] 0 := by
  cases hs : l.start with
  | none =>
    refine ⟨fun _ => .inl rfl, fun _ => ⟨0, fun n _ => ?_⟩⟩
    show lex n l b = _
    unfold lex; rw [hs]
  | some s =>
    -- only sub-lexers that can become current
    have G : Good l.compare b
        (fun f s p k n => Reach l s ∧ TakesAt m step (foremost m) b f s p k n) (DeadAt m step b) (Reach l)
        (fun s f es cur => Reach l s ∧ VCtx m step b s f es cur) := by
      have G := good_foremost (m := m) hsync b
      rw [← hc] at G
      exact {
        stop := fun s f es cur hV h1 h2 => G.stop s f es cur hV.2 h1 h2
        go := fun s f es cur hV r loc hc => by
          obtain ⟨h1, h2, h3, h4⟩ := G.go s f es cur hV.2 r loc hc
          exact ⟨h1, h2, h3, fun v hv hne => ⟨hV.1, h4 v hv hne⟩⟩
        populate := fun s cur hs hb => ⟨hs, G.populate s cur (hR s hs) hb⟩
        update := fun s f es cur cur' h h1 h2 => ⟨h.1, G.update s f es cur cur' h.2 h1 h2⟩
        stay := fun s f es cur h h1 h2 => ⟨h.1, G.stay s f es cur h.2 h1 h2⟩ }
    let R : Mode → Sub → Nat → Rule → Nat → Prop := fun f s p r n => Reach l s ∧ First m b f s p r n
    have ht : ∀ f s p (k : Tok) n, 0 < n → (Reach l s ∧ TakesAt m step (foremost m) b f s p k n) → R f s p k.1 n := by
      rintro f s p k n hn ⟨h0, h1, h2, h3⟩
      exact ⟨h0, h1.1, h2, h3 (hB p (by
        obtain ⟨-, c, hc, g, hf, -⟩ := h1
        have := (k.1.re.bound _ _ _ _ hf).2
        rw [List.length_drop] at this
        omega))⟩
    have hd : ∀ s p, p < b.length → DeadAt m step b s p → NoneAt m b s p := fun s p hp h => h (hB p (Nat.le_of_lt hp))
    have hm : ∀ k : Tok, leadsTo l.lexers k.1 = moveOf l.lexers k.1 := fun k => congrFun (leads_eq l.lexers) (k.1, [])
    constructor
    · rintro ⟨N, hN⟩
      refine .inr ⟨s, rfl, ?_⟩
      refine crash_map (fun k : Tok => k.1) (fun f s p k n hn h => (ht f s p k n hn h).2) hm hd ?_
        (lex_panic G (fun _ _ _ _ h => h.2.any) (fun _ h => h) hs (hN N (Nat.le_refl _)))
      rintro s p ⟨h0, r, loc, h1, -, h2, h3, h4⟩
      obtain ⟨v, hv⟩ := value_ok h2 h3 (hS s h0 r h1)
      rw [hv] at h4
      cases h4
    · rintro (h | ⟨s', h, hcr⟩)
      · cases h
      · cases h
        rcases C37_stack_terminates l b with ⟨⟨lxs, l'⟩, hret⟩ | h
        · exfalso
          obtain ⟨segs, h1, -⟩ := returned G hs (.inl hs) (fun x t ht => .inr ⟨x, ht⟩) hret
          rw [leads_eq] at h1
          obtain ⟨segs', h1⟩ := run_map (fun k : Tok => k.1) ht hm hd h1
          refine run_not_crash ?_ ?_ ?_ (fun _ _ h => h) hcr _ h1
          · rintro f s p r n r' n' ⟨a1, a2, a3⟩ ⟨h0, b1, b2, b3⟩
            have := hP s h0 r r' a1 b1 (Int.le_antisymm (a3 _ _ b1 b2) (b3 _ _ a1 a2))
            subst this
            rw [a2] at b2
            exact ⟨rfl, Option.some.inj b2⟩
          · rintro f s p r n ⟨a1, a2, -⟩ hd
            rw [hd r a1] at a2; cases a2
          · rintro f s p r n ⟨-, a1, a2, -⟩ hd
            rw [hd r a1] at a2; cases a2
        · exact h

/-! ### A concrete lexer -/

/-- Words and parentheses, in priority mode: `(` pushes `b`; `)` pops, in the outermost sub-lexer too. -/
def loose : Lexer := { mkLexer [rule 0 reWord 0, rule 1 reOpen 1 [98], rule 2 reClose 2 [] 1]
    [rule 0 reWord 0, rule 1 reOpen 1 [99], rule 2 reClose 2 [] 1] with compare := priorityThenLength }

theorem loose_rule {s : Sub} (h : Reach loose s) {r : Rule} (hr : some r ∈ s.rules) :
    some r = rule 0 reWord 0 ∨ some r = rule 1 reOpen 1 [98] ∧ s = ⟨[rule 0 reWord 0, rule 1 reOpen 1 [98], rule 2 reClose 2 [] 1]⟩ ∨
      some r = rule 1 reOpen 1 [99] ∧ s = ⟨[rule 0 reWord 0, rule 1 reOpen 1 [99], rule 2 reClose 2 [] 1]⟩ ∨
      some r = rule 2 reClose 2 [] 1 := by
  have h : s = ⟨[rule 0 reWord 0, rule 1 reOpen 1 [98], rule 2 reClose 2 [] 1]⟩ ∨
      s = ⟨[rule 0 reWord 0, rule 1 reOpen 1 [99], rule 2 reClose 2 [] 1]⟩ := by
    rcases h with h | ⟨x, h⟩
    · exact .inl (Option.some.inj h).symm
    · simp only [loose, mkLexer] at h
      split at h
      · exact .inl (Option.some.inj h).symm
      · split at h
        · exact .inr (Option.some.inj h).symm
        · cases h
  rcases h with rfl | rfl
  · simp only [List.mem_cons, List.not_mem_nil, or_false] at hr
    rcases hr with h | h | h
    · exact .inl h
    · exact .inr (.inl ⟨h, rfl⟩)
    · exact .inr (.inr (.inr h))
  · simp only [List.mem_cons, List.not_mem_nil, or_false] at hr
    rcases hr with h | h | h
    · exact .inl h
    · exact .inr (.inr (.inl ⟨h, rfl⟩))
    · exact .inr (.inr (.inr h))

/-- The hypotheses of `C45_panics_exact_partial`, met by this lexer. -/
theorem loose_exact (b : Bytes) (hB : ∀ p, p ≤ b.length → Bd runeLen b p) :
    (Out.Panics fun n => lex n loose b) ↔ loose.start = none ∨ ∃ s, loose.start = some s ∧
      Crash (First parensM b) (NoneAt parensM b) (leadsTo loose.lexers) (fun _ _ => False) b .taken [s] 0 := by
  refine C45_panics_exact_partial loose rfl parensM runeLen sync_runeLen ?_ ?_ ?_ b hB
  · intro s hs r hr
    rcases loose_rule hs hr with h | ⟨h, -⟩ | ⟨h, -⟩ | h <;> cases h
    · exact ⟨ofMatch_leftmost (plusM lower) (plusM_bound _), plusM_ne_zero _, by simp⟩
    all_goals exact ⟨ofMatch_leftmost (litM _) (litM_bound _), litM_ne_zero _ (by simp), by simp⟩
  · intro s hs r r' hr hr' hp
    rcases loose_rule hs hr with h | ⟨h, e⟩ | ⟨h, e⟩ | h <;>
      rcases loose_rule hs hr' with h' | ⟨h', e'⟩ | ⟨h', e'⟩ | h' <;> cases h <;> cases h' <;>
      first
        | rfl
        | (exfalso; revert hp; decide)
        | (rw [e] at e'; cases e')
  · intro s hs r hr ss hss
    rcases loose_rule hs hr with h | ⟨h, -⟩ | ⟨h, -⟩ | h <;> cases h <;> cases hss

/-- "(a))b" pops once too often, "((a" pushes `c`; "(a)b)" ends before the last pop is made. -/
example : panics (lex 20 loose [40, 97, 41, 41, 98]) = true ∧ panics (lex 20 loose [40, 40, 97]) = true ∧
    panics (lex 20 loose [40, 97, 41, 98, 41]) = false := by decide +kernel

/-- The panic of `C45_refuted` in a rewriting, explained. -/
example : BadRewriting [120, 120] ⟨[some ⟨0, reOpt, false, 0, [], 0, some [⟨1, []⟩]⟩]⟩ 0 :=
  ⟨_, List.mem_cons_self .., 0, 1, [(-1, -1)], Nat.le_refl _, rfl, _, ⟨1, []⟩, rfl, List.mem_cons_self .., by decide,
    .inr (.inr ⟨rfl, by decide, rfl⟩)⟩

end Verif.Props.StackLexer
