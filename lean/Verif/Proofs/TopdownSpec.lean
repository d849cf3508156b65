import Verif.Proofs.Topdown
import Mathlib.Logic.Relation
import Mathlib.Data.Finset.Card
/- Facts about ordered choice itself, and about the left recursion test. -/
namespace Verif.Topdown
open Verif.Spec Verif.Spec.Grammar

variable {α V : Type} {g : Grammar α} {ev : V} {inp : List (Lexeme α V)}

/-- Terminal test. -/
abbrev isT (g : Grammar α) : α → Bool := fun s => (g.prods s).isNone

/-- What a successful match means. -/
def Good (g : Grammar α) (inp : List (Lexeme α V)) (i j : Nat) (ts : List (PN α V)) (ss : List α) : Prop :=
  ts.map PN.kind = ss ∧ (∀ t ∈ ts, t.Valid g) ∧ PN.fringes (isT g) ts = slice inp i j ∧ i ≤ j

/-- Successful matches are derivations. -/
theorem Match.good {goal i r} (h : Match g ev inp goal i r) : ∀ j ts, r = some (j, ts) →
    match goal with
    | .sym A => Good g inp i j ts [A]
    | .seq ss => Good g inp i j ts ss
    | .alts A ps => g.prods A ≠ none → (∀ p ∈ ps, ∃ k, g.Rule A k p) → Good g inp i j ts [A] := by
  induction h with
  | @term_ok t l i ht hi hk =>
    intro j ts e; cases e
    subst hk
    have ht' : g.prods l.kind = none := ht
    refine ⟨by simp [PN.kind, PN.lx], ?_, ?_, by omega⟩
    · intro t h; simp only [List.mem_singleton] at h; subst h; exact .leaf ht
    · simp [PN.fringes, PN.fringe, ht', slice_cons inp hi (Nat.le_refl _), slice_self]
  | term_no => intro j ts e; cases e
  | @nonterm A ps i r hp _ ih =>
    intro j ts e
    refine ih j ts e (by simp [hp]) ?_
    intro p hpm
    obtain ⟨k, hk⟩ := List.mem_iff_getElem?.1 hpm
    exact ⟨k, ps, hp, hk⟩
  | alts_nil => intro j ts e; cases e
  | @alts_ok A p ps i j ks _ ih =>
    intro j ts e; cases e
    intro hA hr
    obtain ⟨h1, h2, h3, h4⟩ := ih _ _ rfl
    obtain ⟨k, hk⟩ := hr p (by simp)
    refine ⟨by simp [PN.kind, PN.lx], ?_, ?_, h4⟩
    · intro t h; simp only [List.mem_singleton] at h; subst h; exact .inner hk h1 h2
    · have : ¬ isT g A = true := by
        simp only [Option.isNone_iff_eq_none]; exact hA
      simp only [PN.fringes, PN.fringe, if_neg this, List.append_nil]; exact h3
  | @alts_no A p ps i r _ _ _ ih =>
    intro j ts e hA hr
    exact ih j ts e hA fun q hq => hr q (by simp [hq])
  | seq_nil => intro j ts e; cases e; exact ⟨rfl, by simp, by simp [PN.fringes, slice_self], Nat.le_refl _⟩
  | seq_no => intro j ts e; cases e
  | seq_rest_no => intro j ts e; cases e
  | @seq_cons X ss i m ts j ts' _ _ ih1 ih2 =>
    intro j ts0 e; cases e
    obtain ⟨a1, a2, a3, a4⟩ := ih1 _ _ rfl
    obtain ⟨b1, b2, b3, b4⟩ := ih2 _ _ rfl
    refine ⟨by simp [a1, b1], ?_, ?_, by omega⟩
    · intro t ht
      rcases List.mem_append.1 ht with ht | ht
      · exact a2 t ht
      · exact b2 t ht
    · have : ∀ a b : List (PN α V), PN.fringes (isT g) (a ++ b) = PN.fringes (isT g) a ++ PN.fringes (isT g) b := by
        intro a b
        induction a with
        | nil => rfl
        | cons t a ih => simp [PN.fringes, ih]
      rw [this, a3, b3, slice_append _ a4 b4]

theorem Whole.good {S ps r} (h : Whole g ev inp S ps r) (hp : ∀ p ∈ ps, ∃ k, g.Rule S k p)
    (hS : g.prods S ≠ none) : ∀ t, r = some t →
      t.kind = S ∧ t.Valid g ∧ t.fringe (isT g) = inp := by
  induction h with
  | nil => intro t e; cases e
  | @hit p ps ks h =>
    intro t e; cases e
    obtain ⟨h1, h2, h3, _⟩ := Match.good h _ _ rfl
    obtain ⟨k, hk⟩ := hp p (by simp)
    refine ⟨rfl, .inner hk h1 h2, ?_⟩
    have : ¬ isT g S = true := by
      simp only [Option.isNone_iff_eq_none]; exact hS
    rw [PN.fringe, if_neg this, h3, slice_full]
  | miss _ _ _ ih => exact ih fun q hq => hp q (by simp [hq])

/-- A successful match of a sequence, as spans. -/
theorem Good.der {i j ts ss} (h : Good g inp i j ts ss) :
    g.Derives ss ((slice inp i j).map (·.kind)) := by
  obtain ⟨h1, h2, h3, _⟩ := h
  rw [← h3, ← h1]
  clear h1 h3
  induction ts with
  | nil => exact .nil
  | cons t ts ih =>
    rw [PN.fringes, List.map_append]
    exact (Valid.derives (h2 t (by simp))).append (ih fun t ht => h2 t (by simp [ht]))

/-- Not left recursive: leftmost steps decrease a rank. -/
theorem exists_rank (hg : g.WF) (hlr : ¬ g.LeftRecursive) :
    ∃ r : α → Nat, ∀ A B, g.LeftStep A B → r B < r A := by
  classical
  refine ⟨fun A => ((g.order ++ (g.order.flatMap fun A => ((g.prods A).getD []).flatten)).toFinset.filter
    fun B => Plus g.LeftStep A B).card, ?_⟩
  intro A B hAB
  apply Finset.card_lt_card
  rw [Finset.ssubset_iff_of_subset]
  · refine ⟨B, ?_, ?_⟩
    · simp only [Finset.mem_filter]
      refine ⟨?_, .one hAB⟩
      obtain ⟨k, pre, post, ⟨ps, e, e2⟩, _⟩ := hAB
      simp only [List.mem_toFinset, List.mem_append, List.mem_flatMap]
      refine .inr ⟨A, (hg A).1 (by simp [e]), ?_⟩
      rw [e]
      exact List.mem_flatten.2 ⟨_, List.mem_of_getElem? e2, by simp⟩
    · simp only [Finset.mem_filter, not_and]
      intro _ h
      exact hlr ⟨B, h⟩
  · intro C hC
    simp only [Finset.mem_filter] at hC ⊢
    exact ⟨hC.1, .step hAB hC.2⟩

/-- Matches stay within the input. -/
theorem Match.bound {goal i r} (h : Match g ev inp goal i r) :
    ∀ j ts, r = some (j, ts) → j = i ∨ j ≤ inp.length := by
  induction h with
  | term_ok _ hi _ =>
    intro j ts e; cases e
    exact .inr (List.getElem?_eq_some_iff.1 hi).1
  | term_no => intro j ts e; cases e
  | nonterm _ _ ih => exact ih
  | alts_nil => intro j ts e; cases e
  | alts_ok _ ih => intro j ts e; cases e; exact ih _ _ rfl
  | alts_no _ _ _ ih => exact ih
  | seq_nil => intro j ts e; cases e; exact .inl rfl
  | seq_no => intro j ts e; cases e
  | seq_rest_no => intro j ts e; cases e
  | seq_cons _ _ ih1 ih2 =>
    intro j ts e; cases e
    have := ih1 _ _ rfl
    have := ih2 _ _ rfl
    omega

/-- All alternatives have results if leftmost symbols have one here and all symbols have one
further right. -/
theorem Match.alts_total {A ps i} (hp : g.prods A = some ps)
    (H1 : ∀ X j, i < j → j ≤ inp.length → ∃ r, Match g ev inp (.sym X) j r)
    (H2 : ∀ X, g.LeftStep A X → ∃ r, Match g ev inp (.sym X) i r) :
    ∀ qs, (∀ q ∈ qs, ∃ k, g.Rule A k q) → ∃ r, Match g ev inp (.alts A qs) i r := by
  have seqs : ∀ (q : List α) k, g.Rule A k q → ∀ suf pre j, q = pre ++ suf → i ≤ j →
      (j = i ∨ j ≤ inp.length) → (j = i → g.Derives pre []) → ∃ r, Match g ev inp (.seq suf) j r := by
    intro q k hr suf
    induction suf with
    | nil => intro pre j _ _ _ _; exact ⟨_, .seq_nil⟩
    | cons X suf ih =>
      intro pre j e hij hb hd
      have hX : ∃ r, Match g ev inp (.sym X) j r := by
        by_cases hj : j = i
        · subst hj
          exact H2 X ⟨k, pre, suf, by rw [← e]; exact hr, hd rfl⟩
        · exact H1 X j (by omega) (by omega)
      obtain ⟨r, hr'⟩ := hX
      cases r with
      | none => exact ⟨_, .seq_no hr'⟩
      | some a =>
        obtain ⟨m, ts⟩ := a
        have hle := Match.le hr' _ _ rfl
        have hbd := Match.bound hr' _ _ rfl
        obtain ⟨r2, hr2⟩ := ih (pre ++ [X]) m (by simp [e]) (by omega) (by omega) (by
          intro hm
          have hj : j = i := by omega
          subst hm
          subst hj
          have := (Match.good hr' _ _ rfl).der
          rw [slice_self] at this
          exact (hd rfl).append this)
        cases r2 with
        | none => exact ⟨_, .seq_rest_no hr' hr2⟩
        | some b => exact ⟨_, .seq_cons hr' hr2⟩
  intro qs
  induction qs with
  | nil => intro _; exact ⟨_, .alts_nil⟩
  | cons q qs ih =>
    intro hq
    obtain ⟨k, hk⟩ := hq q (by simp)
    obtain ⟨r, hr⟩ := seqs q k hk q [] i rfl (Nat.le_refl _) (.inl rfl) (fun _ => .nil)
    cases r with
    | some a => exact ⟨_, .alts_ok hr⟩
    | none =>
      obtain ⟨r', hr'⟩ := ih fun q' h' => hq q' (by simp [h'])
      exact ⟨_, .alts_no hr hr'⟩

theorem rules_of {A : α} {ps} (hp : g.prods A = some ps) : ∀ q ∈ ps, ∃ k, g.Rule A k q := by
  intro q hq
  obtain ⟨k, hk⟩ := List.mem_iff_getElem?.1 hq
  exact ⟨k, ps, hp, hk⟩

/-- Ordered choice gives a result at every symbol and position if the grammar is not left
recursive. -/
theorem Match.total [DecidableEq α] (hg : g.WF) (hlr : ¬ g.LeftRecursive) :
    ∀ i A, ∃ r, Match g ev inp (.sym A) i r := by
  obtain ⟨rk, hrk⟩ := exists_rank hg hlr
  suffices ∀ n i, inp.length - i ≤ n → ∀ A, ∃ r, Match g ev inp (.sym A) i r from
    fun i A => this _ i (Nat.le_refl _) A
  intro n
  induction n with
  | zero =>
    intro i hi
    suffices ∀ m A, rk A < m → ∃ r, Match g ev inp (.sym A) i r from
      fun A => this (rk A + 1) A (Nat.lt_succ_self _)
    intro m
    induction m with
    | zero => intro A h; omega
    | succ m ih =>
      intro A hA
      cases hp : g.prods A with
      | none =>
        by_cases hk : ∃ l, inp[i]? = some l ∧ l.kind = A
        · obtain ⟨l, h1, h2⟩ := hk; exact ⟨_, .term_ok hp h1 h2⟩
        · exact ⟨_, .term_no hp fun l h1 h2 => hk ⟨l, h1, h2⟩⟩
      | some ps =>
        obtain ⟨r, hr⟩ := Match.alts_total (ev := ev) (inp := inp) (i := i) hp
          (fun X j h1 h2 => by omega)
          (fun X hX => ih X (by have := hrk A X hX; omega)) ps (rules_of hp)
        exact ⟨r, .nonterm hp hr⟩
  | succ n ihn =>
    intro i hi
    suffices ∀ m A, rk A < m → ∃ r, Match g ev inp (.sym A) i r from
      fun A => this (rk A + 1) A (Nat.lt_succ_self _)
    intro m
    induction m with
    | zero => intro A h; omega
    | succ m ih =>
      intro A hA
      cases hp : g.prods A with
      | none =>
        by_cases hk : ∃ l, inp[i]? = some l ∧ l.kind = A
        · obtain ⟨l, h1, h2⟩ := hk; exact ⟨_, .term_ok hp h1 h2⟩
        · exact ⟨_, .term_no hp fun l h1 h2 => hk ⟨l, h1, h2⟩⟩
      | some ps =>
        obtain ⟨r, hr⟩ := Match.alts_total (ev := ev) (inp := inp) (i := i) hp
          (fun X j h1 h2 => ihn j (by omega) X)
          (fun X hX => ih X (by have := hrk A X hX; omega)) ps (rules_of hp)
        exact ⟨r, .nonterm hp hr⟩

theorem Match.seq_total (h : ∀ i A, ∃ r, Match g ev inp (.sym A) i r) :
    ∀ ss i, ∃ r, Match g ev inp (.seq ss) i r := by
  intro ss
  induction ss with
  | nil => intro i; exact ⟨_, .seq_nil⟩
  | cons X ss ih =>
    intro i
    obtain ⟨r, hr⟩ := h i X
    cases r with
    | none => exact ⟨_, .seq_no hr⟩
    | some a =>
      obtain ⟨r2, hr2⟩ := ih a.1
      cases r2 with
      | none => exact ⟨_, .seq_rest_no hr hr2⟩
      | some b => exact ⟨_, .seq_cons hr hr2⟩

theorem Whole.total (h : ∀ i A, ∃ r, Match g ev inp (.sym A) i r) (S : α) :
    ∀ ps, ∃ r, Whole g ev inp S ps r := by
  intro ps
  induction ps with
  | nil => exact ⟨_, .nil⟩
  | cons p ps ih =>
    obtain ⟨r, hr⟩ := Match.seq_total h p 0
    obtain ⟨r2, hr2⟩ := ih
    by_cases hk : ∃ ks, r = some (inp.length, ks)
    · obtain ⟨ks, rfl⟩ := hk; exact ⟨_, .hit hr⟩
    · exact ⟨_, .miss hr (fun ks e => hk ⟨ks, e⟩) hr2⟩

/-! ### Deterministic grammars -/

/-- Derivations of a nonterminal from a position all end at the same place. -/
def Unique (g : Grammar α) (w : List α) : Prop :=
  ∀ A i j j', g.Der w [A] i j → g.Der w [A] i j' → j = j'

theorem Match.complete_aux {goal i r} (h : Match g ev inp goal i r)
    (hu : Unique g (inp.map (·.kind))) :
    match goal with
    | .sym A => ∀ j, g.Der (inp.map (·.kind)) [A] i j → ∃ ts, r = some (j, ts)
    | .seq ss => ∀ j, g.Der (inp.map (·.kind)) ss i j → ∃ ts, r = some (j, ts)
    | .alts A ps => ∀ j, (∀ p ∈ ps, ∃ k, g.Rule A k p) → (∃ p ∈ ps, g.Der (inp.map (·.kind)) p i j) →
        ∃ ts, r = some (j, ts) := by
  induction h with
  | @term_ok t l i ht hi hk =>
    intro j hd
    cases hd with
    | term _ _ hd' => cases hd'; exact ⟨_, rfl⟩
    | nonterm hr _ _ =>
      obtain ⟨ps, e, _⟩ := hr
      have ht : g.prods t = none := ht
      rw [e] at ht; cases ht
  | @term_no t i ht hn =>
    intro j hd
    cases hd with
    | term _ h1 hd' =>
      rw [List.getElem?_map] at h1
      cases hi : inp[i]? with
      | none => rw [hi] at h1; cases h1
      | some l => rw [hi] at h1; cases h1; exact absurd rfl (hn l hi)
    | nonterm hr _ _ =>
      obtain ⟨ps, e, _⟩ := hr
      have ht : g.prods t = none := ht
      rw [e] at ht; cases ht
  | @nonterm A ps i r hp _ ih =>
    intro j hd
    cases hd with
    | term ht _ _ =>
      have ht : g.prods A = none := ht
      rw [hp] at ht; cases ht
    | @nonterm _ k p _ _ m _ hr h1 h2 =>
      cases h2
      obtain ⟨ps', e, e2⟩ := hr
      rw [hp] at e; cases e
      exact ih j (rules_of hp) ⟨p, List.mem_of_getElem? e2, h1⟩
  | alts_nil => rintro j _ ⟨p, hp, _⟩; cases hp
  | @alts_ok A p ps i j0 ks hm ih =>
    rintro j hr ⟨q, hq, hd⟩
    -- the committed production ends at the same place as any other
    obtain ⟨k, hk⟩ := hr p (by simp)
    obtain ⟨k', hk'⟩ := hr q hq
    have hgood := Match.good hm _ _ rfl
    have hd0 : g.Der (inp.map (·.kind)) p i j0 := by
      have h1 := hgood.der
      have h2 := Match.bound hm _ _ rfl
      have h3 := Match.le hm _ _ rfl
      by_cases hle : j0 ≤ inp.length
      · have := h1.der (inp := inp.map (·.kind)) ((inp.take i).map (·.kind)) ((inp.drop j0).map (·.kind)) (by
          rw [← List.map_append, ← List.map_append]
          congr 1
          have e1 : inp.take i = slice inp 0 i := by simp [slice]
          have e2 : inp.drop j0 = slice inp j0 inp.length := by simp [slice]
          rw [e1, e2, slice_append _ (Nat.zero_le _) h3, slice_append _ (Nat.zero_le _) hle, slice_full])
        have e1 : ((inp.take i).map (·.kind)).length = i := by simp; omega
        have e2 : ((slice inp i j0).map (·.kind)).length = j0 - i := by simp [slice]; omega
        rw [e1, e2, Nat.add_sub_cancel' h3] at this
        exact this
      · have hj : j0 = i := by omega
        subst hj
        rw [slice_self] at h1
        -- an empty derivation at any position
        have eps : ∀ (ss w : List α), g.Derives ss w → w = [] → ∀ i, g.Der (inp.map (·.kind)) ss i i := by
          intro ss w h
          induction h with
          | nil => intro _ i; exact .nil
          | term _ _ _ => intro e; cases e
          | nonterm hr _ _ ih1 ih2 =>
            intro e i
            obtain ⟨e1, e2⟩ := List.append_eq_nil_iff.1 e
            exact .nonterm hr (ih1 e1 i) (ih2 e2 i)
        exact eps _ _ h1 rfl _
    have := hu A i j j0 (.nonterm hk' hd .nil) (.nonterm hk hd0 .nil)
    subst this
    exact ⟨_, rfl⟩
  | @alts_no A p ps i r _ _ ih1 ih2 =>
    rintro j hr ⟨q, hq, hd⟩
    rcases List.mem_cons.1 hq with rfl | hq
    · obtain ⟨ts, e⟩ := ih1 j hd; cases e
    · exact ih2 j (fun p hp => hr p (by simp [hp])) ⟨q, hq, hd⟩
  | seq_nil => intro j hd; cases hd; exact ⟨_, rfl⟩
  | @seq_no X ss i _ ih =>
    intro j hd
    obtain ⟨m, h1, _⟩ := Der.cons_split hd
    obtain ⟨ts, e⟩ := ih m h1; cases e
  | @seq_rest_no X ss i m ts _ _ ih1 ih2 =>
    intro j hd
    obtain ⟨m', h1, h2⟩ := Der.cons_split hd
    obtain ⟨ts', e⟩ := ih1 m' h1
    cases e
    obtain ⟨ts'', e⟩ := ih2 j h2; cases e
  | @seq_cons X ss i m ts j0 ts' _ _ ih1 ih2 =>
    intro j hd
    obtain ⟨m', h1, h2⟩ := Der.cons_split hd
    obtain ⟨_, e⟩ := ih1 m' h1
    cases e
    obtain ⟨_, e⟩ := ih2 j h2
    cases e
    exact ⟨_, rfl⟩

theorem Whole.complete {S ps r} (h : Whole g ev inp S ps r) (hu : Unique g (inp.map (·.kind)))
    (hd : ∃ p ∈ ps, g.Der (inp.map (·.kind)) p 0 inp.length) : ∃ t, r = some t := by
  induction h with
  | nil => obtain ⟨p, hp, _⟩ := hd; cases hp
  | hit => exact ⟨_, rfl⟩
  | @miss p ps r r' h hne _ ih =>
    obtain ⟨q, hq, hd⟩ := hd
    rcases List.mem_cons.1 hq with rfl | hq
    · obtain ⟨ts, e⟩ := Match.complete_aux h hu _ hd
      exact absurd e (hne ts)
    · exact ih ⟨q, hq, hd⟩

end Verif.Topdown
