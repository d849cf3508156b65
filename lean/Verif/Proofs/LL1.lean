import Verif.Spec.LL1
import Verif.Proofs.TopdownSpec
/-
Ordered choice on LL(1) grammars: it never commits to a wrong production.
-/
namespace Verif.Topdown
open Verif.Spec Verif.Spec.Grammar

variable {α V : Type} {g : Grammar α} {ev : V} {inp : List (Lexeme α V)}

/-- A successful match is a derivation. -/
theorem Match.derives {p : List α} {i j : Nat} {ks} (h : Match g ev inp (.seq p) i (some (j, ks))) :
    g.Derives p ((slice inp i j).map (·.kind)) ∧ i ≤ j := ⟨(Match.good h _ _ rfl).der, (Match.good h _ _ rfl).2.2.2⟩

theorem slice_head {l : List α} {i j : Nat} (h : i < j) : slice l i j = match l[i]? with | none => [] | some t => t :: slice l (i + 1) j := by
  cases e : l[i]? with
  | none =>
    have : l.length ≤ i := List.getElem?_eq_none_iff.mp e
    simp [slice, List.drop_eq_nil_of_le this]
  | some t => exact slice_cons l e h

theorem slice_map {β : Type} (f : α → β) (l : List α) (i j : Nat) : (slice l i j).map f = slice (l.map f) i j := by
  simp [slice, List.map_take, List.map_drop]

theorem rule_split {A : α} {ps : List (List α)} {k : Nat} {p : List α} (hp : g.prods A = some ps) (hk : g.Rule A k p) : ps = ps.take k ++ p :: ps.drop (k + 1) := by
  obtain ⟨ps', e, e2⟩ := hk
  rw [hp] at e
  cases e
  obtain ⟨h, e⟩ := List.getElem?_eq_some_iff.mp e2
  rw [← e, ← List.drop_eq_getElem_cons h, List.take_append_drop]

/-- The alternatives before the right one fail. -/
theorem alts_skip {A : α} {p : List α} {i : Nat} {r} : ∀ (pre : List (List α)) (post : List (List α)), (∀ q ∈ pre, Match g ev inp (.seq q) i none) →
    Match g ev inp (.alts A (p :: post)) i r → Match g ev inp (.alts A (pre ++ p :: post)) i r
  | [], _, _, h => h
  | q :: pre, post, hq, h => .alts_no (hq q (by simp)) (alts_skip pre post (fun q hm => hq q (by simp [hm])) h)

theorem der_front {w : List α} {ss : List α} {i j : Nat} (h : g.Der w ss i j) (hlt : i < j) : ∃ t u, w[i]? = some t ∧ g.Derives ss (t :: u) := by
  have hd := h.derives
  have : ∃ t, w[i]? = some t := by
    clear hd
    induction h with
    | nil => omega
    | term _ e _ _ => exact ⟨_, e⟩
    | @nonterm A k p ss i m j _ h1 h2 ih1 ih2 =>
      have l1 := h1.le
      have l2 := h2.le
      by_cases hm : i = m
      · subst hm
        exact ih2 hlt
      · exact ih1 (by omega)
  obtain ⟨t, e⟩ := this
  rw [slice_head hlt, e] at hd
  exact ⟨t, _, e, hd⟩

/-- Derivations in a context that can follow are found. -/
theorem LL1.found (hl : g.LL1) (he : g.EmptyLast) (htot : ∀ i A, ∃ r, Match g ev inp (.sym A) i r) {ss : List α} {i j : Nat}
    (h : g.Der (inp.map (·.kind)) ss i j) : ∀ {B kB pre}, g.Rule B kB (pre ++ ss) → (∀ t, (inp.map (·.kind))[j]? = some t → g.Follow B t) →
      ∃ ts, Match g ev inp (.seq ss) i (some (j, ts)) := by
  induction h with
  | nil => exact fun _ _ => ⟨_, .seq_nil⟩
  | @term t ss i j ht hi h2 ih =>
    intro B kB pre hr hf
    obtain ⟨ts, hm⟩ := ih (pre := pre ++ [t]) (by simpa using hr) hf
    rw [List.getElem?_map] at hi
    obtain ⟨l, hl1, hl2⟩ := Option.map_eq_some_iff.mp hi
    exact ⟨_, .seq_cons (.term_ok ht hl1 hl2) hm⟩
  | @nonterm A k p ss i m j hr h1 h2 ih1 ih2 =>
    intro B kB pre hB hf
    -- what follows `A`
    have hfA : ∀ t, (inp.map (·.kind))[m]? = some t → g.Follow A t := by
      intro t ht
      by_cases hmj : m = j
      · subst hmj
        exact .last hB h2.eps (hf t ht)
      · obtain ⟨t', u, e1, e2⟩ := der_front h2 (by have := h2.le; omega)
        rw [ht] at e1
        cases e1
        exact .next hB e2
    obtain ⟨ks, hks⟩ := ih1 (pre := []) hr hfA
    obtain ⟨ts, hts⟩ := ih2 (pre := pre ++ [A]) (by simpa using hB) hf
    obtain ⟨ps, hps, hk⟩ := hr
    have hr : g.Rule A k p := ⟨ps, hps, hk⟩
    suffices hpre : ∀ q ∈ ps.take k, Match g ev inp (.seq q) i none by
      have := alts_skip (ps.take k) (ps.drop (k + 1)) hpre (.alts_ok (A := A) hks)
      rw [← rule_split hps hr] at this
      exact ⟨_, .seq_cons (.nonterm hps this) hts⟩
    intro q hq
    obtain ⟨k', hk'⟩ := List.mem_iff_getElem?.mp hq
    rw [List.getElem?_take] at hk'
    split at hk' <;> [rename_i hlt; cases hk']
    have hr' : g.Rule A k' q := ⟨ps, hps, hk'⟩
    obtain ⟨r, hm⟩ := Match.seq_total htot q i
    cases r with
    | none => exact hm
    | some x =>
      exfalso
      obtain ⟨j', ks'⟩ := x
      obtain ⟨hd', hle⟩ := Match.derives hm
      rw [slice_map] at hd'
      have hne : k ≠ k' := by omega
      by_cases hj : i = j'
      · subst hj
        rw [slice_self] at hd'
        have := he A k' q k p hr' hd' hr
        omega
      · rw [slice_head (by omega)] at hd'
        cases hi : (inp.map (·.kind))[i]? with
        | none =>
          rw [hi] at hd'
          have := he A k' q k p hr' hd' hr
          omega
        | some t =>
          rw [hi] at hd'
          by_cases him : i = m
          · subst him
            exact hne (hl.follow hr hr' h1.eps hd' (hfA t hi))
          · obtain ⟨t', u, e1, e2⟩ := der_front h1 (by have := h1.le; omega)
            rw [hi] at e1
            cases e1
            exact hne (hl.first hr hr' e2 hd')

theorem LL1.whole (hl : g.LL1) (he : g.EmptyLast) (htot : ∀ i A, ∃ r, Match g ev inp (.sym A) i r) {S : α} {ps : List (List α)} {r} (h : Whole g ev inp S ps r) :
    (∀ p ∈ ps, ∃ k, g.Rule S k p) → (∃ p ∈ ps, g.Der (inp.map (·.kind)) p 0 inp.length) → ∃ t, r = some t := by
  induction h with
  | nil => rintro _ ⟨p, hp, _⟩; cases hp
  | hit => exact fun _ _ => ⟨_, rfl⟩
  | @miss p ps r r' h hne _ ih =>
    rintro hps ⟨q, hq, hd⟩
    rcases List.mem_cons.1 hq with rfl | hq
    · obtain ⟨k, hk⟩ := hps q (by simp)
      obtain ⟨ts, e⟩ := LL1.found (ev := ev) hl he htot hd (pre := []) hk (by
        intro t ht
        rw [List.getElem?_eq_none (by simp)] at ht
        cases ht)
      exact absurd (Match.det h _ e) (hne ts)
    · exact ih (fun p hp => hps p (by simp [hp])) ⟨q, hq, hd⟩

/-! ### No left recursion -/

theorem derives_some (hp : g.Productive) : ∀ ss : List α, ∃ w, g.Derives ss w
  | [] => ⟨[], .nil⟩
  | X :: ss => by
    obtain ⟨w, hw⟩ := derives_some hp ss
    cases e : g.prods X with
    | none => exact ⟨_, .term e hw⟩
    | some ps =>
      obtain ⟨u, hu⟩ := hp X ps e
      exact ⟨u ++ w, Derives.append hu hw⟩

theorem derives_one {A : α} {k : Nat} {p w : List α} (hr : g.Rule A k p) (h : g.Derives p w) : g.Derives [A] w := by
  have := Derives.nonterm hr h .nil
  rwa [List.append_nil] at this

theorem derives_step (hp : g.Productive) {A B : α} {k : Nat} {pre post w : List α} (hr : g.Rule B k (pre ++ A :: post)) (hpre : g.Derives pre [])
    (hw : g.Derives [A] w) : ∃ v, g.Derives (pre ++ A :: post) (w ++ v) ∧ (∀ t v', v = t :: v' → g.Follow A t) ∧ (v = [] → ∀ t, g.Follow B t → g.Follow A t) := by
  obtain ⟨v, hv⟩ := derives_some hp post
  refine ⟨v, ?_, ?_, ?_⟩
  · have := Derives.append hpre (Derives.append hw hv)
    simpa using this
  · rintro t v' rfl
    exact .next hr hv
  · rintro rfl t ht
    exact .last hr hv ht

/-- What a symbol that can be leftmost derives begins what the symbol at the start of the chain derives. -/
theorem chain_derives (hp : g.Productive) {A B : α} {w : List α} (h : Plus g.LeftStep B A) : g.Derives [A] w →
    ∃ v, g.Derives [B] (w ++ v) ∧ (∀ t v', v = t :: v' → g.Follow A t) ∧ (v = [] → ∀ t, g.Follow B t → g.Follow A t) := by
  induction h with
  | one h =>
    intro hw
    obtain ⟨k, pre, post, hr, hpre⟩ := h
    obtain ⟨v, h1, h2⟩ := derives_step hp hr hpre hw
    exact ⟨v, derives_one hr h1, h2⟩
  | step h _ ih =>
    intro hw
    obtain ⟨v, h1, h2, h3⟩ := ih hw
    obtain ⟨k, pre, post, hr, hpre⟩ := h
    obtain ⟨u, e1, e2, e3⟩ := derives_step hp hr hpre h1
    refine ⟨v ++ u, by rw [← List.append_assoc]; exact derives_one hr e1, ?_, ?_⟩
    · intro t v' e
      cases v with
      | nil => exact h3 rfl t (e2 t v' e)
      | cons x xs => cases e; exact h2 _ _ rfl
    · intro e t ht
      obtain ⟨rfl, rfl⟩ := List.append_eq_nil_iff.mp e
      exact h3 rfl t (e3 rfl t ht)

/-- The production that begins a cycle of leftmost symbols is the only one that can be used. -/
theorem cycle_rule (hl : g.LL1) (hp : g.Productive) {A B : α} {k k' : Nat} {p pre post w : List α} (hr : g.Rule A k p) (hw : g.Derives p w)
    (hr' : g.Rule A k' (pre ++ B :: post)) (hpre : g.Derives pre []) (hB : B = A ∨ Plus g.LeftStep B A) : k = k' := by
  have hA := derives_one hr hw
  obtain ⟨v, h1, h2, h3⟩ : ∃ v, g.Derives [B] (w ++ v) ∧ (∀ t v', v = t :: v' → g.Follow A t) ∧ (v = [] → ∀ t, g.Follow B t → g.Follow A t) := by
    rcases hB with rfl | hB
    · exact ⟨[], by simpa using hA, by simp, by simp⟩
    · exact chain_derives hp hB hA
  obtain ⟨u, e1, e2, e3⟩ := derives_step hp hr' hpre h1
  cases w with
  | cons t w => exact hl.first hr hr' hw e1
  | nil =>
    cases v with
    | cons t v => exact hl.follow hr hr' hw e1 (h2 _ _ rfl)
    | nil =>
      cases u with
      | cons t u => exact hl.follow hr hr' hw e1 (h3 rfl t (e2 _ _ rfl))
      | nil => exact hl.empty hr hr' hw e1

theorem LL1.not_leftRecursive (hl : g.LL1) (hp : g.Productive) : ¬ g.LeftRecursive := by
  have key : ∀ {ss w}, g.Derives ss w → ∀ X ∈ ss, ¬ Plus g.LeftStep X X := by
    intro ss w h
    induction h with
    | nil => intro X hX; cases hX
    | @term t ss w ht _ ih =>
      intro X hX
      rcases List.mem_cons.1 hX with rfl | hX
      · intro hc
        have : ∃ B, g.LeftStep X B := by
          cases hc with
          | one h => exact ⟨_, h⟩
          | step h _ => exact ⟨_, h⟩
        obtain ⟨B, k, pre, post, ⟨ps, e, _⟩, _⟩ := this
        have ht : g.prods X = none := ht
        rw [ht] at e; cases e
      · exact ih X hX
    | @nonterm A k p ss u v hr h1 _ ih1 ih2 =>
      intro X hX
      rcases List.mem_cons.1 hX with rfl | hX
      · intro hc
        obtain ⟨B, hs, hB⟩ : ∃ B, g.LeftStep X B ∧ (B = X ∨ Plus g.LeftStep B X) := by
          cases hc with
          | one h => exact ⟨_, h, .inl rfl⟩
          | step h h' => exact ⟨_, h, .inr h'⟩
        obtain ⟨k', pre, post, hr', hpre⟩ := id hs
        have := cycle_rule hl hp hr h1 hr' hpre hB
        subst this
        obtain ⟨ps, e1, e2⟩ := hr
        obtain ⟨ps', e3, e4⟩ := hr'
        rw [e1] at e3; cases e3
        rw [e2] at e4; cases e4
        refine ih1 B (by simp) ?_
        rcases hB with rfl | hB
        · exact hc
        · exact Plus.trans hB (.one hs)
      · exact ih2 X hX
  rintro ⟨A, hA⟩
  obtain ⟨ps, hps⟩ : ∃ ps, g.prods A = some ps := by
    have : ∃ B, g.LeftStep A B := by
      cases hA with
      | one h => exact ⟨_, h⟩
      | step h _ => exact ⟨_, h⟩
    obtain ⟨B, k, pre, post, ⟨ps, e, _⟩, _⟩ := this
    exact ⟨ps, e⟩
  obtain ⟨w, hw⟩ := hp A ps hps
  exact key hw A (by simp) hA

/-! ### One tree -/

/-- The terminals of a grammar, as a test. -/
abbrev tm (g : Grammar α) : α → Bool := fun s => (g.prods s).isNone

theorem fringes_derive : ∀ {ks : List (PN α V)}, (∀ t ∈ ks, t.Valid g) → g.Derives (ks.map PN.kind) ((PN.fringes (tm g) ks).map (·.kind))
  | [], _ => .nil
  | t :: ts, h => by
    rw [PN.fringes, List.map_append]
    exact Derives.append (Valid.derives (h t (by simp))) (fringes_derive fun t ht => h t (by simp [ht]))

theorem forest_unique {B : α} {kB : Nat} {r r' : List (Lexeme α V)} (hf : ∀ l ls, r = l :: ls → g.Follow B l.kind) (hf' : ∀ l ls, r' = l :: ls → g.Follow B l.kind) :
    ∀ {ks ks' : List (PN α V)} {pre : List α}, (∀ t ∈ ks, t.Valid g) → (∀ t ∈ ks', t.Valid g) → ks.map PN.kind = ks'.map PN.kind → g.Rule B kB (pre ++ ks.map PN.kind) →
      PN.fringes (tm g) ks ++ r = PN.fringes (tm g) ks' ++ r' →
      (∀ t ∈ ks, ∀ t' : PN α V, t'.Valid g → t.kind = t'.kind → ∀ s s', (∀ l ls, s = l :: ls → g.Follow t.kind l.kind) → (∀ l ls, s' = l :: ls → g.Follow t.kind l.kind) →
        t.fringe (tm g) ++ s = t'.fringe (tm g) ++ s' → SameShape (Agree g) t t' ∧ s = s') →
      ks.length = ks'.length ∧ (∀ x ∈ ks.zip ks', SameShape (Agree g) x.1 x.2) ∧ r = r'
  | [], [], _, _, _, _, _, e, _ => ⟨rfl, by simp, by simpa [PN.fringes] using e⟩
  | [], _ :: _, _, _, _, e, _, _, _ => by simp at e
  | _ :: _, [], _, _, _, e, _, _, _ => by simp at e
  | t :: ts, t' :: ts', pre, hv, hv', e, hr, hw, ih => by
    simp only [List.map_cons, List.cons.injEq] at e
    obtain ⟨ek, es⟩ := e
    simp only [PN.fringes, List.append_assoc] at hw
    have ctx : ∀ (ts : List (PN α V)) (r : List (Lexeme α V)), (∀ t ∈ ts, t.Valid g) → g.Rule B kB (pre ++ t.kind :: ts.map PN.kind) → (∀ l ls, r = l :: ls → g.Follow B l.kind) →
        ∀ l ls, PN.fringes (tm g) ts ++ r = l :: ls → g.Follow t.kind l.kind := by
      intro ts r hv hr hf l ls e
      have hd := fringes_derive hv
      cases hx : PN.fringes (tm g) ts with
      | nil =>
        rw [hx] at e hd
        exact .last hr hd (hf l ls e)
      | cons y ys =>
        rw [hx] at e hd
        cases e
        exact .next hr hd
    obtain ⟨h1, h2⟩ := ih t (by simp) t' (hv' t' (by simp)) ek _ _
      (ctx ts r (fun t ht => hv t (by simp [ht])) hr hf)
      (ctx ts' r' (fun t ht => hv' t (by simp [ht])) (by rw [← es]; exact hr) hf') hw
    obtain ⟨e1, e2, e3⟩ := forest_unique hf hf' (pre := pre ++ [t.kind]) (fun t ht => hv t (by simp [ht])) (fun t ht => hv' t (by simp [ht])) es
      (by simpa using hr) h2 (fun t ht => ih t (by simp [ht]))
    refine ⟨by simp [e1], ?_, e3⟩
    intro x hx
    rw [List.zip_cons_cons] at hx
    rcases List.mem_cons.1 hx with rfl | hx
    · exact h1
    · exact e2 x hx

/-- Derivation trees of the same symbol on the same input are the same. -/
theorem LL1.tree_unique (hl : g.LL1) {t : PN α V} (h : t.Valid g) : ∀ t' : PN α V, t'.Valid g → t.kind = t'.kind → ∀ s s',
    (∀ l ls, s = l :: ls → g.Follow t.kind l.kind) → (∀ l ls, s' = l :: ls → g.Follow t.kind l.kind) →
    t.fringe (tm g) ++ s = t'.fringe (tm g) ++ s' → SameShape (Agree g) t t' ∧ s = s' := by
  induction h with
  | @leaf l ht =>
    intro t' hv' ek s s' _ _ e
    have ht : g.prods l.kind = none := ht
    cases hv' with
    | @leaf l' ht' =>
      have ht' : g.prods l'.kind = none := ht'
      simp only [PN.fringe, tm, ht, ht', Option.isNone_none, if_true, List.cons_append, List.nil_append, List.cons.injEq] at e
      obtain ⟨rfl, rfl⟩ := e
      exact ⟨.node ⟨rfl, fun _ => rfl⟩ rfl (by simp), rfl⟩
    | @inner l' ks' k' p' hr' =>
      obtain ⟨ps, e, _⟩ := hr'
      have ek : l.kind = l'.kind := ek
      rw [← ek, ht] at e
      cases e
  | @inner l ks k p hr hk hv ih =>
    intro t' hv' ek s s' hf hf' e
    cases hv' with
    | @leaf l' ht' =>
      have ht' : g.prods l'.kind = none := ht'
      obtain ⟨ps, e, _⟩ := hr
      have ek : l.kind = l'.kind := ek
      rw [ek, ht'] at e
      cases e
    | @inner l' ks' k' p' hr' hk' hv' =>
      have ek : l.kind = l'.kind := ek
      have hf : ∀ x ls, s = x :: ls → g.Follow l.kind x.kind := hf
      have hf' : ∀ x ls, s' = x :: ls → g.Follow l.kind x.kind := hf'
      rw [← ek] at hr'
      have hn : ¬ tm g l.kind = true := by
        obtain ⟨ps, e, _⟩ := hr
        simp [tm, e]
      have hd := fringes_derive hv
      have hd' := fringes_derive hv'
      rw [hk] at hd
      rw [hk'] at hd'
      simp only [PN.fringe] at e
      rw [← ek, if_neg hn, if_neg hn] at e
      have hkk : k = k' := by
        cases hx : PN.fringes (tm g) ks with
        | nil =>
          rw [hx] at hd e
          cases hx' : PN.fringes (tm g) ks' with
          | nil =>
            rw [hx'] at hd'
            exact hl.empty hr hr' hd hd'
          | cons y ys =>
            rw [hx'] at hd' e
            exact hl.follow hr hr' hd hd' (hf y _ e)
        | cons y ys =>
          rw [hx] at hd e
          cases hx' : PN.fringes (tm g) ks' with
          | nil =>
            rw [hx'] at hd' e
            exact (hl.follow hr' hr hd' hd (hf' y _ e.symm)).symm
          | cons y' ys' =>
            rw [hx'] at hd' e
            simp only [List.cons_append, List.cons.injEq] at e
            obtain ⟨rfl, _⟩ := e
            exact hl.first hr hr' hd hd'
      subst hkk
      have hp : p = p' := by
        obtain ⟨ps, e1, e2⟩ := hr
        obtain ⟨ps', e3, e4⟩ := hr'
        rw [e1] at e3; cases e3
        rw [e2] at e4; cases e4
        rfl
      subst hp
      obtain ⟨h1, h2, h3⟩ := forest_unique hf hf' (pre := []) hv hv' (by rw [hk, hk']) (by rw [hk]; exact hr) e ih
      refine ⟨.node ⟨ek, fun ht => ?_⟩ h1 h2, h3⟩
      obtain ⟨ps, e, _⟩ := hr
      have ht : g.prods l.kind = none := ht
      rw [ht] at e
      cases e

theorem LL1.parse_unique (hl : g.LL1) {ls : List (Lexeme α V)} {t t' : PN α V} (h : IsParse g ls t) (h' : IsParse g ls t') : SameShape (Agree g) t t' := by
  obtain ⟨h1, h2, h3⟩ := h
  obtain ⟨e1, e2, e3⟩ := h'
  refine (LL1.tree_unique hl h2 t' e2 (by rw [h1] at e1; exact Option.some.inj e1) [] [] (by simp) (by simp) ?_).1
  rw [List.append_nil, List.append_nil]
  exact h3.trans e3.symm

end Verif.Topdown
