import Verif.Proofs.Topdown
import Verif.Proofs.TopdownSpec
import Verif.Proofs.LeftRec
import Verif.Props.Packrat
/-
Properties of the top-down parser and of the left recursion check (C12-C17, C25).

`isLeftRecursive g fuel` models `parlex.IsLeftRecursive`, `new g fuel` models `topdown.New` (true is
success), `parse ev g ls fuel` models `Parse` on a fresh parser; `ev` is the empty string as a lexeme
value. The specifications are Verif.Spec.CFG and Verif.Spec.OrderedChoice.
-/
namespace Verif.Props.Topdown
open Verif.Spec Verif.Spec.Grammar Verif.Topdown Verif.SetSymbol
open Verif.Packrat (loadSet loadSet_ok SetOK symIdx nm nm_symIdx idxProds idxProds_symIdx nameTree
  symIdx_get)

variable {α V : Type} [DecidableEq α]

/-! ### Parse is ordered choice -/

theorem accept_no_panic {β : Type} [DecidableEq β] (ev : V) (prods : β → Option (List (List β)))
    (inp : List (Lexeme β V)) : ∀ n m s pos all, accept ev prods inp n m s pos all ≠ .panic := by
  intro n
  induction n with
  | zero => intro m s pos all h; cases h
  | succ n ih =>
    have loop : ∀ p m pos,
        prodLoop (fun m X p => accept ev prods inp n m X p false) m p pos ≠ .panic := by
      intro p
      induction p with
      | nil => intro m pos h; cases h
      | cons X p ihp =>
        intro m pos h
        simp only [prodLoop] at h
        cases e : accept ev prods inp n m X pos false with
        | fuel => rw [e] at h; cases h
        | panic => exact ih _ _ _ _ e
        | ok r =>
          rw [e, Out.bind_ok] at h
          cases e2 : r.2 with
          | none => rw [e2] at h; cases h
          | some a =>
            rw [e2] at h
            simp only at h
            cases e3 : prodLoop (fun m X p => accept ev prods inp n m X p false) r.1 p a.stop with
            | fuel => rw [e3] at h; cases h
            | panic => exact ihp _ _ e3
            | ok q =>
              rw [e3, Out.bind_ok] at h
              cases e4 : q.2 with
              | none => rw [e4] at h; cases h
              | some a => rw [e4] at h; cases h
    have loops : ∀ len s pos all ps m,
        prodsLoop ev (fun m X p => accept ev prods inp n m X p false) len s pos all m ps ≠ .panic := by
      intro len s pos all ps
      induction ps with
      | nil => intro m h; cases h
      | cons p ps ihp =>
        intro m h
        simp only [prodsLoop] at h
        cases e : prodLoop (fun m X p => accept ev prods inp n m X p false) m p pos with
        | fuel => rw [e] at h; cases h
        | panic => exact loop _ _ _ e
        | ok r =>
          rw [e, Out.bind_ok] at h
          cases e2 : r.2 with
          | none => rw [e2] at h; exact ihp _ h
          | some a =>
            rw [e2] at h
            simp only at h
            split at h
            · cases h
            · exact ihp _ h
    intro m s pos all h
    simp only [accept] at h
    split at h
    · cases h
    · cases e : tryAccept ev prods inp (fun m X p => accept ev prods inp n m X p false) m s pos all with
      | fuel => rw [e] at h; cases h
      | ok r => rw [e] at h; cases h
      | panic =>
        unfold tryAccept at e
        split at e
        · split at e
          · split at e <;> cases e
          · cases e
        · exact loops _ _ _ _ _ _ e

/-- What Parse returns is the ordered choice result; the ordered choice result is returned; and
Parse never panics. -/
theorem parse_iff (ev : V) (g : Grammar α) (hg : g.WF) (ls : List (Lexeme α V)) :
    (∀ n r, parse ev g ls n = .ok r → OrderedChoice g ev ls r) ∧
    (∀ r, OrderedChoice g ev ls r → Out.Returns (parse ev g ls) r) ∧
    (∀ n, parse ev g ls n ≠ .panic) := by
  cases ho : g.order with
  | nil =>
    refine ⟨?_, ?_, ?_⟩
    · intro n r e
      simp only [parse, ho] at e
      cases e
      simp [OrderedChoice, ho]
    · intro r h
      simp [OrderedChoice, ho] at h
      subst h
      exact ⟨0, fun n _ => by simp [parse, ho]⟩
    · intro n h
      simp [parse, ho] at h
  | cons S rest =>
    obtain ⟨s, es, hs, hls, h0⟩ := loadSet_ok g hg ls
    have h0 := h0 S (by simp [ho])
    have hS : S ∈ s.symb2str := List.mem_of_getElem? h0
    obtain ⟨ps, hps⟩ := Option.isSome_iff_exists.1 ((hg S).2 (by simp [ho] : S ∈ g.order))
    have hSlt : symIdx s S < s.symb2str.length := (List.getElem?_eq_some_iff.1 (symIdx_get hs.inv hS)).1
    let inp : List (Lexeme Nat V) := ls.map (rLx (symIdx s))
    have hpi : idxProds g s (symIdx s S) = some (ps.map (·.map (symIdx s))) := by
      rw [idxProds_symIdx hs.inv hS, hps]; rfl
    have hinlt : ∀ l ∈ inp, l.kind < s.symb2str.length := by
      intro l hl
      obtain ⟨l', hl', rfl⟩ := List.mem_map.1 hl
      exact (List.getElem?_eq_some_iff.1 (symIdx_get hs.inv (hls l' hl'))).1
    have hback : inp.map (rLx (nm s S)) = ls := by
      simp only [inp, List.map_map]
      conv => rhs; rw [← List.map_id ls]
      refine List.map_congr_left fun l hlm => ?_
      simp [rLx, nm_symIdx hs.inv (hls l hlm)]
    have hpsin : ∀ p ∈ ps, ∀ x ∈ p, x ∈ s.symb2str := (renames_up hs).closed S ps hps
    have hpsback : (ps.map (·.map (symIdx s))).map (·.map (nm s S)) = ps := by
      rw [List.map_map]
      conv => rhs; rw [← List.map_id ps]
      refine List.map_congr_left fun p hp => ?_
      simp only [Function.comp, List.map_map]
      conv => rhs; rw [id, ← List.map_id p]
      refine List.map_congr_left fun x hx => ?_
      simp [nm_symIdx hs.inv (hpsin p hp x hx)]
    have hdown := renames_down hs S
    have hplt : ∀ p ∈ ps.map (·.map (symIdx s)), ∀ x ∈ p, x < s.symb2str.length :=
      hdown.closed _ _ hpi
    let gi : Grammar Nat := ⟨[], idxProds g s⟩
    have hcl : ∀ x ps, gi.prods x = some ps → ∀ p ∈ ps, ∀ y ∈ p, y < s.symb2str.length := hdown.closed
    have hparse : ∀ n, parse ev g ls n =
        (accept ev gi.prods inp n (fun _ => none) (symIdx s S) 0 true).bind fun r =>
          match r.2 with
          | none => .ok none
          | some a => (nameTree s a.tree).bind fun t => .ok (some t) := by
      intro n
      simp only [parse, ho, es, Out.bind_ok]
      rfl
    have hok : ∀ n m' q, accept ev gi.prods inp n (fun _ => none) (symIdx s S) 0 true = .ok (m', q) →
        parse ev g ls n = .ok ((q.map Resp.tree).map (rPN (nm s S))) := by
      intro n m' q e
      have hw := accept_all_sound (g := gi) hpi e
      rw [hparse, e, Out.bind_ok]
      cases q with
      | none => rfl
      | some a =>
        have hk := Whole.kinds hcl hinlt hw hSlt hplt _ rfl
        simp only [nameTree_ok s S hk, Out.bind_ok, Option.map_some]
    refine ⟨?_, ?_, ?_⟩
    · intro n r e
      cases ea : accept ev gi.prods inp n (fun _ => none) (symIdx s S) 0 true with
      | fuel => rw [hparse, ea] at e; cases e
      | panic => rw [hparse, ea] at e; cases e
      | ok x =>
        obtain ⟨m', q⟩ := x
        rw [hok n m' q ea] at e
        cases e
        have hw := accept_all_sound (g := gi) hpi ea
        have := Whole.rename hdown hinlt hw hplt
        rw [hback, hpsback, nm_symIdx hs.inv hS] at this
        simp only [OrderedChoice, ho, List.head?_cons]
        exact ⟨ps, hps, this⟩
    · intro r h
      simp only [OrderedChoice, ho, List.head?_cons] at h
      obtain ⟨ps', hps', h⟩ := h
      rw [hps] at hps'; cases hps'
      have hw := Whole.rename (renames_up hs) hls h hpsin
      obtain ⟨N, hN⟩ := Whole.accept (g := gi) hpi hw
      refine ⟨N, fun n hn => ?_⟩
      obtain ⟨m', q, e, e2⟩ := hN n hn
      rw [hok n m' q e, e2]
      cases r with
      | none => rfl
      | some t =>
        have hk := Whole.kinds (renames_up hs).closed hls h hS hpsin t rfl
        simp only [Option.map_some, rPN_back hs.inv S hk]
    · intro n e
      cases ea : accept ev gi.prods inp n (fun _ => none) (symIdx s S) 0 true with
      | fuel => rw [hparse, ea] at e; cases e
      | panic => exact accept_no_panic _ _ _ _ _ _ _ _ ea
      | ok x => obtain ⟨m', q⟩ := x; rw [hok n m' q ea] at e; cases e

/-- C15: Parse returns exactly the ordered choice result, computed without a memo table. -/
theorem C15_ordered_choice (ev : V) (g : Grammar α) (hg : g.WF) (ls : List (Lexeme α V))
    (r : Option (PN α V)) : Out.Returns (parse ev g ls) r ↔ OrderedChoice g ev ls r := by
  obtain ⟨h1, h2, _⟩ := parse_iff ev g hg ls
  exact ⟨fun ⟨N, hN⟩ => h1 N r (hN N (Nat.le_refl _)), h2 r⟩

/-- C15: the ordered choice result is unique. -/
theorem C15_unique (ev : V) (g : Grammar α) (hg : g.WF) (ls : List (Lexeme α V)) {r r'}
    (h : OrderedChoice g ev ls r) (h' : OrderedChoice g ev ls r') : r = r' :=
  ((C15_ordered_choice ev g hg ls r).2 h).unique ((C15_ordered_choice ev g hg ls r').2 h')

/-- C14: a returned tree is a derivation tree of exactly the input lexemes. -/
theorem C14_sound (ev : V) (g : Grammar α) (hg : g.WF) (ls : List (Lexeme α V)) {n t}
    (h : parse ev g ls n = .ok (some t)) : IsParse g ls t := by
  have h := (parse_iff ev g hg ls).1 n _ h
  unfold OrderedChoice at h
  split at h
  · cases h
  · rename_i S hS
    obtain ⟨ps, hps, h⟩ := h
    obtain ⟨h1, h2, h3⟩ := Whole.good h (rules_of hps) (by simp [hps]) t rfl
    exact ⟨by rw [hS, h1], h2, h3⟩

/-- C17, first half: an accepted input is a sentence. -/
theorem C17_accepted_is_sentence (ev : V) (g : Grammar α) (hg : g.WF) (ls : List (Lexeme α V)) {n t}
    (h : parse ev g ls n = .ok (some t)) : g.Sentence (ls.map (·.kind)) :=
  isParse_sentence (C14_sound ev g hg ls h)

/-- C16, the part that holds: Parse terminates, without panicking, for grammars that are not left
recursive. Missing: New also accepts some left recursive grammars (`C16_refuted`). -/
theorem C16_terminates_partial (ev : V) (g : Grammar α) (hg : g.WF) (hlr : ¬ g.LeftRecursive)
    (ls : List (Lexeme α V)) : ∃ r, Out.Returns (parse ev g ls) r := by
  have : ∃ r, OrderedChoice g ev ls r := by
    cases ho : g.order with
    | nil => exact ⟨none, by simp [OrderedChoice, ho]⟩
    | cons S rest =>
      obtain ⟨ps, hps⟩ := Option.isSome_iff_exists.1 ((hg S).2 (by simp [ho] : S ∈ g.order))
      obtain ⟨r, hr⟩ := Whole.total (ev := ev) (Match.total (inp := ls) hg hlr) S ps
      exact ⟨r, by simp only [OrderedChoice, ho, List.head?_cons]; exact ⟨ps, hps, hr⟩⟩
  obtain ⟨r, hr⟩ := this
  exact ⟨r, (C15_ordered_choice ev g hg ls r).2 hr⟩

/-- C17, second half: if the grammar is not left recursive and no symbol can match two different
lengths at one position of the input, every sentence is accepted. -/
theorem C17_complete_partial (ev : V) (g : Grammar α) (hg : g.WF) (hlr : ¬ g.LeftRecursive)
    (ls : List (Lexeme α V)) (hu : Unique g (ls.map (·.kind))) (hs : g.Sentence (ls.map (·.kind))) :
    ∃ t, Out.Returns (parse ev g ls) (some t) ∧ IsParse g ls t := by
  obtain ⟨S, hS, hd⟩ := hs
  obtain ⟨ps, hps⟩ := Option.isSome_iff_exists.1 ((hg S).2 (List.mem_of_mem_head? hS))
  obtain ⟨r, hr⟩ := Whole.total (ev := ev) (Match.total (inp := ls) hg hlr) S ps
  have hd := der_iff_derives.2 hd
  obtain ⟨t, rfl⟩ := Whole.complete hr hu (by
    generalize hss : [S] = ss at hd
    generalize hj : (ls.map (·.kind)).length = j at hd
    cases hd with
    | nil => cases hss
    | term ht => cases hss; have ht : g.prods S = none := ht; rw [hps] at ht; cases ht
    | nonterm hrule h1 h2 =>
      cases hss
      cases h2
      obtain ⟨ps', e, ek⟩ := hrule
      rw [hps] at e; cases e
      refine ⟨_, List.mem_of_getElem? ek, ?_⟩
      rw [List.length_map] at hj
      rw [hj]; exact h1)
  have hret : Out.Returns (parse ev g ls) (some t) := (C15_ordered_choice ev g hg ls _).2 (by
    simp only [OrderedChoice, hS]; exact ⟨ps, hps, hr⟩)
  obtain ⟨N, hN⟩ := hret
  exact ⟨t, ⟨N, hN⟩, C14_sound ev g hg ls (hN N (Nat.le_refl _))⟩

/-- Simple (deterministic) grammars: every production begins with a terminal, and productions of one
nonterminal that begin with the same terminal are equal. -/
structure Simple (g : Grammar α) : Prop where
  first : ∀ A k p, g.Rule A k p → ∃ t q, p = t :: q ∧ g.Term t
  det : ∀ A k k' t p p', g.Rule A k (t :: p) → g.Rule A k' (t :: p') → p = p'

omit [DecidableEq α] in
theorem Simple.unique {g : Grammar α} (h : Simple g) (w : List α) : Unique g w := by
  have key : ∀ ss i j, g.Der w ss i j → ∀ j', g.Der w ss i j' → j = j' := by
    intro ss i j hd
    induction hd with
    | nil => intro j' h'; cases h'; rfl
    | term ht _ _ ih =>
      intro j' h'
      cases h' with
      | term _ _ h' => exact ih j' h'
      | nonterm hr => obtain ⟨ps, e, _⟩ := hr; have ht : g.prods _ = none := ht; rw [ht] at e; cases e
    | nonterm hr hd1 _ ih1 ih2 =>
      intro j' h'
      cases h' with
      | term ht => obtain ⟨ps, e, _⟩ := hr; have ht : g.prods _ = none := ht; rw [ht] at e; cases e
      | nonterm hr' hd1' h2 =>
        obtain ⟨t, q, rfl, ht⟩ := h.first _ _ _ hr
        obtain ⟨t', q', rfl, ht'⟩ := h.first _ _ _ hr'
        have hw : ∀ {t q i m}, g.Term t → g.Der w (t :: q) i m → w[i]? = some t := by
          intro t q i m ht hd
          cases hd with
          | term _ e _ => exact e
          | nonterm hr => obtain ⟨ps, e, _⟩ := hr; have ht : g.prods _ = none := ht; rw [ht] at e; cases e
        have e1 := hw ht hd1
        have e2 := hw ht' hd1'
        rw [e1] at e2; cases e2
        have := h.det _ _ _ _ _ _ hr hr'
        subst this
        have := ih1 _ hd1'
        subst this
        exact ih2 _ h2
  intro A i j j' h1 h2
  exact key _ _ _ h1 _ h2

omit [DecidableEq α] in
theorem Simple.not_leftRecursive {g : Grammar α} (h : Simple g) : ¬ g.LeftRecursive := by
  have hstep : ∀ A B, g.LeftStep A B → g.Term B := by
    rintro A B ⟨k, pre, post, hr, hd⟩
    obtain ⟨t, q, e, ht⟩ := h.first _ _ _ hr
    cases pre with
    | nil => cases e; exact ht
    | cons X pre =>
      cases e
      generalize hw : ([] : List α) = w at hd
      cases hd with
      | term => cases hw
      | nonterm hr => obtain ⟨ps, e, _⟩ := hr; have ht : g.prods _ = none := ht; rw [ht] at e; cases e
  have hplus : ∀ A B, Plus g.LeftStep A B → g.Term B := by
    intro A B h
    induction h with
    | one h => exact hstep _ _ h
    | step _ _ ih => exact ih
  rintro ⟨A, hA⟩
  have ht : g.prods A = none := hplus _ _ hA
  have : ∃ B, g.LeftStep A B := by
    cases hA with
    | one h => exact ⟨_, h⟩
    | step h _ => exact ⟨_, h⟩
  obtain ⟨B, k, _, _, ⟨ps, e, _⟩, _⟩ := this
  rw [ht] at e; cases e

/-- C17 for simple grammars: Parse accepts exactly the sentences. -/
theorem C17_simple_exact (ev : V) (g : Grammar α) (hg : g.WF) (hs : Simple g) (ls : List (Lexeme α V)) :
    (∃ t, Out.Returns (parse ev g ls) (some t)) ↔ g.Sentence (ls.map (·.kind)) := by
  constructor
  · rintro ⟨t, N, hN⟩
    exact C17_accepted_is_sentence ev g hg ls (hN N (Nat.le_refl _))
  · intro h
    obtain ⟨t, ht, _⟩ := C17_complete_partial ev g hg hs.not_leftRecursive ls (hs.unique _) h
    exact ⟨t, ht⟩

/-- C25: what the top-down parser accepts, the packrat parser accepts, for inputs without
nonterminal kinds. -/
theorem C25_topdown_packrat (ev : V) (g : Grammar α) (hg : g.WF) (ls : List (Lexeme α V))
    (hl : ∀ l ∈ ls, g.Term l.kind) {n t} (h : parse ev g ls n = .ok (some t)) :
    ∃ t', Out.Returns (Verif.Packrat.parse ev g ls) (some t') ∧ IsParse g ls t' :=
  Verif.Props.Packrat.C20_complete ev g hg ls hl (C17_accepted_is_sentence ev g hg ls h)

/-- C14: a top-down tree only has lexemes of terminal kinds at its leaves, so an accepted input has
no nonterminal kinds. -/
theorem C14_terminal_kinds (ev : V) (g : Grammar α) (hg : g.WF) (ls : List (Lexeme α V)) {n t}
    (h : parse ev g ls n = .ok (some t)) : ∀ l ∈ ls, g.Term l.kind := by
  have hs := C17_accepted_is_sentence ev g hg ls h
  obtain ⟨S, _, hd⟩ := hs
  have key : ∀ ss w, g.Derives ss w → ∀ x ∈ w, g.Term x := by
    intro ss w h
    induction h with
    | nil => intro x hx; cases hx
    | term ht _ ih =>
      intro x hx
      rcases List.mem_cons.1 hx with rfl | hx
      · exact ht
      · exact ih x hx
    | nonterm _ _ _ ih1 ih2 =>
      intro x hx
      rcases List.mem_append.1 hx with hx | hx
      · exact ih1 x hx
      · exact ih2 x hx
  intro l hl
  exact key _ _ hd _ (List.mem_map_of_mem hl)

/-- C25 without the condition on the input. -/
theorem C25_topdown_packrat_all (ev : V) (g : Grammar α) (hg : g.WF) (ls : List (Lexeme α V)) {n t}
    (h : parse ev g ls n = .ok (some t)) :
    ∃ t', Out.Returns (Verif.Packrat.parse ev g ls) (some t') ∧ IsParse g ls t' :=
  C25_topdown_packrat ev g hg ls (C14_terminal_kinds ev g hg ls h) h

/-! ### IsLeftRecursive -/

/-- C12: IsLeftRecursive returns for every grammar, and answers true only for left recursive
grammars. The fuel needed is one more than the number of nonterminals. -/
theorem C12_terminates_sound (g : Grammar α) (hg : g.WF) :
    ∃ b, Out.Returns (isLeftRecursive g) b ∧ (b = true → g.LeftRecursive) := by
  have key : ∀ n, g.order.toFinset.card + 1 ≤ n → ∃ b, isLeftRecursive g n = .ok b ∧
      (b = true → ∃ A, Plus g.EmptyStep A A) := fun n hn => lrLoop_spec hg hn _ _
  obtain ⟨b, e, h⟩ := key _ (Nat.le_refl _)
  refine ⟨b, Out.returns_of (isLeftRecursive_mono g) e, fun hb => ?_⟩
  obtain ⟨A, hA⟩ := h hb
  exact ⟨A, hA.imp fun _ _ h => h.leftStep⟩

/-- C13, what IsLeftRecursive answers for every grammar, from both sides. It answers true if some
nonterminal comes back to itself through first symbols of productions, whatever the order of the
nonterminals. It answers true only if some nonterminal comes back to itself through symbols that
have nothing before them but symbols with an empty production of their own. Missing: which of the
grammars between the two are reported; that depends on the order (`C13_order_refuted`). -/
theorem C13_bounds_partial (g : Grammar α) (hg : g.WF) {n b} (h : isLeftRecursive g n = .ok b) :
    ((∃ A, Plus g.FirstStep A A) → b = true) ∧ (b = true → ∃ A, Plus g.EmptyStep A A) := by
  refine ⟨fun hf => ?_, fun hb => ?_⟩
  · cases b with
    | true => rfl
    | false => exact absurd hf (not_firstRecursive hg h)
  · obtain ⟨b', e', h'⟩ := lrLoop_spec (fuel := g.order.toFinset.card + 1) hg (Nat.lt_succ_self _) g.order
      (fun _ => false)
    have := (Out.returns_of (isLeftRecursive_mono g) (e' : isLeftRecursive g _ = .ok b')).eq_of
      (isLeftRecursive_mono g) h
    exact h' (this.trans hb)

/-- C13: left recursion behind a symbol that derives the empty word only in two or more steps is
never reported, whatever the order: if no production begins with a symbol that has an empty
production and goes on, the answer is exactly left recursion through first symbols. -/
theorem C13_first_exact (g : Grammar α) (hg : g.WF)
    (hn : ∀ A k X Y p, g.Rule A k (X :: Y :: p) → ∀ j, ¬ g.Rule X j []) {n b}
    (h : isLeftRecursive g n = .ok b) : b = true ↔ ∃ A, Plus g.FirstStep A A := by
  obtain ⟨h1, h2⟩ := C13_bounds_partial g hg h
  refine ⟨fun hb => ?_, h1⟩
  obtain ⟨A, hA⟩ := h2 hb
  refine ⟨A, hA.imp ?_⟩
  rintro x y ⟨k, pre, post, hr, he⟩
  cases pre with
  | nil => exact ⟨k, post, hr⟩
  | cons X pre =>
    obtain ⟨j, hj⟩ := he X (by simp)
    cases pre with
    | nil => exact absurd hj (hn x k X y post hr j)
    | cons Y pre => exact absurd hj (hn x k X Y _ hr j)

/-- C13, the part that holds: if no production has a symbol deriving the empty word followed by
another symbol, IsLeftRecursive is exact. Missing: grammars with such productions (`C13_refuted`). -/
theorem C13_exact_partial (g : Grammar α) (hg : g.WF) (hn : NoNullablePrefix g) {n b}
    (h : isLeftRecursive g n = .ok b) : b = true ↔ g.LeftRecursive := by
  obtain ⟨b', h', hs⟩ := C12_terminates_sound g hg
  have := h'.eq_of (isLeftRecursive_mono g) h
  subst this
  refine ⟨hs, fun hlr => ?_⟩
  cases b' with
  | true => rfl
  | false => exact absurd hlr (not_leftRecursive hg hn h)

/-- C13 for grammars without empty productions. -/
theorem C13_exact_noempty_partial (g : Grammar α) (hg : g.WF) (hn : ∀ A k, ¬ g.Rule A k []) {n b}
    (h : isLeftRecursive g n = .ok b) : b = true ↔ g.LeftRecursive := by
  refine C13_exact_partial g hg ?_ h
  have key : ∀ ss w, g.Derives ss w → w = [] → ss = [] := by
    intro ss w h
    induction h with
    | nil => intro _; rfl
    | term => intro h; cases h
    | nonterm hr _ _ ih _ =>
      intro h
      have := ih (List.append_eq_nil_iff.1 h).1
      subst this
      exact absurd hr (hn _ _)
  intro A k X Y p _ hd
  cases key _ _ hd rfl

/-- C16 for the grammars on which the check is exact: accepted by New means Parse terminates. -/
theorem C16_new_terminates_partial (ev : V) (g : Grammar α) (hg : g.WF) (hn : NoNullablePrefix g) {n}
    (h : Verif.Topdown.new g n = .ok true) (ls : List (Lexeme α V)) : ∃ r, Out.Returns (parse ev g ls) r := by
  obtain ⟨b, e, e2⟩ := Out.bind_eq_ok.1 h
  have : b = false := by cases b <;> simp_all
  subst this
  exact C16_terminates_partial ev g hg (not_leftRecursive hg hn e) ls

/-! ### Concrete cases -/
open Verif.Props.Packrat (table table_wf lexs isTree isNil)

/-- `N -> ; B -> N B` with N = 0, B = 1: left recursive through the empty N. -/
def gN : Grammar Nat := table [(0, [[]]), (1, [[0, 1]])]

theorem gN_lr : gN.LeftRecursive :=
  ⟨1, .one ⟨0, [0], [], ⟨_, rfl, rfl⟩, .nonterm (k := 0) (p := []) (u := []) (v := []) ⟨_, rfl, rfl⟩ .nil .nil⟩⟩

/-- Is the outcome this boolean? -/
def isB (o : Out Bool) (b : Bool) : Bool :=
  match o with
  | .ok b' => b' == b
  | _ => false

theorem isB_eq {o b} (h : isB o b = true) : o = .ok b := by
  unfold isB at h
  split at h
  · simp at h; rw [h]
  · cases h

/-- C13 is false: `N -> ; B -> N B` is left recursive but IsLeftRecursive returns false, because N
was already checked when B is. -/
theorem C13_refuted : ¬ ∀ (g : Grammar Nat), g.WF → ∀ n b, isLeftRecursive g n = .ok b →
    (b = true ↔ g.LeftRecursive) := by
  intro h
  have := (h gN (table_wf _) 5 false (isB_eq (by decide +kernel))).2 gN_lr
  cases this

/-- C13: the answer depends on the order of the nonterminals. The same two rules with B first are
reported. -/
theorem C13_order_refuted : ¬ ∀ (g g' : Grammar Nat), g.WF → g'.WF → (∀ A, g.prods A = g'.prods A) →
    ∀ n b b', isLeftRecursive g n = .ok b → isLeftRecursive g' n = .ok b' → b = b' := by
  intro h
  have := h gN (table [(1, [[0, 1]]), (0, [[]])]) (table_wf _) (table_wf _) (by
    intro A
    by_cases h0 : A = 0
    · subst h0; rfl
    · by_cases h1 : A = 1
      · subst h1; rfl
      · simp [gN, table, List.find?_cons, Ne.symm h0, Ne.symm h1]) 5 false true (isB_eq (by decide +kernel))
      (isB_eq (by decide +kernel))
  cases this

/-- The case of `C13_first_exact`: `S -> N S x ; S -> x ; N -> M ; M ->` with S = 2, N = 0, M = 3,
x = 5 is left recursive, no production begins with a symbol that has an empty production and goes
on, and it is not reported. -/
def gM : Grammar Nat := table [(2, [[0, 2, 5], [5]]), (0, [[3]]), (3, [[]])]

theorem gM_said : gM.LeftRecursive ∧ isLeftRecursive gM 9 = .ok false ∧
    ∀ A k X Y p, gM.Rule A k (X :: Y :: p) → ∀ j, ¬ gM.Rule X j [] := by
  refine ⟨⟨2, .one ⟨0, [0], [5], ⟨_, rfl, rfl⟩, ?_⟩⟩, isB_eq (by decide +kernel), ?_⟩
  · exact .nonterm (k := 0) (p := [3]) (u := []) (v := []) ⟨_, rfl, rfl⟩
      (.nonterm (k := 0) (p := []) (u := []) (v := []) ⟨_, rfl, rfl⟩ .nil .nil) .nil
  · rintro A k X Y p ⟨ps, e, e2⟩ j ⟨qs, f, f2⟩
    have hX : X = 0 := by
      by_cases h2 : A = 2
      · subst h2
        have e : some [[0, 2, 5], [5]] = some ps := e
        cases e
        rcases k with _ | _ | k <;> simp at e2
        exact e2.1.symm
      · by_cases h0 : A = 0
        · subst h0
          have e : some [[3]] = some ps := e
          cases e
          rcases k with _ | k <;> simp at e2
        · by_cases h3 : A = 3
          · subst h3
            have e : some [[]] = some ps := e
            cases e
            rcases k with _ | k <;> simp at e2
          · simp [gM, table, List.find?_cons, Ne.symm h2, Ne.symm h0, Ne.symm h3] at e
    subst hX
    have f : some [[3]] = some qs := f
    cases f
    rcases j with _ | j <;> simp at f2

/-- `S -> N B ; N -> ; B -> N B`, S = 2, N = 0, B = 1. -/
def gD : Grammar Nat := table [(2, [[0, 1]]), (0, [[]]), (1, [[0, 1]])]

/-- Ordered choice has no result for B. -/
theorem gD_no_match (ev : Nat) (inp : List (Lexeme Nat Nat)) {goal i r} (h : Match gD ev inp goal i r) :
    goal ≠ .sym 1 ∧ goal ≠ .seq [0, 1] ∧ goal ≠ .seq [1] ∧ goal ≠ .alts 1 [[0, 1]] := by
  induction h with
  | term_ok ht =>
    refine ⟨?_, by simp, by simp, by simp⟩
    rintro ⟨⟩; simp [gD, table, Term] at ht
  | term_no ht =>
    refine ⟨?_, by simp, by simp, by simp⟩
    rintro ⟨⟩; simp [gD, table, Term] at ht
  | nonterm hp _ ih =>
    refine ⟨?_, by simp, by simp, by simp⟩
    rintro ⟨⟩
    have hp : some [[0, 1]] = some _ := hp
    cases hp
    exact ih.2.2.2 rfl
  | alts_nil => simp
  | alts_ok _ ih =>
    refine ⟨by simp, by simp, by simp, ?_⟩
    rintro ⟨⟩; exact ih.2.1 rfl
  | alts_no _ _ ih _ =>
    refine ⟨by simp, by simp, by simp, ?_⟩
    rintro ⟨⟩; exact ih.2.1 rfl
  | seq_nil => simp
  | seq_no h ih =>
    refine ⟨by simp, ?_, ?_, by simp⟩
    · rintro ⟨⟩
      cases h with
      | term_no ht => simp [gD, table, Term] at ht
      | nonterm hp h =>
        have hp : some [[]] = some _ := hp
        cases hp
        cases h with
        | alts_no h _ => cases h
    · rintro ⟨⟩; exact ih.1 rfl
  | seq_rest_no h _ ih1 ih2 =>
    refine ⟨by simp, ?_, ?_, by simp⟩
    · rintro ⟨⟩; exact ih2.2.2.1 rfl
    · rintro ⟨⟩; exact ih1.1 rfl
  | seq_cons h _ ih1 ih2 =>
    refine ⟨by simp, ?_, ?_, by simp⟩
    · rintro ⟨⟩; exact ih2.2.2.1 rfl
    · rintro ⟨⟩; exact ih1.1 rfl

/-- C16 is false: New accepts `S -> N B ; N -> ; B -> N B`, and Parse does not terminate on any
input. -/
theorem C16_refuted : ∃ g : Grammar Nat, g.WF ∧ Out.Returns (Verif.Topdown.new g) true ∧
    ∀ ls : List (Lexeme Nat Nat), Out.Diverges (parse 0 g ls) := by
  refine ⟨gD, table_wf _, ?_, ?_⟩
  · obtain ⟨b, ⟨N, hN⟩, _⟩ := C12_terminates_sound gD (table_wf _)
    have h5 : isLeftRecursive gD 5 = .ok false := isB_eq (by decide +kernel)
    have := Out.Returns.eq_of (isLeftRecursive_mono gD) ⟨N, hN⟩ h5
    subst this
    exact ⟨N, fun n hn => by simp [Verif.Topdown.new, hN n hn]⟩
  · intro ls n
    obtain ⟨h1, _, h3⟩ := parse_iff 0 gD (table_wf _) ls
    cases e : parse 0 gD ls n with
    | fuel => rfl
    | panic => exact absurd e (h3 n)
    | ok r =>
      have := h1 n r e
      obtain ⟨ps, hps, hw⟩ : ∃ ps, gD.prods 2 = some ps ∧ Whole gD 0 ls 2 ps r := this
      have hps : some [[0, 1]] = some ps := hps
      cases hps
      cases hw with
      | hit h => exact absurd rfl (gD_no_match _ _ h).2.1
      | miss h => exact absurd rfl (gD_no_match _ _ h).2.1

/-- `E -> T op E | T ; T -> int | ( E )` with E = 0, T = 1, op = 2, int = 3, ( = 4, ) = 5. -/
def gX : Grammar Nat := table [(0, [[1, 2, 0], [1]]), (1, [[3], [4, 0, 5]])]

theorem gX_noempty : ∀ A k, ¬ gX.Rule A k [] := by
  rintro A k ⟨ps, e, e2⟩
  have hm := List.mem_of_getElem? e2
  by_cases h0 : 0 = A
  · subst h0
    have e : some [[1, 2, 0], [1]] = some ps := e
    cases e
    simp at hm
  · by_cases h1 : 1 = A
    · subst h1
      have e : some [[3], [4, 0, 5]] = some ps := e
      cases e
      simp at hm
    · simp [gX, table, h0, h1] at e

-- C13, C16: a grammar meeting the hypotheses, accepted by New, hence terminating on every input
example : ¬ gX.LeftRecursive ∧ ∀ ls : List (Lexeme Nat Nat), ∃ r, Out.Returns (parse 0 gX ls) r := by
  have h : isLeftRecursive gX 5 = .ok false := isB_eq (by decide +kernel)
  have hlr : ¬ gX.LeftRecursive := fun hlr => by
    cases (C13_exact_noempty_partial gX (table_wf _) gX_noempty h).2 hlr
  exact ⟨hlr, fun ls => C16_terminates_partial 0 gX (table_wf _) hlr ls⟩

-- C14, C15: ( int op int ) is parsed to this tree
example : isTree (parse 0 gX (lexs [4, 3, 2, 3, 5]) 40)
    (.node ⟨0, 0, -1, 0⟩ [.node ⟨1, 0, -1, 0⟩ [.node ⟨4, 100, 1, 0⟩ [],
      .node ⟨0, 0, -1, 0⟩ [.node ⟨1, 0, -1, 0⟩ [.node ⟨3, 101, 1, 1⟩ []], .node ⟨2, 102, 1, 2⟩ [],
        .node ⟨0, 0, -1, 0⟩ [.node ⟨1, 0, -1, 0⟩ [.node ⟨3, 103, 1, 3⟩ []]]],
      .node ⟨5, 104, 1, 4⟩ []]]) = true := by decide +kernel

-- C12: `E -> E op E | int` is reported left recursive
example : isB (isLeftRecursive Packrat.gE 5) true = true := by decide +kernel

/-- `S -> ( S S | x` with S = 0, ( = 1, x = 2 (prefix notation). -/
def gP : Grammar Nat := table [(0, [[1, 0, 0], [2]])]

-- C17: a simple grammar
example : Simple gP := by
  have hr : ∀ A k p, gP.Rule A k p → p = [1, 0, 0] ∨ p = [2] := by
    rintro A k p ⟨ps, e, e2⟩
    have hm := List.mem_of_getElem? e2
    by_cases h0 : 0 = A
    · subst h0
      have e : some [[1, 0, 0], [2]] = some ps := e
      cases e
      simpa using hm
    · simp [gP, table, h0] at e
  refine ⟨?_, ?_⟩
  · intro A k p h
    rcases hr A k p h with rfl | rfl
    · exact ⟨1, [0, 0], rfl, by decide⟩
    · exact ⟨2, [], rfl, by decide⟩
  · intro A k k' t p p' h h'
    rcases hr _ _ _ h with e | e <;> rcases hr _ _ _ h' with e' | e' <;> simp_all

/-- `S -> A b ; A -> a | a b` with S = 0, A = 1, a = 2, b = 3: ordered choice is incomplete. -/
def gI : Grammar Nat := table [(0, [[1, 3]]), (1, [[2], [2, 3]])]

/-- The full converse of C17 is false: `a b b` is a sentence of `S -> A b ; A -> a | a b`, which is not
left recursive, but Parse rejects it (A commits to its first production). -/
theorem C17_converse_refuted : ∃ g : Grammar Nat, g.WF ∧ Out.Returns (Verif.Topdown.new g) true ∧
    ∃ ls : List (Lexeme Nat Nat), g.Sentence (ls.map (·.kind)) ∧ Out.Returns (parse 0 g ls) none := by
  refine ⟨gI, table_wf _, ?_, lexs [2, 3, 3], ?_, ?_⟩
  · obtain ⟨b, ⟨N, hN⟩, _⟩ := C12_terminates_sound gI (table_wf _)
    have h5 : isLeftRecursive gI 5 = .ok false := isB_eq (by decide +kernel)
    have := Out.Returns.eq_of (isLeftRecursive_mono gI) ⟨N, hN⟩ h5
    subst this
    exact ⟨N, fun n hn => by simp [Verif.Topdown.new, hN n hn]⟩
  · refine ⟨0, rfl, ?_⟩
    exact .nonterm (k := 0) (p := [1, 3]) (u := [2, 3, 3]) (v := []) ⟨_, rfl, rfl⟩
      (.nonterm (k := 1) (p := [2, 3]) (u := [2, 3]) (v := [3]) ⟨_, rfl, rfl⟩
        (.term (by decide) (.term (by decide) .nil)) (.term (by decide) .nil)) .nil
  · rw [C15_ordered_choice _ gI (table_wf _)]
    have hA : Match gI 0 (lexs [2, 3, 3]) (.sym 1) 0
        (some (1, [.node ⟨1, 0, -1, 0⟩ ([.node ⟨2, 100, 1, 0⟩ []] ++ [])])) :=
      .nonterm (ps := [[2], [2, 3]]) rfl (.alts_ok (.seq_cons (.term_ok (by decide) rfl rfl) .seq_nil))
    have hS : Match gI 0 (lexs [2, 3, 3]) (.seq [1, 3]) 0 (some (2, _)) :=
      .seq_cons hA (.seq_cons (.term_ok (by decide) rfl rfl) .seq_nil)
    exact ⟨[[1, 3]], rfl, .miss hS (by rintro ks ⟨⟩) .nil⟩

end Verif.Props.Topdown
