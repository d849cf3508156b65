import Verif.Proofs.RemoveLRMain
import Verif.Proofs.First
/- Expanding leading nonterminals and removing direct left recursion: effect on the language, and why
no left recursion is left. -/
namespace Verif.Spec.RemoveLR
open Verif.Spec Verif.Spec.Grammar Verif.LeftRecursion

/-! ### Derivations with their number of rules -/

section
variable {α : Type} {g : Grammar α}

/-- `Derives` with the number of rules used. -/
inductive DerN (g : Grammar α) : Nat → List α → List α → Prop
  | nil : DerN g 0 [] []
  | term {n t ss w} : g.Term t → DerN g n ss w → DerN g n (t :: ss) (t :: w)
  | nonterm {n m A k p ss u v} : g.Rule A k p → DerN g n p u → DerN g m ss v →
      DerN g (n + m + 1) (A :: ss) (u ++ v)

theorem DerN.derives {n ss w} (h : DerN g n ss w) : g.Derives ss w := by
  induction h with
  | nil => exact .nil
  | term h _ ih => exact .term h ih
  | nonterm h _ _ ih1 ih2 => exact .nonterm h ih1 ih2

theorem derN_of {ss w} (h : g.Derives ss w) : ∃ n, DerN g n ss w := by
  induction h with
  | nil => exact ⟨0, .nil⟩
  | term h _ ih => obtain ⟨n, h'⟩ := ih; exact ⟨n, .term h h'⟩
  | nonterm h _ _ ih1 ih2 =>
    obtain ⟨n, h1⟩ := ih1
    obtain ⟨m, h2⟩ := ih2
    exact ⟨_, .nonterm h h1 h2⟩

theorem DerN.append {n m ss ss' w w'} (h : DerN g n ss w) (h' : DerN g m ss' w') :
    DerN g (n + m) (ss ++ ss') (w ++ w') := by
  induction h with
  | nil => simpa using h'
  | term h _ ih => exact .term h ih
  | @nonterm n1 m1 A k p ss u v h h1 _ _ ih2 =>
    have := DerN.nonterm h h1 ih2
    simp only [List.cons_append, List.append_assoc]
    rw [show n1 + m1 + 1 + m = n1 + (m1 + m) + 1 by omega]
    exact this

theorem DerN.split {n ss w} (h : DerN g n ss w) : ∀ a b, ss = a ++ b →
    ∃ i j u v, DerN g i a u ∧ DerN g j b v ∧ w = u ++ v ∧ n = i + j := by
  induction h with
  | nil =>
    intro a b e
    obtain ⟨rfl, rfl⟩ := List.append_eq_nil_iff.1 e.symm
    exact ⟨0, 0, [], [], .nil, .nil, rfl, rfl⟩
  | @term n t ss w ht hs ih =>
    intro a b e
    cases a with
    | nil => cases e; exact ⟨0, n, [], _, .nil, .term ht hs, rfl, by omega⟩
    | cons x a =>
      cases e
      obtain ⟨i, j, u, v, h1, h2, rfl, rfl⟩ := ih a b rfl
      exact ⟨i, j, t :: u, v, .term ht h1, h2, rfl, rfl⟩
  | @nonterm n m A k p ss u v hr hp hs _ ih =>
    intro a b e
    cases a with
    | nil => cases e; exact ⟨0, n + m + 1, [], _, .nil, .nonterm hr hp hs, rfl, by omega⟩
    | cons x a =>
      cases e
      obtain ⟨i, j, u', v', h1, h2, rfl, rfl⟩ := ih a b rfl
      exact ⟨n + i + 1, j, u ++ u', v', .nonterm hr hp h1, h2, by simp, by omega⟩

theorem rule_mem {A : α} {k p ps} (h : g.prods A = some ps) : g.Rule A k p → p ∈ ps := by
  rintro ⟨ps', h', e⟩
  rw [h] at h'
  cases h'
  exact List.mem_of_getElem? e

theorem mem_rule {A : α} {p ps} (h : g.prods A = some ps) (hp : p ∈ ps) : ∃ k, g.Rule A k p := by
  obtain ⟨k, hk⟩ := List.mem_iff_getElem?.1 hp
  exact ⟨k, ps, h, hk⟩

theorem derives_of_mem {A : α} {p ps w} (h : g.prods A = some ps) (hp : p ∈ ps) (hd : g.Derives p w) :
    g.Derives [A] w := by
  obtain ⟨k, hk⟩ := mem_rule h hp
  simpa using Derives.nonterm hk hd .nil

/-- A derivation from a nonterminal followed by more. -/
theorem DerN.cons_inv {n X ss w} (h : DerN g n (X :: ss) w) :
    (∃ v, g.Term X ∧ w = X :: v ∧ DerN g n ss v) ∨
    ∃ i j k p u v, g.Rule X k p ∧ DerN g i p u ∧ DerN g j ss v ∧ w = u ++ v ∧ n = i + j + 1 := by
  cases h with
  | term ht hs => exact .inl ⟨_, ht, rfl, hs⟩
  | nonterm hr hp hs => exact .inr ⟨_, _, _, _, _, _, hr, hp, hs, rfl, rfl⟩

end

/-! ### Expansion -/

variable {g : Grammar Str} {dn : List Str}

theorem Expands.down {ps qs} (h : Expands g dn ps qs) : ∀ p ∈ ps, ∀ n w, DerN g n p w →
    ∃ q ∈ qs, ∃ m, m ≤ n ∧ DerN g m q w := by
  induction h with
  | nil => simp
  | @keep p ps qs _ _ ih =>
    intro p' hp n w hd
    rcases List.mem_cons.1 hp with rfl | hp
    · exact ⟨p', by simp, n, Nat.le_refl _, hd⟩
    · obtain ⟨q, hq, h⟩ := ih p' hp n w hd
      exact ⟨q, by simp [hq], h⟩
  | @subst F t rs ps qs _ hrs _ ih =>
    intro p' hp n w hd
    rcases List.mem_cons.1 hp with rfl | hp
    · rcases hd.cons_inv with ⟨v, ht, _⟩ | ⟨i, j, k, r, u, v, hr, h1, h2, rfl, rfl⟩
      · rw [Term, hrs] at ht; cases ht
      · have hm : r ++ t ∈ rs.map (· ++ t) ++ ps :=
          List.mem_append_left _ (List.mem_map_of_mem (rule_mem hrs hr))
        obtain ⟨q, hq, m, hm, hd⟩ := ih _ hm _ _ (h1.append h2)
        exact ⟨q, hq, m, by omega, hd⟩
    · exact ih p' (by simp [hp]) n w hd

theorem Expands.up {ps qs} (h : Expands g dn ps qs) : ∀ q ∈ qs, ∃ p ∈ ps, ∀ w, g.Derives q w → g.Derives p w := by
  induction h with
  | nil => simp
  | @keep p ps qs _ _ ih =>
    intro q hq
    rcases List.mem_cons.1 hq with rfl | hq
    · exact ⟨q, by simp, fun _ h => h⟩
    · obtain ⟨p, hp, h⟩ := ih q hq
      exact ⟨p, by simp [hp], h⟩
  | @subst F t rs ps qs _ hrs _ ih =>
    intro q hq
    obtain ⟨p, hp, h⟩ := ih q hq
    rcases List.mem_append.1 hp with hp | hp
    · obtain ⟨r, hr, rfl⟩ := List.mem_map.1 hp
      refine ⟨F :: t, by simp, fun w hw => ?_⟩
      obtain ⟨n, hn⟩ := derN_of (h w hw)
      obtain ⟨i, j, u, v, h1, h2, rfl, _⟩ := hn.split r t rfl
      obtain ⟨k, hk⟩ := mem_rule hrs hr
      exact .nonterm hk h1.derives h2.derives
    · exact ⟨p, by simp [hp], h⟩

/-- Nothing begins with a finished nonterminal any more. -/
theorem Expands.heads {ps qs} (h : Expands g dn ps qs) : ∀ q ∈ qs, ∀ F, q.head? = some F → F ∉ dn := by
  induction h with
  | nil => simp
  | @keep p ps qs hk _ ih =>
    intro q hq
    rcases List.mem_cons.1 hq with rfl | hq
    · exact hk
    · exact ih q hq
  | subst _ _ _ ih => exact ih

theorem Expands.symbols {ps qs} (h : Expands g dn ps qs) : ∀ q ∈ qs, ∀ y ∈ q, (∃ p ∈ ps, y ∈ p) ∨ g.Occurs y := by
  induction h with
  | nil => simp
  | @keep p ps qs hk _ ih =>
    intro q hq y hy
    rcases List.mem_cons.1 hq with rfl | hq
    · exact .inl ⟨q, by simp, hy⟩
    · rcases ih q hq y hy with ⟨p, hp, h⟩ | h
      · exact .inl ⟨p, by simp [hp], h⟩
      · exact .inr h
  | @subst F t rs ps qs _ hrs _ ih =>
    intro q hq y hy
    rcases ih q hq y hy with ⟨p, hp, h⟩ | h
    · rcases List.mem_append.1 hp with hp | hp
      · obtain ⟨r, hr, rfl⟩ := List.mem_map.1 hp
        rcases List.mem_append.1 h with h | h
        · obtain ⟨k, hk⟩ := mem_rule hrs hr
          exact .inr (.inr ⟨F, k, r, hk, h⟩)
        · exact .inl ⟨F :: t, by simp, by simp [h]⟩
      · exact .inl ⟨p, by simp [hp], h⟩
    · exact .inr h

/-- The grammar with expanded productions. -/
def expandedG (g : Grammar Str) (M : Str → List (List Str)) : Grammar Str :=
  ⟨g.order, fun x => if x ∈ g.order then some (M x) else none⟩

theorem term_iff (hw : g.WF) (x : Str) : g.Term x ↔ x ∉ g.order := by
  rw [← hw x, Term]; simp

theorem expanded_lang {M : Str → List (List Str)} (hw : g.WF) (hM : Expanded g M) (ss w : List Str) :
    g.Derives ss w ↔ (expandedG g M).Derives ss w := by
  constructor
  · intro h
    obtain ⟨n, hn⟩ := derN_of h
    clear h
    induction n using Nat.strongRecOn generalizing ss w with
    | ind n ihn =>
      induction ss generalizing w n with
      | nil => cases hn; exact .nil
      | cons X ss ihs =>
        rcases hn.cons_inv with ⟨v, ht, rfl, h⟩ | ⟨i, j, k, p, u, v, hr, h1, h2, rfl, rfl⟩
        · refine .term ?_ (ihs n ihn v h)
          have := (term_iff hw X).1 ht
          simp [Term, expandedG, this]
        · obtain ⟨ps, hps, _⟩ := id hr
          have hX : X ∈ g.order := (hw X).1 (by simp [hps])
          obtain ⟨q, hq, m, hm, hd⟩ := (hM X ps hX hps).down p (rule_mem hps hr) _ _ h1
          have hpr : (expandedG g M).prods X = some (M X) := by simp [expandedG, hX]
          obtain ⟨k', hk⟩ := mem_rule hpr hq
          exact .nonterm hk (ihn m (by omega) _ _ hd) (ihn j (by omega) _ _ h2)
  · intro h
    induction h with
    | nil => exact .nil
    | @term t ss w ht _ ih =>
      refine .term ?_ ih
      rw [term_iff hw]
      intro hX
      simp [Term, expandedG, hX] at ht
    | @nonterm A k p ss u v hr _ _ ih1 ih2 =>
      have hA : A ∈ g.order := by
        obtain ⟨ps, hps, _⟩ := hr
        simp only [expandedG] at hps
        split at hps
        · assumption
        · cases hps
      have hpr : (expandedG g M).prods A = some (M A) := by simp [expandedG, hA]
      obtain ⟨ps, hps⟩ := Option.isSome_iff_exists.1 ((hw A).2 hA)
      obtain ⟨p', hp', h⟩ := (hM A ps hA hps).up p (rule_mem hpr hr)
      obtain ⟨k', hk⟩ := mem_rule hps hp'
      exact .nonterm hk (h _ ih1) ih2

/-! ### Direct left recursion -/

/-- Not one of the new names. -/
def Old (order : List Str) (x : Str) : Prop := ∀ B ∈ order, x ≠ primed B

/-- No production of a directly left recursive nonterminal begins with that nonterminal twice. -/
def NoDouble (M : Str → List (List Str)) (order : List Str) : Prop :=
  ∀ A ∈ order, ∀ t, A :: A :: t ∉ M A

section
variable {order : List Str} {M : Str → List (List Str)}

theorem removed_mem {A : Str} (hA : A ∈ order) :
    (removed order M).prods A = some (if Direct M A then heads M A else M A) := by
  simp [removed, hA]

theorem removed_old {x : Str} (hx : x ∉ order) (ho : Old order x) : (removed order M).prods x = none := by
  apply removed_other hx
  intro B hB e
  exact ho B hB e.symm

theorem removed_primed (hold : ∀ A ∈ order, Old order A) {A : Str} (hA : A ∈ order) (hd : Direct M A) :
    (removed order M).prods (primed A) = some (tails M A) := by
  have h1 : primed A ∉ order := fun h => hold _ h A hA rfl
  simp only [removed, h1, if_false]
  cases e : order.find? (fun B => decide (Direct M B) && decide (primed B = primed A)) with
  | none =>
    have := List.find?_eq_none.1 e A hA
    simp [hd] at this
  | some B =>
    have h2 := List.find?_some e
    simp only [Bool.and_eq_true, decide_eq_true_eq] at h2
    rw [primed_inj h2.2]
    rfl

theorem primed_nil (hold : ∀ A ∈ order, Old order A) {A : Str} (hA : A ∈ order) (hd : Direct M A) :
    (removed order M).Derives [primed A] [] :=
  derives_of_mem (removed_primed hold hA hd) (by simp [tails]) .nil

theorem mem_tails {A : Str} {q : List Str} (hq : q ∈ M A) (hh : q.head? = some A)
    (hne : q.dropWhile (· = A) ≠ []) : q.dropWhile (· = A) ++ [primed A] ∈ tails M A := by
  unfold tails
  apply List.mem_append_left
  apply List.mem_map.2
  exact ⟨_, List.mem_filter.2 ⟨List.mem_map.2 ⟨q, List.mem_filter.2 ⟨hq, by simpa using hh⟩, rfl⟩,
    by simpa using hne⟩, rfl⟩

theorem tails_mem {A : Str} {p : List Str} (h : p ∈ tails M A) : p = [] ∨
    ∃ q ∈ M A, q.head? = some A ∧ q.dropWhile (· = A) ≠ [] ∧ p = q.dropWhile (· = A) ++ [primed A] := by
  unfold tails at h
  rcases List.mem_append.1 h with h | h
  · right
    obtain ⟨r, hr, rfl⟩ := List.mem_map.1 h
    obtain ⟨hr, hne⟩ := List.mem_filter.1 hr
    obtain ⟨q, hq, rfl⟩ := List.mem_map.1 hr
    obtain ⟨hq, hh⟩ := List.mem_filter.1 hq
    exact ⟨q, hq, by simpa using hh, by simpa using hne, rfl⟩
  · exact .inl (List.mem_singleton.1 h)

theorem heads_mem {A : Str} {p : List Str} : p ∈ heads M A ↔ ∃ q ∈ M A, q.head? ≠ some A ∧ p = q ++ [primed A] := by
  unfold heads
  simp only [List.mem_map, List.mem_filter, decide_eq_true_eq, and_assoc, ne_eq]
  constructor
  · rintro ⟨q, h1, h2, rfl⟩; exact ⟨q, h1, h2, rfl⟩
  · rintro ⟨q, h1, h2, rfl⟩; exact ⟨q, h1, h2, rfl⟩

theorem drop_single (hnd : NoDouble M order) {A : Str} (hA : A ∈ order) {q : List Str} (hq : q ∈ M A)
    (hh : q.head? = some A) : ∃ t, q = A :: t ∧ q.dropWhile (· = A) = t := by
  cases q with
  | nil => simp at hh
  | cons X t =>
    simp only [List.head?_cons, Option.some.injEq] at hh
    subst hh
    refine ⟨t, rfl, ?_⟩
    cases t with
    | nil => simp
    | cons Y t =>
      have : Y ≠ X := by
        rintro rfl
        exact hnd Y hA t hq
      simp [this]

/-- The grammar with expanded productions, on a list of nonterminals. -/
def plain (order : List Str) (M : Str → List (List Str)) : Grammar Str :=
  ⟨order, fun x => if x ∈ order then some (M x) else none⟩

theorem removed_sound (hold : ∀ A ∈ order, Old order A) (hsym : ∀ A ∈ order, ∀ q ∈ M A, ∀ y ∈ q, Old order y)
    (hnd : NoDouble M order) : ∀ n,
    (∀ ss w, (∀ x ∈ ss, Old order x) → DerN (removed order M) n ss w → (plain order M).Derives ss w) ∧
    (∀ A ∈ order, Direct M A → ∀ w, DerN (removed order M) n [primed A] w → ∀ u,
      (plain order M).Derives [A] u → (plain order M).Derives [A] (u ++ w)) := by
  intro n
  induction n using Nat.strongRecOn with
  | ind n ih =>
    have hplain : ∀ {A}, A ∈ order → (plain order M).prods A = some (M A) := by
      intro A hA; simp [plain, hA]
    constructor
    · intro ss
      induction ss with
      | nil => intro w _ h; cases h; exact .nil
      | cons X ss ihs =>
        intro w ho h
        rcases h.cons_inv with ⟨v, ht, rfl, hs⟩ | ⟨i, j, k, p, u, v, hr, h1, h2, rfl, rfl⟩
        · refine .term ?_ (ihs v (fun x hx => ho x (by simp [hx])) hs)
          have : X ∉ order := by
            intro hX
            rw [Term, removed_mem hX] at ht; cases ht
          simp [Term, plain, this]
        · have hX : X ∈ order := by
            refine Classical.byContradiction fun hX => ?_
            obtain ⟨ps, hps, _⟩ := hr
            rw [removed_old hX (ho X (by simp))] at hps; cases hps
          have hm := rule_mem (removed_mem hX) hr
          have hv := (ih j (by omega)).1 ss v (fun x hx => ho x (by simp [hx])) h2
          suffices hu : (plain order M).Derives [X] u by simpa using hu.append hv
          by_cases hd : Direct M X
          · rw [if_pos hd] at hm
            obtain ⟨q, hq, hh, rfl⟩ := heads_mem.1 hm
            obtain ⟨i1, i2, u1, u2, h3, h4, rfl, rfl⟩ := h1.split q [primed X] rfl
            have hq1 := (ih i1 (by omega)).1 q u1 (hsym X hX q hq) h3
            exact (ih i2 (by omega)).2 X hX hd u2 h4 u1 (derives_of_mem (hplain hX) hq hq1)
          · rw [if_neg hd] at hm
            exact derives_of_mem (hplain hX) hm ((ih i (by omega)).1 p u (hsym X hX p hm) h1)
    · intro A hA hd w h u hu
      rcases h.cons_inv with ⟨v, ht, _⟩ | ⟨i, j, k, p, x, v, hr, h1, h2, rfl, rfl⟩
      · rw [Term, removed_primed hold hA hd] at ht; cases ht
      · cases h2
        rw [List.append_nil]
        rcases tails_mem (rule_mem (removed_primed hold hA hd) hr) with rfl | ⟨q, hq, hh, hne, rfl⟩
        · cases h1; simpa using hu
        · obtain ⟨t, rfl, ht⟩ := drop_single hnd hA hq hh
          rw [ht] at h1
          obtain ⟨i1, i2, x1, x2, h3, h4, rfl, rfl⟩ := h1.split t [primed A] rfl
          have hx1 := (ih i1 (by omega)).1 t x1 (fun y hy => hsym A hA _ hq y (by simp [hy])) h3
          have hux := derives_of_mem (hplain hA) hq (w := u ++ x1) (by simpa using hu.append hx1)
          have := (ih i2 (by omega)).2 A hA hd x2 h4 _ hux
          simpa using this

theorem tail_snoc (hold : ∀ A ∈ order, Old order A) {A : Str} (hA : A ∈ order) (hd : Direct M A) {t x : List Str}
    (ht : t ++ [primed A] ∈ tails M A) (hx : (removed order M).Derives t x) : ∀ n w,
    DerN (removed order M) n [primed A] w → (removed order M).Derives [primed A] (w ++ x) := by
  intro n
  induction n using Nat.strongRecOn with
  | ind n ih =>
    intro w h
    have hp := removed_primed hold hA hd
    rcases h.cons_inv with ⟨v, ht, _⟩ | ⟨i, j, k, p, y, v, hr, h1, h2, rfl, rfl⟩
    · rw [Term, hp] at ht; cases ht
    · cases h2
      rw [List.append_nil]
      rcases tails_mem (rule_mem hp hr) with rfl | ⟨q, hq, hh, hne, rfl⟩
      · cases h1
        exact derives_of_mem hp ht (by simpa using hx.append (primed_nil hold hA hd))
      · obtain ⟨i1, i2, y1, y2, h3, h4, rfl, rfl⟩ := h1.split _ [primed A] rfl
        have := ih i2 (by omega) y2 h4
        refine derives_of_mem hp (mem_tails hq hh hne) ?_
        simpa using h3.derives.append this

theorem removed_complete (hold : ∀ A ∈ order, Old order A)
    (hsym : ∀ A ∈ order, ∀ q ∈ M A, ∀ y ∈ q, Old order y)
    (hnd : NoDouble M order) : ∀ n ss w, (∀ x ∈ ss, Old order x) → DerN (plain order M) n ss w →
    (removed order M).Derives ss w := by
  intro n
  induction n using Nat.strongRecOn with
  | ind n ih =>
    intro ss
    induction ss with
    | nil => intro w _ h; cases h; exact .nil
    | cons X ss ihs =>
      intro w ho h
      rcases h.cons_inv with ⟨v, ht, rfl, hs⟩ | ⟨i, j, k, p, u, v, hr, h1, h2, rfl, rfl⟩
      · refine .term ?_ (ihs v (fun x hx => ho x (by simp [hx])) hs)
        have : X ∉ order := by
          intro hX
          simp [Term, plain, hX] at ht
        exact removed_old this (ho X (by simp))
      · have hX : X ∈ order := by
          refine Classical.byContradiction fun hX => ?_
          obtain ⟨ps, hps, _⟩ := hr
          simp [plain, hX] at hps
        have hplain : (plain order M).prods X = some (M X) := by simp [plain, hX]
        have hm := rule_mem hplain hr
        have hv := ih j (by omega) ss v (fun x hx => ho x (by simp [hx])) h2
        suffices hu : (removed order M).Derives [X] u by simpa using hu.append hv
        have hpr := removed_mem (M := M) hX
        by_cases hd : Direct M X
        · rw [if_pos hd] at hpr
          by_cases hh : p.head? = some X
          · obtain ⟨t, rfl, ht⟩ := drop_single hnd hX hm hh
            obtain ⟨i1, i2, u1, u2, h3, h4, rfl, rfl⟩ := h1.split [X] t rfl
            have hX1 := ih i1 (by omega) [X] u1 (by intro x hx; exact ho x (by simp_all)) h3
            have ht2 := ih i2 (by omega) t u2 (fun y hy => hsym X hX _ hm y (by simp [hy])) h4
            by_cases hne : t = []
            · subst hne
              cases h4
              simpa using hX1
            · have htl : t ++ [primed X] ∈ tails M X := by
                have := mem_tails hm hh (by rw [ht]; exact hne)
                rwa [ht] at this
              obtain ⟨n1, hn1⟩ := derN_of hX1
              rcases hn1.cons_inv with ⟨v', ht', _⟩ | ⟨a, b, k', r, y, z, hr', h5, h6, rfl, rfl⟩
              · rw [Term, hpr] at ht'; cases ht'
              · cases h6
                obtain ⟨q, hq, hqh, rfl⟩ := heads_mem.1 (rule_mem hpr hr')
                obtain ⟨a1, a2, y1, y2, h7, h8, rfl, rfl⟩ := h5.split q [primed X] rfl
                refine derives_of_mem hpr (heads_mem.2 ⟨q, hq, hqh, rfl⟩) ?_
                have := h7.derives.append (tail_snoc hold hX hd htl ht2 a2 y2 h8)
                simpa using this
          · have hp := ih i (by omega) p u (hsym X hX p hm) h1
            refine derives_of_mem hpr (heads_mem.2 ⟨p, hm, hh, rfl⟩) ?_
            simpa using hp.append (primed_nil hold hX hd)
        · rw [if_neg hd] at hpr
          exact derives_of_mem hpr hm (ih i (by omega) p u (hsym X hX p hm) h1)

end

/-! ### The language of the result -/

theorem old_of_fresh (hf : Fresh g) {x : Str} (h : g.Occurs x) : Old g.order x := by
  rintro B hB rfl
  exact hf B hB h

theorem expanded_symbols {M : Str → List (List Str)} (hw : g.WF) (hM : Expanded g M) {A q y}
    (hA : A ∈ g.order) (hq : q ∈ M A) (hy : y ∈ q) : g.Occurs y := by
  obtain ⟨ps, hps⟩ := Option.isSome_iff_exists.1 ((hw A).2 hA)
  rcases (hM A ps hA hps).symbols q hq y hy with ⟨p, hp, h⟩ | h
  · obtain ⟨k, hk⟩ := mem_rule hps hp
    exact .inr ⟨A, k, p, hk, h⟩
  · exact h

theorem removed_lang {M : Str → List (List Str)} (hw : g.WF) (hf : Fresh g) (hM : Expanded g M)
    (hnd : NoDouble M g.order) {ss : List Str} (hss : ∀ x ∈ ss, Old g.order x) (w : List Str) :
    (removed g.order M).Derives ss w ↔ g.Derives ss w := by
  have hold : ∀ A ∈ g.order, Old g.order A := fun A hA => old_of_fresh hf (.inl hA)
  have hsym : ∀ A ∈ g.order, ∀ q ∈ M A, ∀ y ∈ q, Old g.order y := fun A hA q hq y hy =>
    old_of_fresh hf (expanded_symbols hw hM hA hq hy)
  rw [expanded_lang hw hM]
  constructor
  · intro h
    obtain ⟨n, hn⟩ := derN_of h
    exact (removed_sound hold hsym hnd n).1 ss w hss hn
  · intro h
    obtain ⟨n, hn⟩ := derN_of h
    exact removed_complete hold hsym hnd n ss w hss hn

/-! ### No left recursion is left -/

theorem Expands.noNil {ps qs} (h : Expands g dn ps qs)
    (hr : ∀ A k X t, g.Rule A k (X :: t) → ¬ g.Derives [X] []) :
    (∀ p ∈ ps, ∀ X, p.head? = some X → ¬ g.Derives [X] []) →
    ∀ q ∈ qs, ∀ X, q.head? = some X → ¬ g.Derives [X] [] := by
  induction h with
  | nil => simp
  | @keep p ps qs hk _ ih =>
    intro hp q hq
    rcases List.mem_cons.1 hq with rfl | hq
    · exact hp q (by simp)
    · exact ih (fun p h => hp p (by simp [h])) q hq
  | @subst F t rs ps qs _ hrs _ ih =>
    intro hp
    apply ih
    intro p' hp'
    rcases List.mem_append.1 hp' with hp' | hp'
    · obtain ⟨r, hr', rfl⟩ := List.mem_map.1 hp'
      obtain ⟨k, hk⟩ := mem_rule hrs hr'
      cases r with
      | nil =>
        exfalso
        exact hp (F :: t) (by simp) F rfl (Derives.nonterm (u := []) (v := []) hk .nil .nil)
      | cons X r =>
        intro Y hY
        simp only [List.cons_append, List.head?_cons, Option.some.injEq] at hY
        subst hY
        exact hr F k X r hk
    · exact hp p' (by simp [hp'])

theorem idx_lt : ∀ {l : List Str} {A C : Str}, C ∈ l → C ∉ l.takeWhile (· ≠ A) → C ≠ A →
    l.idxOf A < l.idxOf C := by
  intro l
  induction l with
  | nil => intro A C h; simp at h
  | cons x l ih =>
    intro A C hC hn hne
    by_cases hx : x = A
    · subst hx
      have h2 : (x == C) = false := by simpa using Ne.symm hne
      simp only [List.idxOf_cons, h2, beq_self_eq_true, cond_true, cond_false]
      omega
    · have hxd : decide (x ≠ A) = true := by simpa using hx
      rw [List.takeWhile_cons, if_pos hxd] at hn
      simp only [List.mem_cons, not_or] at hn
      have h1 : (x == A) = false := by simpa using hx
      have h2 : (x == C) = false := by simpa using Ne.symm hn.1
      simp only [List.idxOf_cons, h1, h2, cond_false]
      have := ih (A := A) ((List.mem_cons.1 hC).resolve_left hn.1) hn.2 hne
      omega

theorem removed_noLR {M : Str → List (List Str)} (hw : g.WF) (hf : Fresh g) (hM : Expanded g M)
    (h1 : ∀ A k X t, g.Rule A k (X :: t) → ¬ g.Derives [X] [])
    (h2 : ∀ A ∈ g.order, ∀ q ∈ M A, q.head? = some A → q.dropWhile (· = A) ≠ [] →
      ¬ g.Derives (q.dropWhile (· = A)) []) : ¬ (removed g.order M).LeftRecursive := by
  have hold : ∀ A ∈ g.order, Old g.order A := fun A hA => old_of_fresh hf (.inl hA)
  have hsym : ∀ A ∈ g.order, ∀ q ∈ M A, ∀ y ∈ q, Old g.order y := fun A hA q hq y hy =>
    old_of_fresh hf (expanded_symbols hw hM hA hq hy)
  have hup : ∀ A ∈ g.order, ∀ q ∈ M A, ∀ w, g.Derives q w → g.Derives [A] w := by
    intro A hA q hq w h
    obtain ⟨ps, hps⟩ := Option.isSome_iff_exists.1 ((hw A).2 hA)
    obtain ⟨p, hp, h'⟩ := (hM A ps hA hps).up q hq
    exact derives_of_mem hps hp (h' w h)
  -- what derives the empty word in the result does in the given grammar
  have hnil : ∀ n ss w, (∀ x ∈ ss, Old g.order x) → DerN (removed g.order M) n ss w → w = [] → g.Derives ss [] := by
    intro n
    induction n using Nat.strongRecOn with
    | ind n ih =>
      intro ss w ho h hwn
      cases ss with
      | nil => exact .nil
      | cons X ss =>
        subst hwn
        rcases h.cons_inv with ⟨v, _, e, _⟩ | ⟨i, j, k, p, u, v, hr, ha, hb, e, rfl⟩
        · cases e
        · obtain ⟨rfl, rfl⟩ := List.append_eq_nil_iff.1 e.symm
          have hX : X ∈ g.order := by
            refine Classical.byContradiction fun hX => ?_
            obtain ⟨ps, hps, _⟩ := hr
            rw [removed_old hX (ho X (by simp))] at hps; cases hps
          have hm := rule_mem (removed_mem hX) hr
          have hv := ih j (by omega) ss [] (fun x hx => ho x (by simp [hx])) hb rfl
          suffices hu : g.Derives [X] [] by simpa using hu.append hv
          by_cases hd : Direct M X
          · rw [if_pos hd] at hm
            obtain ⟨q, hq, hh, rfl⟩ := heads_mem.1 hm
            obtain ⟨i1, i2, u1, u2, h3, h4, e, rfl⟩ := ha.split q [primed X] rfl
            obtain ⟨rfl, rfl⟩ := List.append_eq_nil_iff.1 e.symm
            exact hup X hX q hq _ (ih i1 (by omega) q [] (hsym X hX q hq) h3 rfl)
          · rw [if_neg hd] at hm
            exact hup X hX p hm _ (ih i (by omega) p [] (hsym X hX p hm) ha rfl)
  have hnil' : ∀ ss, (∀ x ∈ ss, Old g.order x) → (removed g.order M).Derives ss [] → g.Derives ss [] := by
    intro ss ho h
    obtain ⟨n, hn⟩ := derN_of h
    exact hnil n ss [] ho hn rfl
  have hhead : ∀ A ∈ g.order, ∀ q ∈ M A, ∀ X, q.head? = some X → ¬ g.Derives [X] [] := by
    intro A hA
    obtain ⟨ps, hps⟩ := Option.isSome_iff_exists.1 ((hw A).2 hA)
    refine (hM A ps hA hps).noNil h1 ?_
    intro p hp X hX
    obtain ⟨k, hk⟩ := mem_rule hps hp
    cases p with
    | nil => simp at hX
    | cons Y p =>
      simp only [List.head?_cons, Option.some.injEq] at hX
      subst hX
      exact h1 A k Y p hk
  -- the only symbol that can be leftmost is the first one
  have hfirst : ∀ A ∈ g.order, ∀ q ∈ M A, ∀ pre B post rest, q ++ rest = pre ++ B :: post → q ≠ [] →
      (removed g.order M).Derives pre [] → q.head? = some B := by
    intro A hA q hq pre B post rest e hne hp
    cases q with
    | nil => exact absurd rfl hne
    | cons X q =>
      cases pre with
      | nil =>
        simp only [List.cons_append, List.nil_append, List.cons.injEq] at e
        simp [e.1]
      | cons Y pre =>
        exfalso
        simp only [List.cons_append, List.cons.injEq] at e
        obtain ⟨rfl, _⟩ := e
        have hX := (Derives.append_nil_iff (a := [X]) (b := pre)).1 hp
        exact hhead A hA _ hq X rfl (hnil' [X] (by
          intro x hx
          rw [List.mem_singleton.1 hx]
          exact hsym A hA _ hq X (by simp)) hX.1)
  have hmem : ∀ A ∈ g.order, ∀ q ∈ M A, ∀ B, q.head? = some B → B ∈ q := by
    intro A _ q _ B h
    cases q with
    | nil => simp at h
    | cons X q =>
      simp only [List.head?_cons, Option.some.injEq] at h
      simp [h]
  have hbefore : ∀ A ∈ g.order, ∀ q ∈ M A, ∀ B, q.head? = some B → B ∉ before g A := by
    intro A hA q hq B hB
    obtain ⟨ps, hps⟩ := Option.isSome_iff_exists.1 ((hw A).2 hA)
    exact (hM A ps hA hps).heads q hq B hB
  -- leftmost steps lead to later nonterminals and never to new names
  have hstep : ∀ A B, (removed g.order M).LeftStep A B → Old g.order B ∧
      (A ∈ g.order → B ∈ g.order → g.order.idxOf A < g.order.idxOf B) := by
    rintro A B ⟨k, pre, post, hr, hp⟩
    by_cases hA : A ∈ g.order
    · have hm := rule_mem (removed_mem hA) hr
      suffices h : Old g.order B ∧ B ∉ before g A ∧ B ≠ A by
        exact ⟨h.1, fun _ hB => idx_lt hB h.2.1 h.2.2⟩
      by_cases hd : Direct M A
      · rw [if_pos hd] at hm
        obtain ⟨q, hq, hh, e⟩ := heads_mem.1 hm
        have hne : q ≠ [] := by
          rintro rfl
          obtain ⟨q', hq', hh'⟩ := hd
          exact hhead A hA q' hq' A hh' (hup A hA [] hq [] .nil)
        have hB := hfirst A hA q hq pre B post _ e.symm hne hp
        exact ⟨hsym A hA q hq B (hmem A hA q hq B hB), hbefore A hA q hq B hB, fun e => hh (e ▸ hB)⟩
      · rw [if_neg hd] at hm
        have hB := hfirst A hA _ hm pre B post [] (by simp) (by simp) hp
        exact ⟨hsym A hA _ hm B (hmem A hA _ hm B hB), hbefore A hA _ hm B hB,
          fun e => hd ⟨_, hm, e ▸ hB⟩⟩
    · refine ⟨?_, fun h => absurd h hA⟩
      obtain ⟨ps, hps, hk⟩ := id hr
      simp only [removed, hA, if_false, Option.map_eq_some_iff] at hps
      obtain ⟨C, hC, rfl⟩ := hps
      have hCo := List.mem_of_find?_eq_some hC
      rcases tails_mem (List.mem_of_getElem? hk) with e | ⟨q, hq, hh, hne, e⟩
      · simp at e
      · have hqs : ∀ y ∈ q.dropWhile (· = C), Old g.order y := fun y hy =>
          hsym C hCo q hq y ((List.dropWhile_sublist _).subset hy)
        rcases List.append_eq_append_iff.1 e with ⟨a, e1, e2⟩ | ⟨a, e1, e2⟩
        · cases a with
          | nil =>
            exfalso
            simp only [List.append_nil] at e1
            rw [← e1] at hp
            exact h2 C hCo q hq hh hne (hnil' _ hqs hp)
          | cons Y a =>
            simp only [List.cons_append, List.cons.injEq] at e2
            obtain ⟨rfl, _⟩ := e2
            exact hqs B (by rw [e1]; simp)
        · exfalso
          rw [e1] at hp
          exact h2 C hCo q hq hh hne (hnil' _ hqs (Derives.append_nil_iff.1 hp).1)
  have hplus : ∀ A B, Plus (removed g.order M).LeftStep A B → Old g.order B ∧
      (A ∈ g.order → B ∈ g.order → g.order.idxOf A < g.order.idxOf B) := by
    intro A B h
    induction h with
    | one h => exact hstep _ _ h
    | @step A B C h h' ih =>
      refine ⟨ih.1, fun hA hC => ?_⟩
      have hAB := hstep A B h
      have hB : B ∈ g.order := by
        refine Classical.byContradiction fun hB => ?_
        have hno := removed_old (M := M) hB hAB.1
        cases h' with
        | one h' => obtain ⟨k, pre, post, ⟨ps, hps, _⟩, _⟩ := h'; rw [hno] at hps; cases hps
        | step h' _ => obtain ⟨k, pre, post, ⟨ps, hps, _⟩, _⟩ := h'; rw [hno] at hps; cases hps
      have := hAB.2 hA hB
      have := ih.2 hB hC
      omega
  rintro ⟨A, hA⟩
  obtain ⟨ho, hlt⟩ := hplus A A hA
  by_cases hAo : A ∈ g.order
  · exact absurd (hlt hAo hAo) (by omega)
  · have hno := removed_old (M := M) hAo ho
    cases hA with
    | one h' => obtain ⟨k, pre, post, ⟨ps, hps, _⟩, _⟩ := h'; rw [hno] at hps; cases hps
    | step h' _ => obtain ⟨k, pre, post, ⟨ps, hps, _⟩, _⟩ := h'; rw [hno] at hps; cases hps

end Verif.Spec.RemoveLR
