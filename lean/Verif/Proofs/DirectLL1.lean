import Verif.Spec.DirectLL1
import Verif.Proofs.RemoveLRTerm
/- Removing direct left recursion gives an LL(1) grammar. -/
namespace Verif.Spec.RemoveLR
open Verif.Spec Verif.Spec.Grammar

theorem derives_split {α : Type} {g : Grammar α} {ss w : List α} (h : g.Derives ss w) : ∀ a b, ss = a ++ b →
    ∃ u v, w = u ++ v ∧ g.Derives a u ∧ g.Derives b v := by
  induction h with
  | nil =>
    intro a b e
    obtain ⟨rfl, rfl⟩ := List.append_eq_nil_iff.1 e.symm
    exact ⟨[], [], rfl, .nil, .nil⟩
  | @term t ss w ht hd ih =>
    intro a b e
    cases a with
    | nil =>
      simp only [List.nil_append] at e
      subst e
      exact ⟨[], _, rfl, .nil, .term ht hd⟩
    | cons x a =>
      cases e
      obtain ⟨u, v, rfl, h1, h2⟩ := ih a b rfl
      exact ⟨_ :: u, v, rfl, .term ht h1, h2⟩
  | @nonterm A k p ss u v hr h1 h2 _ ih =>
    intro a b e
    cases a with
    | nil =>
      simp only [List.nil_append] at e
      subst e
      exact ⟨[], _, rfl, .nil, .nonterm hr h1 h2⟩
    | cons x a =>
      cases e
      obtain ⟨u', v', rfl, h3, h4⟩ := ih a b rfl
      exact ⟨u ++ u', v', by simp, .nonterm hr h1 h3, h4⟩

variable {g : Grammar Str} {M : Str → List (List Str)}

/-- What is assumed of the grammar and of `M`, its productions. -/
structure Plainly (g : Grammar Str) (M : Str → List (List Str)) : Prop where
  wf : g.WF
  fresh : Fresh g
  exp : Expanded g M
  prods : ∀ A ∈ g.order, g.prods A = some (M A)
  noempty : ∀ ss, g.Derives ss [] → ss = []
  single : NoDouble M g.order

/-- The productions of the result. -/
inductive Form (g : Grammar Str) (M : Str → List (List Str)) : Str → List Str → Prop
  | same {B j p} : B ∈ g.order → g.Rule B j p → p.head? ≠ some B → Form g M B p
  | head {B j q} : B ∈ g.order → Direct M B → g.Rule B j q → q.head? ≠ some B → Form g M B (q ++ [primed B])
  | stop {A} : A ∈ g.order → Direct M A → Form g M (primed A) []
  | tail {A j x} : A ∈ g.order → Direct M A → g.Rule A j (A :: x) → x ≠ [] → Form g M (primed A) (x ++ [primed A])

theorem Plainly.old (h : Plainly g M) {A} (hA : A ∈ g.order) : Old g.order A := old_of_fresh h.fresh (.inl hA)

theorem Plainly.oldRule (h : Plainly g M) {A k p} (hr : g.Rule A k p) : ∀ y ∈ p, Old g.order y := fun y hy =>
  old_of_fresh h.fresh (.inr ⟨A, k, p, hr, hy⟩)

theorem Plainly.lang (h : Plainly g M) {ss : List Str} (hss : ∀ x ∈ ss, Old g.order x) (w : List Str) :
    (removed g.order M).Derives ss w ↔ g.Derives ss w := removed_lang h.wf h.fresh h.exp h.single hss w

theorem Plainly.ordRule (h : Plainly g M) {A k p} (hr : g.Rule A k p) : A ∈ g.order := by
  obtain ⟨ps, e, _⟩ := hr
  exact (h.wf A).1 (by simp [e])

/-- Which symbol has which productions in the result. -/
theorem Plainly.cases (h : Plainly g M) {X k p} (hr : (removed g.order M).Rule X k p) :
    (X ∈ g.order ∧ ¬ Direct M X ∧ (M X)[k]? = some p) ∨ (X ∈ g.order ∧ Direct M X ∧ (heads M X)[k]? = some p) ∨
    ∃ A ∈ g.order, Direct M A ∧ X = primed A ∧ (tails M A)[k]? = some p := by
  obtain ⟨ps, e, ek⟩ := hr
  by_cases hX : X ∈ g.order
  · rw [removed_mem hX] at e
    by_cases hd : Direct M X
    · rw [if_pos hd] at e
      cases e
      exact .inr (.inl ⟨hX, hd, ek⟩)
    · rw [if_neg hd] at e
      cases e
      exact .inl ⟨hX, hd, ek⟩
  · simp only [removed, hX, if_false, Option.map_eq_some_iff] at e
    obtain ⟨A, hA, rfl⟩ := e
    have h2 := List.find?_some hA
    simp only [Bool.and_eq_true, decide_eq_true_eq] at h2
    exact .inr (.inr ⟨A, List.mem_of_find?_eq_some hA, h2.1, h2.2.symm, ek⟩)

theorem Plainly.form (h : Plainly g M) {X k p} (hr : (removed g.order M).Rule X k p) : Form g M X p := by
  rcases h.cases hr with ⟨hX, hd, e⟩ | ⟨hX, hd, e⟩ | ⟨A, hA, hd, rfl, e⟩
  · exact .same (j := k) hX ⟨_, h.prods X hX, e⟩ fun hh => hd ⟨p, List.mem_of_getElem? e, hh⟩
  · obtain ⟨q, hq, hh, rfl⟩ := heads_mem.1 (List.mem_of_getElem? e)
    obtain ⟨j, hj⟩ := mem_rule (h.prods X hX) hq
    exact .head hX hd hj hh
  · rcases tails_mem (List.mem_of_getElem? e) with rfl | ⟨q, hq, hh, hne, rfl⟩
    · exact .stop hA hd
    · obtain ⟨t, rfl, ht⟩ := drop_single h.single hA hq hh
      rw [ht] at hne ⊢
      obtain ⟨j, hj⟩ := mem_rule (h.prods A hA) hq
      exact .tail hA hd hj hne

theorem primed_inj {A B : Str} (h : primed A = primed B) : A = B := List.append_cancel_right h

theorem Plainly.ne_nil (h : Plainly g M) {A k p} (hr : g.Rule A k p) : p ≠ [] := by
  rintro rfl
  have := h.noempty [A] (by simpa using Derives.nonterm hr .nil .nil)
  cases this

theorem Plainly.no_nil (h : Plainly g M) {A k p} (hr : g.Rule A k p) : ¬ g.Derives p [] := fun hd => h.ne_nil hr (h.noempty _ hd)

/-- What the new symbol derives begins with what follows a leading `A`. -/
theorem Plainly.primedFirst (h : Plainly g M) {A t w} (hA : A ∈ g.order) (hdir : Direct M A)
    (hd : (removed g.order M).Derives [primed A] (t :: w)) : ∃ j x w', g.Rule A j (A :: x) ∧ g.Derives x (t :: w') := by
  generalize hs : [primed A] = ss at hd
  generalize hw : t :: w = w0 at hd
  cases hd with
  | nil => cases hs
  | @term s ss w1 ht hd' =>
    cases hs
    have := removed_primed (fun B hB => h.old hB) hA hdir
    rw [ht] at this
    cases this
  | @nonterm X k p ss u v hr h1 h2 =>
    cases hs
    cases h2
    rw [List.append_nil] at hw
    subst hw
    generalize hX : primed A = X at hr
    cases h.form hr with
    | same hB => exact absurd hX.symm (h.old hB A hA)
    | head hB => exact absurd hX.symm (h.old hB A hA)
    | stop => cases h1
    | @tail B j x hB _ hj hx =>
      have := primed_inj hX
      subst this
      obtain ⟨u, v, e, hu, _⟩ := derives_split h1 _ _ rfl
      have hu' := (h.lang (fun y hy => h.oldRule hj y (.tail _ hy)) u).1 hu
      cases u with
      | nil => exact absurd (h.noempty _ hu') hx
      | cons s u =>
        cases e
        exact ⟨j, x, u, hj, hu'⟩

theorem outer_follow {A t : Str} (h : g.Outer A t) : g.Follow A t := by
  obtain ⟨B, k, x, y, hr, _, ⟨w, hd⟩ | ⟨hd, hf⟩⟩ := h
  · exact .next hr hd
  · exact .last hr hd hf

theorem snoc_split {α : Type} {q x y : List α} {z a : α} (e : q ++ [z] = x ++ a :: y) :
    (y = [] ∧ a = z ∧ q = x) ∨ ∃ y', y = y' ++ [z] ∧ q = x ++ a :: y' := by
  rcases List.eq_nil_or_concat y with rfl | ⟨y', b, rfl⟩
  · have := List.append_inj' e rfl
    exact .inl ⟨rfl, by simpa using this.2.symm, this.1⟩
  · have e' : q ++ [z] = (x ++ a :: y') ++ [b] := by simpa using e
    have := List.append_inj' e' rfl
    have hb : z = b := by simpa using this.2
    subst hb
    exact .inr ⟨y', by simp, this.1⟩

/-- What follows a symbol in the result could follow it outside of the recursion. -/
theorem Plainly.follow (h : Plainly g M) {X t} (hf : (removed g.order M).Follow X t) :
    (X ∈ g.order → g.Outer X t) ∧ ∀ A ∈ g.order, Direct M A → X = primed A → g.Outer A t := by
  induction hf with
  | @next X B k x y t w hr hd =>
    generalize hp : x ++ X :: y = p at hr
    cases h.form hr with
    | @same B j p hB hj hh =>
      subst hp
      have hX := h.oldRule hj X (by simp)
      have hy := (h.lang (fun z hz => h.oldRule hj z (by simp [hz])) _).1 hd
      refine ⟨fun _ => ⟨B, j, x, y, hj, fun e => ?_, .inl ⟨w, hy⟩⟩, fun A hA _ e => absurd e (hX A hA)⟩
      rintro rfl
      exact hh (by simp [e])
    | @head B j q hB hdir hj hh =>
      rcases snoc_split hp.symm with ⟨rfl, _, _⟩ | ⟨y', rfl, rfl⟩
      · cases hd
      · have hX := h.oldRule hj X (by simp)
        have hold : ∀ z ∈ y', Old g.order z := fun z hz => h.oldRule hj z (by simp [hz])
        refine ⟨fun _ => ⟨B, j, x, y', hj, fun e => ?_, ?_⟩, fun A hA _ e => absurd e (hX A hA)⟩
        · rintro rfl
          exact hh (by simp [e])
        · obtain ⟨u, v, e, hu, hv⟩ := derives_split hd _ _ rfl
          cases u with
          | nil =>
            simp only [List.nil_append] at e
            subst e
            obtain ⟨j', x', w', hr', hd'⟩ := h.primedFirst hB hdir hv
            exact .inr ⟨(h.lang hold _).1 hu, .next (x := []) hr' hd'⟩
          | cons s u =>
            cases e
            exact .inl ⟨u, (h.lang hold _).1 hu⟩
    | stop => simp at hp
    | @tail C j x0 hC hdir hj hx0 =>
      rcases snoc_split hp.symm with ⟨rfl, _, _⟩ | ⟨y', rfl, rfl⟩
      · cases hd
      · have hX := h.oldRule hj X (by simp)
        have hold : ∀ z ∈ y', Old g.order z := fun z hz => h.oldRule hj z (by simp [hz])
        refine ⟨fun _ => ⟨C, j, C :: x, y', hj, fun _ => by simp, ?_⟩, fun A hA _ e => absurd e (hX A hA)⟩
        obtain ⟨u, v, e, hu, hv⟩ := derives_split hd _ _ rfl
        cases u with
        | nil =>
          simp only [List.nil_append] at e
          subst e
          obtain ⟨j', x', w', hr', hd'⟩ := h.primedFirst hC hdir hv
          exact .inr ⟨(h.lang hold _).1 hu, .next (x := []) hr' hd'⟩
        | cons s u =>
          cases e
          exact .inl ⟨u, (h.lang hold _).1 hu⟩
  | @last X B k x y t hr hd hf ih =>
    generalize hp : x ++ X :: y = p at hr
    cases h.form hr with
    | @same B j p hB hj hh =>
      subst hp
      have hX := h.oldRule hj X (by simp)
      have hy := (h.lang (fun z hz => h.oldRule hj z (by simp [hz])) _).1 hd
      refine ⟨fun _ => ⟨B, j, x, y, hj, fun e => ?_, .inr ⟨hy, outer_follow (ih.1 hB)⟩⟩, fun A hA _ e => absurd e (hX A hA)⟩
      rintro rfl
      exact hh (by simp [e])
    | @head B j q hB hdir hj hh =>
      rcases snoc_split hp.symm with ⟨rfl, rfl, rfl⟩ | ⟨y', rfl, rfl⟩
      · refine ⟨fun hX => absurd rfl (h.old hX B hB), fun A hA _ e => ?_⟩
        rw [← primed_inj e]
        exact ih.1 hB
      · have hX := h.oldRule hj X (by simp)
        have hold : ∀ z ∈ y', Old g.order z := fun z hz => h.oldRule hj z (by simp [hz])
        refine ⟨fun _ => ⟨B, j, x, y', hj, fun e => ?_, ?_⟩, fun A hA _ e => absurd e (hX A hA)⟩
        · rintro rfl
          exact hh (by simp [e])
        · obtain ⟨u, v, e, hu, hv⟩ := derives_split hd _ _ rfl
          obtain ⟨rfl, rfl⟩ := List.append_eq_nil_iff.1 e.symm
          exact .inr ⟨(h.lang hold _).1 hu, outer_follow (ih.1 hB)⟩
    | stop => simp at hp
    | @tail C j x0 hC hdir hj hx0 =>
      rcases snoc_split hp.symm with ⟨rfl, rfl, rfl⟩ | ⟨y', rfl, rfl⟩
      · exact ⟨fun hX => absurd rfl (h.old hX C hC), ih.2⟩
      · have hX := h.oldRule hj X (by simp)
        have hold : ∀ z ∈ y', Old g.order z := fun z hz => h.oldRule hj z (by simp [hz])
        refine ⟨fun _ => ⟨C, j, C :: x, y', hj, fun _ => by simp, ?_⟩, fun A hA _ e => absurd e (hX A hA)⟩
        obtain ⟨u, v, e, hu, hv⟩ := derives_split hd _ _ rfl
        obtain ⟨rfl, rfl⟩ := List.append_eq_nil_iff.1 e.symm
        exact .inr ⟨(h.lang hold _).1 hu, outer_follow (ih.2 C hC hdir rfl)⟩

theorem pairwise_of {β : Type} {R : β → β → Prop} {l : List β}
    (h : ∀ (i j : Nat) a b, l[i]? = some a → l[j]? = some b → i ≠ j → R a b) : l.Pairwise R :=
  List.pairwise_iff_getElem.2 fun i j hi hj hij =>
    h i j _ _ (List.getElem?_eq_getElem hi) (List.getElem?_eq_getElem hj) (by omega)

theorem of_pairwise {β : Type} {R : β → β → Prop} {l : List β} (hl : l.Pairwise R) (hs : ∀ a b, R a b → R b a) {i j : Nat} {a b}
    (hi : l[i]? = some a) (hj : l[j]? = some b) (hn : ¬ R a b) : i = j := by
  obtain ⟨hi', rfl⟩ := List.getElem?_eq_some_iff.1 hi
  obtain ⟨hj', rfl⟩ := List.getElem?_eq_some_iff.1 hj
  rcases Nat.lt_trichotomy i j with hlt | rfl | hlt
  · exact absurd (List.pairwise_iff_getElem.1 hl i j hi' hj' hlt) hn
  · rfl
  · exact absurd (hs _ _ (List.pairwise_iff_getElem.1 hl j i hj' hi' hlt)) hn

/-- No word of the one begins as a word of the other. -/
def Excl (G : Grammar Str) (p q : List Str) : Prop := ∀ t w w', G.Derives p (t :: w) → G.Derives q (t :: w') → False

theorem Excl.symm {G : Grammar Str} (p q) (h : Excl G p q) : Excl G q p := fun t w w' h1 h2 => h t w' w h2 h1

/-- The first terminal of a production to which the new symbol was added is one of the production. -/
theorem Plainly.firstOf (h : Plainly g M) {A k p x z t w} (hr : g.Rule A k p) (hx : ∀ y ∈ x, y ∈ p) (hne : x ≠ [])
    (hd : (removed g.order M).Derives (x ++ [z]) (t :: w)) : ∃ w', g.Derives x (t :: w') := by
  obtain ⟨u, v, e, hu, _⟩ := derives_split hd _ _ rfl
  have hu' := (h.lang (fun y hy => h.oldRule hr y (hx y hy)) u).1 hu
  cases u with
  | nil => exact absurd (h.noempty _ hu') hne
  | cons s u =>
    cases e
    exact ⟨u, hu'⟩

theorem Plainly.headsExcl (h : Plainly g M) (hl : g.DirectLL1) {A} (hA : A ∈ g.order) :
    (heads M A).Pairwise (Excl (removed g.order M)) := by
  unfold heads
  rw [List.pairwise_map, List.pairwise_filter]
  refine pairwise_of fun i j p q hp hq hij => ?_
  intro hhp hhq t w w' h1 h2
  have rp : g.Rule A i p := ⟨_, h.prods A hA, hp⟩
  have rq : g.Rule A j q := ⟨_, h.prods A hA, hq⟩
  obtain ⟨v, hv⟩ := h.firstOf rp (fun _ hy => hy) (h.ne_nil rp) h1
  obtain ⟨v', hv'⟩ := h.firstOf rq (fun _ hy => hy) (h.ne_nil rq) h2
  exact hij (hl.heads rp rq (by simpa using hhp) (by simpa using hhq) hv hv')

theorem Plainly.tailsExcl (h : Plainly g M) (hl : g.DirectLL1) {A} (hA : A ∈ g.order) :
    (tails M A).Pairwise (Excl (removed g.order M)) := by
  unfold tails
  rw [List.pairwise_append]
  refine ⟨?_, by simp, fun p _ q hq t w w' _ h2 => ?_⟩
  · rw [List.pairwise_map, List.pairwise_filter, List.pairwise_map, List.pairwise_filter]
    refine pairwise_of fun i j p q hp hq hij => ?_
    intro hhp hhq hnp hnq t w w' h1 h2
    have rp : g.Rule A i p := ⟨_, h.prods A hA, hp⟩
    have rq : g.Rule A j q := ⟨_, h.prods A hA, hq⟩
    obtain ⟨x, rfl, ex⟩ := drop_single h.single hA (List.mem_of_getElem? hp) (by simpa using hhp)
    obtain ⟨y, rfl, ey⟩ := drop_single h.single hA (List.mem_of_getElem? hq) (by simpa using hhq)
    rw [ex] at hnp h1
    rw [ey] at hnq h2
    obtain ⟨v, hv⟩ := h.firstOf rp (fun _ hy => .tail _ hy) (by simpa using hnp) h1
    obtain ⟨v', hv'⟩ := h.firstOf rq (fun _ hy => .tail _ hy) (by simpa using hnq) h2
    exact hij (hl.rests rp rq hv hv')
  · rw [List.mem_singleton.1 hq] at h2
    cases h2

/-- The only productions of the result that derive the empty word are the empty ones of the new symbols. -/
theorem Plainly.nilRule (h : Plainly g M) {X k p} (hr : (removed g.order M).Rule X k p) (hd : (removed g.order M).Derives p []) :
    ∃ A ∈ g.order, Direct M A ∧ X = primed A ∧ k + 1 = (tails M A).length := by
  have hp : p = [] ∧ X ∉ g.order := by
    cases h.form hr with
    | same hB hj => exact absurd ((h.lang (h.oldRule hj) _).1 hd) (h.no_nil hj)
    | head hB _ hj =>
      obtain ⟨u, v, e, hu, _⟩ := derives_split hd _ _ rfl
      obtain ⟨rfl, rfl⟩ := List.append_eq_nil_iff.1 e.symm
      exact absurd ((h.lang (h.oldRule hj) _).1 hu) (h.no_nil hj)
    | @stop A hA => exact ⟨rfl, fun hX => h.old hX A hA rfl⟩
    | tail hA _ hj hx =>
      obtain ⟨u, v, e, hu, _⟩ := derives_split hd _ _ rfl
      obtain ⟨rfl, rfl⟩ := List.append_eq_nil_iff.1 e.symm
      exact absurd (h.noempty _ ((h.lang (fun y hy => h.oldRule hj y (.tail _ hy)) _).1 hu)) hx
  obtain ⟨rfl, hX⟩ := hp
  rcases h.cases hr with ⟨hX', _⟩ | ⟨hX', _⟩ | ⟨A, hA, hdir, rfl, e⟩
  · exact absurd hX' hX
  · exact absurd hX' hX
  · refine ⟨A, hA, hdir, rfl, ?_⟩
    have hk := (List.getElem?_eq_some_iff.1 e).1
    unfold tails at e hk ⊢
    simp only [List.length_append, List.length_cons, List.length_nil] at hk ⊢
    refine Classical.byContradiction fun hne => ?_
    rw [List.getElem?_append_left (by omega)] at e
    have := List.mem_of_getElem? e
    simp at this

theorem Plainly.ll1 (h : Plainly g M) (hl : g.DirectLL1) : (removed g.order M).LL1 where
  first := by
    intro X k p k' p' t w w' hr hr' hd hd'
    rcases h.cases hr with ⟨hX, hnd, e⟩ | ⟨hX, hdir, e⟩ | ⟨A, hA, hdir, rfl, e⟩
    · rcases h.cases hr' with ⟨_, _, e'⟩ | ⟨_, hdir', _⟩ | ⟨A', hA', _, rfl, _⟩
      · have rp : g.Rule X k p := ⟨_, h.prods X hX, e⟩
        have rq : g.Rule X k' p' := ⟨_, h.prods X hX, e'⟩
        exact hl.heads rp rq (fun hh => hnd ⟨p, List.mem_of_getElem? e, hh⟩) (fun hh => hnd ⟨p', List.mem_of_getElem? e', hh⟩)
          ((h.lang (h.oldRule rp) _).1 hd) ((h.lang (h.oldRule rq) _).1 hd')
      · exact absurd hdir' hnd
      · exact absurd rfl (h.old hX A' hA')
    · rcases h.cases hr' with ⟨_, hnd', _⟩ | ⟨_, _, e'⟩ | ⟨A', hA', _, rfl, _⟩
      · exact absurd hdir hnd'
      · exact of_pairwise (h.headsExcl hl hX) (Excl.symm) e e' fun hx => hx t w w' hd hd'
      · exact absurd rfl (h.old hX A' hA')
    · rcases h.cases hr' with ⟨hX', _⟩ | ⟨hX', _⟩ | ⟨A', hA', _, eA, e'⟩
      · exact absurd rfl (h.old hX' A hA)
      · exact absurd rfl (h.old hX' A hA)
      · have := primed_inj eA
        subst this
        exact of_pairwise (h.tailsExcl hl hA) (Excl.symm) e e' fun hx => hx t w w' hd hd'
  empty := by
    intro X k p k' p' hr hr' hd hd'
    obtain ⟨A, _, _, rfl, e⟩ := h.nilRule hr hd
    obtain ⟨A', _, _, eA, e'⟩ := h.nilRule hr' hd'
    have := primed_inj eA
    subst this
    omega
  follow := by
    intro X k p k' p' t w hr hr' hd hd' hf
    obtain ⟨A, hA, hdir, rfl, e⟩ := h.nilRule hr hd
    obtain ⟨j, x, w', hj, hx⟩ := h.primedFirst hA hdir (t := t) (w := w) (by simpa using Derives.nonterm hr' hd' .nil)
    exact absurd ((h.follow hf).2 A hA hdir rfl) (hl.stop hj hx)

theorem Plainly.emptyLast (h : Plainly g M) : (removed g.order M).EmptyLast := by
  intro X k p k' p' hr hd hr'
  obtain ⟨A, hA, hdir, rfl, e⟩ := h.nilRule hr hd
  rcases h.cases hr' with ⟨hX', _⟩ | ⟨hX', _⟩ | ⟨A', hA', _, eA, e'⟩
  · exact absurd rfl (h.old hX' A hA)
  · exact absurd rfl (h.old hX' A hA)
  · have := primed_inj eA
    subst this
    have := (List.getElem?_eq_some_iff.1 e').1
    omega

theorem Plainly.productive (h : Plainly g M) (hp : g.Productive) : (removed g.order M).Productive := by
  intro X ps e
  by_cases hX : X ∈ g.order
  · obtain ⟨w, hw⟩ := hp X _ (h.prods X hX)
    exact ⟨w, (h.lang (by simpa using h.old hX) w).2 hw⟩
  · simp only [removed, hX, if_false, Option.map_eq_some_iff] at e
    obtain ⟨A, hA, _⟩ := e
    have h2 := List.find?_some hA
    simp only [Bool.and_eq_true, decide_eq_true_eq] at h2
    rw [← h2.2]
    exact ⟨[], primed_nil (fun B hB => h.old hB) (List.mem_of_find?_eq_some hA) h2.1⟩

end Verif.Spec.RemoveLR
