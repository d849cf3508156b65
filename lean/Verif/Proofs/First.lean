import Verif.Spec.First
import Verif.Proofs.CFG
/- Facts relating sentential forms, leftmost steps and leftmost chains. -/
namespace Verif.Spec.Grammar

variable {α : Type} {g : Grammar α}

theorem Derives.split_nil {ss w : List α} (h : g.Derives ss w) : w = [] → ∀ a b, ss = a ++ b →
    g.Derives a [] ∧ g.Derives b [] := by
  induction h with
  | nil =>
    intro _ a b e
    obtain ⟨rfl, rfl⟩ := List.append_eq_nil_iff.1 e.symm
    exact ⟨.nil, .nil⟩
  | term => intro e; cases e
  | @nonterm A k p ss u v hr hp hs _ ih2 =>
    intro e a b e'
    obtain ⟨rfl, rfl⟩ := List.append_eq_nil_iff.1 e
    cases a with
    | nil => subst e'; exact ⟨.nil, .nonterm (u := []) (v := []) hr hp hs⟩
    | cons X a =>
      simp only [List.cons_append, List.cons.injEq] at e'
      obtain ⟨rfl, e'⟩ := e'
      obtain ⟨h1, h2⟩ := ih2 rfl a b e'
      exact ⟨.nonterm (u := []) (v := []) hr hp h1, h2⟩

theorem Derives.append_nil_iff {a b : List α} :
    g.Derives (a ++ b) [] ↔ g.Derives a [] ∧ g.Derives b [] :=
  ⟨fun h => h.split_nil rfl a b rfl, fun h => by simpa using h.1.append h.2⟩

theorem Yields.trans {x y z : List α} (h1 : g.Yields x y) (h2 : g.Yields y z) : g.Yields x z := by
  induction h1 with
  | refl => exact h2
  | step h _ ih => exact .step h (ih h2)

theorem Step.context {x y : List α} (h : g.Step x y) (l r : List α) : g.Step (l ++ x ++ r) (l ++ y ++ r) := by
  cases h with
  | mk u v hr =>
    have := Step.mk (l ++ u) (v ++ r) hr
    simpa using this

theorem Yields.context {x y : List α} (h : g.Yields x y) (l r : List α) :
    g.Yields (l ++ x ++ r) (l ++ y ++ r) := by
  induction h with
  | refl => exact .refl
  | step h _ ih => exact .step (h.context l r) ih

theorem Derives.yields {ss w : List α} (h : g.Derives ss w) : g.Yields ss w := by
  induction h with
  | nil => exact .refl
  | @term t ss w _ _ ih => simpa using ih.context [t] []
  | @nonterm A k p ss u v hr _ _ ih1 ih2 =>
    have h1 : g.Step ([] ++ A :: ss) ([] ++ p ++ ss) := .mk [] ss hr
    have h2 := ih1.context [] ss
    have h3 := ih2.context u []
    simp only [List.nil_append, List.append_nil] at h1 h2 h3
    exact .step h1 (h2.trans h3)

/-- The first symbol of a sentential form comes from a symbol before which everything vanishes. -/
theorem Yields.head {x y : List α} (h : g.Yields x y) : ∀ t w, y = t :: w →
    ∃ pre X post, x = pre ++ X :: post ∧ g.Derives pre [] ∧ (X = t ∨ Plus g.LeftStep X t) := by
  induction h with
  | refl => intro t w e; exact ⟨[], t, w, e, .nil, .inl rfl⟩
  | @step x y z hs _ ih =>
    intro t w e
    obtain ⟨pre, X, post, e1, hn, hX⟩ := ih t w e
    cases hs with
    | @mk A k p u v hr =>
      rw [List.append_assoc, List.append_eq_append_iff] at e1
      rcases e1 with ⟨a, e1, e2⟩ | ⟨a, e1, e2⟩
      · -- the symbol comes from the production or from what follows it
        rw [List.append_eq_append_iff] at e2
        subst e1
        obtain ⟨hu, ha⟩ := Derives.append_nil_iff.1 hn
        rcases e2 with ⟨b, e2, e3⟩ | ⟨b, e2, e3⟩
        · subst e2
          obtain ⟨hp, hb⟩ := Derives.append_nil_iff.1 ha
          refine ⟨u ++ A :: b, X, post, by simp [e3], ?_, hX⟩
          exact Derives.append_nil_iff.2 ⟨hu, Derives.nonterm (u := []) (v := []) hr hp hb⟩
        · cases b with
          | nil =>
            simp only [List.nil_append] at e3
            simp only [List.append_nil] at e2
            subst e2
            refine ⟨u ++ [A], X, post, by simp [← e3], ?_, hX⟩
            exact Derives.append_nil_iff.2 ⟨hu, Derives.nonterm (u := []) (v := []) hr ha .nil⟩
          | cons X' b =>
            simp only [List.cons_append, List.cons.injEq] at e3
            obtain ⟨rfl, rfl⟩ := e3
            subst e2
            have hl : g.LeftStep A X := ⟨k, a, b, hr, ha⟩
            refine ⟨u, A, v, rfl, hu, .inr ?_⟩
            rcases hX with rfl | hX
            · exact .one hl
            · exact .step hl hX
      · cases a with
        | nil =>
          simp only [List.append_nil, List.nil_append] at e1 e2
          subst e1
          -- the symbol is the head of `p ++ v`
          cases p with
          | nil =>
            simp only [List.nil_append] at e2
            refine ⟨u ++ [A], X, post, by simp [← e2], ?_, hX⟩
            exact Derives.append_nil_iff.2 ⟨hn, Derives.nonterm (u := []) (v := []) hr .nil .nil⟩
          | cons Y p =>
            simp only [List.cons_append, List.cons.injEq] at e2
            obtain ⟨rfl, rfl⟩ := e2
            have hl : g.LeftStep A X := ⟨k, [], p, hr, .nil⟩
            refine ⟨u, A, v, rfl, hn, .inr ?_⟩
            rcases hX with rfl | hX
            · exact .one hl
            · exact .step hl hX
        | cons X' a =>
          simp only [List.cons_append, List.cons.injEq] at e2
          obtain ⟨rfl, rfl⟩ := e2
          exact ⟨pre, X, a ++ A :: v, by simp [e1], hn, hX⟩

theorem LeftStep.first {A B : α} (h : g.LeftStep A B) : g.First A B := by
  obtain ⟨k, pre, post, hr, hn⟩ := h
  have h1 : g.Step ([] ++ A :: []) ([] ++ (pre ++ B :: post) ++ []) := .mk [] [] hr
  have h2 := hn.yields.context [] (B :: post)
  simp only [List.nil_append, List.append_nil] at h1 h2
  exact ⟨post, .step h1 h2⟩

theorem first_trans {A B C : α} (h1 : g.First A B) (h2 : g.First B C) : g.First A C := by
  obtain ⟨w, h1⟩ := h1
  obtain ⟨v, h2⟩ := h2
  exact ⟨v ++ w, h1.trans (by simpa using h2.context [] w)⟩

/-- Sentential forms beginning with another symbol are reached exactly by leftmost steps. -/
theorem first_iff {A t : α} : g.First A t ↔ A = t ∨ Plus g.LeftStep A t := by
  constructor
  · rintro ⟨w, h⟩
    obtain ⟨pre, X, post, e, _, hX⟩ := h.head t w rfl
    cases pre with
    | nil => cases e; exact hX
    | cons Y pre => simp at e
  · rintro (rfl | h)
    · exact ⟨[], .refl⟩
    · induction h with
      | one h => exact h.first
      | step h _ ih => exact first_trans h.first ih

theorem Derives.leftNil {ss w : List α} (h : g.Derives ss w) : w = [] → ∀ X ∈ ss, g.LeftNil X := by
  induction h with
  | nil => simp
  | term => intro h; cases h
  | @nonterm A k p ss u v hr _ _ ih1 ih2 =>
    intro e
    obtain ⟨rfl, rfl⟩ := List.append_eq_nil_iff.1 e
    intro X hX
    rcases List.mem_cons.1 hX with rfl | hX
    · cases p with
      | nil => exact .empty hr
      | cons B p => exact .left hr (ih1 rfl B (by simp))
    · exact ih2 rfl X hX

/-- Leftmost steps are scan steps. -/
theorem LeftStep.scan {A B : α} (h : g.LeftStep A B) : g.ScanStep A B := by
  obtain ⟨k, pre, post, hr, hn⟩ := h
  exact ⟨k, pre, post, hr, hn.leftNil rfl⟩

theorem Plus.mono {β : Type} {R S : β → β → Prop} (h : ∀ a b, R a b → S a b) {a b} (p : Plus R a b) :
    Plus S a b := by
  induction p with
  | one r => exact .one (h _ _ r)
  | step r _ ih => exact .step (h _ _ r) ih

theorem derives_nil_of {pre : List α} (h : ∀ X ∈ pre, g.Derives [X] []) : g.Derives pre [] := by
  induction pre with
  | nil => exact .nil
  | cons X pre ih =>
    have := (h X (by simp)).append (ih fun Y hY => h Y (by simp [hY]))
    simpa using this

theorem ScanStep.left (hn : g.LeftNilIsNullable) {A B : α} (h : g.ScanStep A B) : g.LeftStep A B := by
  obtain ⟨k, pre, post, hr, hl⟩ := h
  exact ⟨k, pre, post, hr, derives_nil_of fun X hX => hn X (hl X hX)⟩

theorem scanAcyclic_of (hn : g.LeftNilIsNullable) (h : ¬ g.LeftRecursive) : g.ScanAcyclic :=
  fun A hA => h ⟨A, Plus.mono (fun _ _ => ScanStep.left hn) hA⟩

/-- Without empty productions nothing is `LeftNil`. -/
theorem not_leftNil (h : ∀ A k, ¬ g.Rule A k []) {A : α} : ¬ g.LeftNil A := by
  intro hl
  induction hl with
  | empty hr => exact h _ _ hr
  | left _ _ ih => exact ih

end Verif.Spec.Grammar
