import Verif.Spec.LL1
import Verif.Proofs.CFG
/-
A check for LL(1) grammars by tables of first and following symbols, used for concrete cases.
-/
namespace Verif.Spec.Grammar

variable {α : Type} {g : Grammar α} {nul : α → Bool} {fst fol : α → List α}

/-- All symbols can be empty. -/
def nulS (nul : α → Bool) (p : List α) : Bool := p.all nul

/-- First symbols of a sequence. -/
def fstS (nul : α → Bool) (fst : α → List α) : List α → List α
  | [] => []
  | X :: p => fst X ++ (if nul X then fstS nul fst p else [])

/-- Symbols with what stands after them. -/
def ctxs : List α → List (α × List α)
  | [] => []
  | X :: p => (X, p) :: ctxs p

theorem mem_ctxs (A : α) (y : List α) : ∀ x, (A, y) ∈ ctxs (x ++ A :: y)
  | [] => by simp [ctxs]
  | _ :: x => by simp [ctxs, mem_ctxs A y x]

/-- The tables contain at least what they have to. -/
structure Tables (g : Grammar α) (nul : α → Bool) (fst fol : α → List α) : Prop where
  term : ∀ t, g.Term t → t ∈ fst t
  isNul : ∀ A k p, g.Rule A k p → nulS nul p = true → nul A = true
  isFst : ∀ A k p, g.Rule A k p → ∀ t ∈ fstS nul fst p, t ∈ fst A
  next : ∀ B k p, g.Rule B k p → ∀ c ∈ ctxs p, ∀ t ∈ fstS nul fst c.2, t ∈ fol c.1
  last : ∀ B k p, g.Rule B k p → ∀ c ∈ ctxs p, nulS nul c.2 = true → ∀ t ∈ fol B, t ∈ fol c.1

theorem Tables.derives (h : Tables g nul fst fol) {ss w : List α} (hd : g.Derives ss w) :
    (w = [] → nulS nul ss = true) ∧ ∀ t u, w = t :: u → t ∈ fstS nul fst ss := by
  induction hd with
  | nil => exact ⟨fun _ => rfl, fun t u e => by cases e⟩
  | term ht _ _ =>
    refine ⟨(fun e => by cases e), fun t u e => ?_⟩
    cases e
    simp [fstS, h.term _ ht]
  | @nonterm A k p ss u v hr _ _ ih1 ih2 =>
    refine ⟨fun e => ?_, fun t w e => ?_⟩
    · obtain ⟨e1, e2⟩ := List.append_eq_nil_iff.mp e
      have h1 := h.isNul _ _ _ hr (ih1.1 e1)
      have h2 := ih2.1 e2
      simp only [nulS, List.all_cons, h1, Bool.true_and]
      exact h2
    · cases u with
      | nil =>
        have h1 := h.isNul _ _ _ hr (ih1.1 rfl)
        simp only [fstS, h1, if_true, List.mem_append]
        exact .inr (ih2.2 t w e)
      | cons x u =>
        cases e
        simp only [fstS, List.mem_append]
        exact .inl (h.isFst _ _ _ hr _ (ih1.2 _ _ rfl))

theorem Tables.follow (h : Tables g nul fst fol) {A t : α} (hf : g.Follow A t) : t ∈ fol A := by
  induction hf with
  | next hr hd => exact h.next _ _ _ hr _ (mem_ctxs _ _ _) _ ((h.derives hd).2 _ _ rfl)
  | last hr hd _ ih => exact h.last _ _ _ hr _ (mem_ctxs _ _ _) ((h.derives hd).1 rfl) _ ih

/-- The conditions, by tables. -/
theorem Tables.ll1 (h : Tables g nul fst fol)
    (h1 : ∀ A k p k' p', g.Rule A k p → g.Rule A k' p' → k ≠ k' → ∀ t ∈ fstS nul fst p, t ∉ fstS nul fst p')
    (h2 : ∀ A k p k' p', g.Rule A k p → g.Rule A k' p' → k ≠ k' → nulS nul p = true → nulS nul p' = false ∧ ∀ t ∈ fstS nul fst p', t ∉ fol A) : g.LL1 where
  first hr hr' hd hd' := Classical.byContradiction fun hne => h1 _ _ _ _ _ hr hr' hne _ ((h.derives hd).2 _ _ rfl) ((h.derives hd').2 _ _ rfl)
  empty hr hr' hd hd' := Classical.byContradiction fun hne => by
    have := (h2 _ _ _ _ _ hr hr' hne ((h.derives hd).1 rfl)).1
    rw [(h.derives hd').1 rfl] at this
    cases this
  follow hr hr' hd hd' hf := Classical.byContradiction fun hne =>
    (h2 _ _ _ _ _ hr hr' hne ((h.derives hd).1 rfl)).2 _ ((h.derives hd').2 _ _ rfl) (h.follow hf)

theorem Tables.emptyLast (h : Tables g nul fst fol) (h1 : ∀ A k p k' p', g.Rule A k p → g.Rule A k' p' → nulS nul p = true → k' ≤ k) : g.EmptyLast :=
  fun A k p k' p' hr hd hr' => h1 A k p k' p' hr hr' ((h.derives hd).1 rfl)

end Verif.Spec.Grammar
