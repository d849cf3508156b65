import Verif.Props.TopdownShape
import Verif.Props.PackratWork
/-
The number of nodes of the trees that the top-down parser returns (C92).
-/
namespace Verif.Props.TopdownSize
open Verif.Spec Verif.Spec.Grammar Verif.Spec.PN Verif.Topdown Verif.Props.Topdown Verif.Props.TopdownShape Verif.Props.PackratWork

variable {α V : Type} [DecidableEq α]

/-- C92: for every grammar the number of nodes of the tree that the top-down parser returns is at most linear in the number of lexemes: with
`N` nonterminals and productions of at most `r` symbols, at most `(1 + r ((r + 1)^N + 1)) N (2 n + 1) + 1`. -/
theorem C92_nodes_linear (ev : V) (g : Grammar α) (hg : g.WF) {r : Nat} (hr : ∀ A k p, g.Rule A k p → p.length ≤ r)
    (ls : List (Lexeme α V)) {n t} (h : parse ev g ls n = .ok (some t)) :
    nodes t ≤ (1 + r * ((r + 1) ^ g.order.length + 1)) * g.order.length * (2 * ls.length + 1) + 1 := by
  obtain ⟨hS, hv, hf⟩ := C14_sound ev g hg ls h
  have hw : width g t = ls.length := by unfold width; rw [hf]
  have hk : t.kind ∈ g.order := List.mem_of_mem_head? hS
  rw [← hw]
  exact nodes_all hr (Finset.card_pos.2 ⟨_, List.mem_toFinset.2 hk⟩) (List.toFinset_card_le _) hv (C92_no_repeat ev g hg ls h) fun u _ hT =>
    List.mem_toFinset.2 ((hg _).1 (by
      cases hp : g.prods u.kind with
      | none => exact absurd hp hT
      | some _ => rfl))

open Verif.Props.Packrat in
-- `S → b | S a` on `b a`: at most 46 nodes
example : ∃ t, Out.Returns (parse 0 gL (lexs [2, 1])) (some t) ∧ nodes t ≤ 46 := by
  have h : Out.Returns (parse 0 gL (lexs [2, 1])) (some (.node ⟨0, 0, -1, 0⟩ [.node ⟨0, 0, -1, 0⟩ [.node ⟨2, 100, 1, 0⟩ []], .node ⟨1, 101, 1, 1⟩ []])) := by
    refine (C15_ordered_choice 0 gL (table_wf _) _ _).2 ⟨_, rfl, ?_⟩
    have b : Match gL 0 (lexs [2, 1]) (.seq [2]) 0 (some (1, [.node ⟨2, 100, 1, 0⟩ []])) :=
      .seq_cons (ts := [_]) (.term_ok (by decide) rfl rfl) .seq_nil
    refine .miss b (by simp [lexs]) (.hit (.seq_cons (ts := [_]) (.nonterm rfl (.alts_ok b)) ?_))
    exact .seq_cons (ts := [_]) (.term_ok (by decide) rfl rfl) .seq_nil
  obtain ⟨N, hN⟩ := h
  refine ⟨_, ⟨N, hN⟩, C92_nodes_linear (r := 2) 0 gL (table_wf _) ?_ _ (hN N (Nat.le_refl _))⟩
  rintro A k p ⟨ps, h1, h2⟩
  match A, h1 with
  | 0, h1 =>
    cases h1
    match k with
    | 0 => cases h2; simp
    | 1 => cases h2; simp
    | k + 2 => simp at h2
  | A + 1, h1 => cases h1

end Verif.Props.TopdownSize
