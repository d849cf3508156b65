import Verif.Model.StackLexerText
import Verif.Spec.RegexpMarks
/-
`regexp.Compile` for stack lexers (lexer/stacklexer/construct.go:193), for the expressions covered by Model/Regexp.lean.
-/
namespace Verif.StackLexer
open Verif Verif.SetSymbol Verif.Spec
open Verif.SimpleLexer (Bytes)

theorem againP_le {f : Bytes × Marks → List (Bytes × Marks)} {P : Bytes × Marks → Bytes × Marks → Prop} (refl : ∀ a, P a a)
    (trans : ∀ a b c, P a b → P b c → P a c) (h : ∀ st, ∀ q ∈ f st, P st q) : ∀ n st, ∀ q ∈ againP f n st, P st q
  | 0, st, q, hq => by
    rw [againP, List.mem_singleton] at hq
    rw [hq]
    exact refl _
  | n + 1, st, q, hq => by
    rw [againP, List.mem_append, List.mem_flatMap, List.mem_singleton] at hq
    rcases hq with ⟨p, hp, hq⟩ | rfl
    · exact trans _ _ _ (h st p (List.mem_filter.1 hp).1) (againP_le refl trans h n p q hq)
    · exact refl _

/-- What a match leaves is no longer than the text, and so are captures. -/
structure Shrinks (st q : Bytes × Marks) : Prop where
  le : q.1.length ≤ st.1.length
  marks : ∀ m ∈ q.2, m ∈ st.2 ∨ (m.2.2 ≤ m.2.1 ∧ m.2.1 ≤ st.1.length)

theorem shrinks_refl (a : Bytes × Marks) : Shrinks a a := ⟨Nat.le_refl _, fun _ h => .inl h⟩

theorem shrinks_trans (a b c : Bytes × Marks) (h : Shrinks a b) (h' : Shrinks b c) : Shrinks a c := by
  refine ⟨Nat.le_trans h'.le h.le, fun m hm => ?_⟩
  rcases h'.marks m hm with hm | ⟨h1, h2⟩
  · exact h.marks m hm
  · exact .inr ⟨h1, Nat.le_trans h2 h.le⟩

theorem runP_shrinks : ∀ (r : Rex) (st : Bytes × Marks), ∀ q ∈ r.runP decode st, Shrinks st q
  | .eps, st, q, h => by
    rw [Rex.runP, List.mem_singleton] at h
    rw [h]
    exact shrinks_refl _
  | .cls c, st, q, h => by
    rw [Rex.runP] at h
    split at h
    · split at h
      · rw [List.mem_singleton] at h
        rw [h]
        exact ⟨by simp, fun m hm => .inl hm⟩
      · cases h
    · cases h
  | .fin, st, q, h => by
    rw [Rex.runP] at h
    split at h
    · rw [List.mem_singleton] at h
      rw [h]
      exact shrinks_refl _
    · cases h
  | .seq a b, st, q, h => by
    rw [Rex.runP, List.mem_flatMap] at h
    obtain ⟨p, hp, hq⟩ := h
    exact shrinks_trans _ _ _ (runP_shrinks a st p hp) (runP_shrinks b p q hq)
  | .alt a b, st, q, h => by
    rw [Rex.runP, List.mem_append] at h
    rcases h with h | h
    · exact runP_shrinks a st q h
    · exact runP_shrinks b st q h
  | .star a, st, q, h => againP_le shrinks_refl shrinks_trans (runP_shrinks a) _ st q h
  | .cap n a, st, q, h => by
    rw [Rex.runP, List.mem_map] at h
    obtain ⟨p, hp, rfl⟩ := h
    have := runP_shrinks a st p hp
    refine ⟨this.le, fun m hm => ?_⟩
    rcases List.mem_cons.1 hm with rfl | hm
    · exact .inr ⟨this.le, Nat.le_refl _⟩
    · exact this.marks m hm

theorem findP_bound (r : Rex) (L : Nat) : ∀ (n : Nat) (s : Bytes) (a e : Nat) (k : Marks), s.length ≤ L → r.findP L n s = some (a, e, k) →
    a ≤ e ∧ e ≤ L ∧ ∀ m ∈ k, m.2.2 ≤ m.2.1 ∧ m.2.1 ≤ L := by
  have here : ∀ (s : Bytes) (q : Bytes × Marks), s.length ≤ L → (r.runP decode (s, [])).head? = some q →
      L - s.length ≤ L - q.1.length ∧ L - q.1.length ≤ L ∧ ∀ m ∈ q.2, m.2.2 ≤ m.2.1 ∧ m.2.1 ≤ L := by
    intro s q hs hq
    have := runP_shrinks r (s, []) q (List.mem_of_head? hq)
    refine ⟨by have := this.le; simp at this; omega, by omega, fun m hm => ?_⟩
    rcases this.marks m hm with h | ⟨h1, h2⟩
    · cases h
    · exact ⟨h1, Nat.le_trans h2 hs⟩
  intro n
  induction n with
  | zero =>
    intro s a e k hs h
    rw [Rex.findP, Option.map_eq_some_iff] at h
    obtain ⟨q, hq, h⟩ := h
    cases h
    exact here s q hs hq
  | succ n ih =>
    intro s a e k hs h
    rw [Rex.findP] at h
    split at h
    · next q hq =>
      cases h
      exact here s q hs hq
    · split at h
      · exact ih _ a e k (by simp; omega) h
      · cases h

/-- A `*regexp.Regexp` for an expression, as stack lexers use it (lex.go:99, 169). -/
def ofRex (r : Rex) : Re where
  num := r.caps
  find := fun s => (r.findP s.length s.length s).map fun m => (m.1, m.2.1, (List.range r.caps).map fun i => bounds s.length m.2.2 (i + 1))
  bound := by
    intro s a b g h
    rw [Option.map_eq_some_iff] at h
    obtain ⟨⟨a', e', k⟩, h1, h2⟩ := h
    cases h2
    have := findP_bound r _ _ s _ _ _ (Nat.le_refl _) h1
    exact ⟨this.1, this.2.1⟩
  groups := by
    intro s a b g h
    rw [Option.map_eq_some_iff] at h
    obtain ⟨⟨a', e', k⟩, h1, h2⟩ := h
    cases h2
    have hk := (findP_bound r _ _ s _ _ _ (Nat.le_refl _) h1).2.2
    refine ⟨by simp, fun x hx => ?_⟩
    rw [List.mem_map] at hx
    obtain ⟨i, -, rfl⟩ := hx
    unfold bounds
    split
    · next q hq =>
      have := hk q (List.mem_of_find?_eq_some hq)
      right
      simp only
      omega
    · exact .inl rfl

/-- `regexp.Compile` (construct.go:193) for expressions in ASCII. -/
def compile (p : Bytes) : Option Re := (SimpleLexer.compileRex p).map ofRex

end Verif.StackLexer
