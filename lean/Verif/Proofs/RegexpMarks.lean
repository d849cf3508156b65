import Verif.Model.StackLexerRex
/-
The bounds of captures are those of their texts.
-/
namespace Verif.Spec
variable {β : Type}

/-- The text between bounds. -/
def toCap (b : List β) (m : Nat × Nat × Nat) : Nat × List β := (m.1, (b.drop (b.length - m.2.1)).take (m.2.1 - m.2.2))

/-- The state with texts instead of bounds. -/
def texts (b : List β) (q : List β × Marks) : List β × Caps β := (q.1, q.2.map (toCap b))

theorem flatMap_same {α γ : Type} {l : List α} {f g : α → List γ} (h : ∀ x ∈ l, f x = g x) : l.flatMap f = l.flatMap g := by
  rw [List.flatMap_def, List.flatMap_def, List.map_congr_left h]

theorem againP_again {b : List β} {f : List β × Marks → List (List β × Marks)} {g : List β × Caps β → List (List β × Caps β)}
    (h : ∀ st, st.1 <:+ b → (f st).map (texts b) = g (texts b st)) (hs : ∀ st, ∀ q ∈ f st, q.1 <:+ st.1) : ∀ n st, st.1 <:+ b →
    (againP f n st).map (texts b) = again g n (texts b st)
  | 0, st, _ => rfl
  | n + 1, st, hst => by
    rw [againP, again, List.map_append, ← h st hst, List.filter_map, List.map_flatMap, List.flatMap_map]
    congr 1
    refine flatMap_same fun q hq => ?_
    exact againP_again h hs n q ((hs st q (List.mem_filter.1 hq).1).trans hst)

theorem againP_suffix {f : List β × Marks → List (List β × Marks)} (hs : ∀ st, ∀ q ∈ f st, q.1 <:+ st.1) : ∀ n st, ∀ q ∈ againP f n st, q.1 <:+ st.1
  | 0, st, q, hq => by
    rw [againP, List.mem_singleton] at hq
    rw [hq]
    exact List.suffix_refl _
  | n + 1, st, q, hq => by
    rw [againP, List.mem_append, List.mem_flatMap, List.mem_singleton] at hq
    rcases hq with ⟨p, hp, hq⟩ | rfl
    · exact (againP_suffix hs n p q hq).trans (hs st p (List.mem_filter.1 hp).1)
    · exact List.suffix_refl _

variable (next : List β → Option (Nat × Nat))

theorem runP_suffix : ∀ (r : Rex) (st : List β × Marks), ∀ q ∈ r.runP next st, q.1 <:+ st.1
  | .eps, st, q, h => by
    rw [Rex.runP, List.mem_singleton] at h
    rw [h]
    exact List.suffix_refl _
  | .cls c, st, q, h => by
    rw [Rex.runP] at h
    split at h
    · split at h
      · rw [List.mem_singleton] at h
        rw [h]
        exact List.drop_suffix _ _
      · cases h
    · cases h
  | .fin, st, q, h => by
    rw [Rex.runP] at h
    split at h
    · rw [List.mem_singleton] at h
      rw [h]
      exact List.suffix_refl _
    · cases h
  | .seq a b, st, q, h => by
    rw [Rex.runP, List.mem_flatMap] at h
    obtain ⟨p, hp, hq⟩ := h
    exact (runP_suffix b p q hq).trans (runP_suffix a st p hp)
  | .alt a b, st, q, h => by
    rw [Rex.runP, List.mem_append] at h
    rcases h with h | h
    · exact runP_suffix a st q h
    · exact runP_suffix b st q h
  | .star a, st, q, h => againP_suffix (runP_suffix a) _ st q h
  | .cap n a, st, q, h => by
    rw [Rex.runP, List.mem_map] at h
    obtain ⟨p, hp, rfl⟩ := h
    exact runP_suffix a st p hp

theorem suffix_drop {b s : List β} (h : s <:+ b) : b.drop (b.length - s.length) = s := by
  obtain ⟨t, rfl⟩ := h
  simp

theorem runP_run (b : List β) : ∀ (r : Rex) (st : List β × Marks), st.1 <:+ b → (r.runP next st).map (texts b) = r.run next (texts b st)
  | .eps, st, _ => rfl
  | .cls c, st, _ => by
    simp only [Rex.runP, Rex.run, texts]
    cases next st.1 with
    | none => rfl
    | some q => simp only; split <;> rfl
  | .fin, st, _ => by by_cases h : st.1.length = 0 <;> simp [Rex.runP, Rex.run, texts, h]
  | .seq x y, st, h => by
    rw [Rex.runP, Rex.run, ← runP_run b x st h, List.map_flatMap, List.flatMap_map]
    refine flatMap_same fun q hq => ?_
    exact runP_run b y q ((runP_suffix next x st q hq).trans h)
  | .alt x y, st, h => by rw [Rex.runP, Rex.run, List.map_append, runP_run b x st h, runP_run b y st h]
  | .star x, st, h => againP_again (runP_run b x) (runP_suffix next x) _ st h
  | .cap n x, st, h => by
    rw [Rex.runP, Rex.run, ← runP_run b x st h, List.map_map, List.map_map]
    refine List.map_congr_left fun q hq => ?_
    simp only [Function.comp, texts, List.map_cons, toCap, suffix_drop h]

/-- The numbers of captures. -/
theorem runP_caps : ∀ (r : Rex) (st : List β × Marks), ∀ q ∈ r.runP next st, ∀ m ∈ q.2, m ∈ st.2 ∨ m.1 ≤ r.caps
  | .eps, st, q, h, m, hm => by
    rw [Rex.runP, List.mem_singleton] at h
    rw [h] at hm
    exact .inl hm
  | .cls c, st, q, h, m, hm => by
    rw [Rex.runP] at h
    split at h
    · split at h
      · rw [List.mem_singleton] at h
        rw [h] at hm
        exact .inl hm
      · cases h
    · cases h
  | .fin, st, q, h, m, hm => by
    rw [Rex.runP] at h
    split at h
    · rw [List.mem_singleton] at h
      rw [h] at hm
      exact .inl hm
    · cases h
  | .seq a b, st, q, h, m, hm => by
    rw [Rex.runP, List.mem_flatMap] at h
    obtain ⟨p, hp, hq⟩ := h
    rw [Rex.caps]
    rcases runP_caps b p q hq m hm with h1 | h1
    · rcases runP_caps a st p hp m h1 with h2 | h2
      · exact .inl h2
      · exact .inr (by omega)
    · exact .inr (by omega)
  | .alt a b, st, q, h, m, hm => by
    rw [Rex.runP, List.mem_append] at h
    rw [Rex.caps]
    rcases h with h | h
    · rcases runP_caps a st q h m hm with h1 | h1
      · exact .inl h1
      · exact .inr (by omega)
    · rcases runP_caps b st q h m hm with h1 | h1
      · exact .inl h1
      · exact .inr (by omega)
  | .star a, st, q, h, m, hm => by
    have : ∀ n st, ∀ q ∈ againP (a.runP next) n st, ∀ m ∈ q.2, m ∈ st.2 ∨ m.1 ≤ a.caps := by
      intro n
      induction n with
      | zero =>
        intro st q hq m hm
        rw [againP, List.mem_singleton] at hq
        rw [hq] at hm
        exact .inl hm
      | succ n ih =>
        intro st q hq m hm
        rw [againP, List.mem_append, List.mem_flatMap, List.mem_singleton] at hq
        rcases hq with ⟨p, hp, hq⟩ | rfl
        · rcases ih p q hq m hm with h1 | h1
          · exact runP_caps a st p (List.mem_filter.1 hp).1 m h1
          · exact .inr h1
        · exact .inl hm
    exact this _ st q h m hm
  | .cap n a, st, q, h, m, hm => by
    rw [Rex.runP, List.mem_map] at h
    obtain ⟨p, hp, rfl⟩ := h
    rw [Rex.caps]
    rcases List.mem_cons.1 hm with rfl | hm
    · exact .inr (by simp only; omega)
    · rcases runP_caps a st p hp m hm with h1 | h1
      · exact .inl h1
      · exact .inr (by omega)

/-- The match found with bounds is the match found with texts. -/
theorem findP_find (r : Rex) (b : List UInt8) : ∀ (n : Nat) (s : List UInt8), s <:+ b →
    (r.findP b.length n s).map (fun m => ((b.drop m.1).take (m.2.1 - m.1), m.2.2.map (toCap b))) = r.find decode n s := by
  have here : ∀ s : List UInt8, s <:+ b → (r.runP decode (s, [])).head?.map (texts b) = r.first decode s := by
    intro s hs
    rw [Rex.first, ← List.head?_map, runP_run decode b r (s, []) hs]
    rfl
  have cut : ∀ (s : List UInt8) (q : List UInt8 × Marks), s <:+ b → (r.runP decode (s, [])).head? = some q →
      (b.drop (b.length - s.length)).take (b.length - q.1.length - (b.length - s.length)) = s.take (s.length - q.1.length) := by
    intro s q hs hq
    have h1 := (runP_suffix decode r (s, []) q (List.mem_of_head? hq)).length_le
    have h2 := hs.length_le
    simp only at h1
    rw [suffix_drop hs, show b.length - q.1.length - (b.length - s.length) = s.length - q.1.length by omega]
  intro n
  induction n with
  | zero =>
    intro s hs
    rw [Rex.findP, Rex.find, ← here s hs]
    cases e : (r.runP decode (s, [])).head? with
    | none => rfl
    | some q =>
      simp only [Option.map_some, cut s q hs e, texts]
  | succ n ih =>
    intro s hs
    rw [Rex.findP, Rex.find, ← here s hs]
    cases e : (r.runP decode (s, [])).head? with
    | some q =>
      simp only [Option.map_some, cut s q hs e, texts]
    | none =>
      simp only [Option.map_none]
      cases decode s with
      | none => rfl
      | some q => exact ih _ ((List.drop_suffix _ _).trans hs)

theorem findP_caps (r : Rex) (L : Nat) : ∀ (n : Nat) (s : List UInt8) (a e : Nat) (k : Marks), r.findP L n s = some (a, e, k) → ∀ m ∈ k, m.1 ≤ r.caps := by
  have here : ∀ (s : List UInt8) (q : List UInt8 × Marks), (r.runP decode (s, [])).head? = some q → ∀ m ∈ q.2, m.1 ≤ r.caps := by
    intro s q hq m hm
    rcases runP_caps decode r (s, []) q (List.mem_of_head? hq) m hm with h | h
    · cases h
    · exact h
  intro n
  induction n with
  | zero =>
    intro s a e k h
    rw [Rex.findP, Option.map_eq_some_iff] at h
    obtain ⟨q, hq, h⟩ := h
    cases h
    exact here s q hq
  | succ n ih =>
    intro s a e k h
    rw [Rex.findP] at h
    split at h
    · next q hq =>
      cases h
      exact here s q hq
    · split at h
      · exact ih _ a e k h
      · cases h

theorem group_map (b : List β) (k : Marks) (n : Nat) :
    group (k.map (toCap b)) n = match k.find? (·.1 == n) with | some q => (toCap b q).2 | none => [] := by
  rw [group, List.find?_map]
  rw [show ((fun x : Nat × List β => x.1 == n) ∘ toCap b) = fun x => x.1 == n from rfl]
  cases k.find? (·.1 == n) <;> rfl

/-- The text between the bounds of a capture is the text it holds. -/
theorem bounds_group (b : List UInt8) (k : Marks) (n : Nat) (hk : ∀ m ∈ k, m.2.2 ≤ m.2.1 ∧ m.2.1 ≤ b.length) :
    (if 0 ≤ (bounds b.length k n).1 then (b.drop (bounds b.length k n).1.toNat).take ((bounds b.length k n).2 - (bounds b.length k n).1).toNat else []) =
      group (k.map (toCap b)) n := by
  rw [group_map, bounds]
  cases e : k.find? (·.1 == n) with
  | none => rfl
  | some q =>
    have := hk q (List.mem_of_find?_eq_some e)
    simp only [toCap]
    rw [if_pos (by omega), show (((b.length - q.2.2 : Nat) : Int) - ((b.length - q.2.1 : Nat) : Int)).toNat = q.2.1 - q.2.2 by omega]
    simp

end Verif.Spec
