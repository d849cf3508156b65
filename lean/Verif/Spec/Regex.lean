import Verif.Spec.Utf8
/-
Leftmost search for a prefix matcher, and two small prefix matchers. Used to show that the
assumptions about regular expressions can be met, and to build concrete lexers in examples.
-/
namespace Verif.Spec

/-- Try the matcher at the rune starts of `s` from left to right. -/
def search (m : List UInt8 → Option Nat) : Nat → List UInt8 → Option (Nat × Nat)
  | 0, s => (m s).map fun n => (0, n)
  | k + 1, s =>
    match m s with
    | some n => some (0, n)
    | none => if s = [] then none else
      (search m k (s.drop (runeLen s))).map fun x => (x.1 + runeLen s, x.2 + runeLen s)

theorem runeLen_le {s : List UInt8} (h : s ≠ []) : runeLen s ≤ s.length := by
  rcases s with _ | ⟨a, _ | ⟨b, _ | ⟨c, _ | ⟨d, s⟩⟩⟩⟩
  · exact absurd rfl h
  · simp [runeLen]
  · simp only [runeLen, List.length_cons, List.length_nil]; split <;> omega
  · simp only [runeLen, List.length_cons, List.length_nil]
    split
    · omega
    · split <;> omega
  · simp only [runeLen, List.length_cons]
    split
    · omega
    · split
      · omega
      · split <;> omega

theorem search_bound {m : List UInt8 → Option Nat} (hm : ∀ s n, m s = some n → n ≤ s.length) (k : Nat) :
    ∀ s a e, search m k s = some (a, e) → a ≤ e ∧ e ≤ s.length := by
  induction k with
  | zero =>
    intro s a e h
    simp only [search, Option.map_eq_some_iff, Prod.mk.injEq] at h
    obtain ⟨n, h1, rfl, rfl⟩ := h
    exact ⟨Nat.zero_le _, hm s n h1⟩
  | succ k ih =>
    intro s a e h
    simp only [search] at h
    split at h
    · next n hn =>
      simp only [Option.some.injEq, Prod.mk.injEq] at h
      obtain ⟨rfl, rfl⟩ := h
      exact ⟨Nat.zero_le _, hm s n hn⟩
    · split at h
      · cases h
      · next hs =>
        simp only [Option.map_eq_some_iff, Prod.mk.injEq] at h
        obtain ⟨x, h1, rfl, rfl⟩ := h
        have := ih _ _ _ h1
        have h2 := runeLen_le hs
        simp only [List.length_drop] at this
        omega

theorem search_spec {m : List UInt8 → Option Nat} (k : Nat) : ∀ s, s.length ≤ k →
    match search m k s with
    | none => ∀ i, Bd runeLen s i → m (s.drop i) = none
    | some (a, e) => a ≤ e ∧ m (s.drop a) = some (e - a) ∧
        ∀ i, Bd runeLen s i → i < a → m (s.drop i) = none := by
  induction k with
  | zero =>
    intro s hs
    have : s = [] := by simpa using hs
    subst this
    simp only [search]
    cases h : m [] with
    | none => simp [h]
    | some n => simp [h]
  | succ k ih =>
    intro s hs
    simp only [search]
    cases hm : m s with
    | some n => simp [hm]
    | none =>
      by_cases hn : s = []
      · subst hn; simp [hm]
      · simp only [if_neg hn]
        have hp := runeLen_pos s
        have := ih (s.drop (runeLen s)) (by simp only [List.length_drop]; omega)
        cases hse : search m k (s.drop (runeLen s)) with
        | none =>
          rw [hse] at this
          simp only [Option.map_none] at this ⊢
          intro i hi
          cases hi with
          | zero => simpa using hm
          | next _ r =>
            rw [← List.drop_drop]
            exact this _ r
        | some x =>
          obtain ⟨a, e⟩ := x
          rw [hse] at this
          simp only [Option.map_some] at this ⊢
          obtain ⟨h1, h2, h3⟩ := this
          refine ⟨by omega, ?_, ?_⟩
          · rw [List.drop_drop] at h2
            rw [show a + runeLen s = runeLen s + a by omega, h2]
            congr 1; omega
          · intro i hi hia
            cases hi with
            | zero => simpa using hm
            | @next _ j _ r =>
              rw [← List.drop_drop]
              exact h3 j r (by omega)

theorem search_leftmost (m : List UInt8 → Option Nat) :
    Leftmost runeLen m (fun s => search m s.length s) :=
  fun s => search_spec s.length s (Nat.le_refl _)

/-- The matcher of a class repeated one or more times, `[...]+`. -/
def plusM (p : UInt8 → Bool) (s : List UInt8) : Option Nat :=
  if (s.takeWhile p).length = 0 then none else some (s.takeWhile p).length

/-- The matcher of a literal word. -/
def litM (w : List UInt8) (s : List UInt8) : Option Nat :=
  if w.isPrefixOf s then some w.length else none

theorem plusM_bound (p : UInt8 → Bool) (s : List UInt8) (n : Nat) (h : plusM p s = some n) :
    n ≤ s.length := by
  unfold plusM at h
  split at h
  · cases h
  · cases h; exact (List.takeWhile_prefix p).length_le

theorem litM_bound (w : List UInt8) (s : List UInt8) (n : Nat) (h : litM w s = some n) :
    n ≤ s.length := by
  unfold litM at h
  split at h
  · next hp => cases h; exact (List.isPrefixOf_iff_prefix.1 hp).length_le
  · cases h

end Verif.Spec
