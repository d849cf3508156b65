import Verif.Model.PackratWork
/-
The calls of `comparePriority` from below (C102).
-/
namespace Verif.Props.PackratWorkLeast
open Verif Verif.Packrat

/-- The places at which two readings have different parts. -/
def differ (a b : Def) : List (Key × Key) := (a.children.zip b.children).filter fun p => p.1 ≠ p.2

theorem kids_least {cmp : Def → Def → Out (Int × Nat)} {get : Key → Def} (f : Key × Key → Nat)
    (hc : ∀ k k' c, cmp (get k) (get k') = .ok (0, c) → f (k, k') ≤ c) : ∀ (ks ks' : List Key) (c : Nat),
    compareKidsC cmp get ks ks' = .ok (0, c) → (((ks.zip ks').filter fun p => p.1 ≠ p.2).map f).sum ≤ c
  | [], _, _, _ => by simp
  | _ :: _, [], _, h => by cases h
  | k :: ks, k' :: ks', c, h => by
    unfold compareKidsC at h
    rw [List.zip_cons_cons, List.filter_cons]
    split at h
    · rename_i he
      rw [if_neg (by simp [he])]
      exact kids_least f hc ks ks' c h
    · rename_i hne
      rw [if_pos (by simpa using hne), List.map_cons, List.sum_cons]
      obtain ⟨⟨x, c1⟩, h1, h2⟩ := Out.bind_eq_ok.1 h
      split at h2
      · rename_i hx
        cases h2
        exact absurd rfl hx
      · rename_i hx
        obtain ⟨⟨y, c2⟩, h3, h4⟩ := Out.bind_eq_ok.1 h2
        cases h4
        have hx0 : x = 0 := by simpa using hx
        subst hx0
        have i := kids_least f hc ks ks' c2 h3
        have j := hc k k' c1 h1
        dsimp only
        omega

/-- What comparing costs at least, `n` levels deep: one call, and what comparing the different parts costs. -/
def least (get : Key → Def) : Nat → Def → Def → Nat
  | 0, _, _ => 0
  | n + 1, a, b => 1 + ((differ a b).map fun p => least get n (get p.1) (get p.2)).sum

/-- C102 from below: a comparison is at least one call, and if it finds no difference in priority it has made a call for every two
different parts in the same place, for the different parts of these, and so on, to any depth. -/
theorem C102_least (get : Key → Def) : ∀ (n : Nat) (a b : Def) (x : Int) (c : Nat), compareC get n a b = .ok (x, c) →
    1 ≤ c ∧ (x = 0 → ∀ m, least get m a b ≤ c)
  | 0, _, _, _, _, h => by cases h
  | n + 1, a, b, x, c, h => by
    unfold compareC at h
    split at h
    · split at h <;> cases h <;> simp
    · obtain ⟨⟨y, c1⟩, h1, h2⟩ := Out.bind_eq_ok.1 h
      cases h2
      refine ⟨by dsimp only; omega, ?_⟩
      intro hx m
      dsimp only at hx
      subst hx
      cases m with
      | zero => simp [least]
      | succ m =>
        have := kids_least (fun p => least get m (get p.1) (get p.2))
          (fun k k' c hk => (C102_least get n (get k) (get k') 0 c hk).2 rfl m) _ _ _ h1
        unfold least differ
        dsimp only
        omega

/-- Two readings of `a a a` as two parts, of which the first has one part or two, and the second two or one. -/
def parts : Key → Def
  | ⟨0, 0, 2⟩ => ⟨⟨0, 0, 2⟩, [⟨1, 0, 1⟩, ⟨1, 1, 2⟩], 0⟩
  | k => ⟨k, [], 0⟩

example : (compareC parts 5 ⟨⟨0, 0, 3⟩, [⟨0, 0, 1⟩, ⟨0, 1, 3⟩], 0⟩ ⟨⟨0, 0, 3⟩, [⟨0, 0, 2⟩, ⟨0, 2, 3⟩], 0⟩,
    least parts 5 ⟨⟨0, 0, 3⟩, [⟨0, 0, 1⟩, ⟨0, 1, 3⟩], 0⟩ ⟨⟨0, 0, 3⟩, [⟨0, 0, 2⟩, ⟨0, 2, 3⟩], 0⟩) = (.ok (0, 3), 3) := by rfl

end Verif.Props.PackratWorkLeast
