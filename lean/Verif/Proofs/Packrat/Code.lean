import Verif.Model.Packrat
import Verif.Spec.Preorder
import Mathlib.Logic.Relation
/- The trees that a memo holds, as lists of production numbers. -/
namespace Verif.Packrat
open Verif.Spec Relation

mutual
/-- The production numbers of a definition's tree, nodes before children. -/
inductive Code (memo : Key → Option Def) : Def → List Nat → Prop
  | mk {d xs} : Codes memo d.children xs → Code memo d (d.priority :: xs)
/-- The same for keys, one after the other. -/
inductive Codes (memo : Key → Option Def) : List Key → List Nat → Prop
  | nil : Codes memo [] []
  | cons {k d ks xs ys} : memo k = some d → Code memo d xs → Codes memo ks ys → Codes memo (k :: ks) (xs ++ ys)
end

mutual
theorem Code.unique {memo : Key → Option Def} : ∀ {d : Def} {xs ys : List Nat}, Code memo d xs → Code memo d ys → xs = ys
  | _, _, _, .mk h, .mk h' => by rw [Codes.unique h h']
theorem Codes.unique {memo : Key → Option Def} : ∀ {ks : List Key} {xs ys : List Nat}, Codes memo ks xs → Codes memo ks ys → xs = ys
  | _, _, _, .nil, .nil => rfl
  | _, _, _, .cons e h1 h2, .cons e' h1' h2' => by
    rw [e] at e'
    cases e'
    rw [Code.unique h1 h1', Codes.unique h2 h2']
end

/-- `b` is a child of `a` in the memo table. -/
def Child (memo : Key → Option Def) (a b : Key) : Prop := ∃ d, memo a = some d ∧ b ∈ d.children

mutual
/-- Changing an entry that a tree does not contain does not change its code. -/
theorem Code.keep {memo : Key → Option Def} {key : Key} {td : Def} : ∀ {d : Def} {xs : List Nat},
    Code memo d xs → (∀ c ∈ d.children, ¬ ReflTransGen (Child memo) c key) → Code (upd memo key (some td)) d xs
  | _, _, .mk h, hno => .mk (Codes.keep h hno)
theorem Codes.keep {memo : Key → Option Def} {key : Key} {td : Def} : ∀ {ks : List Key} {xs : List Nat},
    Codes memo ks xs → (∀ c ∈ ks, ¬ ReflTransGen (Child memo) c key) → Codes (upd memo key (some td)) ks xs
  | _, _, .nil, _ => .nil
  | _, _, .cons (k := k) e h1 h2, hno => by
    have hk : k ≠ key := by
      rintro rfl
      exact hno _ (by simp) .refl
    refine .cons ((upd_ne _ _ hk).trans e) (Code.keep h1 fun c hc hr => ?_) (Codes.keep h2 fun c hc => hno c (by simp [hc]))
    exact hno k (by simp) (.head ⟨_, e, hc⟩ hr)
end

mutual
/-- Codes with a new entry that is not after the old one. -/
theorem Code.better {memo : Key → Option Def} {key : Key} {td : Def} {ts : List Nat} (ht : Code (upd memo key (some td)) td ts)
    (hb : ∀ d xs, memo key = some d → Code memo d xs → NotAfter ts xs) : ∀ {d : Def} {xs : List Nat},
    Code memo d xs → ∃ ys, Code (upd memo key (some td)) d ys ∧ NotAfter ys xs
  | _, _, .mk h => by
    obtain ⟨ys, h1, h2⟩ := Codes.better ht hb h
    exact ⟨_, .mk h1, h2.cons _⟩
theorem Codes.better {memo : Key → Option Def} {key : Key} {td : Def} {ts : List Nat} (ht : Code (upd memo key (some td)) td ts)
    (hb : ∀ d xs, memo key = some d → Code memo d xs → NotAfter ts xs) : ∀ {ks : List Key} {xs : List Nat},
    Codes memo ks xs → ∃ ys, Codes (upd memo key (some td)) ks ys ∧ NotAfter ys xs
  | _, _, .nil => ⟨_, .nil, .refl _⟩
  | _, _, .cons (k := k) (d := d) e h1 h2 => by
    obtain ⟨ys, r1, r2⟩ := Code.better ht hb h1
    obtain ⟨zs, q1, q2⟩ := Codes.better ht hb h2
    by_cases hk : k = key
    · subst hk
      exact ⟨_, .cons (upd_same ..) ht q1, (hb _ _ e h1).append q2⟩
    · exact ⟨_, .cons ((upd_ne _ _ hk).trans e) r1 q1, r2.append q2⟩
end

/-- The code of a key's entry. -/
def CodeK (memo : Key → Option Def) (k : Key) (xs : List Nat) : Prop := ∃ d, memo k = some d ∧ Code memo d xs

/-- The entries of the second memo are not after those of the first. -/
def Improves (memo memo' : Key → Option Def) : Prop := ∀ k xs, CodeK memo k xs → ∃ ys, CodeK memo' k ys ∧ NotAfter ys xs

theorem Improves.refl (memo : Key → Option Def) : Improves memo memo := fun _ xs h => ⟨xs, h, .refl _⟩

theorem Improves.trans {a b c : Key → Option Def} (h : Improves a b) (h' : Improves b c) : Improves a c := by
  intro k xs hk
  obtain ⟨ys, h1, h2⟩ := h k xs hk
  obtain ⟨zs, h3, h4⟩ := h' k ys h1
  exact ⟨zs, h3, h4.trans h2⟩

theorem Improves.upd {memo : Key → Option Def} {key : Key} {td : Def} {ts : List Nat} (ht : Code (upd memo key (some td)) td ts)
    (hb : ∀ d xs, memo key = some d → Code memo d xs → NotAfter ts xs) : Improves memo (Verif.upd memo key (some td)) := by
  rintro k xs ⟨d, e, h⟩
  by_cases hk : k = key
  · subst hk
    exact ⟨ts, ⟨td, upd_same .., ht⟩, hb d xs e h⟩
  · obtain ⟨ys, h1, h2⟩ := Code.better ht hb h
    exact ⟨ys, ⟨d, (upd_ne _ _ hk).trans e, h1⟩, h2⟩

end Verif.Packrat
