import Verif.Model.SetSymbolHeap
/-
C87: productions do not change when others are extended.
-/
namespace Verif.Props.SetSymbolHeap
open Verif.SetSymbolHeap

/-! ### What is expected: productions are values -/

/-- Productions and sets of productions as values. With each production is the number of the call of `Production` from which it comes:
productions taken out of sets come from where those put in come from. -/
structure Vals where
  prods : List (List Nat × Nat)
  sets : List (List (List Nat × Nat))
  calls : Nat
deriving DecidableEq

/-- A call. -/
def vstep (v : Vals) : Op → Vals
  | .production syms => { v with prods := v.prods ++ [(syms, v.calls)], calls := v.calls + 1 }
  | .addSymbols i syms =>
    match v.prods[i]? with
    | none => v
    | some p => { v with prods := v.prods.set i (p.1 ++ syms, p.2) }
  | .productions is => { v with sets := v.sets ++ [is.filterMap (v.prods[·]?)] }
  | .addProductions j is =>
    match v.sets[j]? with
    | none => v
    | some q => { v with sets := v.sets.set j (q ++ is.filterMap (v.prods[·]?)) }
  | .at' j i =>
    match (v.sets[j]?).bind (·[i]?) with
    | none => v
    | some p => { v with prods := v.prods ++ [p] }

/-- After calls. -/
def vrun (h : List Op) : Vals := h.foldl vstep ⟨[], [], 0⟩

/-- `AddSymbols` is called on a production only if none that comes from where it comes from is longer. -/
def Fit (v : Vals) : Op → Prop
  | .addSymbols i _ => ∀ p, v.prods[i]? = some p →
      (∀ q ∈ v.prods, q.2 = p.2 → q.1.length ≤ p.1.length) ∧ ∀ qs ∈ v.sets, ∀ q ∈ qs, q.2 = p.2 → q.1.length ≤ p.1.length
  | _ => True

/-- All calls are like that. -/
def AllFit : Vals → List Op → Prop
  | _, [] => True
  | v, o :: os => Fit v o ∧ AllFit (vstep v o) os

/-! ### Proof -/

/-- Related one by one. -/
inductive All2 {α β : Type} (R : α → β → Prop) : List α → List β → Prop
  | nil : All2 R [] []
  | cons {x y xs ys} : R x y → All2 R xs ys → All2 R (x :: xs) (y :: ys)

/-- The slice holds the value, and its array belongs to where the value comes from. -/
def Holds (arrs : List (List Nat)) (fam : Nat → Nat) (s : Slice) (p : List Nat × Nat) : Prop :=
  ∃ a, arrs[s.arr]? = some a ∧ s.len = p.1.length ∧ s.len ≤ a.length ∧ a.take s.len = p.1 ∧ fam s.arr = p.2

structure Rep (fam : Nat → Nat) (st : St) (v : Vals) : Prop where
  prods : All2 (Holds st.arrs fam) st.prods v.prods
  sets : All2 (All2 (Holds st.arrs fam)) st.sets v.sets

theorem forall2_get {α β : Type} {R : α → β → Prop} {xs : List α} {ys : List β} (h : All2 R xs ys) (i : Nat) :
    (xs[i]? = none ∧ ys[i]? = none) ∨ ∃ x y, xs[i]? = some x ∧ ys[i]? = some y ∧ R x y := by
  induction h generalizing i with
  | nil => simp
  | @cons x y _ _ h1 h2 ih =>
    cases i with
    | zero => exact .inr ⟨x, y, rfl, rfl, h1⟩
    | succ i => simpa using ih i

theorem forall2_set {α β : Type} {R : α → β → Prop} {xs : List α} {ys : List β} (h : All2 R xs ys) (i : Nat) {x : α} {y : β} (hr : R x y) :
    All2 R (xs.set i x) (ys.set i y) := by
  induction h generalizing i with
  | nil => exact .nil
  | cons h1 h2 ih =>
    cases i with
    | zero => exact .cons hr h2
    | succ i => exact .cons h1 (ih i)

theorem forall2_append {α β : Type} {R : α → β → Prop} {xs xs' : List α} {ys ys' : List β} (h : All2 R xs ys) (h' : All2 R xs' ys') :
    All2 R (xs ++ xs') (ys ++ ys') := by
  induction h with
  | nil => exact h'
  | cons h1 _ ih => exact .cons h1 ih

theorem forall2_pick {α β : Type} {R : α → β → Prop} {xs : List α} {ys : List β} (h : All2 R xs ys) (is : List Nat) :
    All2 R (is.filterMap (xs[·]?)) (is.filterMap (ys[·]?)) := by
  induction is with
  | nil => exact .nil
  | cons i is ih =>
    rcases forall2_get h i with ⟨h1, h2⟩ | ⟨x, y, h1, h2, h3⟩
    · simpa [h1, h2] using ih
    · simpa [h1, h2] using All2.cons h3 ih

/-- Changing `R` for the pairs of a list. -/
theorem forall2_imp {α β : Type} {R S : α → β → Prop} {xs : List α} {ys : List β} (h : All2 R xs ys) (f : ∀ x, ∀ y ∈ ys, R x y → S x y) :
    All2 S xs ys := by
  induction h with
  | nil => exact .nil
  | @cons x y _ _ h1 _ ih => exact .cons (f x y (by simp) h1) (ih fun x y hy => f x y (by simp [hy]))

/-- One symbol more: the slice extended holds the value extended, and every other value of the same origin that is no longer is kept. -/
theorem append1_holds {grow : Nat → Nat} {arrs : List (List Nat)} {fam : Nat → Nat} {s : Slice} {p : List Nat × Nat} (h : Holds arrs fam s p) (x : Nat) :
    ∃ fam', Holds (append1 grow arrs s x).1 fam' (append1 grow arrs s x).2 (p.1 ++ [x], p.2) ∧
      ∀ s' p', Holds arrs fam s' p' → (p'.2 = p.2 → p'.1.length ≤ p.1.length) → Holds (append1 grow arrs s x).1 fam' s' p' := by
  obtain ⟨a, h1, h2, h3, h4, h5⟩ := h
  unfold append1
  simp only [h1, Option.getD_some]
  have hlt : s.arr < arrs.length := (List.getElem?_eq_some_iff.1 h1).1
  split
  · next hl =>
    refine ⟨fam, ⟨a.set s.len x, by simp [hlt], by simp [h2], by simp; omega, ?_, h5⟩, fun s' p' hs hp => ?_⟩
    · rw [← h4, List.take_succ, List.take_set_of_le (Nat.le_refl _)]
      simp [hl]
    · obtain ⟨a', g1, g2, g3, g4, g5⟩ := hs
      by_cases e : s'.arr = s.arr
      · rw [e] at g1 g5
        rw [h1] at g1
        cases g1
        have := hp (by rw [← g5, h5])
        refine ⟨a.set s.len x, by simp [e, hlt], g2, by simpa using g3, ?_, by rw [e]; exact g5⟩
        rw [List.take_set_of_le (by omega), g4]
      · exact ⟨a', by simp [List.getElem?_set, Ne.symm e, g1], g2, g3, g4, g5⟩
  · next hl =>
    have ha : s.len = a.length := by omega
    refine ⟨fun i => if i = arrs.length then p.2 else fam i, ⟨_, List.getElem?_concat_length, by simp [h2], ?_, ?_, by simp⟩, fun s' p' hs hp => ?_⟩
    · simp; omega
    · have key : ∀ zs : List Nat, (a ++ x :: zs).take (a.length + 1) = a ++ [x] := fun zs => by
        rw [show a ++ x :: zs = (a ++ [x]) ++ zs by simp, show a.length + 1 = (a ++ [x]).length by simp, List.take_left]
      rw [← h4, ha, List.take_length]
      exact key _
    · obtain ⟨a', g1, g2, g3, g4, g5⟩ := hs
      have hlt' := (List.getElem?_eq_some_iff.1 g1).1
      exact ⟨a', by rw [List.getElem?_append_left hlt']; exact g1, g2, g3, g4, by simp only; rw [if_neg (by omega)]; exact g5⟩

theorem appends_holds {grow : Nat → Nat} : ∀ (xs : List Nat) {arrs : List (List Nat)} {fam : Nat → Nat} {s : Slice} {p : List Nat × Nat}, Holds arrs fam s p →
    ∃ fam', Holds (appends grow arrs s xs).1 fam' (appends grow arrs s xs).2 (p.1 ++ xs, p.2) ∧
      ∀ s' p', Holds arrs fam s' p' → (p'.2 = p.2 → p'.1.length ≤ p.1.length) → Holds (appends grow arrs s xs).1 fam' s' p'
  | [], arrs, fam, s, p, h => ⟨fam, by simpa [appends] using h, fun s' p' h' _ => h'⟩
  | x :: xs, arrs, fam, s, p, h => by
    obtain ⟨fam1, h1, h2⟩ := append1_holds (grow := grow) h x
    obtain ⟨fam2, h3, h4⟩ := appends_holds (grow := grow) xs h1
    refine ⟨fam2, by simpa [appends] using h3, fun s' p' h' hp => ?_⟩
    rw [appends]
    exact h4 s' p' (h2 s' p' h' hp) fun e => by have := hp e; simp; omega

theorem holds_more {arrs : List (List Nat)} {fam : Nat → Nat} {a : List Nat} {f : Nat} {s : Slice} {p : List Nat × Nat} (h : Holds arrs fam s p) :
    Holds (arrs ++ [a]) (fun i => if i = arrs.length then f else fam i) s p := by
  obtain ⟨a', g1, g2, g3, g4, g5⟩ := h
  have hlt' := (List.getElem?_eq_some_iff.1 g1).1
  exact ⟨a', by rw [List.getElem?_append_left hlt']; exact g1, g2, g3, g4, by simp only; rw [if_neg (by omega)]; exact g5⟩

theorem rep_step {grow : Nat → Nat} {fam : Nat → Nat} {st : St} {v : Vals} (h : Rep fam st v) (o : Op) (hf : Fit v o) :
    ∃ fam', Rep fam' (step grow st o) (vstep v o) := by
  cases o with
  | production syms =>
    refine ⟨fun i => if i = st.arrs.length then v.calls else fam i, ⟨forall2_append (forall2_imp h.prods fun _ _ _ => holds_more) (.cons ?_ .nil),
      forall2_imp h.sets fun _ _ _ hq => forall2_imp hq fun _ _ _ => holds_more⟩⟩
    exact ⟨syms, by simp [step], rfl, Nat.le_refl _, by simp, by simp⟩
  | addSymbols i syms =>
    simp only [step, vstep]
    rcases forall2_get h.prods i with ⟨h1, h2⟩ | ⟨s, p, h1, h2, h3⟩
    · rw [h1, h2]; exact ⟨fam, h⟩
    · rw [h1, h2]
      obtain ⟨fam', h4, h5⟩ := appends_holds (grow := grow) syms h3
      obtain ⟨f1, f2⟩ := hf p h2
      refine ⟨fam', ⟨forall2_set (forall2_imp h.prods fun s' q hq hs => h5 s' q hs (f1 q hq)) i h4,
        forall2_imp h.sets fun _ qs hqs hq => forall2_imp hq fun s' q hq' hs => h5 s' q hs (f2 qs hqs q hq')⟩⟩
  | productions is => exact ⟨fam, h.prods, forall2_append h.sets (.cons (forall2_pick h.prods is) .nil)⟩
  | addProductions j is =>
    simp only [step, vstep]
    rcases forall2_get h.sets j with ⟨h1, h2⟩ | ⟨s, p, h1, h2, h3⟩
    · rw [h1, h2]; exact ⟨fam, h⟩
    · rw [h1, h2]
      exact ⟨fam, h.prods, forall2_set h.sets j (forall2_append h3 (forall2_pick h.prods is))⟩
  | at' j i =>
    simp only [step, vstep]
    rcases forall2_get h.sets j with ⟨h1, h2⟩ | ⟨s, p, h1, h2, h3⟩
    · rw [h1, h2]; exact ⟨fam, h⟩
    · rw [h1, h2]
      simp only [Option.bind_some]
      rcases forall2_get h3 i with ⟨h4, h5⟩ | ⟨s', p', h4, h5, h6⟩
      · rw [h4, h5]; exact ⟨fam, h⟩
      · rw [h4, h5]
        exact ⟨fam, forall2_append h.prods (.cons h6 .nil), h.sets⟩

theorem rep_run {grow : Nat → Nat} : ∀ (os : List Op) {fam : Nat → Nat} {st : St} {v : Vals}, Rep fam st v → AllFit v os →
    ∃ fam', Rep fam' (os.foldl (step grow) st) (os.foldl vstep v)
  | [], fam, _, _, h, _ => ⟨fam, h⟩
  | o :: os, fam, st, v, h, hf => by
    obtain ⟨fam1, h1⟩ := rep_step (grow := grow) h o hf.1
    exact rep_run os h1 hf.2

theorem holds_read {st : St} {fam : Nat → Nat} {s : Slice} {p : List Nat × Nat} (h : Holds st.arrs fam s p) : SetSymbolHeap.read st s = p.1 := by
  obtain ⟨a, h1, h2, h3, h4, h5⟩ := h
  rw [SetSymbolHeap.read, h1, Option.getD_some, h4]

theorem forall2_map {α β γ : Type} {R : α → β → Prop} {f : α → γ} {g : β → γ} {xs : List α} {ys : List β} (h : All2 R xs ys) (e : ∀ x y, R x y → f x = g y) :
    xs.map f = ys.map g := by
  induction h with
  | nil => rfl
  | cons h1 _ ih => simp [e _ _ h1, ih]

/-- C87, the part that holds: all productions, and those in sets, read as values do, if only productions are extended than which none
that comes from the same call of `Production` is longer. -/
theorem C87_values_partial (grow : Nat → Nat) (h : List Op) (hf : AllFit ⟨[], [], 0⟩ h) :
    (run grow h).prods.map (read (run grow h)) = (vrun h).prods.map (·.1) ∧
    (run grow h).sets.map (·.map (read (run grow h))) = (vrun h).sets.map (·.map (·.1)) := by
  obtain ⟨fam, h1⟩ := rep_run (grow := grow) h (fam := fun _ => 0) (st := ⟨[], [], []⟩) (v := ⟨[], [], 0⟩) ⟨.nil, .nil⟩ hf
  exact ⟨forall2_map h1.prods fun _ _ => holds_read, forall2_map h1.sets fun _ _ hq => forall2_map hq fun _ _ => holds_read⟩

/-- How arrays of a few numbers grow in Go. -/
def double (n : Nat) : Nat := if n = 0 then 1 else 2 * n

/-- C87 is false: of two productions taken out of a set and extended, the first gets what the second was extended by. -/
theorem C87_taken_refuted : ∃ h, (run double h).prods.map (read (run double h)) = [[1, 2, 3], [1, 2, 3, 5], [1, 2, 3, 5]] ∧
    (vrun h).prods.map (·.1) = [[1, 2, 3], [1, 2, 3, 4], [1, 2, 3, 5]] :=
  ⟨[.production [1, 2], .addSymbols 0 [3], .productions [0], .at' 0 0, .at' 0 0, .addSymbols 1 [4], .addSymbols 2 [5]], by decide, by decide⟩

/-- C87 is false: extending a production can change one already in a set. -/
theorem C87_set_refuted : ∃ h, (run double h).sets.map (·.map (read (run double h))) = [[[1, 2, 3]], [[1, 2, 3, 9]]] ∧
    (vrun h).sets.map (·.map (·.1)) = [[[1, 2, 3]], [[1, 2, 3, 4]]] :=
  ⟨[.production [1, 2], .addSymbols 0 [3], .productions [0], .at' 0 0, .addSymbols 1 [4], .productions [1], .addSymbols 0 [9]], by decide, by decide⟩

/-- Calls as in RemoveLeftRecursion: a production made, extended, put into a set, taken out and extended. -/
example : AllFit ⟨[], [], 0⟩ [.production [1, 2], .addSymbols 0 [3], .productions [0], .at' 0 0, .addSymbols 1 [4]] := by
  refine ⟨trivial, ?_, trivial, trivial, ?_, trivial⟩ <;> (intro p hp; cases hp; decide)

end Verif.Props.SetSymbolHeap
