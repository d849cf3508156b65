import Verif.Model.Tree
import Verif.Spec.Tree
/- Lemmas about the operations on trees. -/
namespace Verif.Tree
open Verif.Spec

variable {α V : Type} [DecidableEq α]

theorem sel_split {β : Type} {l : List β} {i : Int} {k : Nat} (h : Sel l.length i k) :
    ∃ a c b, l = a ++ c :: b ∧ a.length = k := by
  obtain ⟨hk, _⟩ := h
  exact ⟨l.take k, l[k], l.drop (k + 1), by simp, by simp; omega⟩

theorem sel_unique {n i k k'} (h : Sel n i k) (h' : Sel n i k') : k = k' := by
  obtain ⟨h1, h2⟩ := h
  obtain ⟨h3, h4⟩ := h'
  omega

theorem sel_or_out (n : Nat) (i : Int) : (∃ k, Sel n i k) ∨ OutOfRange n i := by
  by_cases h1 : i < -n
  · exact .inr (.inl h1)
  · by_cases h2 : (n : Int) ≤ i
    · exact .inr (.inr h2)
    · left
      by_cases h3 : i < 0
      · exact ⟨(n + i).toNat, by omega, .inr (by omega)⟩
      · exact ⟨i.toNat, by omega, .inl (by omega)⟩

theorem not_sel_of_out {n i k} (h : OutOfRange n i) : ¬ Sel n i k := by
  rintro ⟨h1, h2⟩
  unfold OutOfRange at h
  omega

/-- The index conversion on a selecting index. -/
theorem getIdx_sel {p : PN α V} {i : Int} {k : Nat} (h : Sel p.kids.length i k) :
    getIdx p i = ((k : Int), (p.kids.length : Int), true) := by
  obtain ⟨h1, h2⟩ := h
  unfold getIdx
  have : (if i < 0 then (p.kids.length : Int) + i else i) = k := by split <;> omega
  simp only [this]
  simp [h1]

theorem getIdx_out {p : PN α V} {i : Int} (h : OutOfRange p.kids.length i) :
    ∃ j, getIdx p i = (j, (p.kids.length : Int), false) := by
  refine ⟨if i < 0 then (p.kids.length : Int) + i else i, ?_⟩
  unfold getIdx
  simp only
  congr 2
  rw [Bool.and_eq_false_iff]
  unfold OutOfRange at h
  simp only [decide_eq_false_iff_not]
  split <;> omega

theorem sel_self {n k : Nat} (h : k < n) : Sel n (k : Int) k := ⟨h, .inl rfl⟩

theorem index_mid {β : Type} (a : List β) (c : β) (b : List β) : index (a ++ c :: b) (a.length : Int) = .ok c := by
  unfold index
  have : ¬ ((a.length : Int) < 0) := by omega
  rw [if_neg this]
  simp

theorem slice_left {β : Type} (a b : List β) : slice (a ++ b) 0 (a.length : Int) = .ok a := by
  unfold slice
  rw [if_pos (by simp; omega)]
  simp

theorem slice_right {β : Type} (a : List β) (c : β) (b : List β) :
    slice (a ++ c :: b) ((a.length : Int) + 1) ((a ++ c :: b).length : Int) = .ok b := by
  unfold slice
  rw [if_pos (by simp; omega)]
  congr 1
  have : ((a.length : Int) + 1).toNat = (a ++ [c]).length := by simp
  rw [this]
  rw [show (((a ++ c :: b).length : Nat) : Int).toNat = (a ++ c :: b).length from Int.toNat_natCast _, List.take_length]
  rw [show a ++ c :: b = (a ++ [c]) ++ b from by simp, List.drop_left]

section ops
variable {l : Lexeme α V} {a b : List (PN α V)} {c : PN α V} {i : Int}

theorem child_sel (h : Sel (a ++ c :: b).length i a.length) : child (.node l (a ++ c :: b)) i = .ok (some c) := by
  unfold child
  rw [getIdx_sel (p := .node l (a ++ c :: b)) (k := a.length) h]
  simp [PN.kids, index_mid]

theorem child_out {p : PN α V} (h : OutOfRange p.kids.length i) : child p i = .ok none := by
  obtain ⟨j, e⟩ := getIdx_out h
  simp [child, e]

theorem childAt_sel (ks : List α) (h : Sel (a ++ c :: b).length i a.length) :
    childAt (.node l (a ++ c :: b)) i ks = .ok (decide (c.kind ∈ ks)) := by
  unfold childAt
  rw [getIdx_sel (p := .node l (a ++ c :: b)) (k := a.length) h]
  simp only [PN.kids, index_mid, Out.bind_ok]
  congr 1
  rw [Bool.eq_iff_iff]
  simp

theorem childAt_out {p : PN α V} (ks : List α) (h : OutOfRange p.kids.length i) : childAt p i ks = .ok false := by
  obtain ⟨j, e⟩ := getIdx_out h
  simp [childAt, e]

theorem childIs_sel (k : α) (h : Sel (a ++ c :: b).length i a.length) :
    childIs (.node l (a ++ c :: b)) i k = .ok (decide (c.kind = k)) := by
  unfold childIs
  rw [getIdx_sel (p := .node l (a ++ c :: b)) (k := a.length) h]
  simp only
  rw [child_sel (sel_self (by simp))]
  rfl

theorem childIs_out {p : PN α V} (k : α) (h : OutOfRange p.kids.length i) : childIs p i k = .ok false := by
  obtain ⟨j, e⟩ := getIdx_out h
  simp [childIs, e]

theorem replaceWithChild_sel (h : Sel (a ++ c :: b).length i a.length) :
    replaceWithChild (.node l (a ++ c :: b)) i = .ok (c, true) := by
  unfold replaceWithChild
  rw [getIdx_sel (p := .node l (a ++ c :: b)) (k := a.length) h]
  simp [PN.kids, index_mid]

theorem replaceWithChild_out {p : PN α V} (h : OutOfRange p.kids.length i) :
    replaceWithChild p i = .ok (p, false) := by
  obtain ⟨j, e⟩ := getIdx_out h
  simp [replaceWithChild, e]

theorem removeChild_sel (h : Sel (a ++ c :: b).length i a.length) :
    removeChild (.node l (a ++ c :: b)) i = .ok (.node l (a ++ b), true) := by
  unfold removeChild
  rw [getIdx_sel (p := .node l (a ++ c :: b)) (k := a.length) h]
  show (if (a.length : Int) = ((a ++ c :: b).length : Int) - 1 then
    (slice (a ++ c :: b) 0 a.length).bind fun ks => Out.ok (PN.node l ks, true) else
    (slice (a ++ c :: b) 0 a.length).bind fun x => (slice (a ++ c :: b) (a.length + 1) (a ++ c :: b).length).bind fun y =>
      Out.ok (PN.node l (x ++ y), true)) = _
  by_cases he : (a.length : Int) = ((a ++ c :: b).length : Int) - 1
  · rw [if_pos he]
    have : b = [] := by
      simp at he
      exact List.length_eq_zero_iff.1 (by omega)
    subst this
    rw [slice_left]
    simp
  · rw [if_neg he, slice_left, slice_right]
    simp

theorem removeChild_out {p : PN α V} (h : OutOfRange p.kids.length i) : removeChild p i = .ok (p, false) := by
  obtain ⟨j, e⟩ := getIdx_out h
  simp [removeChild, e]

theorem promoteChild_sel (h : Sel (a ++ c :: b).length i a.length) :
    promoteChild (.node l (a ++ c :: b)) i = .ok (.node c.lx (a ++ c.kids ++ b), true) := by
  unfold promoteChild
  rw [getIdx_sel (p := .node l (a ++ c :: b)) (k := a.length) h]
  simp only [PN.kids, index_mid, Out.bind_ok, slice_right, slice_left]
  split
  · simp
  · rename_i he
    have : b = [] := by
      simp at he
      exact List.length_eq_zero_iff.1 (by omega)
    subst this
    simp

theorem promoteChild_out {p : PN α V} (h : OutOfRange p.kids.length i) : promoteChild p i = .ok (p, false) := by
  obtain ⟨j, e⟩ := getIdx_out h
  simp [promoteChild, e]

theorem promoteChildrenOf_sel (h : Sel (a ++ c :: b).length i a.length) :
    promoteChildrenOf (.node l (a ++ c :: b)) i = .ok (.node l (a ++ c.kids ++ b), true) := by
  unfold promoteChildrenOf
  rw [getIdx_sel (p := .node l (a ++ c :: b)) (k := a.length) h]
  simp only [PN.kids, PN.lx, index_mid, Out.bind_ok, slice_right, slice_left]
  split
  · rename_i he
    have : b = [] := by
      simp at he
      exact List.length_eq_zero_iff.1 (by omega)
    subst this
    simp
  · simp

theorem promoteChildrenOf_out {p : PN α V} (h : OutOfRange p.kids.length i) :
    promoteChildrenOf p i = .ok (p, false) := by
  obtain ⟨j, e⟩ := getIdx_out h
  simp [promoteChildrenOf, e]

theorem promoteChildValue_sel (h : Sel (a ++ c :: b).length i a.length) :
    promoteChildValue (.node l (a ++ c :: b)) i =
      .ok (.node ⟨l.kind, c.lx.val, c.lx.line, c.lx.col⟩ (a ++ b)) := by
  unfold promoteChildValue
  obtain ⟨h1, h2⟩ := h
  have e : (if i < 0 then (((PN.node l (a ++ c :: b)).kids.length : Nat) : Int) + i else i) = (a.length : Int) := by
    simp only [PN.kids]
    split <;> omega
  simp only [e]
  rw [if_pos (by simp [PN.kids]; omega)]
  simp only [PN.kids, index_mid, Out.bind_ok]
  rw [removeChild_sel (sel_self h1)]
  rfl

/-- Outside the range of indices, and of indices shifted twice, nothing happens. -/
theorem promoteChildValue_out {p : PN α V} (h : i < -(2 * p.kids.length : Int) ∨ (p.kids.length : Int) ≤ i) :
    promoteChildValue p i = .ok p := by
  unfold promoteChildValue
  simp only
  rw [if_neg (by split <;> omega)]
  simp only [Out.bind_ok]
  rw [removeChild_out]
  · rfl
  · unfold OutOfRange
    split <;> omega

/-- What happens just below the range: the child selected by the index shifted twice is removed. -/
theorem promoteChildValue_below (hi : i < -((a ++ c :: b).length : Int))
    (h : Sel (a ++ c :: b).length (i + (a ++ c :: b).length) a.length) :
    promoteChildValue (.node l (a ++ c :: b)) i = .ok (.node l (a ++ b)) := by
  unfold promoteChildValue
  have e : (if i < 0 then (((PN.node l (a ++ c :: b)).kids.length : Nat) : Int) + i else i) =
      i + ((a ++ c :: b).length : Int) := by
    simp only [PN.kids]
    split <;> omega
  simp only [e]
  rw [if_neg (by omega)]
  simp only [Out.bind_ok]
  rw [removeChild_sel h]
  rfl

end ops

theorem foldl_kids (ks : List (PN α V)) : ∀ acc : List (PN α V),
    ks.foldl (fun new c => new ++ c.kids) acc = acc ++ ks.flatMap PN.kids := by
  induction ks with
  | nil => intro acc; simp
  | cons k ks ih => intro acc; simp [ih]

/-! ### RemoveAll -/

theorem removeAllLoop_eq (symbols : List α) (l : Lexeme α V) : ∀ (b a : List (PN α V)) n, b.length < n →
    removeAllLoop symbols n (.node l (a ++ b)) a.length = .ok (.node l (a ++ b.filter fun c => c.kind ∉ symbols)) := by
  intro b
  induction b with
  | nil =>
    intro a n hn
    cases n with
    | zero => omega
    | succ n => simp [removeAllLoop, PN.kids]
  | cons c b ih =>
    intro a n hn
    cases n with
    | zero => omega
    | succ n =>
      rw [removeAllLoop, if_pos (by simp [PN.kids]), childAt_sel symbols (sel_self (by simp))]
      simp only [Out.bind_ok]
      by_cases hc : c.kind ∈ symbols
      · simp only [hc, decide_true, if_true]
        rw [removeChild_sel (sel_self (by simp))]
        simp only [Out.bind_ok]
        rw [ih a n (by simp at hn; omega)]
        simp [hc]
      · simp only [hc, decide_false, Bool.false_eq_true, if_false]
        have := ih (a ++ [c]) n (by simp at hn; omega)
        simp only [List.length_append, List.length_singleton, List.append_assoc, List.singleton_append] at this
        rw [this]
        simp [hc]

/-! ### RemoveChildren -/

theorem dropFlags_eq (p : PN α V) : ∀ (is : List Int) (drop : List Bool), drop.length = p.kids.length →
    ∃ d, dropFlags p drop is = .ok d ∧ d.length = p.kids.length ∧
      ∀ k, d[k]? = some true ↔ drop[k]? = some true ∨ ∃ i ∈ is, Sel p.kids.length i k := by
  intro is
  induction is with
  | nil => intro drop h; exact ⟨drop, rfl, h, by simp⟩
  | cons i is ih =>
    intro drop h
    rcases sel_or_out p.kids.length i with ⟨k0, hk⟩ | ho
    · have hlt : k0 < drop.length := by rw [h]; exact hk.1
      have e : index drop (k0 : Int) = .ok drop[k0] := by
        unfold index
        rw [if_neg (by omega)]
        simp [hlt]
      have hset : ∀ d' : List Bool, d' = (if drop[k0] then drop else drop.set k0 true) →
          d'.length = drop.length ∧ ∀ k, d'[k]? = some true ↔ drop[k]? = some true ∨ k = k0 := by
        intro d' hd
        split at hd
        · rename_i hb
          subst hd
          refine ⟨rfl, fun k => ⟨.inl, ?_⟩⟩
          rintro (h | rfl)
          · exact h
          · rw [List.getElem?_eq_getElem hlt, hb]
        · subst hd
          refine ⟨by simp, fun k => ?_⟩
          rw [List.getElem?_set]
          by_cases hkk : k0 = k
          · subst hkk; simp [hlt]
          · rw [if_neg hkk]
            exact ⟨.inl, fun h => h.elim id fun h => absurd h.symm hkk⟩
      obtain ⟨h1, h2⟩ := hset _ rfl
      obtain ⟨d, e2, h3, h4⟩ := ih (if drop[k0] then drop else drop.set k0 true) (by rw [h1, h])
      refine ⟨d, ?_, h3, ?_⟩
      · rw [dropFlags, getIdx_sel hk]
        simp only [e, Out.bind_ok]
        exact e2
      · intro k
        rw [h4, h2]
        constructor
        · rintro ((h | rfl) | ⟨j, hj, hs⟩)
          · exact .inl h
          · exact .inr ⟨i, by simp, hk⟩
          · exact .inr ⟨j, by simp [hj], hs⟩
        · rintro (h | ⟨j, hj, hs⟩)
          · exact .inl (.inl h)
          · rcases List.mem_cons.1 hj with rfl | hj
            · exact .inl (.inr (sel_unique hs hk))
            · exact .inr ⟨j, hj, hs⟩
    · obtain ⟨j, e⟩ := getIdx_out ho
      obtain ⟨d, e2, h3, h4⟩ := ih drop h
      refine ⟨d, ?_, h3, ?_⟩
      · rw [dropFlags, e]; exact e2
      · intro k
        rw [h4]
        constructor
        · rintro (h | ⟨j, hj, hs⟩)
          · exact .inl h
          · exact .inr ⟨j, by simp [hj], hs⟩
        · rintro (h | ⟨j, hj, hs⟩)
          · exact .inl h
          · rcases List.mem_cons.1 hj with rfl | hj
            · exact absurd hs (not_sel_of_out ho)
            · exact .inr ⟨j, hj, hs⟩

theorem keepUnflagged_eq (p : PN α V) (q : Nat → Prop) [DecidablePred q] : ∀ (drop : List Bool) (b a : List (PN α V)),
    p.kids = a ++ b → drop.length = b.length →
    (∀ (k : Nat), drop[k]? = some true ↔ k < b.length ∧ q (a.length + k)) →
    keepUnflagged p a.length drop = .ok (((b.zipIdx a.length).filter fun x => ¬ q x.2).map (·.1)) := by
  intro drop
  induction drop with
  | nil =>
    intro b a _ hl _
    have : b = [] := List.length_eq_zero_iff.1 (by simpa using hl.symm)
    subst this
    rfl
  | cons d drop ih =>
    intro b a hk hl hq
    cases b with
    | nil => simp at hl
    | cons c b =>
      have h0 := hq 0
      have hrest := ih b (a ++ [c]) (by simp [hk]) (by simpa using hl) (by
        intro k
        have := hq (k + 1)
        simp only [List.getElem?_cons_succ, List.length_cons, List.length_append, List.length_singleton] at this ⊢
        rw [this]
        rw [show a.length + (([] : List (PN α V)).length + 1) + k = a.length + (k + 1) from by simp; omega]
        constructor
        · rintro ⟨h1, h2⟩; exact ⟨by omega, h2⟩
        · rintro ⟨h1, h2⟩; exact ⟨by omega, h2⟩)
      simp only [List.length_append, List.length_singleton] at hrest
      rw [keepUnflagged]
      simp only [List.getElem?_cons_zero, Option.some.injEq, List.length_cons, Nat.add_zero] at h0
      split
      · rename_i hd
        rw [hrest]
        have : q a.length := (h0.1 hd).2
        simp [List.zipIdx_cons, this]
      · rename_i hd
        have : ¬ q a.length := fun h => hd (h0.2 ⟨by omega, h⟩)
        rw [hk, index_mid, Out.bind_ok, hrest]
        simp [List.zipIdx_cons, this]

end Verif.Tree
