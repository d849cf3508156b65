import Verif.Model.SetSymbol
namespace Verif.SetSymbol
variable {α : Type} [DecidableEq α]

/-- Table consistency. -/
structure Inv (s : SymSet α) : Prop where
  nodup : s.symb2str.Nodup
  map : ∀ x i, s.str2sym x = some i ↔ s.symb2str[i]? = some x

theorem inv_new : Inv (new : SymSet α) := ⟨by simp [new], by simp [new]⟩

theorem Inv.mem {s : SymSet α} (h : Inv s) (x : α) : (s.str2sym x).isSome ↔ x ∈ s.symb2str := by
  rw [List.mem_iff_getElem?, Option.isSome_iff_exists]
  exact exists_congr fun i => h.map x i

theorem Inv.none {s : SymSet α} (h : Inv s) (x : α) : s.str2sym x = Option.none ↔ x ∉ s.symb2str := by
  rw [← h.mem x]; simp

/-- Strings interned by a call. -/
def Op.strs : Op α → List α
  | .str x => [x]
  | .symbol (.other x) => [x]
  | .cast p => p
  | _ => []

theorem str_table (s : SymSet α) (h : Inv s) (x : α) :
    (str s x).1.symb2str = if x ∈ s.symb2str then s.symb2str else s.symb2str ++ [x] := by
  unfold str
  split
  · rename_i v hv
    have : x ∈ s.symb2str := (h.mem x).1 (by simp [hv])
    simp [this]
  · rename_i hv
    have : x ∉ s.symb2str := (h.none x).1 hv
    simp [this]

theorem inv_str {s : SymSet α} (h : Inv s) (x : α) : Inv (str s x).1 := by
  unfold str
  split
  · exact h
  · rename_i hn
    have hx : x ∉ s.symb2str := (h.none x).1 hn
    refine ⟨?_, ?_⟩
    · simp only [List.nodup_append, h.nodup, true_and]
      refine ⟨by simp, ?_⟩
      intro a ha b hb
      simp only [List.mem_singleton] at hb
      subst hb
      intro e; exact hx (e ▸ ha)
    · intro y i
      simp only [upd]
      by_cases hy : y = x
      · subst hy
        simp only [if_true, Option.some.injEq, List.getElem?_append]
        constructor
        · intro e; subst e; simp
        · intro e
          split at e
          · exact absurd (List.mem_of_getElem? e) hx
          · rename_i hl
            have : i - s.symb2str.length = 0 := by
              rcases Nat.eq_zero_or_pos (i - s.symb2str.length) with h0 | h0
              · exact h0
              · rw [List.getElem?_eq_none (by simp; omega)] at e; simp at e
            omega
      · simp only [hy, if_false, h.map, List.getElem?_append]
        constructor
        · intro e
          have : i < s.symb2str.length := (List.getElem?_eq_some_iff.1 e).1
          rw [if_pos this, e]
        · intro e
          split at e
          · exact e
          · rename_i hl
            have := List.mem_of_getElem? e
            simp at this; exact absurd this hy

theorem str_idx {s : SymSet α} (h : Inv s) (x : α) :
    (str s x).1.symb2str[(str s x).2]? = some x := by
  unfold str
  split
  · rename_i v hv; exact (h.map x v).1 hv
  · simp

theorem str_prefix (s : SymSet α) (x : α) : s.symb2str <+: (str s x).1.symb2str := by
  unfold str
  split
  · exact List.prefix_refl _
  · exact List.prefix_append _ _

theorem str_mem {s : SymSet α} (h : Inv s) (x : α) : x ∈ (str s x).1.symb2str :=
  List.mem_of_getElem? (str_idx h x)

theorem str_present {s : SymSet α} (h : Inv s) {x : α} (hx : x ∈ s.symb2str) :
    (str s x).1 = s := by
  unfold str
  have := (h.mem x).2 hx
  obtain ⟨v, hv⟩ := Option.isSome_iff_exists.1 this
  rw [hv]

theorem castSyms_inv {s : SymSet α} (h : Inv s) (p : List α) : Inv (castSyms s p).1 := by
  induction p generalizing s with
  | nil => exact h
  | cons x xs ih => exact ih (inv_str h x)

theorem castSyms_prefix (s : SymSet α) (p : List α) : s.symb2str <+: (castSyms s p).1.symb2str := by
  induction p generalizing s with
  | nil => exact List.prefix_refl _
  | cons x xs ih => exact (str_prefix s x).trans (ih _)

omit [DecidableEq α] in
theorem prefix_getElem? {l m : List α} (h : l <+: m) {i : Nat} {x : α} (e : l[i]? = some x) :
    m[i]? = some x := by
  obtain ⟨t, rfl⟩ := h
  have : i < l.length := (List.getElem?_eq_some_iff.1 e).1
  rw [List.getElem?_append_left this, e]

theorem castSyms_get {s : SymSet α} (h : Inv s) (p : List α) :
    (castSyms s p).2.map (fun i => (castSyms s p).1.symb2str[i]?) = p.map some := by
  induction p generalizing s with
  | nil => rfl
  | cons x xs ih =>
    simp only [castSyms, List.map_cons, ih (inv_str h x), List.cons.injEq, and_true]
    exact prefix_getElem? (castSyms_prefix _ xs) (str_idx h x)

theorem inv_step {s : SymSet α} (h : Inv s) (o : Op α) : Inv (step s o) := by
  cases o with
  | str x => exact inv_str h x
  | symbol a => cases a <;> first | exact h | exact inv_str h _
  | idx a => exact h
  | has x => exact h
  | hasSymbol a => exact h
  | cast p => exact castSyms_inv h p

theorem step_prefix (s : SymSet α) (o : Op α) : s.symb2str <+: (step s o).symb2str := by
  cases o with
  | str x => exact str_prefix s x
  | symbol a => cases a <;> first | exact List.prefix_refl _ | exact str_prefix s _
  | idx a => exact List.prefix_refl _
  | has x => exact List.prefix_refl _
  | hasSymbol a => exact List.prefix_refl _
  | cast p => exact castSyms_prefix s p

theorem foldl_inv {s : SymSet α} (h : Inv s) (l : List (Op α)) : Inv (l.foldl step s) := by
  induction l generalizing s with
  | nil => exact h
  | cons o os ih => exact ih (inv_step h o)

theorem foldl_prefix (s : SymSet α) (l : List (Op α)) :
    s.symb2str <+: (l.foldl step s).symb2str := by
  induction l generalizing s with
  | nil => exact List.prefix_refl _
  | cons o os ih => exact (step_prefix s o).trans (ih _)

/-- Add one string at the end unless present. -/
def ins (t : List α) (x : α) : List α := if x ∈ t then t else t ++ [x]

theorem castSyms_table {s : SymSet α} (h : Inv s) (p : List α) :
    (castSyms s p).1.symb2str = p.foldl ins s.symb2str := by
  induction p generalizing s with
  | nil => rfl
  | cons x xs ih => simp only [castSyms, ih (inv_str h x), List.foldl_cons, str_table s h x, ins]

theorem step_table {s : SymSet α} (h : Inv s) (o : Op α) :
    (step s o).symb2str = o.strs.foldl ins s.symb2str := by
  cases o with
  | str x => simp [step, Op.strs, str_table s h, ins]
  | symbol a => cases a <;> simp [step, Op.strs, symbol, str_table s h, ins]
  | idx a => rfl
  | has x => rfl
  | hasSymbol a => rfl
  | cast p => exact castSyms_table h p

theorem foldl_table {s : SymSet α} (h : Inv s) (l : List (Op α)) :
    (l.foldl step s).symb2str = (l.flatMap Op.strs).foldl ins s.symb2str := by
  induction l generalizing s with
  | nil => rfl
  | cons o os ih => simp [ih (inv_step h o), step_table h o]

theorem mem_foldl_ins (l : List α) (t : List α) (x : α) : x ∈ l.foldl ins t ↔ x ∈ t ∨ x ∈ l := by
  induction l generalizing t with
  | nil => simp
  | cons y ys ih =>
    rw [List.foldl_cons, ih, ins]
    split <;> simp <;> grind

theorem foldl_ins_idxOf (l t : List α) (ht : t.Nodup) (x y : α)
    (hx : x ∈ l.foldl ins t) (hy : y ∈ l.foldl ins t) :
    (l.foldl ins t).idxOf x < (l.foldl ins t).idxOf y ↔ (t ++ l).idxOf x < (t ++ l).idxOf y := by
  induction l generalizing t with
  | nil => simp
  | cons z zs ih =>
    simp only [List.foldl_cons] at hx hy ⊢
    by_cases hz : z ∈ t
    · have e : ins t z = t := by simp [ins, hz]
      rw [e] at hx hy ⊢
      rw [ih t ht hx hy]
      -- dropping a repeated element does not change the order of first occurrences
      have key : ∀ w, w ∈ t ∨ w ∈ zs → (t ++ z :: zs).idxOf w =
          if w ∈ t then (t ++ zs).idxOf w else (t ++ zs).idxOf w + 1 := by
        intro w _
        by_cases hw : w ∈ t
        · simp [List.idxOf_append, hw]
        · have : z ≠ w := fun e => hw (e ▸ hz)
          have hb : (z == w) = false := by simpa using this
          simp [List.idxOf_append, hw, List.idxOf_cons, hb]; omega
      have lt : ∀ w, w ∈ t → (t ++ zs).idxOf w < t.length := by
        intro w hw
        simp [List.idxOf_append, hw, List.idxOf_lt_length_iff]
      have ge : ∀ w, w ∉ t → t.length ≤ (t ++ zs).idxOf w := by
        intro w hw
        simp [List.idxOf_append, hw]
      rw [mem_foldl_ins] at hx hy
      rw [key x hx, key y hy]
      by_cases h1 : x ∈ t <;> by_cases h2 : y ∈ t <;> simp only [h1, h2, if_true, if_false]
      · have := lt x h1; have := ge y h2; omega
      · have := lt y h2; have := ge x h1; omega
      · omega
    · have e : ins t z = t ++ [z] := by simp [ins, hz]
      rw [e] at hx hy ⊢
      have hn : (t ++ [z]).Nodup := by
        simp only [List.nodup_append, ht, true_and]
        refine ⟨by simp, ?_⟩
        intro a ha b hb
        simp only [List.mem_singleton] at hb
        subst hb
        intro e; exact hz (e ▸ ha)
      rw [ih _ hn hx hy]
      simp

end Verif.SetSymbol
