import Verif.Spec.CFG
/- General lemmas about the specification of grammars. -/
namespace Verif.Spec.Grammar
variable {α : Type} {g : Grammar α} {inp : List α}

theorem Der.le {ss i j} (h : g.Der inp ss i j) : i ≤ j := by
  induction h with
  | nil => exact Nat.le_refl _
  | term _ _ _ ih => omega
  | nonterm _ _ _ ih1 ih2 => omega

theorem Der.le_length {ss i j} (h : g.Der inp ss i j) (hi : i ≤ inp.length) : j ≤ inp.length := by
  induction h with
  | nil => exact hi
  | term _ h1 _ ih => exact ih (List.getElem?_eq_some_iff.1 h1).1
  | nonterm _ _ _ ih1 ih2 => exact ih2 (ih1 hi)

theorem Der.append {ss ss' i m j} (h1 : g.Der inp ss i m) (h2 : g.Der inp ss' m j) :
    g.Der inp (ss ++ ss') i j := by
  induction h1 with
  | nil => exact h2
  | term h hi _ ih => exact .term h hi (ih h2)
  | nonterm h hp _ _ ih => exact .nonterm h hp (ih h2)

theorem Derives.append {ss ss' u v} (h1 : g.Derives ss u) (h2 : g.Derives ss' v) :
    g.Derives (ss ++ ss') (u ++ v) := by
  induction h1 with
  | nil => exact h2
  | term h _ ih => exact .term h ih
  | nonterm h hp _ _ ih => rw [List.append_assoc]; exact .nonterm h hp ih

/-- The part of a list between two positions. -/
def slice (l : List α) (i j : Nat) : List α := (l.drop i).take (j - i)

theorem slice_self (l : List α) (i : Nat) : slice l i i = [] := by simp [slice]

theorem slice_append (l : List α) {i m j : Nat} (h1 : i ≤ m) (h2 : m ≤ j) :
    slice l i m ++ slice l m j = slice l i j := by
  unfold slice
  have e : j - i = (m - i) + (j - m) := by omega
  rw [e, List.take_add, List.drop_drop]
  congr 3
  omega

theorem slice_cons (l : List α) {i j : Nat} {t : α} (h : l[i]? = some t) (h2 : i + 1 ≤ j) :
    slice l i j = t :: slice l (i + 1) j := by
  rw [← slice_append l (Nat.le_succ i) h2]
  have : slice l i i.succ = [t] := by
    obtain ⟨hi, e⟩ := List.getElem?_eq_some_iff.1 h
    unfold slice
    rw [List.drop_eq_getElem_cons hi, e]
    simp
  rw [this]; rfl

theorem Der.derives {ss i j} (h : g.Der inp ss i j) : g.Derives ss (slice inp i j) := by
  induction h with
  | nil => rw [slice_self]; exact .nil
  | term h hi h2 ih => rw [slice_cons inp hi h2.le]; exact .term h ih
  | nonterm h h1 h2 ih1 ih2 =>
    rw [← slice_append inp h1.le h2.le]
    exact .nonterm h ih1 ih2

theorem Derives.der {ss w} (h : g.Derives ss w) : ∀ pre post, inp = pre ++ w ++ post →
    g.Der inp ss pre.length (pre.length + w.length) := by
  induction h with
  | nil => intro pre post _; exact .nil
  | @term t ss w h _ ih =>
    intro pre post e
    refine .term h ?_ ?_
    · rw [e]; simp
    · have := ih (pre ++ [t]) post (by simp [e])
      simp only [List.length_append, List.length_cons, List.length_nil] at this ⊢
      rwa [show pre.length + (w.length + 1) = pre.length + (0 + 1) + w.length by omega]
  | @nonterm A k p ss u v h _ _ ih1 ih2 =>
    intro pre post e
    refine .nonterm h (ih1 pre (v ++ post) (by simp [e])) ?_
    have := ih2 (pre ++ u) post (by simp [e])
    simp only [List.length_append] at this ⊢
    rwa [Nat.add_assoc] at this

theorem slice_full (l : List α) : slice l 0 l.length = l := by simp [slice]

/-- Whole-input form: the two notions of derivation agree. -/
theorem der_iff_derives {ss} : g.Der inp ss 0 inp.length ↔ g.Derives ss inp := by
  constructor
  · intro h; have := h.derives; rwa [slice_full] at this
  · intro h
    have := h.der (inp := inp) [] [] (by simp)
    simpa using this

theorem Der.eps {ss i} (h : g.Der inp ss i i) : g.Derives ss [] := by
  have := h.derives; rwa [slice_self] at this

theorem Der.cons_split {X ss i j} (h : g.Der inp (X :: ss) i j) :
    ∃ m, g.Der inp [X] i m ∧ g.Der inp ss m j := by
  cases h with
  | term h hi h2 => exact ⟨_, .term h hi .nil, h2⟩
  | nonterm h h1 h2 => exact ⟨_, .nonterm h h1 .nil, h2⟩

theorem Der.append_split {ss ss' i j} (h : g.Der inp (ss ++ ss') i j) :
    ∃ m, g.Der inp ss i m ∧ g.Der inp ss' m j := by
  induction ss generalizing i with
  | nil => exact ⟨i, .nil, h⟩
  | cons X ss ih =>
    obtain ⟨m, h1, h2⟩ := Der.cons_split (ss := ss ++ ss') h
    obtain ⟨m', h3, h4⟩ := ih h2
    exact ⟨m', h1.append h3, h4⟩

theorem Plus.trans {β : Type} {R : β → β → Prop} {a b c} (h1 : Plus R a b) (h2 : Plus R b c) :
    Plus R a c := by
  induction h1 with
  | one h => exact .step h h2
  | step h _ ih => exact .step h (ih h2)

/-- A derivation tree is a derivation of its leaves. -/
theorem Valid.derives {V : Type} {t : PN α V} (h : t.Valid g) :
    g.Derives [t.kind] ((t.fringe (fun s => (g.prods s).isNone)).map (·.kind)) := by
  induction h with
  | @leaf l ht =>
    have e : g.prods l.kind = none := ht
    simp only [PN.fringe, e, Option.isNone_none, if_true, List.map_cons, List.map_nil]
    exact .term ht .nil
  | @inner l ks k p hr hk hv ih =>
    have e : ¬ (g.prods l.kind).isNone = true := by
      obtain ⟨ps, e, _⟩ := hr
      simp [e]
    rw [PN.fringe, if_neg e]
    have : g.Derives p ((PN.fringes (fun s => (g.prods s).isNone) ks).map (·.kind)) := by
      subst hk
      clear hr hv
      induction ks with
      | nil => exact .nil
      | cons t ts iht =>
        rw [PN.fringes, List.map_append]
        exact (ih t (by simp)).append (iht fun t' h' => ih t' (by simp [h']))
    have := Derives.nonterm hr this .nil
    simpa [PN.kind, PN.lx] using this

theorem isParse_sentence {V : Type} {ls : List (Lexeme α V)} {t : PN α V} (h : IsParse g ls t) :
    g.Sentence (ls.map (·.kind)) := by
  obtain ⟨h1, h2, h3⟩ := h
  refine ⟨_, h1, ?_⟩
  have := Valid.derives h2
  rwa [h3] at this

end Verif.Spec.Grammar
