import Verif.Model.Grammar
import Verif.Proofs.SetSymbol
/- The grammar state represents the list of added rules. -/
namespace Verif.Grammar
open Verif.SetSymbol Verif.Spec

variable {α : Type} [DecidableEq α]

/-- Index list `p` denotes the names `xs`. -/
def Nm (s : SymSet α) (p : List Nat) (xs : List α) : Prop := p.map (fun i => s.symb2str[i]?) = xs.map some

omit [DecidableEq α] in
theorem Nm.mono {s s' : SymSet α} (h : s.symb2str <+: s'.symb2str) {p xs} (hn : Nm s p xs) : Nm s' p xs := by
  unfold Nm at *
  induction p generalizing xs with
  | nil => simpa using hn
  | cons i p ih =>
    cases xs with
    | nil => simp at hn
    | cons x xs =>
      simp only [List.map_cons, List.cons.injEq] at hn ⊢
      exact ⟨prefix_getElem? h hn.1, ih hn.2⟩

omit [DecidableEq α] in
theorem Nm.append {s : SymSet α} {p q xs ys} (h : Nm s p xs) (h' : Nm s q ys) : Nm s (p ++ q) (xs ++ ys) := by
  unfold Nm at *; simp [h, h']

omit [DecidableEq α] in
theorem Nm.read {s : SymSet α} {p xs} (h : Nm s p xs) : readSyms s p = .ok xs := by
  unfold Nm at h
  induction p generalizing xs with
  | nil => cases xs <;> simp_all [readSyms]
  | cons i p ih =>
    cases xs with
    | nil => simp at h
    | cons x xs =>
      simp only [List.map_cons, List.cons.injEq] at h
      have hi : ¬ (i : Int) < 0 := by omega
      simp [readSyms, symString, h.1, ih h.2, hi]

/-- Lists of productions denote lists of name lists. -/
inductive PNm (s : SymSet α) : List (List Nat) → List (List α) → Prop
  | nil : PNm s [] []
  | cons {p xs ps xss} : Nm s p xs → PNm s ps xss → PNm s (p :: ps) (xs :: xss)

omit [DecidableEq α] in
theorem PNm.mono {s s' : SymSet α} (h : s.symb2str <+: s'.symb2str) {p xs} (hn : PNm s p xs) : PNm s' p xs := by
  induction hn with
  | nil => exact .nil
  | cons h1 _ ih => exact .cons (h1.mono h) ih

omit [DecidableEq α] in
theorem PNm.snoc {s : SymSet α} {ps xss p xs} (h : PNm s ps xss) (h' : Nm s p xs) :
    PNm s (ps ++ [p]) (xss ++ [xs]) := by
  induction h with
  | nil => exact .cons h' .nil
  | cons h1 _ ih => exact .cons h1 ih

omit [DecidableEq α] in
theorem PNm.read {s : SymSet α} {ps xss} (h : PNm s ps xss) : readProds s ps = .ok xss := by
  induction h with
  | nil => rfl
  | cons h1 _ ih => simp [readProds, h1.read, ih]

omit [DecidableEq α] in
theorem addIdx_get (g : Gram α) (f : Nat) (p : List Nat) (i : Nat) :
    (addIdx g f p).productions[i]?.join =
      if i = f then some ((g.productions[f]?.join).getD [] ++ [p]) else g.productions[i]?.join := by
  have key : ∀ ps : List (Option (List (List Nat))), f < ps.length →
      (∀ i : Nat, ps[i]?.join = g.productions[i]?.join) →
      (match ps[f]?.join with
        | none => ({ g with productions := ps.set f (some [p]), order := g.order ++ [f] } : Gram α)
        | some qs => { g with productions := ps.set f (some (qs ++ [p])) }).productions[i]?.join =
      if i = f then some ((g.productions[f]?.join).getD [] ++ [p]) else g.productions[i]?.join := by
    intro ps hf hj
    rw [hj f]
    cases e : g.productions[f]?.join with
    | none =>
      simp only [List.getElem?_set]
      by_cases h : i = f
      · subst h; simp [hf]
      · have h' : ¬ f = i := fun e => h e.symm
        simp [h, h', hj]
    | some qs =>
      simp only [List.getElem?_set]
      by_cases h : i = f
      · subst h; simp [hf]
      · have h' : ¬ f = i := fun e => h e.symm
        simp [h, h', hj]
  unfold addIdx
  by_cases hlt : f < g.productions.length
  · simp only [hlt, if_true]; exact key _ hlt fun _ => rfl
  · simp only [hlt, if_false]
    refine key _ (by simp; omega) fun i => ?_
    rw [List.getElem?_append]
    split
    · rfl
    · rename_i h
      rw [List.getElem?_replicate, List.getElem?_eq_none (l := g.productions) (by omega)]
      split <;> rfl

omit [DecidableEq α] in
theorem addIdx_order (g : Gram α) (f : Nat) (p : List Nat) :
    (addIdx g f p).order = if (g.productions[f]?.join).isSome then g.order else g.order ++ [f] := by
  have key : ∀ ps : List (Option (List (List Nat))),
      (∀ i : Nat, ps[i]?.join = g.productions[i]?.join) →
      (match ps[f]?.join with
        | none => ({ g with productions := ps.set f (some [p]), order := g.order ++ [f] } : Gram α)
        | some qs => { g with productions := ps.set f (some (qs ++ [p])) }).order =
      if (g.productions[f]?.join).isSome then g.order else g.order ++ [f] := by
    intro ps hj
    rw [hj f]
    cases e : g.productions[f]?.join <;> simp
  unfold addIdx
  by_cases hlt : f < g.productions.length
  · simp only [hlt, if_true]; exact key _ fun _ => rfl
  · simp only [hlt, if_false]
    refine key _ fun i => ?_
    rw [List.getElem?_append]
    split
    · rfl
    · rw [List.getElem?_replicate, List.getElem?_eq_none (l := g.productions) (by omega)]
      split <;> rfl

omit [DecidableEq α] in
theorem addIdx_set (g : Gram α) (f : Nat) (p : List Nat) : (addIdx g f p).set = g.set := by
  unfold addIdx; simp only; split <;> rfl

/-! ### The specification `record` under one more rule -/

theorem record_mem_order (adds : List (α × List α)) (A : α) :
    A ∈ (record adds).order ↔ A ∈ adds.map (·.1) := by
  unfold record
  simp only
  have : ∀ (l o : List α), A ∈ l.foldl (fun o A => if A ∈ o then o else o ++ [A]) o ↔ A ∈ o ∨ A ∈ l := by
    intro l
    induction l with
    | nil => simp
    | cons x xs ih =>
      intro o
      rw [List.foldl_cons, ih]
      split
      · rename_i h
        constructor
        · rintro (h | h) <;> simp [h]
        · rintro (h' | h')
          · exact .inl h'
          · rcases List.mem_cons.1 h' with rfl | h'
            · exact .inl h
            · exact .inr h'
      · simp [or_assoc]
  simp [this]

theorem record_wf (adds : List (α × List α)) : (record adds).WF := by
  intro x
  rw [record_mem_order]
  simp only [record]
  split <;> simp_all

theorem record_order_snoc (adds : List (α × List α)) (A : α) (P : List α) :
    (record (adds ++ [(A, P)])).order =
      if A ∈ (record adds).order then (record adds).order else (record adds).order ++ [A] := by
  simp only [record, List.map_append, List.foldl_append, List.map_cons, List.map_nil, List.foldl_cons,
    List.foldl_nil]
  by_cases h : A ∈ List.foldl (fun o A => if A ∈ o then o else o ++ [A]) [] (List.map (fun x => x.fst) adds)
  · rw [if_pos h]; exact (if_pos h).symm
  · rw [if_neg h]; exact (if_neg h).symm

theorem record_prods_snoc (adds : List (α × List α)) (A : α) (P : List α) (x : α) :
    (record (adds ++ [(A, P)])).prods x =
      if x = A then some (((record adds).prods A).getD [] ++ [P]) else (record adds).prods x := by
  by_cases h : x = A
  · subst h
    simp only [record, List.map_append, List.mem_append, List.map_cons, List.map_nil, List.mem_singleton,
      or_true, if_true, List.filter_append, List.map_append]
    congr 1
    by_cases hx : x ∈ adds.map (·.1)
    · simp [hx]
    · simp only [hx, if_false, Option.getD_none, List.nil_append]
      have : adds.filter (fun y => decide (y.1 = x)) = [] := by
        rw [List.filter_eq_nil_iff]
        intro y hy
        have : y.1 ≠ x := fun e => hx (e ▸ List.mem_map_of_mem hy)
        simpa using this
      simp [this]
  · have h' : ¬ A = x := fun e => h e.symm
    have hm : x ∈ List.map (fun x => x.fst) (adds ++ [(A, P)]) ↔ x ∈ List.map (fun x => x.fst) adds := by
      simp [h]
    simp only [record, hm, h, if_false, List.filter_append, List.filter_cons, h', decide_false,
      List.filter_nil, List.append_nil, Bool.false_eq_true]

/-! ### Representation -/

/-- The grammar state represents the list of added rules. -/
structure Rep (g : Gram α) (adds : List (α × List α)) : Prop where
  inv : Inv g.set
  order : Nm g.set g.order (record adds).order
  prods : ∀ x (i : Nat), g.set.symb2str[i]? = some x →
    match g.productions[i]?.join, (record adds).prods x with
    | none, none => True
    | some ps, some xss => PNm g.set ps xss
    | _, _ => False
  mem : ∀ x ∈ adds.map (·.1), x ∈ g.set.symb2str
  beyond : ∀ i : Nat, g.set.symb2str.length ≤ i → g.productions[i]?.join = none

theorem rep_empty : Rep (empty : Gram α) [] := by
  refine ⟨inv_new, ?_, ?_, by simp, ?_⟩
  · simp [Nm, empty, record]
  · intro x i h; simp [empty, SetSymbol.new] at h
  · intro i _; simp [empty]

/-- Interning more symbols changes nothing. -/
theorem Rep.intern {g : Gram α} {adds} (h : Rep g adds) {s : SymSet α} (hi : Inv s)
    (hp : g.set.symb2str <+: s.symb2str) : Rep { g with set := s } adds := by
  refine ⟨hi, h.order.mono hp, ?_, fun x hx => hp.subset (h.mem x hx), ?_⟩
  · intro x i hx
    by_cases hlt : i < g.set.symb2str.length
    · have e : g.set.symb2str[i]? = some g.set.symb2str[i] := List.getElem?_eq_getElem hlt
      have e2 := prefix_getElem? hp e
      have hx : s.symb2str[i]? = some x := hx
      rw [hx] at e2
      cases e2
      have := h.prods _ i e
      revert this
      simp only
      cases g.productions[i]?.join <;> cases (record adds).prods g.set.symb2str[i] <;> simp
      exact fun h => h.mono hp
    · simp only [h.beyond i (by omega)]
      have : x ∉ adds.map (·.1) := by
        intro hm
        have := h.mem x hm
        obtain ⟨j, hj⟩ := List.mem_iff_getElem?.1 this
        have hj' := prefix_getElem? hp hj
        have := (List.getElem?_eq_some_iff.1 hj).1
        have hij : i = j := by
          have h1 := (hi.map x i).2 hx
          have h2 := (hi.map x j).2 hj'
          rw [h1] at h2; exact Option.some.inj h2
        omega
      simp [record, this]
  · intro i hi'
    exact h.beyond i (Nat.le_trans hp.length_le hi')

theorem Rep.addIdx {g : Gram α} {adds} (h : Rep g adds) {f A p P} (hf : g.set.symb2str[f]? = some A)
    (hp : Nm g.set p P) : Rep (addIdx g f p) (adds ++ [(A, P)]) := by
  have hsome : (g.productions[f]?.join).isSome ↔ A ∈ (record adds).order := by
    have h1 := h.prods A f hf
    rw [← record_wf adds A]
    revert h1
    cases g.productions[f]?.join <;> cases (record adds).prods A <;> simp
  refine ⟨by rw [addIdx_set]; exact h.inv, ?_, ?_, ?_, ?_⟩
  · rw [addIdx_set, addIdx_order, record_order_snoc]
    by_cases hA : A ∈ (record adds).order
    · rw [if_pos (hsome.2 hA), if_pos hA]; exact h.order
    · rw [if_neg (fun e => hA (hsome.1 e)), if_neg hA]
      exact h.order.append (by simp [Nm, hf])
  · intro x i hx
    rw [addIdx_set] at hx ⊢
    rw [addIdx_get, record_prods_snoc]
    have hxA : x = A ↔ i = f := by
      constructor
      · rintro rfl
        have h1 := (h.inv.map x i).2 hx
        have h2 := (h.inv.map x f).2 hf
        rw [h1] at h2; exact Option.some.inj h2
      · rintro rfl
        rw [hx] at hf; exact Option.some.inj hf
    by_cases hi : i = f
    · rw [if_pos hi, if_pos (hxA.2 hi)]
      have := h.prods A f hf
      revert this
      cases g.productions[f]?.join <;> cases (record adds).prods A <;> simp
      · exact .cons hp .nil
      · exact fun h => h.snoc hp
    · rw [if_neg hi, if_neg (fun e => hi (hxA.1 e))]
      exact h.prods x i hx
  · intro x hx
    rw [addIdx_set]
    simp only [List.map_append, List.map_cons, List.map_nil, List.mem_append, List.mem_singleton] at hx
    rcases hx with hx | rfl
    · exact h.mem x hx
    · exact List.mem_of_getElem? hf
  · intro i hi
    rw [addIdx_set] at hi
    rw [addIdx_get]
    have : f < g.set.symb2str.length := (List.getElem?_eq_some_iff.1 hf).1
    rw [if_neg (by omega)]
    exact h.beyond i hi

/-- The argument denotes the name. -/
theorem symbol_arg {s s0 : SymSet α} (hs : Inv s) (h0 : Inv s0) (hp : s0.symb2str <+: s.symb2str) (b : Bool) (x : α) :
    ∃ i, symbol s (arg s0 (b, x)) = ((str s x).1, some i) ∧ (str s x).1.symb2str[i]? = some x := by
  have hother : symbol s (.other x) = ((str s x).1, some (str s x).2) := rfl
  unfold arg
  split
  · rename_i i _ e
    have e := (h0.map x i).1 e
    have e2 := prefix_getElem? hp e
    have hst := str_present hs (List.mem_of_getElem? e2)
    refine ⟨i, ?_, ?_⟩
    · simp only [symbol, hst]
    · rw [hst]; exact e2
  · exact ⟨_, hother, str_idx hs x⟩

theorem production_args {s0 : SymSet α} (h0 : Inv s0) : ∀ (p : List (Bool × α)) (s : SymSet α), Inv s →
    s0.symb2str <+: s.symb2str → ∃ s' q, production s (p.map (arg s0)) = .ok (s', q) ∧ Inv s' ∧
      s.symb2str <+: s'.symb2str ∧ Nm s' q (p.map (·.2)) := by
  intro p
  induction p with
  | nil => intro s hs _; exact ⟨s, [], rfl, hs, List.prefix_refl _, by simp [Nm]⟩
  | cons a p ih =>
    intro s hs hp
    obtain ⟨i, e, hi⟩ := symbol_arg hs h0 hp a.1 a.2
    obtain ⟨s', q, e2, h1, h2, h3⟩ := ih (str s a.2).1 (inv_str hs _) (hp.trans (str_prefix _ _))
    refine ⟨s', i :: q, ?_, h1, (str_prefix _ _).trans h2, ?_⟩
    · simp only [List.map_cons, production]
      rw [show arg s0 a = arg s0 (a.1, a.2) from rfl, e]
      simp [e2]
    · unfold Nm at *
      simp only [List.map_cons, List.cons.injEq]
      exact ⟨prefix_getElem? h2 hi, h3⟩

theorem Rep.add {g : Gram α} {adds} (h : Rep g adds) (A : Bool × α) (p : Option (List (Bool × α))) :
    ∃ g', add g (arg g.set A) (p.map (·.map (arg g.set))) = .ok g' ∧
      Rep g' (adds ++ [(A.2, (p.getD []).map (·.2))]) := by
  obtain ⟨f, e, hf⟩ := symbol_arg h.inv h.inv (List.prefix_refl _) A.1 A.2
  obtain ⟨s', q, e2, h1, h2, h3⟩ := production_args h.inv (p.getD []) _ (inv_str h.inv A.2) (str_prefix _ _)
  have hm : (p.map (·.map (arg g.set))).getD [] = (p.getD []).map (arg g.set) := by cases p <;> rfl
  refine ⟨Grammar.addIdx { g with set := s' } f q, ?_, ?_⟩
  · unfold Grammar.add
    rw [show arg g.set A = arg g.set (A.1, A.2) from rfl, e]
    simp only [hm, e2, Out.bind_ok]
  · exact (h.intern h1 ((str_prefix _ _).trans h2)).addIdx (prefix_getElem? h2 hf) h3

theorem Rep.productions {g : Gram α} {adds} (h : Rep g adds) (A : Bool × α) :
    ∃ g', (∃ r, productions g (arg g.set A) = .ok (g', r)) ∧ Rep g' adds ∧
      readProductions g (arg g.set A) = .ok ((record adds).prods A.2) := by
  obtain ⟨f, e, hf⟩ := symbol_arg h.inv h.inv (List.prefix_refl _) A.1 A.2
  have hr := h.intern (inv_str h.inv A.2) (str_prefix g.set A.2)
  have ep : Grammar.productions g (arg g.set A) = .ok ({ g with set := (str g.set A.2).1 }, g.productions[f]?.join) := by
    unfold Grammar.productions
    rw [show arg g.set A = arg g.set (A.1, A.2) from rfl, e]
  refine ⟨_, ⟨_, ep⟩, hr, ?_⟩
  unfold readProductions
  rw [ep]
  simp only [Out.bind_ok]
  have := hr.prods A.2 f hf
  revert this
  simp only
  cases g.productions[f]?.join <;> cases (record adds).prods A.2 <;> simp
  intro h
  simp [h.read]

theorem Rep.nonTerminals {g : Gram α} {adds} (h : Rep g adds) :
    nonTerminals g = .ok (record adds).order := h.order.read

theorem view_rep {g : Gram Spec.Str} {adds} (h : Rep g adds) : view g = record adds := by
  have h1 := h.nonTerminals
  have h2 : ∀ x, readProductions g (.other x) = .ok ((record adds).prods x) := fun x => by
    obtain ⟨_, _, _, e⟩ := h.productions (false, x); exact e
  simp only [view, h1, h2]

end Verif.Grammar
