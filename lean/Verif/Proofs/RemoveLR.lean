import Verif.Model.LeftRecursion
import Verif.Spec.RemoveLR
import Verif.Proofs.Grammar
/- RemoveLeftRecursion: the two symbol sets stay in step, and what the result shows. -/
namespace Verif.LeftRecursion
open Verif.SetSymbol Verif.Spec Verif.Spec.RemoveLR Verif.Grammar

theorem prime_eq (A : Str) : prime A = primed A := rfl

theorem primed_inj {A B : Str} (h : primed A = primed B) : A = B := List.append_cancel_right h

theorem primed_ne (A : Str) : primed A ≠ A := by
  intro h
  have := congrArg List.length h
  simp [primed] at this

/-! ### Expansion -/

section
variable {g : Spec.Grammar Str} {dn : List Str}

theorem _root_.Verif.Spec.RemoveLR.Expands.append {ps qs ps' qs'} (h : Expands g dn ps qs) (h' : Expands g dn ps' qs') :
    Expands g dn (ps ++ ps') (qs ++ qs') := by
  induction h with
  | nil => exact h'
  | keep h _ ih => exact .keep h ih
  | subst h1 h2 _ ih => exact .subst h1 h2 (by simpa using ih)

theorem _root_.Verif.Spec.RemoveLR.Expands.unique {ps qs qs'} (h : Expands g dn ps qs) (h' : Expands g dn ps qs') : qs = qs' := by
  induction h generalizing qs' with
  | nil => cases h'; rfl
  | keep h _ ih =>
    cases h' with
    | keep _ h' => rw [ih h']
    | subst h1 => exact absurd h1 (h _ rfl)
  | subst h1 h2 _ ih =>
    cases h' with
    | keep h' => exact absurd h1 (h' _ rfl)
    | subst _ h3 h' =>
      rw [h2] at h3
      cases h3
      exact ih h'

theorem _root_.Verif.Spec.RemoveLR.Expands.split {ps qs} (h : Expands g dn ps qs) : ∀ a b, ps = a ++ b →
    ∃ qa qb, Expands g dn a qa ∧ Expands g dn b qb ∧ qs = qa ++ qb := by
  induction h with
  | nil =>
    intro a b e
    obtain ⟨rfl, rfl⟩ := List.append_eq_nil_iff.1 e.symm
    exact ⟨[], [], .nil, .nil, rfl⟩
  | @keep p ps qs h hx ih =>
    intro a b e
    cases a with
    | nil => cases e; exact ⟨[], _, .nil, .keep h hx, rfl⟩
    | cons x a =>
      cases e
      obtain ⟨qa, qb, h1, h2, rfl⟩ := ih a b rfl
      exact ⟨_, _, .keep h h1, h2, rfl⟩
  | @subst F t rs ps qs h1 h2 hx ih =>
    intro a b e
    cases a with
    | nil => cases e; exact ⟨[], _, .nil, .subst h1 h2 hx, rfl⟩
    | cons x a =>
      cases e
      obtain ⟨qa, qb, h3, h4, rfl⟩ := ih (rs.map (· ++ t) ++ a) b (by simp)
      exact ⟨_, _, .subst h1 h2 h3, h4, rfl⟩

end

/-! ### Symbol tables -/

section
variable {α : Type} [DecidableEq α]

theorem foldl_ins_of_mem {l t : List α} (h : ∀ x ∈ l, x ∈ t) : l.foldl ins t = t := by
  induction l with
  | nil => rfl
  | cons x l ih =>
    rw [List.foldl_cons, ins, if_pos (h x (by simp))]
    exact ih fun y hy => h y (by simp [hy])

theorem foldl_ins_prefix (l t : List α) : t <+: l.foldl ins t := by
  induction l generalizing t with
  | nil => exact List.prefix_refl _
  | cons x l ih =>
    refine List.IsPrefix.trans ?_ (ih _)
    unfold ins
    split
    · exact List.prefix_refl _
    · exact List.prefix_append _ _

theorem castSyms_present {s : SymSet α} (h : Inv s) : ∀ {xs : List α}, (∀ x ∈ xs, x ∈ s.symb2str) →
    (castSyms s xs).1 = s := by
  intro xs
  induction xs with
  | nil => intro _; rfl
  | cons x xs ih =>
    intro hx
    simp only [castSyms]
    rw [str_present h (hx x (by simp))]
    exact ih fun y hy => hx y (by simp [hy])

theorem production_other : ∀ (xs : List α) (s : SymSet α),
    production s (xs.map SymArg.other) = .ok (castSyms s xs) := by
  intro xs
  induction xs with
  | nil => intro s; rfl
  | cons x xs ih => intro s; simp [production, symbol, castSyms, ih]

omit [DecidableEq α] in
theorem get_inj {s : SymSet α} (h : Inv s) {i j : Nat} {x : α} (hi : s.symb2str[i]? = some x)
    (hj : s.symb2str[j]? = some x) : i = j := by
  have h1 := (h.map x i).2 hi
  have h2 := (h.map x j).2 hj
  rw [h1] at h2
  exact Option.some.inj h2

omit [DecidableEq α] in
theorem symString_ok {s : SymSet α} {i : Nat} {x : α} (h : s.symb2str[i]? = some x) :
    symString s (i : Int) = .ok x := by
  have : ¬ (i : Int) < 0 := by omega
  simp [symString, h, this]

theorem castSyms_nm {s : SymSet α} (h : Inv s) (p : List α) : Nm (castSyms s p).1 (castSyms s p).2 p :=
  castSyms_get h p

omit [DecidableEq α] in
theorem Nm.mem {s : SymSet α} {p xs} (h : Nm s p xs) : ∀ x ∈ xs, x ∈ s.symb2str := by
  intro x hx
  have : some x ∈ xs.map some := List.mem_map_of_mem hx
  rw [← h] at this
  obtain ⟨i, _, e⟩ := List.mem_map.1 this
  exact List.mem_of_getElem? e

omit [DecidableEq α] in
theorem Nm.cons_inv {s : SymSet α} {i p xs} (h : Nm s (i :: p) xs) :
    ∃ x ys, xs = x :: ys ∧ s.symb2str[i]? = some x ∧ Nm s p ys := by
  cases xs with
  | nil => simp [Nm] at h
  | cons x ys =>
    simp only [Nm, List.map_cons, List.cons.injEq] at h
    exact ⟨x, ys, rfl, h.1, h.2⟩

omit [DecidableEq α] in
theorem Nm.nil_inv {s : SymSet α} {xs} (h : Nm s [] xs) : xs = [] := by
  cases xs with
  | nil => rfl
  | cons x ys => simp [Nm] at h

theorem Nm.dropWhile {s : SymSet α} (hs : Inv s) {c : Nat} {A : α} (hc : s.symb2str[c]? = some A) :
    ∀ {p xs}, Nm s p xs → Nm s (p.dropWhile (· = c)) (xs.dropWhile (· = A)) := by
  intro p
  induction p with
  | nil => intro xs h; rw [Nm.nil_inv h]; exact rfl
  | cons i p ih =>
    intro xs h
    obtain ⟨x, ys, rfl, hi, hp⟩ := Nm.cons_inv h
    have : i = c ↔ x = A := by
      constructor
      · rintro rfl; rw [hi] at hc; exact Option.some.inj hc
      · rintro rfl; exact get_inj hs hi hc
    by_cases e : i = c
    · simp only [List.dropWhile_cons, e, this.1 e, decide_true, if_true]
      exact ih hp
    · have e' : ¬ x = A := fun h => e (this.2 h)
      simp only [List.dropWhile_cons, e, e', decide_false, Bool.false_eq_true, if_false]
      exact h

/-! ### Representation without the order -/

/-- The stored productions are those of `pr`. -/
structure RepP (g : Gram α) (pr : α → Option (List (List α))) : Prop where
  inv : Inv g.set
  prods : ∀ x (i : Nat), g.set.symb2str[i]? = some x →
    match g.productions[i]?.join, pr x with
    | none, none => True
    | some ps, some xss => PNm g.set ps xss
    | _, _ => False
  mem : ∀ x, pr x ≠ none → x ∈ g.set.symb2str
  beyond : ∀ i : Nat, g.set.symb2str.length ≤ i → g.productions[i]?.join = none

/-- One more production. -/
def app (pr : α → Option (List (List α))) (A : α) (P : List α) : α → Option (List (List α)) :=
  upd pr A (some ((pr A).getD [] ++ [P]))

omit [DecidableEq α] in
theorem RepP.intern {g : Gram α} {pr} (h : RepP g pr) {s : SymSet α} (hi : Inv s)
    (hp : g.set.symb2str <+: s.symb2str) : RepP { g with set := s } pr := by
  refine ⟨hi, ?_, fun x hx => hp.subset (h.mem x hx), ?_⟩
  · intro x i hx
    have hx : s.symb2str[i]? = some x := hx
    by_cases hlt : i < g.set.symb2str.length
    · have e : g.set.symb2str[i]? = some g.set.symb2str[i] := List.getElem?_eq_getElem hlt
      have e2 := prefix_getElem? hp e
      rw [hx] at e2
      cases e2
      have := h.prods _ i e
      revert this
      simp only
      cases g.productions[i]?.join <;> cases pr g.set.symb2str[i] <;> simp
      exact fun h => h.mono hp
    · simp only [h.beyond i (by omega)]
      have : pr x = none := by
        refine Classical.byContradiction fun hm => ?_
        obtain ⟨j, hj⟩ := List.mem_iff_getElem?.1 (h.mem x hm)
        have := (List.getElem?_eq_some_iff.1 hj).1
        have := get_inj hi hx (prefix_getElem? hp hj)
        omega
      simp [this]
  · intro i hi'
    exact h.beyond i (Nat.le_trans hp.length_le hi')

theorem RepP.put {g g' : Gram α} {pr} (h : RepP g pr) {f A p P} (hf : g.set.symb2str[f]? = some A)
    (hp : Nm g.set p P) (hs : g'.set = g.set)
    (hg : ∀ i : Nat, g'.productions[i]?.join =
      if i = f then some ((g.productions[f]?.join).getD [] ++ [p]) else g.productions[i]?.join) :
    RepP g' (app pr A P) := by
  refine ⟨by rw [hs]; exact h.inv, ?_, ?_, ?_⟩
  · intro x i hx
    rw [hs] at hx ⊢
    rw [hg]
    by_cases hi : i = f
    · subst hi
      rw [hf] at hx
      cases hx
      rw [if_pos rfl]
      have := h.prods A i hf
      simp only [app, upd_same]
      revert this
      cases g.productions[i]?.join <;> cases pr A <;> simp
      · exact .cons hp .nil
      · exact fun h => h.snoc hp
    · rw [if_neg hi]
      have hxA : x ≠ A := fun e => hi (get_inj h.inv hx (e ▸ hf))
      rw [app, upd_ne _ _ hxA]
      exact h.prods x i hx
  · intro x hx
    rw [hs]
    by_cases hxA : x = A
    · subst hxA; exact List.mem_of_getElem? hf
    · rw [app, upd_ne _ _ hxA] at hx
      exact h.mem x hx
  · intro i hi
    rw [hs] at hi
    rw [hg]
    have : f < g.set.symb2str.length := (List.getElem?_eq_some_iff.1 hf).1
    rw [if_neg (by omega)]
    exact h.beyond i hi

theorem RepP.clear {g : Gram α} {pr} (h : RepP g pr) {f A} (hf : g.set.symb2str[f]? = some A) (o : List Nat) :
    RepP ⟨o, g.productions.set f none, g.set⟩ (upd pr A none) := by
  refine ⟨h.inv, ?_, ?_, ?_⟩
  · intro x i hx
    have hx : g.set.symb2str[i]? = some x := hx
    simp only [List.getElem?_set]
    by_cases hi : f = i
    · subst hi
      rw [hf] at hx
      cases hx
      rw [if_pos rfl]
      simp only [upd_same]
      have : (if f < g.productions.length then some (none : Option (List (List Nat))) else none).join = none := by
        split <;> rfl
      rw [this]
      trivial
    · rw [if_neg hi]
      have hxA : x ≠ A := fun e => hi (get_inj h.inv (e ▸ hf) hx)
      rw [upd_ne _ _ hxA]
      exact h.prods x i hx
  · intro x hx
    by_cases hxA : x = A
    · subst hxA; exact List.mem_of_getElem? hf
    · rw [upd_ne _ _ hxA] at hx
      exact h.mem x hx
  · intro i hi
    have hi : g.set.symb2str.length ≤ i := hi
    have : f < g.set.symb2str.length := (List.getElem?_eq_some_iff.1 hf).1
    simp only [List.getElem?_set]
    rw [if_neg (by omega)]
    exact h.beyond i hi

omit [DecidableEq α] in
theorem RepP.isSome {g : Gram α} {pr} (h : RepP g pr) {f : Nat} {A : α} (hf : g.set.symb2str[f]? = some A) :
    (g.productions[f]?.join).isSome = (pr A).isSome := by
  have h1 := h.prods A f hf
  revert h1
  cases g.productions[f]?.join <;> cases pr A <;> simp

theorem repP_empty : RepP (empty : Gram α) (fun _ => none) := by
  refine ⟨inv_new, ?_, by simp, ?_⟩
  · intro x i h; simp [empty, SetSymbol.new] at h
  · intro i _; simp [empty]

/-- What clients see. -/
theorem RepP.shows {g : Gram α} {G : Spec.Grammar α} (h : RepP g G.prods) (ho : Nm g.set g.order G.order) :
    nonTerminals g = .ok G.order ∧
      ∀ x : Bool × α, readProductions g (arg g.set x) = .ok (G.prods x.2) := by
  refine ⟨ho.read, fun A => ?_⟩
  obtain ⟨f, e, hf⟩ := symbol_arg h.inv h.inv (List.prefix_refl _) A.1 A.2
  have hr := h.intern (inv_str h.inv A.2) (str_prefix g.set A.2)
  have ep : Grammar.productions g (arg g.set A) = .ok ({ g with set := (str g.set A.2).1 }, g.productions[f]?.join) := by
    unfold Grammar.productions
    rw [show arg g.set A = arg g.set (A.1, A.2) from rfl, e]
  unfold readProductions
  rw [ep]
  simp only [Out.bind_ok]
  have := hr.prods A.2 f hf
  revert this
  simp only
  cases g.productions[f]?.join <;> cases G.prods A.2 <;> simp
  intro h
  simp [h.read]

end

theorem directIdx_get (g : Gram Str) (f : Nat) (p : List Nat) (i : Nat) :
    (directIdx g f p).productions[i]?.join =
      if i = f then some ((g.productions[f]?.join).getD [] ++ [p]) else g.productions[i]?.join := by
  rw [← addIdx_get]
  unfold directIdx Grammar.addIdx
  simp only
  split <;> rename_i h <;> simp only [h]

theorem directIdx_set (g : Gram Str) (f : Nat) (p : List Nat) : (directIdx g f p).set = g.set := by
  unfold directIdx; simp only; split <;> rfl

theorem directIdx_order (g : Gram Str) (f : Nat) (p : List Nat) : (directIdx g f p).order = g.order := by
  unfold directIdx; simp only; split <;> rfl

end Verif.LeftRecursion
