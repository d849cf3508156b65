import Mathlib.Data.List.Nodup
import Mathlib.Data.List.Perm.Basic
/-
What a set of named definitions with inheritance should mean, independent of any implementation. A
definition is a list of items: an entry (a key with a body), or the name of a definition to inherit
from. An entry whose key is there already is ignored.
-/
namespace Verif.Spec

inductive Item (ν κ β : Type) where
  | own (e : κ × β)
  | inh (x : ν)

variable {ν κ β : Type} [DecidableEq κ]

/-- Add an entry unless its key is there already. -/
def addEntry (v : List (κ × β)) (e : κ × β) : List (κ × β) :=
  if e.1 ∈ v.map Prod.fst then v else v ++ [e]

/-- `Declares defs is v w`: starting from the entries `v`, the items `is` give `w`, where inherited
entries come in the order in which they are declared. -/
inductive Declares (defs : ν → List (Item ν κ β)) :
    List (Item ν κ β) → List (κ × β) → List (κ × β) → Prop
  | nil {v} : Declares defs [] v v
  | own {e is v w} : Declares defs is (addEntry v e) w → Declares defs (.own e :: is) v w
  | inh {x is} {u v w : List (κ × β)} : Declares defs (defs x) [] u → Declares defs is (u.foldl addEntry v) w →
      Declares defs (.inh x :: is) v w

/-- The same, but inherited entries come in any order. -/
inductive Collects (defs : ν → List (Item ν κ β)) :
    List (Item ν κ β) → List (κ × β) → List (κ × β) → Prop
  | nil {v} : Collects defs [] v v
  | own {e is v w} : Collects defs is (addEntry v e) w → Collects defs (.own e :: is) v w
  | inh {x is} {u u' v w : List (κ × β)} : Collects defs (defs x) [] u → u'.Perm u →
      Collects defs is (u'.foldl addEntry v) w → Collects defs (.inh x :: is) v w

/-- The same, but inherited entries come in the order of a list of all keys. -/
inductive CollectsBy (names : List κ) (defs : ν → List (Item ν κ β)) :
    List (Item ν κ β) → List (κ × β) → List (κ × β) → Prop
  | nil {v} : CollectsBy names defs [] v v
  | own {e is v w} : CollectsBy names defs is (addEntry v e) w → CollectsBy names defs (.own e :: is) v w
  | inh {x is} {u u' v w : List (κ × β)} : CollectsBy names defs (defs x) [] u → u'.Perm u → (u'.map Prod.fst).Sublist names →
      CollectsBy names defs is (u'.foldl addEntry v) w → CollectsBy names defs (.inh x :: is) v w

/-- The keys met when definitions are gone through, each definition only the first time: `Visits defs D K is D' K'` if the definitions
`D` have been seen before and the keys `K` met, in that order, and after the items `is` it is `D'` and `K'`. -/
inductive Visits (defs : ν → List (Item ν κ β)) : List ν → List κ → List (Item ν κ β) → List ν → List κ → Prop
  | nil {D K} : Visits defs D K [] D K
  | own {e is D K D' K'} : Visits defs D (if e.1 ∈ K then K else K ++ [e.1]) is D' K' → Visits defs D K (.own e :: is) D' K'
  | old {x is D K D' K'} : x ∈ D → Visits defs D K is D' K' → Visits defs D K (.inh x :: is) D' K'
  | new {x is D K D1 K1 D' K'} : x ∉ D → Visits defs (x :: D) K (defs x) D1 K1 → Visits defs D1 K1 is D' K' →
      Visits defs D K (.inh x :: is) D' K'

theorem Declares.collects {defs : ν → List (Item ν κ β)} {is v w} (h : Declares defs is v w) :
    Collects defs is v w := by
  induction h with
  | nil => exact .nil
  | own _ ih => exact .own ih
  | inh _ _ ih1 ih2 => exact .inh ih1 (.refl _) ih2

theorem addEntry_keys {v : List (κ × β)} {e : κ × β} (h : (v.map Prod.fst).Nodup) :
    ((addEntry v e).map Prod.fst).Nodup := by
  unfold addEntry
  split
  · exact h
  · next hn =>
    rw [List.map_append, List.nodup_append]
    refine ⟨h, by simp, ?_⟩
    intro a ha b hb e
    simp only [List.map_cons, List.map_nil, List.mem_singleton] at hb
    subst e; subst hb; exact hn ha

theorem foldl_keys {u : List (κ × β)} : ∀ {v : List (κ × β)}, (v.map Prod.fst).Nodup →
    ((u.foldl addEntry v).map Prod.fst).Nodup := by
  induction u with
  | nil => exact id
  | cons e u ih => exact fun h => ih (addEntry_keys h)

theorem Collects.keys {defs : ν → List (Item ν κ β)} {is v w} (h : Collects defs is v w)
    (hv : (v.map Prod.fst).Nodup) : (w.map Prod.fst).Nodup := by
  induction h with
  | nil => exact hv
  | own _ ih => exact ih (addEntry_keys hv)
  | inh _ _ _ _ ih2 => exact ih2 (foldl_keys hv)

theorem foldl_addEntry {u : List (κ × β)} : ∀ {v : List (κ × β)}, (u.map Prod.fst).Nodup →
    u.foldl addEntry v = v ++ u.filter (fun e => decide (e.1 ∉ v.map Prod.fst)) := by
  induction u with
  | nil => simp
  | cons e u ih =>
    intro v hu
    rw [List.map_cons, List.nodup_cons] at hu
    rw [List.foldl_cons, ih hu.2]
    unfold addEntry
    by_cases he : e.1 ∈ v.map Prod.fst
    · rw [if_pos he, List.filter_cons_of_neg (by simpa using he)]
    · rw [if_neg he, List.filter_cons_of_pos (by simpa using he), List.append_assoc]
      congr 1
      rw [List.singleton_append]
      congr 1
      apply List.filter_congr
      intro a ha
      have : a.1 ≠ e.1 := fun h => hu.1 (h ▸ List.mem_map_of_mem ha)
      simp [this]

theorem addEntry_perm {v v' : List (κ × β)} (h : v.Perm v') (e : κ × β) :
    (addEntry v e).Perm (addEntry v' e) := by
  unfold addEntry
  have : e.1 ∈ v.map Prod.fst ↔ e.1 ∈ v'.map Prod.fst := (h.map _).mem_iff
  by_cases he : e.1 ∈ v.map Prod.fst
  · rw [if_pos he, if_pos (this.1 he)]; exact h
  · rw [if_neg he, if_neg (fun h => he (this.2 h))]; exact h.append_right _

theorem foldl_perm {u u' v v' : List (κ × β)} (hv : v.Perm v') (hu : u.Perm u')
    (hk : (u.map Prod.fst).Nodup) : (u.foldl addEntry v).Perm (u'.foldl addEntry v') := by
  rw [foldl_addEntry hk, foldl_addEntry ((hu.map _).nodup_iff.1 hk)]
  refine hv.append ?_
  have : (fun e : κ × β => decide (e.1 ∉ v.map Prod.fst)) = fun e => decide (e.1 ∉ v'.map Prod.fst) := by
    funext e
    have := (hv.map Prod.fst).mem_iff (a := e.1)
    simp only [this]
  rw [this]
  exact hu.filter _

/-- In whatever order inherited entries come, the entries are the same. -/
theorem Collects.perm {defs : ν → List (Item ν κ β)} {is v w} (h : Collects defs is v w) :
    ∀ {v' w'}, Collects defs is v' w' → v.Perm v' → w.Perm w' := by
  induction h with
  | nil => intro v' w' h' hv; cases h'; exact hv
  | own _ ih =>
    intro v' w' h' hv
    cases h' with
    | own h' => exact ih h' (addEntry_perm hv _)
  | inh h1 hp _ ih1 ih2 =>
    intro v' w' h' hv
    cases h' with
    | inh h1' hp' h2' =>
      refine ih2 h2' (foldl_perm hv ((hp.trans (ih1 h1' (.refl _))).trans hp'.symm) ?_)
      exact (hp.map _).nodup_iff.2 (h1.keys (by simp))

/-- Without inheritance there is one result. -/
theorem Collects.unique {defs : ν → List (Item ν κ β)} {is v w} (h : Collects defs is v w)
    (hn : ∀ x, Item.inh x ∉ is) : ∀ {w'}, Collects defs is v w' → w = w' := by
  induction h with
  | nil => intro w' h'; cases h'; rfl
  | own _ ih =>
    intro w' h'
    cases h' with
    | own h' => exact ih (fun x hx => hn x (List.mem_cons_of_mem _ hx)) h'
  | inh => exact absurd (List.mem_cons_self ..) (hn _)

/-! ### Inherited entries in the order of a list -/

theorem CollectsBy.collects {names : List κ} {defs : ν → List (Item ν κ β)} {is v w} (h : CollectsBy names defs is v w) :
    Collects defs is v w := by
  induction h with
  | nil => exact .nil
  | own _ ih => exact .own ih
  | inh _ hp _ _ ih1 ih2 => exact .inh ih1 hp ih2

theorem CollectsBy.mono {names names' : List κ} {defs : ν → List (Item ν κ β)} {is v w} (h : CollectsBy names defs is v w)
    (hn : names.Sublist names') : CollectsBy names' defs is v w := by
  induction h with
  | nil => exact .nil
  | own _ ih => exact .own ih
  | inh _ hp hs _ ih1 ih2 => exact .inh ih1 hp (hs.trans hn) ih2

/-- Two arrangements of the same entries in the order of a list are the same. -/
theorem sublist_perm_eq {names : List κ} (hn : names.Nodup) : ∀ {u u' : List (κ × β)}, u.Perm u' → (u.map Prod.fst).Sublist names →
    (u'.map Prod.fst).Sublist names → u = u' := by
  induction names with
  | nil =>
    intro u u' _ h h'
    have h1 := List.map_eq_nil_iff.1 (List.sublist_nil.1 h)
    have h2 := List.map_eq_nil_iff.1 (List.sublist_nil.1 h')
    rw [h1, h2]
  | cons k names ih =>
    intro u u' hp h h'
    rw [List.nodup_cons] at hn
    have key : ∀ {u : List (κ × β)}, (u.map Prod.fst).Sublist (k :: names) →
        (u.map Prod.fst).Sublist names ∨ ∃ b r, u = (k, b) :: r ∧ (r.map Prod.fst).Sublist names := by
      intro u h
      cases u with
      | nil => exact .inl (List.nil_sublist _)
      | cons e r =>
        rw [List.map_cons] at h
        cases h with
        | cons _ h => exact .inl h
        | cons_cons _ h => exact .inr ⟨e.2, r, rfl, h⟩
    rcases key h with h1 | ⟨b, r, rfl, h1⟩ <;> rcases key h' with h2 | ⟨b', r', rfl, h2⟩
    · exact ih hn.2 hp h1 h2
    · exact absurd (h1.subset ((hp.map Prod.fst).mem_iff.2 (by simp))) hn.1
    · exact absurd (h2.subset ((hp.map Prod.fst).mem_iff.1 (by simp))) hn.1
    · have hb : (k, b) ∈ (k, b') :: r' := hp.mem_iff.1 (by simp)
      rcases List.mem_cons.1 hb with e | hb
      · rw [e] at hp ⊢
        rw [ih hn.2 (List.perm_cons _ |>.1 hp) h1 h2]
      · exact absurd (h2.subset (List.mem_map_of_mem (f := Prod.fst) hb)) hn.1

/-- There is one result. -/
theorem CollectsBy.unique {names : List κ} (hn : names.Nodup) {defs : ν → List (Item ν κ β)} {is v w} (h : CollectsBy names defs is v w) :
    ∀ {w'}, CollectsBy names defs is v w' → w = w' := by
  induction h with
  | nil => intro w' h'; cases h'; rfl
  | own _ ih =>
    intro w' h'
    cases h' with
    | own h' => exact ih h'
  | inh h1 hp hs _ ih1 ih2 =>
    intro w' h'
    cases h' with
    | inh h1' hp' hs' h2' =>
      cases ih1 h1'
      cases sublist_perm_eq hn (hp.trans hp'.symm) hs hs'
      exact ih2 h2'

theorem Visits.unique {defs : ν → List (Item ν κ β)} {D K is D' K'} (h : Visits defs D K is D' K') :
    ∀ {D'' K''}, Visits defs D K is D'' K'' → D' = D'' ∧ K' = K'' := by
  induction h with
  | nil => intro D'' K'' h'; cases h'; exact ⟨rfl, rfl⟩
  | own _ ih =>
    intro D'' K'' h'
    cases h' with
    | own h' => exact ih h'
  | old hx _ ih =>
    intro D'' K'' h'
    cases h' with
    | old _ h' => exact ih h'
    | new hn => exact absurd hx hn
  | new hx _ _ ih1 ih2 =>
    intro D'' K'' h'
    cases h' with
    | old hy => exact absurd hy hx
    | new _ h1 h2 =>
      obtain ⟨rfl, rfl⟩ := ih1 h1
      exact ih2 h2

theorem Visits.seq {defs : ν → List (Item ν κ β)} {x D K D1 K1 is D' K'} (h : Visits defs D K [.inh x] D1 K1)
    (h' : Visits defs D1 K1 is D' K') : Visits defs D K (.inh x :: is) D' K' := by
  cases h with
  | old hx h1 => cases h1; exact .old hx h'
  | new hx h1 h2 => cases h2; exact .new hx h1 h'

theorem Visits.seen {defs : ν → List (Item ν κ β)} {D K is D' K'} (h : Visits defs D K is D' K') :
    (∀ y ∈ D, y ∈ D') ∧ ∀ y, Item.inh y ∈ is → y ∈ D' := by
  induction h with
  | nil => exact ⟨fun _ h => h, fun _ h => by cases h⟩
  | own _ ih =>
    refine ⟨ih.1, fun y h => ?_⟩
    rcases List.mem_cons.1 h with h | h
    · cases h
    · exact ih.2 y h
  | old hx _ ih =>
    refine ⟨ih.1, fun y h => ?_⟩
    rcases List.mem_cons.1 h with h | h
    · cases h; exact ih.1 _ hx
    · exact ih.2 y h
  | new _ _ _ ih1 ih2 =>
    refine ⟨fun y h => ih2.1 _ (ih1.1 _ (List.mem_cons_of_mem _ h)), fun y h => ?_⟩
    rcases List.mem_cons.1 h with h | h
    · cases h; exact ih2.1 _ (ih1.1 _ (List.mem_cons_self ..))
    · exact ih2.2 y h

/-! ### When inherited entries come in the order in which they are declared -/

/-- `y` is inherited from by the items, at once or through others. -/
inductive Inherited (defs : ν → List (Item ν κ β)) : List (Item ν κ β) → ν → Prop
  | here {y is} : Item.inh y ∈ is → Inherited defs is y
  | through {x y is} : Item.inh x ∈ is → Inherited defs (defs x) y → Inherited defs is y

omit [DecidableEq κ] in
theorem Inherited.tail {defs : ν → List (Item ν κ β)} {i is y} (h : Inherited defs is y) : Inherited defs (i :: is) y := by
  cases h with
  | here h => exact .here (List.mem_cons_of_mem _ h)
  | through h h' => exact .through (List.mem_cons_of_mem _ h) h'

/-- If the list has the entries of all definitions inherited from in their order, inherited entries come as declared. -/
theorem CollectsBy.declares {names : List κ} (hn : names.Nodup) {defs : ν → List (Item ν κ β)} {is v w} (h : CollectsBy names defs is v w)
    (hs : ∀ y, Inherited defs is y → ∀ u, Declares defs (defs y) [] u → (u.map Prod.fst).Sublist names) : Declares defs is v w := by
  induction h with
  | nil => exact .nil
  | own _ ih => exact .own (ih fun y hy => hs y hy.tail)
  | @inh x is u u' v w h1 hp hsub _ ih1 ih2 =>
    have hu := ih1 fun y hy => hs y (.through (List.mem_cons_self ..) hy)
    have e := sublist_perm_eq hn hp hsub (hs x (.here (List.mem_cons_self ..)) u hu)
    subst e
    exact .inh hu (ih2 fun y hy => hs y hy.tail)

/-- The keys met in a definition that does not inherit and has no keys met before. -/
theorem Visits.own_keys {defs : ν → List (Item ν κ β)} : ∀ {is : List (Item ν κ β)}, (∀ i ∈ is, ∃ e, i = .own e) →
    ∀ {D K v w D' K'}, (∀ e, Item.own e ∈ is → e.1 ∉ K) → Visits defs D (K ++ v.map Prod.fst) is D' K' → Declares defs is v w →
      D' = D ∧ K' = K ++ w.map Prod.fst
  | [], _, D, K, v, w, D', K', _, h, hd => by
    cases h; cases hd; exact ⟨rfl, rfl⟩
  | i :: is, ho, D, K, v, w, D', K', hk, h, hd => by
    obtain ⟨e, rfl⟩ := ho i (List.mem_cons_self ..)
    cases h with
    | own h =>
      cases hd with
      | own hd =>
        refine own_keys (fun i hi => ho i (List.mem_cons_of_mem _ hi)) (fun e he => hk e (List.mem_cons_of_mem _ he)) ?_ hd
        have he := hk e (List.mem_cons_self ..)
        unfold addEntry
        by_cases hv : e.1 ∈ v.map Prod.fst
        · rw [if_pos hv]
          rw [if_pos (List.mem_append_right _ hv)] at h
          exact h
        · rw [if_neg hv]
          rw [if_neg (by rw [List.mem_append]; exact fun h => h.elim he hv)] at h
          rw [List.map_append, ← List.append_assoc]
          exact h

/-- The keys of a definition that does not inherit, and shares none with others, are met in their order. -/
theorem Visits.plain {defs : ν → List (Item ν κ β)} {y : ν} {u : List (κ × β)} (ho : ∀ i ∈ defs y, ∃ e, i = .own e)
    (hd : ∀ z, z ≠ y → ∀ p q, Item.own p ∈ defs y → Item.own q ∈ defs z → p.1 ≠ q.1) (hu : Declares defs (defs y) [] u)
    {D K is D' K'} (h : Visits defs D K is D' K') : (∀ p q, Item.own p ∈ defs y → Item.own q ∈ is → p.1 ≠ q.1) →
    (y ∈ D → (u.map Prod.fst).Sublist K) → (y ∉ D → ∀ p, Item.own p ∈ defs y → p.1 ∉ K) →
    (y ∈ D' → (u.map Prod.fst).Sublist K') ∧ (y ∉ D' → ∀ p, Item.own p ∈ defs y → p.1 ∉ K') := by
  induction h with
  | nil => exact fun _ h1 h2 => ⟨h1, h2⟩
  | @own e is D K D' K' _ ih =>
    intro hq h1 h2
    refine ih (fun p q hp hq' => hq p q hp (List.mem_cons_of_mem _ hq')) (fun hy => ?_) fun hy p hp => ?_
    · split
      · exact h1 hy
      · exact (h1 hy).trans (List.sublist_append_left _ _)
    · split
      · exact h2 hy p hp
      · rw [List.mem_append, List.mem_singleton]
        exact fun h => h.elim (h2 hy p hp) (hq p e hp (List.mem_cons_self ..))
  | old _ _ ih => exact fun hq => ih fun p q hp hq' => hq p q hp (List.mem_cons_of_mem _ hq')
  | @new x is D K D1 K1 D' K' hx hv _ ih1 ih2 =>
    intro hq h1 h2
    have hq' : ∀ p q, Item.own p ∈ defs y → Item.own q ∈ is → p.1 ≠ q.1 := fun p q hp hq' => hq p q hp (List.mem_cons_of_mem _ hq')
    by_cases e : x = y
    · subst e
      obtain ⟨rfl, rfl⟩ := Visits.own_keys ho (K := K) (v := []) (h2 hx) (by simpa using hv) hu
      exact ih2 hq' (fun _ => List.sublist_append_right _ _) (fun h => absurd (List.mem_cons_self ..) h)
    · have hm : y ∈ x :: D ↔ y ∈ D := by
        rw [List.mem_cons]
        exact ⟨fun h => h.resolve_left (Ne.symm e), .inr⟩
      obtain ⟨h3, h4⟩ := ih1 (fun p q hp hq => hd x e p q hp hq) (fun h => h1 (hm.1 h)) (fun h => h2 fun h' => h (hm.2 h'))
      exact ih2 hq' h3 h4

end Verif.Spec
