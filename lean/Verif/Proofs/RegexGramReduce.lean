import Verif.Proofs.RegexGramLang
import Verif.Proofs.Tree
/-
The reducer made for a regex grammar replaces the nodes of helpers by their children.
-/
namespace Verif.RegexGram
open Verif Verif.Spec Verif.Grammar

mutual
/-- The tree, or if its kind is in `S` its children, as often as needed. -/
def flat (S : List Str) : PN Str Str → List (PN Str Str)
  | .node l ks => if l.kind ∈ S then flats S ks else [.node l ks]
/-- The same for a list. -/
def flats (S : List Str) : List (PN Str Str) → List (PN Str Str)
  | [] => []
  | t :: ts => flat S t ++ flats S ts
end

mutual
/-- Number of nodes. -/
def count : PN Str Str → Nat
  | .node _ ks => 1 + counts ks
/-- Number of nodes. -/
def counts : List (PN Str Str) → Nat
  | [] => 0
  | t :: ts => count t + counts ts
end

theorem flats_append (S : List Str) : ∀ a b, flats S (a ++ b) = flats S a ++ flats S b
  | [], b => by simp [flats]
  | t :: a, b => by simp [flats, flats_append S a b]

theorem counts_append : ∀ a b, counts (a ++ b) = counts a + counts b
  | [], b => by simp [counts]
  | t :: a, b => by simp [counts, counts_append a b]; omega

theorem bludgeonLoop_eq (S : List Str) (l : Lexeme Str Str) : ∀ (n : Nat) (b a : List (PN Str Str)), counts b < n →
    bludgeonLoop S n (.node l (a ++ b)) a.length = .ok (.node l (a ++ flats S b)) := by
  intro n
  induction n with
  | zero => intro b a h; omega
  | succ n ih =>
    intro b a hn
    cases b with
    | nil => simp [bludgeonLoop, PN.kids, flats]
    | cons c b =>
      rw [bludgeonLoop, if_pos (by simp [PN.kids]), Tree.childAt_sel S (Tree.sel_self (by simp))]
      simp only [Out.bind_ok]
      cases c with
      | node lc kc =>
      simp only [counts, count] at hn
      by_cases hc : (PN.node lc kc).kind ∈ S
      · simp only [hc, decide_true, if_true]
        rw [Tree.promoteChildrenOf_sel (Tree.sel_self (by simp))]
        simp only [Out.bind_ok, PN.kids, List.append_assoc]
        rw [ih (kc ++ b) a (by rw [counts_append]; omega)]
        have hc' : lc.kind ∈ S := hc
        simp [flats, flats_append, flat, hc']
      · simp only [hc, decide_false, Bool.false_eq_true, if_false]
        have := ih b (a ++ [.node lc kc]) (by omega)
        simp only [List.length_append, List.length_singleton, List.append_assoc, List.singleton_append] at this
        rw [this]
        have hc' : ¬ lc.kind ∈ S := hc
        simp [flats, flat, hc']

theorem bludgeon_eq (S : List Str) (l : Lexeme Str Str) (ks : List (PN Str Str)) (n : Nat) (h : counts ks < n) :
    bludgeon S n (.node l ks) = .ok (.node l (flats S ks)) := bludgeonLoop_eq S l n ks [] h

/-- What one reduction does. -/
def unwrap (b : Str → Option (List Str)) (l : Lexeme Str Str) (ks : List (PN Str Str)) : PN Str Str :=
  .node l (flats ((b l.kind).getD []) ks)

mutual
/-- What the reducer does. -/
def red (b : Str → Option (List Str)) : PN Str Str → PN Str Str
  | .node l ks => unwrap b l (reds b ks)
/-- What the reducer does to a list. -/
def reds (b : Str → Option (List Str)) : List (PN Str Str) → List (PN Str Str)
  | [] => []
  | t :: ts => red b t :: reds b ts
end

theorem flats_nil : ∀ ts, flats [] ts = ts
  | [] => rfl
  | .node l ks :: ts => by simp [flats, flat, flats_nil ts]

mutual
theorem rawReduce_red {σ : Type} (b : Str → Option (List Str)) : ∀ t : PN Str Str, ∃ N, ∀ n ≥ N, ∀ s : σ,
    Tree.rawReduce (reducerOf n b) t s = .ok (red b t, s)
  | .node l ks => by
    obtain ⟨N, h⟩ := rawReduces_red (σ := σ) b ks
    refine ⟨max N (counts (reds b ks) + 1), ?_⟩
    intro n hn s
    have h1 := h n (by omega) s
    rw [Tree.rawReduce, h1]
    simp only [Out.bind_ok]
    cases hb : b l.kind with
    | none =>
      have : (reducerOf (σ := σ) n b l.kind).join = none := by simp [reducerOf, hb]
      rw [this]
      simp [red, unwrap, hb, flats_nil]
    | some S =>
      have : (reducerOf (σ := σ) n b l.kind).join = Tree.lift1 (bludgeon S n) := by simp [reducerOf, hb]
      rw [this]
      simp only [Tree.lift1]
      rw [bludgeon_eq S l _ n (by omega)]
      simp [red, unwrap, hb]
theorem rawReduces_red {σ : Type} (b : Str → Option (List Str)) : ∀ ts : List (PN Str Str), ∃ N, ∀ n ≥ N, ∀ s : σ,
    Tree.rawReduces (reducerOf n b) ts s = .ok (reds b ts, s)
  | [] => ⟨0, fun n _ s => rfl⟩
  | t :: ts => by
    obtain ⟨N1, h1⟩ := rawReduce_red (σ := σ) b t
    obtain ⟨N2, h2⟩ := rawReduces_red (σ := σ) b ts
    refine ⟨max N1 N2, ?_⟩
    intro n hn s
    rw [Tree.rawReduces, h1 n (by omega) s]
    simp only [Out.bind_ok]
    rw [h2 n (by omega) s]
    rfl
end

theorem mem_helpers {R : RxRules} {n : Str} : n ∈ R.helpers ↔ ∃ x, .rep x ∈ R.parts ∧ n = nm x := by
  unfold RxRules.helpers
  rw [List.mem_filterMap]
  constructor
  · rintro ⟨y, hy, e⟩
    cases y <;> simp only [reduceCtorEq, Option.some.injEq] at e
    exact ⟨_, hy, e.symm⟩
  · rintro ⟨x, hx, rfl⟩
    exact ⟨_, hx, rfl⟩

theorem flats_plain {S H : List Str} (hS : ∀ s ∈ S, s ∈ H) : ∀ ts : List (PN Str Str), (∀ t ∈ ts, t.kind ∉ H) → flats S ts = ts
  | [], _ => rfl
  | .node l ks :: ts, h => by
    have h1 : ¬ l.kind ∈ S := fun hs => h (.node l ks) (by simp) (hS _ hs)
    simp only [flats, flat, if_neg h1]
    rw [flats_plain hS ts (fun t ht => h t (by simp [ht]))]
    rfl

mutual
theorem hides_plain (H : List Str) : ∀ ts : List (PN Str Str), ∀ t ∈ PN.hides H ts, t.kind ∉ H
  | [], t, h => by simp [PN.hides] at h
  | .node l ks :: ts, t, h => by
    rw [PN.hides] at h
    by_cases hl : l.kind ∈ H
    · rw [if_pos hl, List.mem_append] at h
      rcases h with h | h
      · exact hides_plain H ks t h
      · exact hides_plain H ts t h
    · rw [if_neg hl, List.mem_cons] at h
      rcases h with rfl | h
      · exact hl
      · exact hides_plain H ts t h
end

mutual
theorem expand_syms {R : RxRules} : ∀ (x : Rx) {r : List Str} {s : Str}, r ∈ expand x → s ∈ r →
    .sym s ∈ x.parts ∨ ∃ y ∈ topReps x, s = nm y
  | .sym s0, r, s, h1, h2 => by
    rw [expand, List.mem_singleton] at h1
    subst h1
    rw [List.mem_singleton] at h2
    subst h2
    exact .inl (self_parts _)
  | .opt x, r, s, h1, h2 => by
    rw [expand, List.mem_append, List.mem_singleton] at h1
    rcases h1 with h1 | rfl
    · rw [Rx.parts, topReps]
      exact (expand_syms (R := R) x h1 h2).imp (List.mem_cons_of_mem _) id
    · simp at h2
  | .or xs, r, s, h1, h2 => by
    rw [expand] at h1
    rw [Rx.parts, topReps]
    exact (flatten_syms (R := R) xs h1 h2).imp (List.mem_cons_of_mem _) id
  | .group xs, r, s, h1, h2 => by
    have hne : xs ≠ [] := by rintro rfl; simp [expand, expands, reduce] at h1
    rw [Rx.parts, topReps]
    exact (sel_syms (R := R) xs ((mem_expand_group hne r).1 h1) h2).imp (List.mem_cons_of_mem _) id
  | .rep x, r, s, h1, h2 => by
    rw [expand, List.mem_singleton] at h1
    subst h1
    rw [List.mem_singleton] at h2
    exact .inr ⟨x, by simp [topReps], h2⟩
theorem flatten_syms {R : RxRules} : ∀ (xs : List Rx) {r : List Str} {s : Str}, r ∈ (expands xs).flatten → s ∈ r →
    .sym s ∈ Rx.partss xs ∨ ∃ y ∈ topRepss xs, s = nm y
  | [], r, s, h1, h2 => by simp [expands] at h1
  | x :: xs, r, s, h1, h2 => by
    rw [expands, List.flatten_cons, List.mem_append] at h1
    rw [Rx.partss, topRepss]
    rcases h1 with h1 | h1
    · exact (expand_syms (R := R) x h1 h2).imp (List.mem_append_left _) fun ⟨y, h, e⟩ => ⟨y, List.mem_append_left _ h, e⟩
    · exact (flatten_syms (R := R) xs h1 h2).imp (List.mem_append_right _) fun ⟨y, h, e⟩ => ⟨y, List.mem_append_right _ h, e⟩
theorem sel_syms {R : RxRules} : ∀ (xs : List Rx) {r : List Str} {s : Str}, Sel xs r → s ∈ r →
    .sym s ∈ Rx.partss xs ∨ ∃ y ∈ topRepss xs, s = nm y
  | [], r, s, h1, h2 => by cases h1; simp at h2
  | x :: xs, r, s, h1, h2 => by
    rw [Rx.partss, topRepss]
    cases h1 with
    | cons h3 h4 =>
      rw [List.mem_append] at h2
      rcases h2 with h2 | h2
      · exact (expand_syms (R := R) x h3 h2).imp (List.mem_append_left _) fun ⟨y, h, e⟩ => ⟨y, List.mem_append_left _ h, e⟩
      · exact (sel_syms (R := R) xs h4 h2).imp (List.mem_append_right _) fun ⟨y, h, e⟩ => ⟨y, List.mem_append_right _ h, e⟩
end

section
variable {R : RxRules} {tail : List (Str × List Rx)} {b : Str → Option (List Str)}

theorem bl_mem (hb : ∀ n, b n = blOf ((R ++ tail).flatMap fun q => (topRepss q.2).map fun x => (q.1, nm x)) n) (A n : Str) :
    n ∈ (b A).getD [] ↔ ∃ q ∈ R ++ tail, q.1 = A ∧ ∃ x ∈ topRepss q.2, n = nm x := by
  have : ∀ bl : List (Str × Str), n ∈ (blOf bl A).getD [] ↔ (A, n) ∈ bl := by
    intro bl
    have : (blOf bl A).getD [] = bl.filterMap fun x => if x.1 = A then some x.2 else none := by
      unfold blOf
      simp only
      split
      · rename_i h; rw [h]; rfl
      · rfl
    rw [this, List.mem_filterMap]
    constructor
    · rintro ⟨⟨a, c⟩, h1, h2⟩
      simp only [Option.ite_none_right_eq_some, Option.some.injEq] at h2
      obtain ⟨rfl, rfl⟩ := h2
      exact h1
    · intro h; exact ⟨(A, n), h, by simp⟩
  rw [hb, this, List.mem_flatMap]
  simp only [List.mem_map, Prod.mk.injEq]
  constructor
  · rintro ⟨q, hq, x, hx, rfl, rfl⟩; exact ⟨q, hq, rfl, x, hx, rfl⟩
  · rintro ⟨q, hq, rfl, x, hx, rfl⟩; exact ⟨q, hq, x, hx, rfl, rfl⟩

/-- A symbol of a production of `A`: not a helper, or a helper recorded for `A`, or `A` itself if that is
a helper. -/
theorem rule_syms (hfresh : ∀ x, .rep x ∈ R.parts → ∀ s, .sym s ∈ R.parts → s ≠ nm x)
    (hp : ∀ q ∈ tail, Helper R q)
    (hb : ∀ n, b n = blOf ((R ++ tail).flatMap fun q => (topRepss q.2).map fun x => (q.1, nm x)) n)
    {A : Str} {k : Nat} {p : List Str} (hr : (gram R tail).Rule A k p) {s : Str} (hs : s ∈ p) :
    s ∉ R.helpers ∨ s ∈ (b A).getD [] ∨ (s = A ∧ A ∈ R.helpers) := by
  obtain ⟨q, hq, rfl, hsel⟩ := gram_rule.1 ⟨k, hr⟩
  have hplain : ∀ s, .sym s ∈ R.parts → s ∉ R.helpers := by
    intro s h1 h2
    obtain ⟨x, hx, e⟩ := mem_helpers.1 h2
    exact hfresh x hx s h1 e
  rcases sel_syms (R := R) q.2 hsel hs with h | ⟨y, hy, rfl⟩
  · rcases List.mem_append.1 hq with hq' | hq'
    · exact .inl (hplain s (List.mem_flatMap.2 ⟨q, hq', h⟩))
    · obtain ⟨x, hx, rfl | rfl⟩ := hp q hq'
      · simp only [Rx.partss, Rx.parts, List.append_nil, List.mem_append, List.mem_singleton, Rx.sym.injEq] at h
        rcases h with h | h
        · exact .inl (hplain s (rules_parts_trans hx (by rw [Rx.parts]; exact List.mem_cons_of_mem _ h)))
        · exact .inr (.inr ⟨h, mem_helpers.2 ⟨x, hx, rfl⟩⟩)
      · simp [Rx.partss] at h
  · exact .inr (.inl ((bl_mem hb q.1 _).2 ⟨q, hq, rfl, y, hy, rfl⟩))

/-- What the reducer makes of derivation trees. -/
theorem red_hide (hfresh : ∀ x, .rep x ∈ R.parts → ∀ s, .sym s ∈ R.parts → s ≠ nm x)
    (hp : ∀ q ∈ tail, Helper R q)
    (hb : ∀ n, b n = blOf ((R ++ tail).flatMap fun q => (topRepss q.2).map fun x => (q.1, nm x)) n)
    {t : PN Str Str} (ht : PN.Valid (gram R tail) t) :
    (t.kind ∉ R.helpers → red b t = PN.hide R.helpers t) ∧
    (t.kind ∈ R.helpers → ∀ S, (∀ s ∈ S, s ∈ R.helpers) → t.kind ∈ S → flat S (red b t) = PN.hides R.helpers t.kids) := by
  have hS : ∀ A, ∀ s ∈ (b A).getD [], s ∈ R.helpers := by
    intro A s hs
    obtain ⟨q, hq, _, x, hx, rfl⟩ := (bl_mem hb A s).1 hs
    exact mem_helpers.2 ⟨x, rep_parts_of_top hp hq hx, rfl⟩
  induction ht with
  | leaf h =>
    refine ⟨fun _ => by simp [red, reds, unwrap, flats, PN.hide, PN.hides], ?_⟩
    intro _ S _ hk
    have hk' : _ ∈ S := hk
    simp only [PN.kind, PN.lx] at hk'
    simp [red, reds, unwrap, flat, flats, PN.kids, PN.hides, hk']
  | @inner l ks k p hr hk hv ih =>
    have hsym : ∀ t ∈ ks, t.kind ∉ R.helpers ∨ t.kind ∈ (b l.kind).getD [] ∨ (t.kind = l.kind ∧ l.kind ∈ R.helpers) := by
      intro t ht
      exact rule_syms hfresh hp hb hr (by rw [← hk]; exact List.mem_map_of_mem ht)
    have hkind : ∀ t, (red b t).kind = t.kind := by
      rintro ⟨l, ks⟩; rfl
    clear hr hk hv
    refine ⟨?_, ?_⟩
    · intro hn
      rw [red, unwrap, PN.hide]
      congr 1
      have hl : l.kind ∉ R.helpers := hn
      revert ih hsym
      generalize ks = ts
      intro ih hsym
      induction ts with
      | nil => simp [reds, flats, PN.hides]
      | cons t ts ih2 =>
        rw [reds, flats, ih2 (fun t ht => ih t (by simp [ht])) (fun t ht => hsym t (by simp [ht]))]
        obtain ⟨i1, i2⟩ := ih t (by simp)
        cases t with
        | node lt kt =>
        rw [PN.hides]
        by_cases hh : lt.kind ∈ R.helpers
        · rw [if_pos hh]
          have h3 : lt.kind ∈ (b l.kind).getD [] := by
            rcases hsym (.node lt kt) (by simp) with h | h | ⟨_, h⟩
            · exact absurd hh h
            · exact h
            · exact absurd h hl
          rw [i2 hh _ (hS _) h3]
          rfl
        · rw [if_neg hh, i1 hh, PN.hide]
          have : ¬ lt.kind ∈ (b l.kind).getD [] := fun h => hh (hS _ _ h)
          simp [flat, this]
    · intro hh S hSS hkS
      have hl : l.kind ∈ S := hkS
      simp only [red, unwrap, flat, if_pos hl, PN.kids]
      revert ih hsym
      generalize ks = ts
      intro ih hsym
      induction ts with
      | nil => simp [reds, flats, PN.hides]
      | cons t ts ih2 =>
        rw [reds, flats, flats_append, ih2 (fun t ht => ih t (by simp [ht])) (fun t ht => hsym t (by simp [ht]))]
        obtain ⟨i1, i2⟩ := ih t (by simp)
        cases t with
        | node lt kt =>
        rw [PN.hides]
        by_cases hh2 : lt.kind ∈ R.helpers
        · rw [if_pos hh2]
          by_cases h3 : lt.kind ∈ (b l.kind).getD []
          · rw [i2 hh2 _ (hS _) h3, flats_plain hSS _ (hides_plain _ _)]
            rfl
          · have h4 : lt.kind = l.kind := by
              rcases hsym (.node lt kt) (by simp) with h | h | ⟨h, _⟩
              · exact absurd hh2 h
              · exact absurd h h3
              · exact h
            have h5 := i2 hh2 S hSS (by rw [show (PN.node lt kt).kind = lt.kind from rfl, h4]; exact hl)
            have h6 : flat ((b l.kind).getD []) (red b (.node lt kt)) = [red b (.node lt kt)] := by
              rw [red, unwrap, flat, if_neg h3]
            rw [h6]
            simp only [flats, List.append_nil, h5]
            rfl
        · rw [if_neg hh2, i1 hh2, PN.hide]
          have h3 : ¬ lt.kind ∈ (b l.kind).getD [] := fun h => hh2 (hS _ _ h)
          have h4 : ¬ lt.kind ∈ S := fun h => hh2 (hSS _ h)
          simp [flat, flats, h3, h4]

end

end Verif.RegexGram
