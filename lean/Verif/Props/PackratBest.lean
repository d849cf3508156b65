import Verif.Props.Packrat
/-
C75: how the packrat parser settles ambiguity. `Settled` and `Best` are in Verif.Spec.Settled; `Ahead` below orders trees as
comparePriority does (packrat.go:205-227): by production, then by the first child that differs.
-/
namespace Verif.Props.PackratBest
open Verif.Spec Verif.Spec.Grammar Verif.Packrat Verif.Props.Packrat

variable {α V : Type} [DecidableEq α]

/-- C75, the part that holds: wherever one way of reading is better than all others however the parts are read, the tree
returned is built that way. -/
theorem C75_settled_partial (ev : V) (g : Grammar α) (hg : g.WF) (ls : List (Lexeme α V)) (hne : ls ≠ [])
    (hl : ∀ l ∈ ls, g.Term l.kind) (hc : g.CycleFree) {n t} (h : parse ev g ls n = .ok (some t)) : t.Best g := by
  rcases parse_spec ev g hg ls hl with ⟨t', h', _, _, _, hb⟩ | ⟨_, ⟨_, h'⟩ | ⟨hn, _⟩⟩
  · have := h'.eq_of (parse_mono ev g ls) h
    cases this; exact hb hc
  · have := h'.eq_of (parse_mono ev g ls) h
    cases this
  · exact absurd hn hne

omit [DecidableEq α] in
theorem derives_all {g : Grammar α} {a : List (α × List α)} (h : ∀ x ∈ a, g.Derives [x.1] x.2) :
    g.Derives (a.map (·.1)) (a.map (·.2)).flatten := by
  induction a with
  | nil => exact .nil
  | cons x a ih =>
    have := (h x (by simp)).append (ih fun y hy => h y (by simp [hy]))
    simpa using this

/-- The children of the root, if the reading of the whole input is settled. -/
theorem C75_root (ev : V) (g : Grammar α) (hg : g.WF) (ls : List (Lexeme α V)) (hne : ls ≠ [])
    (hl : ∀ l ∈ ls, g.Term l.kind) (hc : g.CycleFree) {S k a} (hS : g.order.head? = some S)
    (hs : g.Settled S (ls.map (·.kind)) k a) :
    ∃ t, Out.Returns (parse ev g ls) (some t) ∧ IsParse g ls t ∧ t.kids.map (fun t => (t.kind, t.word g)) = a := by
  rcases parse_spec ev g hg ls hl with ⟨t, h, hp, _, _, hb⟩ | ⟨hno, _⟩
  · refine ⟨t, h, hp, ?_⟩
    have hk : t.kind = S := by
      have := hp.1
      rw [hS] at this
      exact (Option.some.inj this).symm
    have hw : t.word g = ls.map (·.kind) := by rw [PN.word, hp.2.2]
    have := hb hc
    cases this with
    | leaf ht =>
      have ht : g.Term S := by rw [← hk]; exact ht
      obtain ⟨⟨ps, e1, _⟩, _⟩ := hs.1
      have ht : g.prods S = none := ht
      rw [e1] at ht; cases ht
    | inner hn hse _ =>
      refine hse k a ?_
      rw [hw]
      rw [← hk] at hs
      exact hs
  · exfalso
    apply hno
    refine ⟨S, hS, ?_⟩
    obtain ⟨⟨hr, hd, hw⟩, _⟩ := hs
    have hda := derives_all hd
    rw [hw] at hda
    have := Derives.nonterm (g := g) (ss := []) hr hda .nil
    simpa using this

/-- One tree comes before another: an earlier production, or the same and the first child that differs comes before. -/
inductive Ahead (g : Grammar α) : PN α V → PN α V → Prop
  | prod {l l' ks ks' k k'} : l.kind = l'.kind → g.Rule l.kind k (ks.map PN.kind) → g.Rule l'.kind k' (ks'.map PN.kind) →
      (∀ j, g.Rule l'.kind j (ks'.map PN.kind) → k < j) → Ahead g (.node l ks) (.node l' ks')
  | kid {l l' pre t t' ks ks'} : l.kind = l'.kind → ks.map PN.kind = ks'.map PN.kind → Ahead g t t' →
      Ahead g (.node l (pre ++ t :: ks)) (.node l' (pre ++ t' :: ks'))

/-! ### Concrete cases -/

/-- `S -> A B ; A -> a a | a ; B -> a | a a` with S = 0, A = 1, B = 2, a = 9. -/
def gA : Grammar Nat := table [(0, [[1, 2]]), (1, [[9, 9], [9]]), (2, [[9], [9, 9]])]

theorem gA_rules {A k p} (h : gA.Rule A k p) :
    (A = 0 ∧ k = 0 ∧ p = [1, 2]) ∨ (A = 1 ∧ k = 0 ∧ p = [9, 9]) ∨ (A = 1 ∧ k = 1 ∧ p = [9]) ∨ (A = 2 ∧ k = 0 ∧ p = [9]) ∨
      (A = 2 ∧ k = 1 ∧ p = [9, 9]) := by
  obtain ⟨ps, e1, e2⟩ := h
  have hA : A = 0 ∨ A = 1 ∨ A = 2 := by
    have := (table_wf [(0, [[1, 2]]), (1, [[9, 9], [9]]), (2, [[9], [9, 9]])] A).1 (by
      show (gA.prods A).isSome = true
      rw [e1]; rfl)
    simpa [table] using this
  rcases hA with rfl | rfl | rfl <;> cases e1 <;>
    (match k, e2 with
      | 0, e2 => simp at e2; simp [e2]
      | 1, e2 => simp at e2 <;> simp [e2]
      | k + 2, e2 => simp at e2)

theorem gA_word {A k p w} (h : gA.Rule A k p) (hA : A = 1 ∨ A = 2) (hd : gA.Derives p w) : w = p := by
  have term : ∀ {ss w}, gA.Derives ss w → (∀ x ∈ ss, x = 9) → w = ss := by
    intro ss w hd
    induction hd with
    | nil => intro _; rfl
    | term _ _ ih => intro hs; rw [ih fun x hx => hs x (by simp [hx])]
    | nonterm hr _ _ _ _ =>
      intro hs
      rw [hs _ (List.mem_cons_self ..)] at hr
      rcases gA_rules hr with h | h | h | h | h <;> exact absurd h.1 (by decide)
  refine term hd ?_
  rcases gA_rules h with ⟨h1, _, rfl⟩ | ⟨_, _, rfl⟩ | ⟨_, _, rfl⟩ | ⟨_, _, rfl⟩ | ⟨_, _, rfl⟩ <;> simp
  subst h1
  rcases hA with hA | hA <;> cases hA

theorem gA_one {A w} (hA : A = 1 ∨ A = 2) (h : gA.Derives [A] w) : w = [9] ∨ w = [9, 9] := by
  cases h with
  | term ht _ => rcases hA with rfl | rfl <;> cases ht
  | nonterm hr h1 h2 =>
    cases h2
    have := gA_word hr hA h1
    subst this
    rcases gA_rules hr with ⟨rfl, _⟩ | ⟨_, _, rfl⟩ | ⟨_, _, rfl⟩ | ⟨_, _, rfl⟩ | ⟨_, _, rfl⟩ <;> simp
    rcases hA with hA | hA <;> cases hA

theorem gA_cycleFree : gA.CycleFree := by
  have key : ∀ A B, gA.UnitStep A B → B = 9 := by
    rintro A B ⟨k, pre, post, hr, h1, h2⟩
    have len : ∀ {ss w}, gA.Derives ss w → ss.length ≤ w.length := by
      intro ss w hd
      induction hd with
      | nil => simp
      | term _ _ ih => simpa using ih
      | nonterm hr _ _ ih1 ih2 =>
        rcases gA_rules hr with ⟨_, _, rfl⟩ | ⟨_, _, rfl⟩ | ⟨_, _, rfl⟩ | ⟨_, _, rfl⟩ | ⟨_, _, rfl⟩ <;> simp_all <;> omega
    have e1 := len h1
    have e2 := len h2
    simp at e1 e2
    subst e1; subst e2
    rcases gA_rules hr with ⟨_, _, h⟩ | ⟨_, _, h⟩ | ⟨_, _, h⟩ | ⟨_, _, h⟩ | ⟨_, _, h⟩ <;> simp at h <;> exact h
  intro A hp
  have h9 : ∀ A B, Plus gA.UnitStep A B → B = 9 ∧ A ≠ 9 := by
    intro A B hp
    have ne : ∀ {A B}, gA.UnitStep A B → A ≠ 9 := by
      rintro A B ⟨k, pre, post, hr, _⟩ rfl
      rcases gA_rules hr with h | h | h | h | h <;> exact absurd h.1 (by decide)
    induction hp with
    | one h => exact ⟨key _ _ h, ne h⟩
    | step h _ ih => exact ⟨ih.1, ne h⟩
  exact (h9 A A hp).2 (h9 A A hp).1

/-- The reading of `a a a` is settled: `A` takes two, since that is its first production. -/
theorem gA_settled : gA.Settled 0 [9, 9, 9] 0 [(1, [9, 9]), (2, [9])] := by
  refine ⟨⟨⟨_, rfl, rfl⟩, ?_, rfl⟩, 1, ?_⟩
  · intro x hx
    simp only [List.mem_cons, List.not_mem_nil, or_false] at hx
    rcases hx with rfl | rfl
    · exact .nonterm (k := 0) (p := [9, 9]) (u := [9, 9]) (v := []) ⟨_, rfl, rfl⟩ (.term rfl (.term rfl .nil)) .nil
    · exact .nonterm (k := 0) (p := [9]) (u := [9]) (v := []) ⟨_, rfl, rfl⟩ (.term rfl .nil) .nil
  · intro k' b hb hne
    rcases gA_rules hb.rule with ⟨_, rfl, hp⟩ | ⟨h, _⟩ | ⟨h, _⟩ | ⟨h, _⟩ | ⟨h, _⟩
    on_goal 1 =>
      match b, hp with
      | [(1, u), (2, v)], _ =>
        have hu := gA_one (.inl rfl) (hb.derives (1, u) (by simp))
        have hv := gA_one (.inr rfl) (hb.derives (2, v) (by simp))
        have hw := hb.word
        refine .inr ⟨rfl, .inl ?_⟩
        rcases hu with rfl | rfl
        · refine ⟨by simp, by decide, ?_⟩
          intro k a k' b ra rb
          have wa : k = 0 := by
            rcases gA_rules ra.rule with h | h | h | h | h
            · exact absurd h.1 (by decide)
            · exact h.2.1
            · exfalso
              have := gA_word ra.rule (.inl rfl) (derives_all ra.derives)
              rw [ra.word, h.2.2] at this
              simp at this
            · exact absurd h.1 (by decide)
            · exact absurd h.1 (by decide)
          have wb : k' = 1 := by
            rcases gA_rules rb.rule with h | h | h | h | h
            · exact absurd h.1 (by decide)
            · exfalso
              have := gA_word rb.rule (.inl rfl) (derives_all rb.derives)
              rw [rb.word, h.2.2] at this
              simp at this
            · exact h.2.1
            · exact absurd h.1 (by decide)
            · exact absurd h.1 (by decide)
          exact .inl (by omega)
        · exfalso
          rcases hv with rfl | rfl
          · exact hne rfl
          · simp at hw
    all_goals exact absurd h (by decide)

/-- C75_root on `a a a`. -/
example : ∃ t, Out.Returns (parse 0 gA (lexs [9, 9, 9])) (some t) ∧ IsParse gA (lexs [9, 9, 9]) t ∧
    t.kids.map (fun t => (t.kind, t.word gA)) = [(1, [9, 9]), (2, [9])] :=
  C75_root 0 gA (table_wf _) _ (by decide) (by decide) gA_cycleFree rfl gA_settled

/-- `S -> A B ; A -> C | a | a a ; B -> a | a a ; C -> a a` with S = 0, A = 1, B = 2, C = 3, a = 9. -/
def gC : Grammar Nat := table [(0, [[1, 2]]), (1, [[3], [9], [9, 9]]), (2, [[9], [9, 9]]), (3, [[9, 9]])]

theorem gC_rules {A k p} (h : gC.Rule A k p) :
    (A = 0 ∧ p = [1, 2]) ∨ (A = 1 ∧ ((k = 0 ∧ p = [3]) ∨ (k = 1 ∧ p = [9]) ∨ (k = 2 ∧ p = [9, 9]))) ∨
      (A = 2 ∧ (p = [9] ∨ p = [9, 9])) ∨ (A = 3 ∧ p = [9, 9]) := by
  obtain ⟨ps, e1, e2⟩ := h
  have hA : A = 0 ∨ A = 1 ∨ A = 2 ∨ A = 3 := by
    have := (table_wf [(0, [[1, 2]]), (1, [[3], [9], [9, 9]]), (2, [[9], [9, 9]]), (3, [[9, 9]])] A).1 (by
      show (gC.prods A).isSome = true
      rw [e1]; rfl)
    simpa [table] using this
  rcases hA with rfl | rfl | rfl | rfl <;> cases e1 <;>
    (match k, e2 with
      | 0, e2 => simp at e2; simp [e2]
      | 1, e2 => simp at e2 <;> simp [e2]
      | 2, e2 => simp at e2 <;> simp [e2]
      | k + 3, e2 => simp at e2)

theorem gC_cycleFree : gC.CycleFree := by
  have key : ∀ A B, gC.UnitStep A B → A < B := by
    rintro A B ⟨k, pre, post, hr, h1, h2⟩
    have len : ∀ {ss w}, gC.Derives ss w → ss.length ≤ w.length := by
      intro ss w hd
      induction hd with
      | nil => simp
      | term _ _ ih => simpa using ih
      | nonterm hr _ _ ih1 ih2 =>
        rcases gC_rules hr with ⟨_, rfl⟩ | ⟨_, ⟨_, rfl⟩ | ⟨_, rfl⟩ | ⟨_, rfl⟩⟩ | ⟨_, rfl | rfl⟩ | ⟨_, rfl⟩ <;> simp_all <;> omega
    have e1 := len h1
    have e2 := len h2
    simp at e1 e2
    subst e1; subst e2
    rcases gC_rules hr with ⟨rfl, h⟩ | ⟨rfl, ⟨_, h⟩ | ⟨_, h⟩ | ⟨_, h⟩⟩ | ⟨rfl, h | h⟩ | ⟨rfl, h⟩ <;> simp at h <;> omega
  intro A hp
  have : ∀ A B, Plus gC.UnitStep A B → A < B := by
    intro A B hp
    induction hp with
    | one h => exact key _ _ h
    | step h _ ih => exact Nat.lt_trans (key _ _ h) ih
  exact Nat.lt_irrefl _ (this A A hp)

/-- What is returned on `a a a`: `A` takes one. -/
def kept : PN Nat Nat :=
  .node ⟨0, 0, 1, 0⟩ [.node ⟨1, 0, 1, 0⟩ [.node ⟨9, 100, 1, 0⟩ []],
    .node ⟨2, 0, 1, 1⟩ [.node ⟨9, 101, 1, 1⟩ [], .node ⟨9, 102, 1, 2⟩ []]]

/-- A tree that comes before it: `A` takes two, by its first production. -/
def before : PN Nat Nat :=
  .node ⟨0, 0, 1, 0⟩ [.node ⟨1, 0, 1, 0⟩ [.node ⟨3, 0, 1, 0⟩ [.node ⟨9, 100, 1, 0⟩ [], .node ⟨9, 101, 1, 1⟩ []]],
    .node ⟨2, 0, 1, 2⟩ [.node ⟨9, 102, 1, 2⟩ []]]

theorem kept_kept : isTree (parse 0 gC (lexs [9, 9, 9]) 60) kept = true := by decide +kernel

theorem before_parse : IsParse gC (lexs [9, 9, 9]) before := by
  have leaf : ∀ l : Lexeme Nat Nat, l.kind = 9 → (PN.node l []).Valid gC := fun l h => .leaf (by rw [h]; rfl)
  refine ⟨rfl, ?_, rfl⟩
  refine .inner (k := 0) ⟨_, rfl, rfl⟩ rfl fun t ht => ?_
  simp only [List.mem_cons, List.not_mem_nil, or_false] at ht
  rcases ht with rfl | rfl
  · refine .inner (k := 0) ⟨_, rfl, rfl⟩ rfl fun t ht => ?_
    simp only [List.mem_cons, List.not_mem_nil, or_false] at ht
    subst ht
    refine .inner (k := 0) ⟨_, rfl, rfl⟩ rfl fun t ht => ?_
    simp only [List.mem_cons, List.not_mem_nil, or_false] at ht
    rcases ht with rfl | rfl <;> exact leaf _ rfl
  · refine .inner (k := 0) ⟨_, rfl, rfl⟩ rfl fun t ht => ?_
    simp only [List.mem_cons, List.not_mem_nil, or_false] at ht
    subst ht
    exact leaf _ rfl

theorem before_ahead : Ahead gC before kept := by
  refine .kid (pre := []) rfl rfl (.prod (k := 0) (k' := 1) rfl ⟨_, rfl, rfl⟩ ⟨_, rfl, rfl⟩ ?_)
  intro j hj
  rcases gC_rules hj with ⟨h, _⟩ | ⟨_, ⟨_, h⟩ | ⟨h, _⟩ | ⟨_, h⟩⟩ | ⟨h, _⟩ | ⟨h, _⟩
  · exact absurd h (by decide)
  · exact absurd h (by decide)
  · omega
  · exact absurd h (by decide)
  · exact absurd h (by decide)
  · exact absurd h (by decide)

mutual
theorem same_eq : ∀ {t t' : PN Nat Nat}, t.same t' = true → t = t'
  | .node l ks, .node l' ks', h => by
    rw [PN.same, Bool.and_eq_true, decide_eq_true_iff] at h
    rw [h.1, sames_eq h.2]
theorem sames_eq : ∀ {ks ks' : List (PN Nat Nat)}, PN.sames ks ks' = true → ks = ks'
  | [], [], _ => rfl
  | t :: ts, t' :: ts', h => by
    rw [PN.sames, Bool.and_eq_true] at h
    rw [same_eq h.1, sames_eq h.2]
  | [], _ :: _, h => by simp [PN.sames] at h
  | _ :: _, [], h => by simp [PN.sames] at h
end

/-- C75 is false: a tree may be returned though another comes before it. The entry for `A` on the first two symbols is
replaced by a better one after the entry for `S` was chosen, which is not reconsidered. -/
theorem C75_order_refuted : ¬ ∀ g : Grammar Nat, g.WF → g.CycleFree → ∀ ls : List (Lexeme Nat Nat), ls ≠ [] →
    (∀ l ∈ ls, g.Term l.kind) → ∀ n t, parse 0 g ls n = .ok (some t) → ∀ t', IsParse g ls t' → ¬ Ahead g t' t := by
  intro h
  have hk := kept_kept
  unfold isTree at hk
  split at hk
  · rename_i t ht
    have := same_eq hk
    subst this
    exact h gC (table_wf _) gC_cycleFree _ (by decide) (by decide) _ _ ht _ before_parse before_ahead
  · cases hk

end Verif.Props.PackratBest
