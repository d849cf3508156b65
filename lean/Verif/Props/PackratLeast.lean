import Verif.Props.PackratTotal
/-
The calls of the packrat parser from below (C103): every round costs three, every node of the tree one. With the number of
rounds from C89, no degree is enough for all grammars.
-/
namespace Verif.Props.PackratLeast
open Verif.Spec Verif.Spec.Grammar Verif.Spec.PN Verif.Packrat Verif.SetSymbol Verif.Props.PackratCount Verif.Props.PackratWork Verif.Props.PackratTotal

theorem push_length {β : Type} (f : β → Partial × Key) : ∀ (l : List β) (st : St),
    (l.foldl (fun s x => push s (f x).1 (f x).2) st).stack.length = st.stack.length + l.length := by
  intro l
  induction l with
  | nil => simp
  | cons x l ih =>
    intro st
    rw [List.foldl_cons, ih]
    simp only [push, List.length_cons]
    omega

/-- Every element pushed is paid for, and the call itself. -/
theorem memo_least {fuel st td st' c} (h : addToMemoT fuel st td = .ok (st', c)) : st'.stack.length + 1 ≤ st.stack.length + c := by
  unfold addToMemoT at h
  split at h
  · dsimp only at h
    obtain ⟨rfl, rfl⟩ := Prod.mk.inj (Out.ok.inj h)
    rw [push_length (fun tp => (tp, td.key))]
    simp only
    omega
  · obtain ⟨c1, e1, h⟩ := Out.bind_eq_ok.1 h
    split at h
    · obtain ⟨b, e2, h⟩ := Out.bind_eq_ok.1 h
      split at h <;> obtain ⟨rfl, rfl⟩ := Prod.mk.inj (Out.ok.inj h) <;> (try dsimp only) <;> omega
    · obtain ⟨rfl, rfl⟩ := Prod.mk.inj (Out.ok.inj h)
      omega

theorem check_least {env fuel st m r c} (h : checkNonTerminalT env fuel st m = .ok (r, c)) : r.1.stack.length + 1 ≤ st.stack.length + c := by
  unfold checkNonTerminalT at h
  split at h
  · obtain ⟨⟨st1, c1⟩, e1, h⟩ := Out.bind_eq_ok.1 h
    obtain ⟨rfl, rfl⟩ := Prod.mk.inj (Out.ok.inj h)
    have := memo_least e1
    simp only
    omega
  · obtain ⟨rfl, rfl⟩ := Prod.mk.inj (Out.ok.inj h)
    simp only
    omega

theorem pre_least {env fuel st tp req st' c} (h : addPartialPreT env fuel st tp req = .ok (st', c)) :
    st'.stack.length + 1 ≤ st.stack.length + c := by
  unfold addPartialPreT at h
  obtain ⟨⟨st1, c1⟩, e1, h⟩ := Out.bind_eq_ok.1 h
  obtain ⟨rfl, rfl⟩ := Prod.mk.inj (Out.ok.inj h)
  rw [push_length (fun td : Def => (tp, td.key))]
  have : st1.stack.length ≤ st.stack.length + c1 := by
    split at e1
    · obtain ⟨rfl, rfl⟩ := Prod.mk.inj (Out.ok.inj e1)
      simp
    · obtain ⟨⟨r, c2⟩, e2, h⟩ := Out.bind_eq_ok.1 e1
      obtain ⟨rfl, rfl⟩ := Prod.mk.inj (Out.ok.inj h)
      have := check_least e2
      dsimp only
      omega
  simp only
  omega

theorem prodsLoop_least {env fuel} {rec : St → Marker → Out (St × Nat)}
    (hrec : ∀ st m st' c, rec st m = .ok (st', c) → st'.stack.length + 1 ≤ st.stack.length + c) (root : Marker) :
    ∀ (ps : List (List Nat)) (st : St) (k : Nat) st' c, addProdsLoopT env fuel rec root st k ps = .ok (st', c) →
      st'.stack.length + ps.length ≤ st.stack.length + c := by
  intro ps
  induction ps with
  | nil =>
    intro st k st' c h
    simp only [addProdsLoopT] at h
    obtain ⟨rfl, rfl⟩ := Prod.mk.inj (Out.ok.inj h)
    simp
  | cons p ps ih =>
    intro st k st' c h
    cases p with
    | nil =>
      simp only [addProdsLoopT] at h
      obtain ⟨⟨st1, c1⟩, e1, h⟩ := Out.bind_eq_ok.1 h
      obtain ⟨⟨st2, c2⟩, e2, h⟩ := Out.bind_eq_ok.1 h
      obtain ⟨rfl, rfl⟩ := Prod.mk.inj (Out.ok.inj h)
      have h1 := memo_least e1
      have h2 := ih _ _ _ _ e2
      simp only [List.length_cons] at h2 ⊢
      omega
    | cons X p =>
      simp only [addProdsLoopT] at h
      obtain ⟨⟨st1, c1⟩, e1, h⟩ := Out.bind_eq_ok.1 h
      obtain ⟨⟨st2, c2⟩, e2, h⟩ := Out.bind_eq_ok.1 h
      obtain ⟨⟨st3, c3⟩, e3, h⟩ := Out.bind_eq_ok.1 h
      obtain ⟨rfl, rfl⟩ := Prod.mk.inj (Out.ok.inj h)
      have h1 := pre_least e1
      have h2 := hrec _ _ _ _ e2
      have h3 := ih _ _ _ _ e3
      simp only [List.length_cons] at h2 h3 ⊢
      omega

theorem prods_least {env fuel} : ∀ (depth : Nat) (st : St) (m : Marker) st' c, addProdsT env fuel depth st m = .ok (st', c) →
    st'.stack.length + 1 ≤ st.stack.length + c := by
  intro depth
  induction depth with
  | zero => intro st m st' c h; simp [addProdsT] at h
  | succ depth ih =>
    intro st m st' c h
    unfold addProdsT at h
    split at h
    · obtain ⟨rfl, rfl⟩ := Prod.mk.inj (Out.ok.inj h)
      omega
    · dsimp only at h
      split at h
      · obtain ⟨rfl, rfl⟩ := Prod.mk.inj (Out.ok.inj h)
        simp
      · obtain ⟨⟨st1, c1⟩, e1, h⟩ := Out.bind_eq_ok.1 h
        obtain ⟨rfl, rfl⟩ := Prod.mk.inj (Out.ok.inj h)
        have := prodsLoop_least ih _ _ _ _ _ _ e1
        simp only at this ⊢
        omega

theorem update_least {env fuel} : ∀ (n : Nat) (st : St) base ext st' c, updateT env fuel n st base ext = .ok (st', c) →
    st'.stack.length + 2 ≤ st.stack.length + c := by
  intro n
  induction n with
  | zero => intro st base ext st' c h; simp [updateT] at h
  | succ n ih =>
    intro st base ext st' c h
    unfold updateT at h
    dsimp only at h
    split at h
    · obtain ⟨⟨st1, c1⟩, e1, h⟩ := Out.bind_eq_ok.1 h
      obtain ⟨rfl, rfl⟩ := Prod.mk.inj (Out.ok.inj h)
      have := memo_least e1
      simp only
      omega
    · split at h
      · cases h
      · obtain ⟨⟨r, c1⟩, e1, h⟩ := Out.bind_eq_ok.1 h
        have h1 := check_least e1
        dsimp only at h
        split at h
        · obtain ⟨⟨st2, c2⟩, e2, h⟩ := Out.bind_eq_ok.1 h
          obtain ⟨rfl, rfl⟩ := Prod.mk.inj (Out.ok.inj h)
          have := ih _ _ _ _ _ e2
          simp only
          omega
        · obtain ⟨⟨st2, c2⟩, e2, h⟩ := Out.bind_eq_ok.1 h
          obtain ⟨rfl, rfl⟩ := Prod.mk.inj (Out.ok.inj h)
          unfold addPartialT at e2
          obtain ⟨⟨st3, c3⟩, e3, e2⟩ := Out.bind_eq_ok.1 e2
          obtain ⟨⟨st4, c4⟩, e4, e2⟩ := Out.bind_eq_ok.1 e2
          obtain ⟨rfl, rfl⟩ := Prod.mk.inj (Out.ok.inj e2)
          have h3 := pre_least e3
          have h4 := prods_least _ _ _ _ _ e4
          simp only at h4 ⊢
          omega

theorem loop_least {env fuel} : ∀ (n : Nat) (st : St) st' c st'' m, loopT env fuel n st = .ok (st', c) →
    loopC env fuel n st = .ok (st'', m) → 3 * m ≤ c + st.stack.length ∧ st'' = st' := by
  intro n
  induction n with
  | zero => intro st st' c st'' m h; simp [loopT] at h
  | succ n ih =>
    intro st st' c st'' m h h'
    unfold loopT at h
    unfold loopC at h'
    split at h
    · rename_i hs
      simp only [hs] at h'
      cases h; cases h'
      simp
    · rename_i tp k rest hs
      simp only [hs] at h'
      obtain ⟨⟨st1, c1⟩, e1, h⟩ := Out.bind_eq_ok.1 h
      obtain ⟨⟨st2, c2⟩, e2, h⟩ := Out.bind_eq_ok.1 h
      obtain ⟨rfl, rfl⟩ := Prod.mk.inj (Out.ok.inj h)
      rw [forget_ok (updateT_forget env fuel _ _ _ _) e1, Out.bind_ok] at h'
      obtain ⟨⟨st3, c3⟩, e3, h'⟩ := Out.bind_eq_ok.1 h'
      obtain ⟨rfl, rfl⟩ := Prod.mk.inj (Out.ok.inj h')
      obtain ⟨h1, h2⟩ := ih _ _ _ _ _ e2 e3
      have := update_least _ _ _ _ _ _ e1
      refine ⟨?_, h2⟩
      rw [hs]
      simp only [List.length_cons] at this h1 ⊢
      omega

variable {α V : Type} [DecidableEq α]

/-- **C103**, from below: three calls for each round of the main loop, one for each node of the tree, and one more. -/
theorem C103_least (ev : V) (g : Grammar α) (ls : List (Lexeme α V)) (ho : g.order ≠ []) {n r c r' m}
    (h : parseT ev g ls n = .ok (r, c)) (h' : parseC ev g ls n = .ok (r', m)) : 3 * m + 1 + ((r.map nodes).getD 0) ≤ c := by
  obtain ⟨S, rest, ho⟩ := List.exists_cons_of_ne_nil ho
  simp only [parseT, parseC, ho] at h h'
  obtain ⟨s, es, h⟩ := Out.bind_eq_ok.1 h
  rw [es, Out.bind_ok] at h'
  obtain ⟨⟨t, c1⟩, e1, h⟩ := Out.bind_eq_ok.1 h
  obtain ⟨⟨t', m1⟩, e1', h'⟩ := Out.bind_eq_ok.1 h'
  have key : 3 * m1 + 1 + ((t.map nodes).getD 0) ≤ c1 := by
    unfold parseIdxT at e1
    unfold parseIdxC at e1'
    obtain ⟨⟨st0, c0⟩, f0, e1⟩ := Out.bind_eq_ok.1 e1
    rw [forget_ok (addProdsT_forget _ _ _ _ _) f0, Out.bind_ok] at e1'
    obtain ⟨⟨st1, c2⟩, f1, e1⟩ := Out.bind_eq_ok.1 e1
    obtain ⟨⟨st1', m2⟩, f1', e1'⟩ := Out.bind_eq_ok.1 e1'
    obtain ⟨h1, rfl⟩ := loop_least _ _ _ _ _ _ f1 f1'
    have h0 := prods_least _ _ _ _ _ f0
    simp only [St.init, List.length_nil] at h0
    dsimp only at h1
    dsimp only at e1 e1'
    split at e1
    · rename_i hne
      rw [if_pos hne] at e1'
      cases e1; cases e1'
      simp only [Option.map_none, Option.getD_none]
      omega
    · rename_i hne
      rw [if_neg hne] at e1'
      obtain ⟨⟨t1, c3⟩, f2, e1⟩ := Out.bind_eq_ok.1 e1
      obtain ⟨t2, f2', e1'⟩ := Out.bind_eq_ok.1 e1'
      cases e1; cases e1'
      have := toPNT_nodes _ _ _ _ _ _ _ f2
      simp only [Option.map_some, Option.getD_some]
      omega
  have hm : m1 = m := by
    split at h'
    · cases h'; rfl
    · obtain ⟨_, _, h'⟩ := Out.bind_eq_ok.1 h'
      cases h'; rfl
  subst hm
  split at h
  · rename_i ht
    dsimp only at ht
    subst ht
    cases h
    exact key
  · rename_i t1 ht
    dsimp only at ht
    subst ht
    obtain ⟨t2, f, h⟩ := Out.bind_eq_ok.1 h
    cases h
    simp only [Option.map_some, Option.getD_some, nameTree_nodes f] at key ⊢
    exact key

/-- **C103**: with `k + 1` symbols in a production there can be `3 * m ^ (k + 1)` calls for `(k + 1) * m` lexemes. -/
theorem C103_degree (k m : Nat) {n r c} (h : parseT 0 (gk k) (as ((k + 1) * m)) n = .ok (r, c)) : 3 * m ^ (k + 1) < c := by
  have h1 := forget_ok (C103_same 0 (gk k) (as ((k + 1) * m)) n) h
  have h2 := C89_same 0 (gk k) (as ((k + 1) * m)) n
  rw [h1] at h2
  obtain ⟨⟨r', m'⟩, e, -⟩ := Out.bind_eq_ok.1 h2
  have := C89_degree k m e
  have := C103_least 0 (gk k) _ (by simp [gk]) h e
  omega

/-- **C103**: the degree of the polynomial depends on the grammar. -/
theorem C103_one_degree_refuted : ¬ ∃ d, ∀ g : Grammar Nat, g.WF → ∃ C, ∀ ls : List (Lexeme Nat Nat), (∀ l ∈ ls, g.Term l.kind) →
    ∀ n r c, parseT 0 g ls n = .ok (r, c) → c ≤ C * (ls.length + 1) ^ d := by
  rintro ⟨d, h⟩
  refine C89_one_degree_refuted ⟨d, fun g hg => ?_⟩
  obtain ⟨C, hC⟩ := h g hg
  refine ⟨C, fun ls hl n r c hc => ?_⟩
  have h1 := forget_ok (C89_same 0 g ls n) hc
  have h2 := C103_same 0 g ls n
  rw [h1] at h2
  obtain ⟨⟨r', c'⟩, e, -⟩ := Out.bind_eq_ok.1 h2
  by_cases ho : g.order = []
  · simp only [parseC, ho] at hc
    cases hc
    exact Nat.zero_le _
  · have := C103_least 0 g ls ho e hc
    have := hC ls hl n r' c' e
    omega

/-- For three lexemes and productions of one to three symbols: rounds and calls. -/
example : ((List.range 3).map fun k => (rounds k 3, calls k 3)) = [(some 13, some 75), (some 23, some 151), (some 43, some 281)] := by
  decide +kernel

end Verif.Props.PackratLeast
