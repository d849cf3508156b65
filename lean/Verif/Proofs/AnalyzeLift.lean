import Verif.Proofs.Analyze
/- From indices to names, and what `Analyze` returns. -/
namespace Verif.Analyze
open Verif.Spec Verif.Spec.Grammar Verif.SetSymbol
open Verif.Packrat (SetOK symIdx symIdx_get symIdx_unique idxProds idxProds_symIdx rule_down rule_up loadSet loadSet_ok)

variable {α : Type} [DecidableEq α] {g : Grammar α} {s : SymSet α}

/-- The grammar on indices. -/
abbrev gi (g : Grammar α) (s : SymSet α) : Grammar Nat := ⟨g.order.map (symIdx s), idxProds g s⟩

theorem prods_down {i ps} (h : idxProds g s i = some ps) :
    ∃ A qs, s.symb2str[i]? = some A ∧ g.prods A = some qs ∧ ps = qs.map fun p => p.map (symIdx s) := by
  simp only [idxProds] at h
  split at h
  · cases h
  · rename_i A hA
    cases hp : g.prods A with
    | none => simp [hp] at h
    | some qs =>
      simp only [hp, Option.map_some, Option.some.injEq] at h
      exact ⟨A, qs, hA, hp, h.symm⟩

theorem closed_gi (h : SetOK g s) : Closed (size s) (gi g s) := by
  constructor
  · intro A ps e
    obtain ⟨a, _, ha, _⟩ := prods_down e
    exact (List.getElem?_eq_some_iff.1 ha).1
  · intro A k p hr X hX
    obtain ⟨ps, e, _⟩ := id hr
    obtain ⟨a, _, ha, _⟩ := prods_down e
    obtain ⟨B, q, hB, hrq, rfl, _⟩ := rule_down h hr a
    obtain ⟨x, hx, rfl⟩ := List.mem_map.1 hX
    exact (List.getElem?_eq_some_iff.1 (symIdx_get h.inv (h.syms B k q hrq x hx))).1

theorem rule_at (h : SetOK g s) {i k q} (hr : (gi g s).Rule i k q) {A : α}
    (hA : s.symb2str[i]? = some A) : ∃ p, g.Rule A k p ∧ q = p.map (symIdx s) ∧
      ∀ x ∈ p, s.symb2str[symIdx s x]? = some x := by
  obtain ⟨B, p, hB, hrp, e, _⟩ := rule_down h hr A
  rw [hA] at hB
  cases hB
  exact ⟨p, hrp, e, fun x hx => symIdx_get h.inv (h.syms A k p hrp x hx)⟩

theorem leftNil_down (h : SetOK g s) {i : Nat} (hl : (gi g s).LeftNil i) :
    ∀ A, s.symb2str[i]? = some A → g.LeftNil A := by
  induction hl with
  | empty hr =>
    intro A hA
    obtain ⟨p, hp, e, _⟩ := rule_at h hr hA
    cases p with
    | nil => exact .empty hp
    | cons _ _ => cases e
  | left hr _ ih =>
    intro A hA
    obtain ⟨p, hp, e, hm⟩ := rule_at h hr hA
    cases p with
    | nil => cases e
    | cons x p =>
      simp only [List.map_cons, List.cons.injEq] at e
      exact .left hp (ih x (by rw [e.1]; exact hm x (by simp)))

theorem leftNil_up (h : SetOK g s) (hg : g.WF) {A : α} (hl : g.LeftNil A) :
    (gi g s).LeftNil (symIdx s A) := by
  induction hl with
  | empty hr => exact .empty (rule_up h hg hr)
  | left hr _ ih => exact .left (rule_up h hg hr) ih

theorem scan_up (h : SetOK g s) (hg : g.WF) {A B : α} (hs : g.ScanStep A B) :
    (gi g s).ScanStep (symIdx s A) (symIdx s B) := by
  obtain ⟨k, pre, post, hr, hl⟩ := hs
  refine ⟨k, pre.map (symIdx s), post.map (symIdx s), by simpa using rule_up h hg hr, ?_⟩
  intro X hX
  obtain ⟨x, hx, rfl⟩ := List.mem_map.1 hX
  exact leftNil_up h hg (hl x hx)

theorem plus_up (h : SetOK g s) (hg : g.WF) {A B : α} (hs : Plus g.ScanStep A B) :
    Plus (gi g s).ScanStep (symIdx s A) (symIdx s B) := by
  induction hs with
  | one r => exact .one (scan_up h hg r)
  | step r _ ih => exact .step (scan_up h hg r) ih

theorem scan_down (h : SetOK g s) {i j : Nat} (hs : (gi g s).ScanStep i j) {A : α}
    (hA : s.symb2str[i]? = some A) : ∃ B, s.symb2str[j]? = some B ∧ g.ScanStep A B := by
  obtain ⟨k, pre, post, hr, hl⟩ := hs
  obtain ⟨p, hp, e, hm⟩ := rule_at h hr hA
  obtain ⟨a, b, rfl, ea, eb⟩ := List.map_eq_append_iff.1 e.symm
  cases b with
  | nil => cases eb
  | cons x b =>
    simp only [List.map_cons, List.cons.injEq] at eb
    obtain ⟨e1, rfl⟩ := eb
    subst ea
    refine ⟨x, by rw [← e1]; exact hm x (by simp), k, a, b, hp, ?_⟩
    intro y hy
    exact leftNil_down h (hl _ (List.mem_map.2 ⟨y, hy, rfl⟩)) y (hm y (by simp [hy]))

theorem plus_down (h : SetOK g s) {i j : Nat} (hs : Plus (gi g s).ScanStep i j) :
    ∀ A, s.symb2str[i]? = some A → ∃ B, s.symb2str[j]? = some B ∧ Plus g.ScanStep A B := by
  induction hs with
  | one r =>
    intro A hA
    obtain ⟨B, hB, r⟩ := scan_down h r hA
    exact ⟨B, hB, .one r⟩
  | step r _ ih =>
    intro A hA
    obtain ⟨B, hB, r⟩ := scan_down h r hA
    obtain ⟨C, hC, r'⟩ := ih B hB
    exact ⟨C, hC, .step r r'⟩

theorem scan_src {i j : Nat} (hs : Plus (gi g s).ScanStep i j) : ∃ A, s.symb2str[i]? = some A := by
  have : ∀ j, (gi g s).ScanStep i j → ∃ A, s.symb2str[i]? = some A := by
    rintro j ⟨k, pre, post, ⟨ps, e, _⟩, _⟩
    obtain ⟨a, _, ha, _⟩ := prods_down e
    exact ⟨a, ha⟩
  cases hs with
  | one r => exact this _ r
  | step r _ => exact this _ r

theorem acyclic_up (h : SetOK g s) (ha : g.ScanAcyclic) : (gi g s).ScanAcyclic := by
  intro i hi
  obtain ⟨A, hA⟩ := scan_src hi
  obtain ⟨B, hB, hp⟩ := plus_down h hi A hA
  rw [hA] at hB
  cases hB
  exact ha A hp

omit [DecidableEq α] in
/-- Every nonterminal has a production that is not empty. -/
def HasNonEmpty (g : Grammar α) : Prop := ∀ A ∈ g.order, ∃ k X p, g.Rule A k (X :: p)

theorem ne_up (hg : g.WF) (hn : HasNonEmpty g) : NE (gi g s) := by
  intro i ps e
  obtain ⟨A, qs, hA, hq, rfl⟩ := prods_down e
  obtain ⟨k, X, p, qs', e', hk⟩ := hn A ((hg A).1 (by simp [hq]))
  rw [hq] at e'
  cases e'
  exact ⟨(X :: p).map (symIdx s), List.mem_map.2 ⟨_, List.mem_of_getElem? hk, rfl⟩, by simp⟩

/-! ### Fuel -/

theorem symLoop_mono {ln prods} {r1 r2 : St → Nat → Out (St × List Nat × Bool)}
    (h : ∀ st s, Out.Le (r1 st s) (r2 st s)) : ∀ (p : List Nat) st fs nl,
    Out.Le (symLoop ln prods r1 st fs nl p) (symLoop ln prods r2 st fs nl p) := by
  intro p
  induction p with
  | nil => intro st fs nl; exact .refl _
  | cons X p ih =>
    intro st fs nl
    simp only [symLoop]
    split
    · exact .refl _
    · refine (h st X).bind fun r => ?_
      split
      · exact ih _ _ _
      · exact .refl _

theorem prodLoop_mono {ln prods} {r1 r2 : St → Nat → Out (St × List Nat × Bool)}
    (h : ∀ st s, Out.Le (r1 st s) (r2 st s)) : ∀ (ps : List (List Nat)) st fs nl,
    Out.Le (prodLoop ln prods r1 st fs nl ps) (prodLoop ln prods r2 st fs nl ps) := by
  intro ps
  induction ps with
  | nil => intro st fs nl; exact .refl _
  | cons p ps ih =>
    intro st fs nl
    cases p with
    | nil => exact ih _ _ _
    | cons X p => exact (symLoop_mono h _ _ _ _).bind fun r => ih _ _ _

theorem firsts_mono (ln prods) : ∀ n m, n ≤ m → ∀ st s,
    Out.Le (firsts ln prods n st s) (firsts ln prods m st s) := by
  intro n
  induction n with
  | zero => intro m _ st s; exact .inl rfl
  | succ n ih =>
    intro m hm st s
    obtain ⟨m, rfl⟩ : ∃ k, m = k + 1 := ⟨m - 1, by omega⟩
    simp only [firsts]
    split
    · exact .refl _
    · split
      · exact .refl _
      · split
        · exact .refl _
        · exact (prodLoop_mono (ih m (by omega)) _ _ _ _).bind fun r => .refl _

theorem analyze_mono (g : Grammar α) : ∀ n m, n ≤ m → Out.Le (analyze g n) (analyze g m) := by
  intro n m h
  refine (Out.Le.refl _).bind fun s => ?_
  refine Out.Le.bind ?_ fun st => .refl _
  suffices ∀ (l : List Nat) st, Out.Le (ntLoop (size s) (idxProds g s) n st l)
    (ntLoop (size s) (idxProds g s) m st l) from this _ _
  intro l
  induction l with
  | nil => intro st; exact .refl _
  | cons a l ih => intro st; exact (firsts_mono _ _ n m h _ _).bind fun r => ih _

/-! ### The result -/

/-- What is known of the analysis of `g`, in terms of names. `fst A` are the names stored for `A`. -/
structure Good (g : Grammar α) (a : Analytics α) (fst : α → α → Prop) : Prop where
  /-- the stored firsts -/
  sound : ∀ A t, fst A t → g.Term t ∧ Plus g.ScanStep A t
  complete : g.ScanAcyclic → ∀ A t, g.Term t → Plus g.ScanStep A t → fst A t
  hasFirst : ∀ A t, hasFirst a A t = true ↔ (fst A t ∨ (A = t ∧ g.Occurs t ∧ ∀ B, ¬ fst B t))
  nonTerminal : ∀ A, nonTerminal a A = true ↔ ∃ t, fst A t
  containsSound : ∀ x, contains a x = true → (∃ t, fst x t) ∨ (g.Term x ∧ ∃ A, g.ScanStep A x)
  containsNT : ∀ A t, fst A t → contains a A = true
  containsT : ∀ A t, fst A t → contains a t = true
  nilSound : ∀ A, hasNilInFirst a A = true → g.LeftNil A
  nilComplete : g.ScanAcyclic → ∀ A, g.LeftNil A → hasNilInFirst a A = true
  nonempty : g.ScanAcyclic → HasNonEmpty g → ∀ A ∈ g.order, ∃ t, fst A t

omit [DecidableEq α] in
theorem grammarSyms_mem : ∀ (l : List α) {r}, Packrat.grammarSyms g l = .ok r →
    ∀ x ∈ r, x ∈ l ∨ ∃ A k p, g.Rule A k p ∧ x ∈ p := by
  intro l
  induction l with
  | nil => intro r e x hx; cases e; cases hx
  | cons a l ih =>
    intro r e x hx
    simp only [Packrat.grammarSyms] at e
    split at e
    · cases e
    · rename_i ps hps
      obtain ⟨r', e', e2⟩ := Out.bind_eq_ok.1 e
      cases e2
      rcases List.mem_append.1 hx with hx | hx
      · rcases List.mem_cons.1 hx with rfl | hx
        · exact .inl (by simp)
        · obtain ⟨p, hp, hxp⟩ := List.mem_flatten.1 hx
          obtain ⟨k, hk⟩ := List.mem_iff_getElem?.1 hp
          exact .inr ⟨a, k, p, ⟨ps, hps, hk⟩, hxp⟩
      · rcases ih e' x hx with h | h
        · exact .inl (by simp [h])
        · exact .inr h

theorem castSyms_mem : ∀ (l : List α) (s : SymSet α), ∀ x ∈ (castSyms s l).1.symb2str,
    x ∈ s.symb2str ∨ x ∈ l := by
  intro l
  induction l with
  | nil => intro s x hx; exact .inl hx
  | cons a l ih =>
    intro s x hx
    simp only [castSyms] at hx
    rcases ih _ x hx with h | h
    · simp only [str] at h
      split at h
      · exact .inl h
      · rcases List.mem_append.1 h with h | h
        · exact .inl h
        · exact .inr (by simp at h; simp [h])
    · exact .inr (by simp [h])

theorem loadGrammar_ok (g : Grammar α) (hg : g.WF) :
    ∃ s, loadGrammar g = .ok s ∧ SetOK g s ∧ ∀ x ∈ s.symb2str, g.Occurs x := by
  obtain ⟨s, e, h, _⟩ := loadSet_ok (V := Unit) g hg []
  unfold loadSet at e
  obtain ⟨r, e1, e2⟩ := Out.bind_eq_ok.1 e
  cases e2
  refine ⟨(castSyms new r).1, by simp [loadGrammar, e1], h, fun x hx => ?_⟩
  rcases castSyms_mem r new x hx with h | h
  · simp [new] at h
  · exact grammarSyms_mem _ e1 x h

theorem analyze_spec (g : Grammar α) (hg : g.WF) :
    ∃ a fst, Out.Returns (analyze g) a ∧ Good g a fst := by
  obtain ⟨s, es, hs, hocc⟩ := loadGrammar_ok g hg
  have hc := closed_gi hs
  have h0 : Sound (gi g s) (size s) St.init :=
    ⟨fun A => ⟨by simp [St.init], by simp [St.init], by simp [St.init], by simp [St.init],
      by simp [St.init]⟩, by simp [St.init]⟩
  have hnt : ∀ i ∈ g.order.map (symIdx s), (gi g s).prods i ≠ none := by
    intro i hi
    obtain ⟨A, hA, rfl⟩ := List.mem_map.1 hi
    obtain ⟨ps, hps⟩ := Option.isSome_iff_exists.1 ((hg A).2 hA)
    show idxProds g s _ ≠ none
    rw [idxProds_symIdx hs.inv (hs.order A hA), hps]
    simp
  obtain ⟨st, e1, -, hd, hS, hI⟩ := ntLoop_spec hc (Nat.lt_succ_self _) (g.order.map (symIdx s))
    St.init hnt h0
  obtain ⟨f, e2, hf1, hf2⟩ := invert_spec (ln := size s) (n2f := st.nonterm2firsts)
    (List.range (size s)) (fun _ => none) fun i _ x hx => (hS.val i).lt x hx
  have ea : analyze g (size s + 1) = .ok ⟨f, st, s⟩ := by
    simp only [analyze, es, Out.bind_ok]
    rw [show ntLoop (size s) (idxProds g s) (size s + 1) St.init (g.order.map (symIdx s)) = .ok st from e1]
    simp only [Out.bind_ok, e2]
  have hInv : g.ScanAcyclic → Inv (gi g s) (fun _ => False) st := fun ha =>
    hI (acyclic_up hs ha) (by intro x hx; simp [St.init] at hx)
  have hcomp : g.ScanAcyclic → ∀ A ∈ g.order,
      CompVal (gi g s) (symIdx s A) (st.nonterm2firsts (symIdx s A)) (st.nilInFirst (symIdx s A)) := by
    intro ha A hA
    rcases hInv ha _ (hd _ (List.mem_map.2 ⟨A, hA, rfl⟩)) with h | h
    · cases h
    · exact h
  -- positions of names
  have hidx : ∀ {x i}, s.str2sym x = some i ↔ s.symb2str[i]? = some x := fun {x i} => hs.inv.map x i
  have hlt : ∀ {x i}, s.symb2str[i]? = some x → i < size s := fun h => (List.getElem?_eq_some_iff.1 h).1
  have hterm : ∀ {t i}, s.symb2str[i]? = some t → ((gi g s).Term i ↔ g.Term t) := by
    intro t i h
    show idxProds g s i = none ↔ g.prods t = none
    rw [← symIdx_unique hs.inv h, idxProds_symIdx hs.inv (List.mem_of_getElem? h)]
    simp
  have hruleOrd : ∀ {A t}, Plus g.ScanStep A t → A ∈ g.order := by
    have : ∀ {A t}, g.ScanStep A t → A ∈ g.order := by
      rintro A t ⟨k, pre, post, ⟨ps, e, _⟩, _⟩
      exact (hg A).1 (by simp [e])
    intro A t h
    cases h with
    | one r => exact this r
    | step r _ => exact this r
  have hnilOrd : ∀ {A}, g.LeftNil A → A ∈ g.order := by
    intro A h
    cases h with
    | empty hr => obtain ⟨ps, e, _⟩ := hr; exact (hg A).1 (by simp [e])
    | left hr => obtain ⟨ps, e, _⟩ := hr; exact (hg A).1 (by simp [e])
  let fst : α → α → Prop := fun A t => ∃ i j, s.symb2str[i]? = some A ∧ s.symb2str[j]? = some t ∧
    j ∈ st.nonterm2firsts i
  have hget : ∀ {i j}, j ∈ st.nonterm2firsts i →
      ∃ A t, s.symb2str[i]? = some A ∧ s.symb2str[j]? = some t := by
    intro i j h
    have hp := (hS.val i).scan j h
    obtain ⟨A, hA⟩ := scan_src hp
    obtain ⟨B, hB, _⟩ := plus_down hs hp A hA
    exact ⟨A, B, hA, hB⟩
  refine ⟨⟨f, st, s⟩, fst, Out.returns_of (analyze_mono g) ea, ?_, ?_, ?_, ?_, ?_, ?_, ?_, ?_, ?_, ?_⟩
  · rintro A t ⟨i, j, hi, hj, h⟩
    obtain ⟨B, hB, hp⟩ := plus_down hs ((hS.val i).scan j h) A hi
    rw [hj] at hB
    cases hB
    exact ⟨(hterm hj).1 ((hS.val i).term j h), hp⟩
  · intro ha A t ht hp
    have hA := hruleOrd hp
    have hAg := symIdx_get hs.inv (hs.order A hA)
    have hjt : s.symb2str[symIdx s t]? = some t := by
      have : t ∈ s.symb2str := by
        have key : ∀ {A t}, g.ScanStep A t → t ∈ s.symb2str := by
          rintro A t ⟨k, pre, post, hr, _⟩
          exact hs.syms A k _ hr t (by simp)
        clear ht hA hAg
        induction hp with
        | one r => exact key r
        | step _ _ ih => exact ih
      exact symIdx_get hs.inv this
    exact ⟨_, _, hAg, hjt, (hcomp ha A hA).scan _ ((hterm hjt).2 ht) (plus_up hs hg hp)⟩
  · intro A t
    simp only [hasFirst]
    cases ht : s.str2sym t with
    | none =>
      have ht' := (hs.inv.none t).1 ht
      simp only [Bool.false_eq_true, false_iff]
      rintro (⟨i, j, _, hj, _⟩ | ⟨rfl, ho, _⟩)
      · exact ht' (List.mem_of_getElem? hj)
      · rcases ho with ho | ⟨A, k, p, hr, hm⟩
        · exact ht' (hs.order _ ho)
        · exact ht' (hs.syms A k p hr _ hm)
    | some j =>
      have hj := hidx.1 ht
      cases hA : s.str2sym A with
      | none =>
        have hA' := (hs.inv.none A).1 hA
        simp only [Bool.false_eq_true, false_iff]
        rintro (⟨i, j, hi, _, _⟩ | ⟨rfl, _, _⟩)
        · exact hA' (List.mem_of_getElem? hi)
        · exact hA' (List.mem_of_getElem? hj)
      | some i =>
        have hi := hidx.1 hA
        have h1 := hf1 j
        have h2 := hf2 j i
        simp only [reduceCtorEq, exists_false, false_or, List.mem_range, false_and] at h1 h2
        have hfst : ∀ {B k}, s.symb2str[k]? = some B → (fst B t ↔ j ∈ st.nonterm2firsts k) := by
          intro B k hk
          constructor
          · rintro ⟨i', j', hi', hj', hm⟩
            have : i' = k := hs.inv.nodup.getElem_inj_iff.1
              ((List.getElem?_eq_some_iff.1 hi').2.trans (List.getElem?_eq_some_iff.1 hk).2.symm)
            subst this
            have : j' = j := hs.inv.nodup.getElem_inj_iff.1
              ((List.getElem?_eq_some_iff.1 hj').2.trans (List.getElem?_eq_some_iff.1 hj).2.symm)
            subst this
            exact hm
          · intro h; exact ⟨k, j, hk, hj, h⟩
        cases hfj : f j with
        | none =>
          have hno : ∀ B, ¬ fst B t := by
            rintro B ⟨i', j', hi', hj', hm⟩
            have : j' = j := hs.inv.nodup.getElem_inj_iff.1
              ((List.getElem?_eq_some_iff.1 hj').2.trans (List.getElem?_eq_some_iff.1 hj).2.symm)
            subst this
            obtain ⟨m, hm⟩ := h1.2 ⟨i', hlt hi', hm⟩
            rw [hfj] at hm; cases hm
          simp only [hfj, decide_eq_true_eq]
          constructor
          · rintro rfl
            rw [hi] at hj
            cases hj
            exact .inr ⟨rfl, hocc _ (List.mem_of_getElem? hi), hno⟩
          · rintro (h | ⟨rfl, _⟩)
            · exact absurd h (hno A)
            · rw [hA] at ht; exact Option.some.inj ht
        | some m =>
          simp only [hfj]
          have hex : ¬ ∀ B, ¬ fst B t := by
            intro hno
            obtain ⟨k, _, hm⟩ := h1.1 ⟨m, hfj⟩
            obtain ⟨B, _, hB, _⟩ := hget hm
            exact hno B ((hfst hB).2 hm)
          constructor
          · intro hm
            exact .inl ((hfst hi).2 (h2.1 ⟨m, hfj, hm⟩).2)
          · rintro (h | ⟨_, _, h⟩)
            · obtain ⟨m', e, h⟩ := h2.2 ⟨hlt hi, (hfst hi).1 h⟩
              rw [hfj] at e
              cases e
              exact h
            · exact absurd h hex
  · intro A
    simp only [nonTerminal]
    cases hA : s.str2sym A with
    | none =>
      have hA' := (hs.inv.none A).1 hA
      simp only [Bool.false_eq_true, false_iff]
      rintro ⟨t, i, j, hi, _, _⟩
      exact hA' (List.mem_of_getElem? hi)
    | some i =>
      have hi := hidx.1 hA
      simp only [if_neg (Nat.not_le.2 (hlt hi))]
      constructor
      · intro h
        have hne : st.nonterm2firsts i ≠ [] := by
          intro e; simp [e] at h
        obtain ⟨j, hj⟩ := List.exists_mem_of_ne_nil _ hne
        obtain ⟨_, t, _, ht⟩ := hget hj
        exact ⟨t, i, j, hi, ht, hj⟩
      · rintro ⟨t, i', j, hi', _, hm⟩
        have : s.str2sym A = some i' := hidx.2 hi'
        rw [hA] at this
        cases this
        cases e : st.nonterm2firsts i with
        | nil => rw [e] at hm; cases hm
        | cons _ _ => rfl
  · intro x h
    simp only [contains] at h
    cases hA : s.str2sym x with
    | none => simp [hA] at h
    | some i =>
      have hi := hidx.1 hA
      simp only [hA, Bool.or_eq_true] at h
      rcases h with h | h
      · have hne : st.nonterm2firsts i ≠ [] := by
          intro e; simp [e] at h
        obtain ⟨j, hj⟩ := List.exists_mem_of_ne_nil _ hne
        obtain ⟨_, t, _, ht⟩ := hget hj
        exact .inl ⟨t, i, j, hi, ht, hj⟩
      · obtain ⟨ht, B, hB⟩ := hS.terms i h
        obtain ⟨b, hb⟩ := scan_src (.one hB)
        obtain ⟨y, hy, hsc⟩ := scan_down hs hB hb
        rw [hi] at hy
        cases hy
        exact .inr ⟨(hterm hi).1 ht, b, hsc⟩
  · rintro A t ⟨i, j, hi, _, hm⟩
    simp only [contains, hidx.2 hi, Bool.or_eq_true]
    left
    cases e : st.nonterm2firsts i with
    | nil => rw [e] at hm; cases hm
    | cons _ _ => rfl
  · rintro A t ⟨i, j, hi, hj, hm⟩
    simp only [contains, hidx.2 hj, (hS.val i).terms j hm, Bool.or_true]
  · intro A h
    simp only [hasNilInFirst] at h
    cases hA : s.str2sym A with
    | none => simp [hA] at h
    | some i =>
      simp only [hA] at h
      exact leftNil_down hs ((hS.val i).nil h) A (hidx.1 hA)
  · intro ha A hl
    have hA := hnilOrd hl
    have hAg := symIdx_get hs.inv (hs.order A hA)
    simp only [hasNilInFirst, hidx.2 hAg]
    exact (hcomp ha A hA).nil (leftNil_up hs hg hl)
  · intro ha hn A hA
    have hAg := symIdx_get hs.inv (hs.order A hA)
    obtain ⟨j, hj⟩ := List.exists_mem_of_ne_nil _ ((hcomp ha A hA).ne (ne_up hg hn))
    obtain ⟨_, t, _, ht⟩ := hget hj
    exact ⟨t, _, j, hAg, ht, hj⟩

end Verif.Analyze
