import Verif.Proofs.RemoveLRLoop
/- RemoveLeftRecursion: direct left recursion, the loop over nonterminals, the result. -/
namespace Verif.LeftRecursion
open Verif.SetSymbol Verif.Spec Verif.Spec.RemoveLR Verif.Grammar

/-- Effect of one old production of a directly left recursive `A`. -/
def rd1 (A : Str) (pr : Str → Option (List (List Str))) (q : List Str) : Str → Option (List (List Str)) :=
  if q.head? ≠ some A then app pr A (q ++ [primed A])
  else if q.dropWhile (· = A) = [] then pr
  else app pr (primed A) (q.dropWhile (· = A) ++ [primed A])

/-- State of the loop over the old productions of `A`; `T` is the table before it. -/
structure RD (T : List Str) (A : Str) (pr : Str → Option (List (List Str))) (op : Op) : Prop where
  inv : Inv op.set
  set : op.set.symb2str = T ++ [primed A]
  rep : RepP op.out pr
  tab : op.out.set.symb2str = T ∨ op.out.set.symb2str = T ++ [primed A]
  cur : T[op.cur]? = some A

theorem RD.pre {T A pr op} (h : RD T A pr op) : T <+: op.out.set.symb2str := by
  rcases h.tab with e | e <;> rw [e]
  · exact List.prefix_refl _
  · exact List.prefix_append _ _

theorem head_iff {s : SymSet Str} {T : List Str} (hs : s.symb2str = T) (hi : Inv s) {c : Nat} {A : Str}
    (hc : T[c]? = some A) {p q} (h : Nm s p q) : p.head? = some c ↔ q.head? = some A := by
  cases p with
  | nil => rw [Nm.nil_inv h]; simp
  | cons i p =>
    obtain ⟨x, ys, rfl, hx, _⟩ := Nm.cons_inv h
    rw [← hs] at hc
    simp only [List.head?_cons, Option.some.injEq]
    constructor
    · rintro rfl; rw [hx] at hc; exact Option.some.inj hc
    · rintro rfl; exact get_inj hi hx hc

/-- Interning `A'` and other known symbols. -/
theorem RD.intern {T A pr op} (h : RD T A pr op) (hA : primed A ∉ T) {xs : List Str}
    (hx : ∀ x ∈ xs, x ∈ T) : (castSyms op.out.set (xs ++ [primed A])).1.symb2str = T ++ [primed A] := by
  rw [castSyms_table h.rep.inv, List.foldl_append, foldl_ins_of_mem (l := xs) fun x h' => h.pre.subset (hx x h')]
  simp only [List.foldl_cons, List.foldl_nil, ins]
  rcases h.tab with e | e <;> rw [e]
  · rw [if_neg hA]
  · rw [if_pos (by simp)]

theorem rdLoop_spec {T A} (hA : primed A ∉ T) {s0 : SymSet Str} (hT : Inv s0) (hs0 : s0.symb2str = T) :
    ∀ (prods : List (List Nat)) (qs : List (List Str)), PNm s0 prods qs → ∀ pr op, RD T A pr op →
    ∃ op', rdLoop (primed A) T.length op prods = .ok op' ∧ RD T A (qs.foldl (rd1 A) pr) op' ∧
      op'.out.order = op.out.order ∧ op'.done = op.done ∧ op'.cur = op.cur ∧
      ((op.out.set.symb2str = T ++ [primed A] ∨ ∃ q ∈ qs, q.head? ≠ some A) →
        op'.out.set.symb2str = T ++ [primed A]) := by
  intro prods qs hP
  induction hP with
  | nil => intro pr op h; exact ⟨op, rfl, h, rfl, rfl, rfl, by simp⟩
  | @cons p q ps qs hp _ ih =>
    intro pr op h
    have hpo : Nm op.out.set p q := hp.mono (by rw [hs0]; exact h.pre)
    have hcT : op.set.symb2str[op.cur]? = some A := by
      rw [h.set]; exact prefix_getElem? (List.prefix_append _ _) h.cur
    have hqT : ∀ y ∈ q, y ∈ T := by rw [← hs0]; exact Nm.mem hp
    have hhead := head_iff hs0 hT h.cur hp
    simp only [rdLoop]
    by_cases hh : p.head? = some op.cur
    · rw [if_neg (by simpa using hh)]
      cases p with
      | nil => simp at hh
      | cons i p =>
        simp only [List.head?_cons, Option.some.injEq] at hh
        subst hh
        obtain ⟨x, ys, rfl, hx, hys⟩ := Nm.cons_inv hpo
        have hxA : x = A := by
          have := hhead.1 rfl
          simpa using this
        subst hxA
        simp only [List.tail_cons, hys.read, Out.bind_ok]
        have hysT : ∀ y ∈ ys, y ∈ op.set.symb2str := by
          intro y hy; rw [h.set]; exact List.mem_append_left _ (hqT y (by simp [hy]))
        have hset : (castSyms op.set ys).1 = op.set := castSyms_present h.inv hysT
        have hnm := castSyms_nm h.inv ys
        rw [hset] at hnm
        have hdw := Nm.dropWhile h.inv hcT hnm
        have hdq : List.dropWhile (fun z => decide (z = x)) (x :: ys) = List.dropWhile (fun z => decide (z = x)) ys := by
          simp
        rw [hset]
        by_cases he : List.dropWhile (fun z => decide (z = op.cur)) (castSyms op.set ys).2 = []
        · rw [if_pos he]
          have he' : List.dropWhile (fun z => decide (z = x)) ys = [] := by
            rw [he] at hdw; exact Nm.nil_inv hdw
          have hrd : rd1 x pr (x :: ys) = pr := by
            simp only [rd1, List.head?_cons, ne_eq, not_true, if_false, hdq, he', if_true]
          obtain ⟨op', e, h1, h2, h3, h4, h5⟩ := ih pr op h
          refine ⟨op', e, by rw [List.foldl_cons, hrd]; exact h1, h2, h3, h4, ?_⟩
          rintro (h' | ⟨q, hq, hq'⟩)
          · exact h5 (.inl h')
          · rcases List.mem_cons.1 hq with rfl | hq
            · simp at hq'
            · exact h5 (.inr ⟨q, hq, hq'⟩)
        · rw [if_neg he]
          have he' : ¬ List.dropWhile (fun z => decide (z = x)) ys = [] := by
            intro e
            rw [e] at hdw
            apply he
            unfold Nm at hdw
            simpa using hdw
          have hns : op.set.symb2str[T.length]? = some (primed x) := by rw [h.set]; simp
          have hrd : Nm op.set (List.dropWhile (fun z => decide (z = op.cur)) (castSyms op.set ys).2 ++ [T.length])
              (List.dropWhile (fun z => decide (z = x)) ys ++ [primed x]) :=
            hdw.append (by simp [Nm, hns])
          rw [hrd.read]
          simp only [Out.bind_ok]
          have hdT : ∀ y ∈ List.dropWhile (fun z => decide (z = x)) ys, y ∈ T := fun y hy =>
            hqT y (by simp [(List.dropWhile_sublist _).subset hy])
          have htab := h.intern hA hdT
          have hpre := castSyms_prefix op.out.set (List.dropWhile (fun z => decide (z = x)) ys ++ [primed x])
          have hinv := castSyms_inv h.rep.inv (List.dropWhile (fun z => decide (z = x)) ys ++ [primed x])
          have hput := (h.rep.intern hinv hpre).put
            (g' := directIdx { op.out with set := (castSyms op.out.set
              (List.dropWhile (fun z => decide (z = x)) ys ++ [primed x])).1 } T.length
              (castSyms op.out.set (List.dropWhile (fun z => decide (z = x)) ys ++ [primed x])).2)
            (f := T.length) (A := primed x) (by simp only [htab]; simp)
            (castSyms_nm h.rep.inv _) (directIdx_set _ _ _) (fun i => directIdx_get _ _ _ i)
          obtain ⟨op', e, h1, h2, h3, h4, h5⟩ := ih _
            { op with out := (directIdx { op.out with set := (castSyms op.out.set
              (List.dropWhile (fun z => decide (z = x)) ys ++ [primed x])).1 } T.length
              (castSyms op.out.set (List.dropWhile (fun z => decide (z = x)) ys ++ [primed x])).2) }
            ⟨h.inv, h.set, hput, .inr (by rw [directIdx_set]; exact htab), h.cur⟩
          refine ⟨op', e, ?_, h2.trans (directIdx_order _ _ _), h3, h4, fun _ => h5 (.inl ?_)⟩
          · rw [List.foldl_cons]
            have : rd1 x pr (x :: ys) = app pr (primed x)
                (List.dropWhile (fun z => decide (z = x)) ys ++ [primed x]) := by
              simp only [rd1, List.head?_cons, ne_eq, not_true, if_false, hdq, he']
            rw [this]; exact h1
          · rw [directIdx_set]; exact htab
    · rw [if_pos hh]
      have hq : q.head? ≠ some A := fun e => hh (hhead.2 e)
      have htab := h.intern hA (xs := []) (by simp)
      simp only [List.nil_append, castSyms] at htab
      have hpre := str_prefix op.out.set (primed A)
      have hput := (h.rep.intern (inv_str h.rep.inv (primed A)) hpre).put
        (g' := directIdx { op.out with set := (str op.out.set (primed A)).1 } op.cur
          (p ++ [(str op.out.set (primed A)).2]))
        (f := op.cur) (A := A) (P := q ++ [primed A])
        (by simp only [htab]; exact prefix_getElem? (List.prefix_append _ _) h.cur)
        ((hpo.mono hpre).append (by simp [Nm, str_idx h.rep.inv])) (directIdx_set _ _ _)
        (fun i => directIdx_get _ _ _ i)
      obtain ⟨op', e, h1, h2, h3, h4, h5⟩ := ih _
        { op with out := (directIdx { op.out with set := (str op.out.set (primed A)).1 } op.cur
          (p ++ [(str op.out.set (primed A)).2])) }
        ⟨h.inv, h.set, hput, .inr (by rw [directIdx_set]; exact htab), h.cur⟩
      refine ⟨op', e, ?_, h2.trans (directIdx_order _ _ _), h3, h4, fun _ => h5 (.inl ?_)⟩
      · rw [List.foldl_cons]
        have : rd1 A pr q = app pr A (q ++ [primed A]) := by simp only [rd1, ne_eq, hq, not_false_iff, if_true]
        rw [this]; exact h1
      · rw [directIdx_set]; exact htab

/-! ### The effect on the productions -/

theorem rd_foldl_other {A x : Str} (h1 : x ≠ A) (h2 : x ≠ primed A) : ∀ (qs : List (List Str)) (pr : Str → Option (List (List Str))), (qs.foldl (rd1 A) pr) x = pr x := by
  intro qs
  induction qs with
  | nil => intro pr; rfl
  | cons q qs ih =>
    intro pr
    rw [List.foldl_cons, ih]
    unfold rd1 app
    split
    · exact upd_ne _ _ h1
    · split
      · rfl
      · exact upd_ne _ _ h2

theorem rd_foldl_head {A : Str} : ∀ (qs : List (List Str)) (pr : Str → Option (List (List Str))), ((qs.foldl (rd1 A) pr) A).getD [] =
    (pr A).getD [] ++ (qs.filter fun q => q.head? ≠ some A).map (· ++ [primed A]) := by
  intro qs
  induction qs with
  | nil => intro pr; simp
  | cons q qs ih =>
    intro pr
    rw [List.foldl_cons, ih]
    unfold rd1
    by_cases h : q.head? = some A
    · rw [if_neg (by simpa using h)]
      have e : ∀ P, app pr (primed A) P A = pr A := fun P => upd_ne _ _ (primed_ne A).symm
      rw [List.filter_cons_of_neg (by simpa using h)]
      split <;> simp [e]
    · rw [if_pos h, List.filter_cons_of_pos (by simpa using h)]
      simp [app]

theorem rd_foldl_some {A : Str} : ∀ (qs : List (List Str)) (pr : Str → Option (List (List Str))), (pr A ≠ none ∨ ∃ q ∈ qs, q.head? ≠ some A) →
    (qs.foldl (rd1 A) pr) A ≠ none := by
  intro qs
  induction qs with
  | nil => intro pr h; simpa using h
  | cons q qs ih =>
    intro pr h
    rw [List.foldl_cons]
    apply ih
    by_cases hq : q.head? = some A
    · rcases h with h | ⟨q', hq', hh⟩
      · left
        unfold rd1
        rw [if_neg (by simpa using hq)]
        split
        · exact h
        · rw [app, upd_ne _ _ (primed_ne A).symm]; exact h
      · rcases List.mem_cons.1 hq' with rfl | hq'
        · exact absurd hq hh
        · exact .inr ⟨q', hq', hh⟩
    · left
      unfold rd1
      rw [if_pos hq]
      simp [app]

theorem rd_foldl_tail {A : Str} : ∀ (qs : List (List Str)) (pr : Str → Option (List (List Str))), ((qs.foldl (rd1 A) pr) (primed A)).getD [] =
    (pr (primed A)).getD [] ++ (((qs.filter fun q => q.head? = some A).map fun q => q.dropWhile (· = A)).filter
      fun q => q ≠ []).map (· ++ [primed A]) := by
  intro qs
  induction qs with
  | nil => intro pr; simp
  | cons q qs ih =>
    intro pr
    rw [List.foldl_cons, ih]
    unfold rd1
    by_cases h : q.head? = some A
    · rw [if_neg (by simpa using h), List.filter_cons_of_pos (by simpa using h), List.map_cons]
      by_cases h2 : q.dropWhile (· = A) = []
      · rw [if_pos h2, List.filter_cons_of_neg (by simpa using h2)]
      · rw [if_neg h2, List.filter_cons_of_pos (by simpa using h2)]
        simp [app]
    · rw [if_pos h, List.filter_cons_of_neg (by simpa using h)]
      rw [app, upd_ne _ _ (primed_ne A)]

theorem put_foldl {A : Str} : ∀ (qs : List (List Str)) (G : Spec.Grammar Str),
    (qs.foldl (put A) G).prods = (if qs = [] then G.prods else upd G.prods A (some ((G.prods A).getD [] ++ qs))) ∧
    (qs.foldl (put A) G).order = if qs = [] ∨ (G.prods A).isSome then G.order else G.order ++ [A] := by
  intro qs
  induction qs with
  | nil => intro G; simp
  | cons q qs ih =>
    intro G
    rw [List.foldl_cons]
    obtain ⟨h1, h2⟩ := ih (put A G q)
    rw [h1, h2]
    constructor
    · simp only [reduceCtorEq, if_false]
      split
      · rename_i h; subst h; rfl
      · simp only [put, app, upd_same, Option.getD_some]
        funext x
        by_cases hx : x = A
        · subst hx; simp
        · rw [upd_ne _ _ hx, upd_ne _ _ hx, upd_ne _ _ hx]
    · have : ((put A G q).prods A).isSome = true := by simp [put, app]
      rw [this]
      simp [put]

/-! ### One nonterminal -/

section
variable {g : Spec.Grammar Str} {X : Str → Prop} {dn : List Str} {A : Str}

theorem hasHead_direct (M : Str → List (List Str)) (A : Str) : hasHead A (M A) = decide (Direct M A) := by
  unfold hasHead
  rw [Bool.eq_iff_iff, decide_eq_true_eq, List.any_eq_true]
  unfold Direct
  simp

theorem removed_other {pre : List Str} {M : Str → List (List Str)} {x : Str} (h1 : x ∉ pre)
    (h2 : ∀ B ∈ pre, primed B ≠ x) : (removed pre M).prods x = none := by
  simp only [removed, h1, if_false, Option.map_eq_none_iff, List.find?_eq_none]
  intro B hB
  simp [h2 B hB]

theorem removed_snoc {pre : List Str} {M : Str → List (List Str)} (hA : A ∉ pre)
    (hf : ∀ B ∈ pre ++ [A], primed A ≠ B ∧ primed B ≠ A) :
    (removed (pre ++ [A]) M).prods =
      if Direct M A then upd (upd (removed pre M).prods A (some (heads M A))) (primed A) (some (tails M A))
      else upd (removed pre M).prods A (some (M A)) := by
  have hfind : ∀ x, List.find? (fun B => decide (Direct M B) && decide (primed B = x)) (pre ++ [A]) =
      if Direct M A ∧ primed A = x then some A
      else List.find? (fun B => decide (Direct M B) && decide (primed B = x)) pre := by
    intro x
    rw [List.find?_append]
    cases e : List.find? (fun B => decide (Direct M B) && decide (primed B = x)) pre with
    | some B =>
      have := List.find?_some e
      have hB := List.mem_of_find?_eq_some e
      simp only [Bool.and_eq_true, decide_eq_true_eq] at this
      rw [if_neg]
      · rfl
      · rintro ⟨_, h⟩
        have := primed_inj (h.trans this.2.symm)
        subst this
        exact hA hB
    | none =>
      simp only [Option.none_or, List.find?_cons, List.find?_nil]
      by_cases h : Direct M A ∧ primed A = x
      · simp [h.1, h.2]
      · rw [if_neg h]
        have : (decide (Direct M A) && decide (primed A = x)) = false := by
          simp only [Bool.and_eq_false_iff, decide_eq_false_iff_not]
          by_cases h1 : Direct M A
          · exact .inr fun h2 => h ⟨h1, h2⟩
          · exact .inl h1
        rw [this]
  funext x
  simp only [removed]
  rw [hfind]
  by_cases hd : Direct M A
  · rw [if_pos hd]
    by_cases hx : x = primed A
    · subst hx
      have h1 : primed A ∉ pre ++ [A] := fun h => (hf _ h).1 rfl
      simp [h1, hd]
    · rw [upd_ne _ _ hx]
      by_cases hxA : x = A
      · subst hxA; simp [hd]
      · rw [upd_ne _ _ hxA]
        have h2 : ¬ (Direct M A ∧ primed A = x) := fun h => hx h.2.symm
        rw [if_neg h2]
        simp [hxA]
  · rw [if_neg hd]
    by_cases hxA : x = A
    · subst hxA; simp [hd]
    · rw [upd_ne _ _ hxA]
      have h2 : ¬ (Direct M A ∧ primed A = x) := fun h => hd h.1
      rw [if_neg h2]
      simp [hxA]

/-- State between two nonterminals. -/
structure Mid (g : Spec.Grammar Str) (M : Str → List (List Str)) (pre : List Str) (op : Op) : Prop where
  inv : Inv op.set
  rep : RepP op.out (removed pre M).prods
  order : Nm op.out.set op.out.order (removed pre M).order
  done : ∀ i : Nat, op.done[i]?.getD false = true ↔ ∃ x ∈ pre, op.set.symb2str[i]? = some x
  known : ∀ x ∈ pre, x ∈ op.out.set.symb2str ∧ ∃ ps, g.prods x = some ps ∧ ps ≠ [] ∧
    ∀ p ∈ ps, ∀ y ∈ p, y ∈ op.out.set.symb2str
  sync : op.set.symb2str = op.out.set.symb2str
  src : ∀ x ∈ op.set.symb2str, g.Occurs x ∨ ∃ B ∈ pre, x = primed B

theorem markDone_done (op : Op) (i : Nat) : (markDone op).done[i]?.getD false = true ↔
    i = op.cur ∨ op.done[i]?.getD false = true := by
  have key : ∀ l : List Bool, op.cur < l.length → (∀ i : Nat, l[i]?.getD false = op.done[i]?.getD false) →
      ((l.set op.cur true)[i]?.getD false = true ↔ i = op.cur ∨ op.done[i]?.getD false = true) := by
    intro l hl h
    rw [List.getElem?_set, ← h]
    by_cases e : op.cur = i
    · subst e; simp [hl]
    · rw [if_neg e]
      simp [Ne.symm e]
  unfold markDone
  simp only
  split
  · rename_i h
    apply key
    · simp; omega
    · intro i
      rw [List.getElem?_append]
      split
      · rfl
      · rw [List.getElem?_replicate, List.getElem?_eq_none (l := op.done) (by omega)]
        split <;> rfl
  · apply key
    · omega
    · intro i; rfl

/-- Marking the finished nonterminal. -/
theorem mark_spec {s : SymSet Str} (hi : Inv s) {op : Op} (hs : op.set = s) (hc : s.symb2str[op.cur]? = some A)
    (hd : ∀ i : Nat, op.done[i]?.getD false = true ↔ ∃ x ∈ dn, s.symb2str[i]? = some x) (i : Nat) :
    (markDone op).done[i]?.getD false = true ↔ ∃ x ∈ dn ++ [A], s.symb2str[i]? = some x := by
  subst hs
  rw [markDone_done, hd]
  constructor
  · rintro (rfl | ⟨x, hx, e⟩)
    · exact ⟨A, by simp, hc⟩
    · exact ⟨x, by simp [hx], e⟩
  · rintro ⟨x, hx, e⟩
    rcases List.mem_append.1 hx with hx | hx
    · exact .inr ⟨x, hx, e⟩
    · rw [List.mem_singleton.1 hx] at e
      exact .inl (get_inj hi e hc)

theorem before_eq {pre As : List Str} (ho : g.order = pre ++ A :: As) (hA : A ∉ pre) : before g A = pre := by
  unfold before
  rw [ho, List.takeWhile_append_of_pos]
  · simp
  · intro x hx
    have : x ≠ A := fun e => hA (e ▸ hx)
    simpa using this

theorem removeDirect_spec {M : Str → List (List Str)} {pre : List Str} {op : Op}
    (hA : A ∉ pre) (hfr : ∀ B ∈ pre ++ [A], ¬ g.Occurs (primed B)) (hocc : ∀ B ∈ pre ++ [A], g.Occurs B)
    (hm : St g (fun x => g.Occurs x ∨ ∃ B ∈ pre, x = primed B) pre A
      ((M A).foldl (put A) (removed pre M)) [A] op)
    (hsync : op.set.symb2str = op.out.set.symb2str) (hd : Direct M A)
    (hgr : ∃ q ∈ M A, q.head? ≠ some A) :
    ∃ op', removeDirect op = .ok op' ∧ Inv op'.set ∧ RepP op'.out (removed (pre ++ [A]) M).prods ∧
      Nm op'.out.set op'.out.order (removed (pre ++ [A]) M).order ∧ op'.done = op.done ∧ op'.cur = op.cur ∧
      op.set.symb2str <+: op'.set.symb2str ∧ op'.set.symb2str = op'.out.set.symb2str ∧
      op'.set.symb2str = op.set.symb2str ++ [primed A] := by
  have hneA : M A ≠ [] := by rintro e; rw [e] at hgr; simp at hgr
  have hprA : (removed pre M).prods A = none := by
    apply removed_other hA
    intro B hB e
    exact hfr B (by simp [hB]) (e ▸ hocc A (by simp))
  have hprA' : (removed pre M).prods (primed A) = none := by
    apply removed_other
    · intro h; exact hfr A (by simp) (hocc _ (by simp [h]))
    · intro B hB e
      have := primed_inj e
      subst this
      exact hA hB
  obtain ⟨hpr, hor⟩ := put_foldl (A := A) (M A) (removed pre M)
  rw [if_neg hneA, hprA] at hpr
  simp only [Option.getD_none, List.nil_append] at hpr
  rw [hprA] at hor
  simp only [hneA, Option.isSome_none, Bool.false_eq_true, or_self, if_false] at hor
  have hrep := hm.rep
  rw [hpr] at hrep
  have hA' : primed A ∉ op.set.symb2str := by
    intro h
    rcases hm.src _ h with h | ⟨B, hB, e⟩
    · exact hfr A (by simp) h
    · have := primed_inj e
      subst this
      exact hA hB
  have hstr : str op.set (primed A) = (⟨upd op.set.str2sym (primed A) (some op.set.symb2str.length),
      op.set.symb2str ++ [primed A]⟩, op.set.symb2str.length) := by
    have : op.set.str2sym (primed A) = none := (hm.inv.none _).2 hA'
    unfold str
    rw [this]
  have hinv2 := inv_str hm.inv (primed A)
  rw [hstr] at hinv2
  have hcT : op.out.set.symb2str[op.cur]? = some A := by rw [← hsync]; exact hm.cur
  have hget := hrep.prods A op.cur hcT
  rw [upd_same] at hget
  obtain ⟨ps, hps, hP⟩ : ∃ ps, op.out.productions[op.cur]? = some (some ps) ∧ PNm op.out.set ps (M A) := by
    cases e : op.out.productions[op.cur]? with
    | none => rw [e] at hget; simp at hget
    | some o =>
      cases o with
      | none => rw [e] at hget; simp at hget
      | some ps => rw [e] at hget; exact ⟨ps, rfl, hget⟩
  have hbe : op.out.productions[op.set.symb2str.length]?.join = none :=
    hrep.beyond _ (by rw [hsync]; exact Nat.le_refl _)
  have hclear := hrep.clear hcT (op.out.order ++ [op.set.symb2str.length])
  have hupd : upd (upd (removed pre M).prods A (some (M A))) A none = (removed pre M).prods := by
    funext x
    by_cases hx : x = A
    · subst hx; simp [hprA]
    · rw [upd_ne _ _ hx, upd_ne _ _ hx]
  rw [hupd] at hclear
  obtain ⟨op1, e1, h1, h2, h3, h4, h5⟩ := rdLoop_spec (T := op.set.symb2str) (A := A) hA'
    (s0 := op.out.set) hrep.inv hsync.symm ps (M A) hP (removed pre M).prods
    { op with
      set := ⟨upd op.set.str2sym (primed A) (some op.set.symb2str.length), op.set.symb2str ++ [primed A]⟩
      out := ⟨op.out.order ++ [op.set.symb2str.length], op.out.productions.set op.cur none, op.out.set⟩ }
    ⟨hinv2, rfl, hclear, .inl hsync.symm, hm.cur⟩
  have htab := h5 (.inr hgr)
  have hns : op1.out.set.symb2str[op.set.symb2str.length]? = some (primed A) := by rw [htab]; simp
  have hput := h1.rep.put (g' := directIdx op1.out op.set.symb2str.length []) (p := []) (P := []) hns
    (by simp [Nm]) (directIdx_set _ _ _) (fun i => directIdx_get _ _ _ i)
  have hfin : app (List.foldl (rd1 A) (removed pre M).prods (M A)) (primed A) [] = (removed (pre ++ [A]) M).prods := by
    rw [removed_snoc hA, if_pos hd]
    · funext x
      by_cases hx : x = primed A
      · subst hx
        simp only [app, upd_same, rd_foldl_tail, hprA', tails, Option.getD_none, List.nil_append]
      · rw [app, upd_ne _ _ hx, upd_ne _ _ hx]
        by_cases hxA : x = A
        · subst hxA
          rw [upd_same]
          have hne := rd_foldl_some (M x) (removed pre M).prods (.inr hgr)
          have hv := rd_foldl_head (A := x) (M x) (removed pre M).prods
          rw [hprA] at hv
          cases e : List.foldl (rd1 x) (removed pre M).prods (M x) x with
          | none => exact absurd e hne
          | some l =>
            rw [e] at hv
            simp only [Option.getD_some, Option.getD_none, List.nil_append] at hv
            rw [hv]; rfl
        · rw [upd_ne _ _ hxA, rd_foldl_other hxA hx]
    · intro B hB
      constructor
      · intro e; exact hfr A (by simp) (e ▸ hocc B hB)
      · intro e; exact hfr B hB (e ▸ hocc A (by simp))
  rw [hfin] at hput
  refine ⟨{ op1 with out := directIdx op1.out op.set.symb2str.length [] }, ?_, h1.inv, hput, ?_, h3, h4, ?_, ?_, h1.set⟩
  · unfold removeDirect
    rw [symString_ok hm.cur]
    simp only [Out.bind_ok, prime_eq, hstr, hps, hbe, if_true, Option.getD_some, e1]
  · rw [directIdx_set, directIdx_order, h2]
    have ho : (removed (pre ++ [A]) M).order = (removed pre M).order ++ [A] ++ [primed A] := by
      simp [removed, hd]
    rw [ho]
    have hmo := hm.order
    rw [hor] at hmo
    refine (hmo.mono ?_).append (by simp [Nm, hns])
    rw [htab, hsync]; exact List.prefix_append _ _
  · show _ <+: op1.set.symb2str
    rw [h1.set]; exact List.prefix_append _ _
  · rw [directIdx_set, htab]; exact h1.set

theorem nt_spec {M : Str → List (List Str)} {pre As : List Str} (hw : g.WF) (hfull : Full g) (hfresh : Fresh g)
    (hgr : Grounded g) (ho : g.order = pre ++ A :: As) (hA : A ∉ pre)
    (hM : ∀ ps qs, g.prods A = some ps → Expands g (before g A) ps qs → M A = qs)
    {n : Nat} {op : Op} (hm : Mid g M pre op) :
    ntLoop g n op (A :: As) = .fuel ∧ (∀ ps, g.prods A = some ps → prodLoop g n
        { op with set := (str op.set A).1, cur := (str op.set A).2, hasDirect := false } ps = .fuel) ∨
    ∃ op', ntLoop g n op (A :: As) = ntLoop g n op' As ∧ Mid g M (pre ++ [A]) op' ∧
      ∀ ps, g.prods A = some ps → Expands g (before g A) ps (M A) := by
  have hAo : A ∈ g.order := by rw [ho]; simp
  obtain ⟨ps, hps⟩ := Option.isSome_iff_exists.1 ((hw A).2 hAo)
  have hocc : ∀ B ∈ pre ++ [A], g.Occurs B := by
    intro B hB
    left
    rw [ho]
    rcases List.mem_append.1 hB with h | h
    · simp [h]
    · rw [List.mem_singleton.1 h]; simp
  have hfr : ∀ B ∈ pre ++ [A], ¬ g.Occurs (primed B) := by
    intro B hB
    apply hfresh
    rw [ho]
    rcases List.mem_append.1 hB with h | h
    · simp [h]
    · rw [List.mem_singleton.1 h]; simp
  have hX : ∀ B ps, g.prods B = some ps → ∀ p ∈ ps, ∀ y ∈ p, g.Occurs y ∨ ∃ B ∈ pre, y = primed B := by
    intro B ps hB p hp y hy
    obtain ⟨k, hk⟩ := List.mem_iff_getElem?.1 hp
    exact .inl (.inr ⟨B, k, p, ⟨ps, hB, hk⟩, hy⟩)
  have hst : St g (fun x => g.Occurs x ∨ ∃ B ∈ pre, x = primed B) pre A (removed pre M) [A]
      { op with set := (str op.set A).1, cur := (str op.set A).2, hasDirect := false } := by
    refine ⟨inv_str hm.inv A, hm.rep, hm.order, str_idx hm.inv A, ?_, hm.known, ?_, ?_⟩
    · refine done_grow (inv_str hm.inv A) (str_prefix _ _) ?_ hm.done
      intro x hx; rw [hm.sync]; exact (hm.known x hx).1
    · show (str op.set A).1.symb2str = _
      rw [str_table _ hm.inv, hm.sync]; rfl
    · intro x hx
      have hx : x ∈ (str op.set A).1.symb2str := hx
      rw [str_table _ hm.inv] at hx
      split at hx
      · exact hm.src x hx
      · rcases List.mem_append.1 hx with hx | hx
        · exact hm.src x hx
        · rw [List.mem_singleton.1 hx]; exact .inl (hocc A (by simp))
  simp only [ntLoop, hps]
  rcases prodLoop_spec (fun r _ rs => hX r rs) n ps (removed pre M) _ hst (hX A ps hps) with
    e | ⟨op1, qs, e, hE, hs1, hsy, hp1, hy1, hd1⟩
  · left
    refine ⟨by rw [e]; rfl, ?_⟩
    intro ps' h
    cases h
    exact e
  · right
    have hbf := before_eq ho hA
    rw [← hbf] at hE
    have hMA := hM ps qs hps hE
    subst hMA
    have hpsne : ps ≠ [] := fun h => hfull A (h ▸ hps)
    have hsync := hsy hpsne
    rw [e]
    simp only [Out.bind_ok]
    have hdir : op1.hasDirect = decide (Direct M A) := by rw [hd1, hasHead_direct]; rfl
    have hknown : ∀ (T : List Str), op1.set.symb2str <+: T → ∀ x ∈ pre ++ [A], x ∈ T ∧
        ∃ ps, g.prods x = some ps ∧ ps ≠ [] ∧ ∀ p ∈ ps, ∀ y ∈ p, y ∈ T := by
      intro T hT x hx
      rcases List.mem_append.1 hx with hx | hx
      · obtain ⟨h1, ps, h2, h3, h4⟩ := hs1.known x hx
        rw [← hsync] at h1 h4
        exact ⟨hT.subset h1, ps, h2, h3, fun p hp y hy => hT.subset (h4 p hp y hy)⟩
      · rw [List.mem_singleton.1 hx]
        exact ⟨hT.subset (List.mem_of_getElem? hs1.cur), ps, hps, hpsne,
          fun p hp y hy => hT.subset (hy1 p hp y hy)⟩
    by_cases hd : Direct M A
    · rw [hdir, decide_eq_true hd, if_pos rfl]
      obtain ⟨op2, e2, h1, h2, h3, h4, h5, h6, h7, h8⟩ :=
        removeDirect_spec hA hfr hocc hs1 hsync hd (hgr A ps (M A) hAo hps hE hd)
      refine ⟨markDone op2, by rw [e2]; rfl, ?_, ?_⟩
      · refine ⟨h1, h2, h3, ?_, ?_, h7, ?_⟩
        · intro i
          refine mark_spec (dn := pre) h1 (op := op2) rfl (by rw [h5]; exact prefix_getElem? h6 hs1.cur) ?_ i
          rw [h4]
          refine done_grow h1 h6 ?_ hs1.done
          intro x hx; rw [hsync]; exact (hs1.known x hx).1
        · have := hknown _ h6
          rw [h7] at this
          exact this
        · intro x hx
          have hx : x ∈ op2.set.symb2str := hx
          rw [h8] at hx
          rcases List.mem_append.1 hx with hx | hx
          · rcases hs1.src x hx with h | ⟨B, hB, e⟩
            · exact .inl h
            · exact .inr ⟨B, by simp [hB], e⟩
          · exact .inr ⟨A, by simp, List.mem_singleton.1 hx⟩
      · intro ps' h
        cases h
        exact hE
    · rw [hdir, decide_eq_false hd, if_neg (by simp)]
      refine ⟨markDone op1, rfl, ?_, ?_⟩
      · have hne : M A ≠ [] := by
          intro h
          have hh : ∀ a b, Expands g (before g A) a b → a ≠ [] → b ≠ [] := by
            intro a b h
            induction h with
            | nil => simp
            | keep => simp
            | @subst F t rs ps qs hF hrs _ ih =>
              intro _
              apply ih
              have : rs ≠ [] := fun h => hfull F (h ▸ hrs)
              simp [this]
          exact hh _ _ hE hpsne h
        have hprA : (removed pre M).prods A = none := by
          apply removed_other hA
          intro B hB e
          exact hfr B (by simp [hB]) (e ▸ hocc A (by simp))
        obtain ⟨hpr, hor⟩ := put_foldl (A := A) (M A) (removed pre M)
        rw [if_neg hne, hprA] at hpr
        simp only [Option.getD_none, List.nil_append] at hpr
        rw [hprA] at hor
        simp only [hne, Option.isSome_none, Bool.false_eq_true, or_self, if_false] at hor
        have hprod : (removed (pre ++ [A]) M).prods = upd (removed pre M).prods A (some (M A)) := by
          rw [removed_snoc hA, if_neg hd]
          intro B hB
          exact ⟨fun e => hfr A (by simp) (e ▸ hocc B hB), fun e => hfr B hB (e ▸ hocc A (by simp))⟩
        have hord : (removed (pre ++ [A]) M).order = (removed pre M).order ++ [A] := by
          simp [removed, hd]
        refine ⟨hs1.inv, ?_, ?_, ?_, ?_, hsync, ?_⟩
        · rw [hprod, ← hpr]; exact hs1.rep
        · rw [hord, ← hor]; exact hs1.order
        · intro i; exact mark_spec (dn := pre) hs1.inv (op := op1) rfl hs1.cur hs1.done i
        · have := hknown _ (List.prefix_refl _)
          rw [hsync] at this
          exact this
        · intro x hx
          rcases hs1.src x hx with h | ⟨B, hB, e⟩
          · exact .inl h
          · exact .inr ⟨B, by simp [hB], e⟩
      · intro ps' h
        cases h
        exact hE

/-- The loop over the nonterminals. -/
theorem ntLoop_spec {M : Str → List (List Str)} (hw : g.WF) (hnd : g.order.Nodup) (hfull : Full g)
    (hfresh : Fresh g) (hgr : Grounded g)
    (hM : ∀ A ps qs, A ∈ g.order → g.prods A = some ps → Expands g (before g A) ps qs → M A = qs) (n : Nat) :
    ∀ (As pre : List Str) (op : Op), g.order = pre ++ As → Mid g M pre op →
    (∀ A ∈ pre, ∀ ps, g.prods A = some ps → Expands g (before g A) ps (M A)) →
    ntLoop g n op As = .fuel ∨ ∃ op', ntLoop g n op As = .ok op' ∧ Mid g M g.order op' ∧ Expanded g M := by
  intro As
  induction As with
  | nil =>
    intro pre op ho hm hE
    simp only [List.append_nil] at ho
    exact .inr ⟨op, rfl, ho ▸ hm, fun A ps hA hps => hE A (ho ▸ hA) ps hps⟩
  | cons A As ih =>
    intro pre op ho hm hE
    have hA : A ∉ pre := by
      rw [ho] at hnd
      exact fun h => (List.nodup_append.1 hnd).2.2 A h A (by simp) rfl
    rcases nt_spec hw hfull hfresh hgr ho hA (fun ps qs => hM A ps qs (by rw [ho]; simp)) (n := n) hm with
      ⟨e, _⟩ | ⟨op', e, hm', hE'⟩
    · exact .inl e
    · rw [e]
      apply ih (pre ++ [A]) op' (by simp [ho]) hm'
      intro B hB ps hps
      rcases List.mem_append.1 hB with hB | hB
      · exact hE B hB ps hps
      · rw [List.mem_singleton.1 hB] at hps ⊢
        exact hE' ps hps

/-- With enough fuel the loop ends if all productions expand. -/
theorem ntLoop_fuel {M : Str → List (List Str)} (hw : g.WF) (hnd : g.order.Nodup) (hfull : Full g)
    (hfresh : Fresh g) (hgr : Grounded g) (hM : Expanded g M) :
    ∀ (As pre : List Str), g.order = pre ++ As → ∃ N, ∀ n, N ≤ n → ∀ op, Mid g M pre op →
    ntLoop g n op As ≠ .fuel := by
  intro As
  induction As with
  | nil => intro pre _; exact ⟨0, fun n _ op _ e => by cases e⟩
  | cons A As ih =>
    intro pre ho
    have hA : A ∉ pre := by
      rw [ho] at hnd
      exact fun h => (List.nodup_append.1 hnd).2.2 A h A (by simp) rfl
    obtain ⟨N, hN⟩ := ih (pre ++ [A]) (by simp [ho])
    have hAo : A ∈ g.order := by rw [ho]; simp
    obtain ⟨ps, hps⟩ := Option.isSome_iff_exists.1 ((hw A).2 hAo)
    have hX : ∀ B ps, g.prods B = some ps → ∀ p ∈ ps, ∀ y ∈ p, g.Occurs y ∨ ∃ B ∈ pre, y = primed B := by
      intro B ps hB p hp y hy
      obtain ⟨k, hk⟩ := List.mem_iff_getElem?.1 hp
      exact .inl (.inr ⟨B, k, p, ⟨ps, hB, hk⟩, hy⟩)
    have hE := hM A ps hAo hps
    rw [before_eq ho hA] at hE
    obtain ⟨N', hN'⟩ := safeAdd_fuel (A := A) (X := fun x => g.Occurs x ∨ ∃ B ∈ pre, x = primed B)
      (fun r _ rs => hX r rs) hE
    refine ⟨max N N', fun n hn op hm => ?_⟩
    have hM' : ∀ ps qs, g.prods A = some ps → Expands g (before g A) ps qs → M A = qs :=
      fun ps qs h1 h2 => (hM A ps hAo h1).unique h2
    rcases nt_spec hw hfull hfresh hgr ho hA hM' (n := n) hm with ⟨_, e⟩ | ⟨op', e, hm', _⟩
    · exfalso
      have e := e ps hps
      refine prodLoop_fuel (A := A) (dn := pre) (X := fun x => g.Occurs x ∨ ∃ B ∈ pre, x = primed B)
        (fun r _ rs => hX r rs) ps (removed pre M) _ ?_ (hX A ps hps) (hN' n (by omega)) e
      refine ⟨inv_str hm.inv A, hm.rep, hm.order, str_idx hm.inv A, ?_, hm.known, ?_, ?_⟩
      · refine done_grow (inv_str hm.inv A) (str_prefix _ _) ?_ hm.done
        intro x hx; rw [hm.sync]; exact (hm.known x hx).1
      · show (str op.set A).1.symb2str = _
        rw [str_table _ hm.inv, hm.sync]; rfl
      · intro x hx
        have hx : x ∈ (str op.set A).1.symb2str := hx
        rw [str_table _ hm.inv] at hx
        split at hx
        · exact hm.src x hx
        · rcases List.mem_append.1 hx with hx | hx
          · exact hm.src x hx
          · rw [List.mem_singleton.1 hx]; exact .inl (.inl hAo)
    · rw [e]
      exact hN n (by omega) op' hm'

theorem mid_start (g : Spec.Grammar Str) (M : Str → List (List Str)) (k : Nat) :
    Mid g M [] ⟨empty, List.replicate k false, 0, false, SetSymbol.new⟩ := by
  refine ⟨inv_new, ?_, ?_, ?_, by simp, rfl, by simp [SetSymbol.new]⟩
  · have : (removed [] M).prods = fun _ => none := by
      funext x; simp [removed]
    rw [this]; exact repP_empty
  · simp [removed, Nm, empty]
  · intro i
    simp only [List.getElem?_replicate, List.not_mem_nil, false_and, exists_false, iff_false]
    split <;> simp

end

end Verif.LeftRecursion
