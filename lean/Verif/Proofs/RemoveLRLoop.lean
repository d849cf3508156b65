import Verif.Proofs.RemoveLR
/- RemoveLeftRecursion: safeAdd expands productions. -/
namespace Verif.LeftRecursion
open Verif.SetSymbol Verif.Spec Verif.Spec.RemoveLR Verif.Grammar

variable {g : Spec.Grammar Str} {X : Str → Prop} {dn : List Str} {A : Str} {G : Spec.Grammar Str}

/-- One more rule. -/
def put (A : Str) (G : Spec.Grammar Str) (P : List Str) : Spec.Grammar Str :=
  ⟨if (G.prods A).isSome then G.order else G.order ++ [A], app G.prods A P⟩

/-- State while the productions of `A` are worked on, after the nonterminals `dn`. The symbols of `L`
are in the operation's set but may not be in the grammar's yet. -/
structure St (g : Spec.Grammar Str) (X : Str → Prop) (dn : List Str) (A : Str) (G : Spec.Grammar Str)
    (L : List Str) (op : Op) : Prop where
  inv : Inv op.set
  rep : RepP op.out G.prods
  order : Nm op.out.set op.out.order G.order
  cur : op.set.symb2str[op.cur]? = some A
  done : ∀ i : Nat, op.done[i]?.getD false = true ↔ ∃ x ∈ dn, op.set.symb2str[i]? = some x
  known : ∀ x ∈ dn, x ∈ op.out.set.symb2str ∧ ∃ ps, g.prods x = some ps ∧ ps ≠ [] ∧
    ∀ p ∈ ps, ∀ y ∈ p, y ∈ op.out.set.symb2str
  sync : op.set.symb2str = L.foldl ins op.out.set.symb2str
  src : ∀ x ∈ op.set.symb2str, X x

theorem St.sub {L op} (h : St g X dn A G L op) : op.out.set.symb2str <+: op.set.symb2str := by
  rw [h.sync]; exact foldl_ins_prefix _ _

/-- Growing the operation's set keeps the marks. -/
theorem done_grow {s s' : SymSet Str} {done : List Bool} (hi : Inv s') (hp : s.symb2str <+: s'.symb2str)
    (hd : ∀ x ∈ dn, x ∈ s.symb2str)
    (h : ∀ i : Nat, done[i]?.getD false = true ↔ ∃ x ∈ dn, s.symb2str[i]? = some x) (i : Nat) :
    done[i]?.getD false = true ↔ ∃ x ∈ dn, s'.symb2str[i]? = some x := by
  rw [h]
  constructor
  · rintro ⟨x, hx, e⟩; exact ⟨x, hx, prefix_getElem? hp e⟩
  · rintro ⟨x, hx, e⟩
    obtain ⟨j, hj⟩ := List.mem_iff_getElem?.1 (hd x hx)
    have := get_inj hi e (prefix_getElem? hp hj)
    subst this
    exact ⟨x, hx, hj⟩

theorem St.cast {L op} (h : St g X dn A G L op) {p : List Str} (hp : ∀ y ∈ p, X y) :
    St g X dn A G (L ++ p) { op with set := (castSyms op.set p).1 } := by
  refine ⟨castSyms_inv h.inv p, h.rep, h.order, prefix_getElem? (castSyms_prefix _ p) h.cur,
    ?_, h.known, ?_, ?_⟩
  · exact done_grow (castSyms_inv h.inv p) (castSyms_prefix _ p) (fun x hx => h.sub.subset (h.known x hx).1) h.done
  · show (castSyms op.set p).1.symb2str = _
    rw [castSyms_table h.inv, h.sync, List.foldl_append]
  · intro x hx
    have hx : x ∈ (castSyms op.set p).1.symb2str := hx
    rw [castSyms_table h.inv, mem_foldl_ins] at hx
    exact hx.elim (h.src x) (hp x)

/-- Same state with another list of pending symbols. -/
theorem St.pend {L L' op} (h : St g X dn A G L op)
    (e : L.foldl ins op.out.set.symb2str = L'.foldl ins op.out.set.symb2str) : St g X dn A G L' op :=
  ⟨h.inv, h.rep, h.order, h.cur, h.done, h.known, h.sync.trans e, h.src⟩

/-- Casting a production of a finished nonterminal in front of the tail. -/
theorem St.lead {T op} (hs : St g X dn A G (A :: T) op) {r : List Str}
    (hrT : ∀ y ∈ r, y ∈ op.out.set.symb2str) (hr : ∀ y ∈ r, X y) :
    St g X dn A G (A :: (r ++ T)) { op with set := (castSyms op.set r).1 } := by
  refine (hs.cast hr).pend ?_
  show ((A :: T) ++ r).foldl ins op.out.set.symb2str = (A :: (r ++ T)).foldl ins op.out.set.symb2str
  rw [List.foldl_append, foldl_ins_of_mem (l := r)
    (fun y hy => (foldl_ins_prefix _ _).subset (hrT y hy))]
  rw [List.foldl_cons, List.foldl_cons, List.foldl_append, foldl_ins_of_mem (l := r)]
  exact fun y hy => (foldl_ins_prefix [A] _).subset (hrT y hy)

theorem add_other (o : Gram Str) (A : Str) (P : List Str) :
    add o (.other A) (some (P.map SymArg.other)) =
      .ok (addIdx { o with set := (castSyms o.set (A :: P)).1 } (str o.set A).2
        (castSyms (str o.set A).1 P).2) := by
  simp [add, symbol, production_other, castSyms]

theorem addOut_spec {op p P} (h : St g X dn A G (A :: P) op) (hp : Nm op.set p P) :
    ∃ op', addOut op p = .ok op' ∧ St g X dn A (put A G P) [] op' ∧ op'.set = op.set ∧
      op'.hasDirect = op.hasDirect := by
  have hi := h.rep.inv
  have htab : (castSyms op.out.set (A :: P)).1.symb2str = op.set.symb2str := by
    rw [castSyms_table hi, h.sync]
  have hpre := castSyms_prefix op.out.set (A :: P)
  have hf : (castSyms op.out.set (A :: P)).1.symb2str[(str op.out.set A).2]? = some A :=
    prefix_getElem? (castSyms_prefix (str op.out.set A).1 P) (str_idx hi A)
  have hq : Nm (castSyms op.out.set (A :: P)).1 (castSyms (str op.out.set A).1 P).2 P :=
    castSyms_nm (inv_str hi A) P
  have hrep := h.rep.intern (castSyms_inv hi (A :: P)) hpre
  refine ⟨{ op with out := (addIdx { op.out with set := (castSyms op.out.set (A :: P)).1 }
    (str op.out.set A).2 (castSyms (str op.out.set A).1 P).2) }, ?_, ?_, rfl, rfl⟩
  · unfold addOut
    rw [symString_ok h.cur]
    simp only [Out.bind_ok, hp.read, add_other]
  · have hput := hrep.put (g' := addIdx { op.out with set := (castSyms op.out.set (A :: P)).1 }
      (str op.out.set A).2 (castSyms (str op.out.set A).1 P).2) hf hq (addIdx_set _ _ _)
      (fun i => addIdx_get _ _ _ i)
    refine ⟨h.inv, hput, ?_, h.cur, h.done, ?_, ?_, h.src⟩
    · simp only [addIdx_set, addIdx_order, put]
      rw [show ({ op.out with set := (castSyms op.out.set (A :: P)).1 } : Gram Str).productions
        = op.out.productions from rfl]
      have hs := hrep.isSome hf
      simp only at hs
      rw [hs]
      split
      · exact h.order.mono hpre
      · exact (h.order.mono hpre).append (by simp [Nm, hf])
    · intro x hx
      simp only [addIdx_set]
      obtain ⟨h1, ps, h2, h3, h4⟩ := h.known x hx
      exact ⟨hpre.subset h1, ps, h2, h3, fun p hp y hy => hpre.subset (h4 p hp y hy)⟩
    · simp only [addIdx_set, List.foldl_nil, htab]

/-- Some production begins with `A`. -/
def hasHead (A : Str) (qs : List (List Str)) : Bool := qs.any fun q => decide (q.head? = some A)

/-- What a call on the production `P` guarantees. -/
def CallSpec (g : Spec.Grammar Str) (X : Str → Prop) (dn : List Str) (A : Str)
    (rec : Op → List Nat → Out Op) : Prop :=
  ∀ G op p P, St g X dn A G (A :: P) op → Nm op.set p P →
    rec op p = .fuel ∨ ∃ op' qs, rec op p = .ok op' ∧ Expands g dn [P] qs ∧
      St g X dn A (qs.foldl (put A) G) [] op' ∧ op.set.symb2str <+: op'.set.symb2str ∧
      op'.hasDirect = (op.hasDirect || hasHead A qs)

theorem hasHead_append (A : Str) (a b) : hasHead A (a ++ b) = (hasHead A a || hasHead A b) := by
  simp [hasHead]

theorem subLoop_spec {rec} (h : CallSpec g X dn A rec) (hX : ∀ r ∈ dn, ∀ rs, g.prods r = some rs →
      ∀ p ∈ rs, ∀ y ∈ p, X y) {F : Str} (hF : F ∈ dn)
    {t : List Nat} {T : List Str} : ∀ (rs : List (List Str)) G op, St g X dn A G (A :: T) op →
    Nm op.set t T → (∃ ps, g.prods F = some ps ∧ ∀ r ∈ rs, r ∈ ps) →
    subLoop rec t op rs = .fuel ∨ ∃ op' qs, subLoop rec t op rs = .ok op' ∧
      Expands g dn (rs.map (· ++ T)) qs ∧ St g X dn A (qs.foldl (put A) G) (A :: T) op' ∧
      (rs ≠ [] → St g X dn A (qs.foldl (put A) G) [] op') ∧
      op.set.symb2str <+: op'.set.symb2str ∧ op'.hasDirect = (op.hasDirect || hasHead A qs) := by
  intro rs
  induction rs with
  | nil =>
    intro G op hs _ _
    exact .inr ⟨op, [], rfl, .nil, hs, by simp, List.prefix_refl _, by simp [hasHead]⟩
  | cons r rs ih =>
    intro G op hs ht hr
    obtain ⟨ps, hps, hsub⟩ := hr
    obtain ⟨_, ps', hps', _, hk⟩ := hs.known F hF
    rw [hps] at hps'
    cases hps'
    have hrT : ∀ y ∈ r, y ∈ op.out.set.symb2str := hk r (hsub r (by simp))
    have hc2 := hs.lead hrT (hX F hF ps hps r (hsub r (by simp)))
    have hnm : Nm (castSyms op.set r).1 ((castSyms op.set r).2 ++ t) (r ++ T) :=
      (castSyms_nm hs.inv r).append (ht.mono (castSyms_prefix _ r))
    rcases h G _ _ _ hc2 hnm with e | ⟨op1, q1, e, hE, hs1, hp1, hd1⟩
    · left
      simp only [subLoop, e, Out.bind_fuel]
    · simp only [subLoop, e, Out.bind_ok]
      have hp0 : op.set.symb2str <+: op1.set.symb2str := (castSyms_prefix _ r).trans hp1
      have hs1' : St g X dn A (q1.foldl (put A) G) (A :: T) op1 := by
        refine hs1.pend ?_
        have hsy : op1.set.symb2str = op1.out.set.symb2str := hs1.sync
        rw [foldl_ins_of_mem (l := A :: T)]
        · rfl
        · intro x hx
          rw [← hsy]
          rcases List.mem_cons.1 hx with rfl | hx
          · exact List.mem_of_getElem? hs1.cur
          · exact hp0.subset (Nm.mem ht x hx)
      rcases ih _ op1 hs1' (ht.mono hp0) ⟨ps, hps, fun r hr => hsub r (by simp [hr])⟩ with
        e2 | ⟨op2, q2, e2, hE2, hs2, hs2', hp2, hd2⟩
      · exact .inl e2
      · right
        refine ⟨op2, q1 ++ q2, e2, ?_, by rw [List.foldl_append]; exact hs2, fun _ => ?_, hp0.trans hp2, ?_⟩
        · exact hE.append hE2
        · rw [List.foldl_append]
          cases rs with
          | nil =>
            cases hE2
            simp only [subLoop, Out.ok.injEq] at e2
            subst e2
            exact hs1
          | cons r' rs => exact hs2' (by simp)
        · rw [hd2, hd1, hasHead_append, Bool.or_assoc]

theorem safeAdd_spec (hX : ∀ r ∈ dn, ∀ rs, g.prods r = some rs → ∀ p ∈ rs, ∀ y ∈ p, X y) :
    ∀ n, CallSpec g X dn A (safeAdd g n) := by
  intro n
  induction n with
  | zero => intro G op p P _ _; exact .inl rfl
  | succ n ih =>
    intro G op p P hs hp
    cases p with
    | nil =>
      have := Nm.nil_inv hp
      subst this
      obtain ⟨op', e, h1, h2, h3⟩ := addOut_spec hs hp
      refine .inr ⟨op', [[]], e, .keep (by simp) .nil, h1, by rw [h2]; exact List.prefix_refl _, ?_⟩
      rw [h3]; simp [hasHead]
    | cons f t =>
      obtain ⟨F, T, rfl, hf, ht⟩ := Nm.cons_inv hp
      simp only [safeAdd]
      by_cases hd : op.done[f]?.getD false = false
      · rw [if_pos hd]
        have hF : F ∉ dn := by
          intro hF
          have := (hs.done f).2 ⟨F, hF, hf⟩
          rw [hd] at this; cases this
        have hs' : St g X dn A G (A :: F :: T) { op with hasDirect := op.hasDirect || decide (f = op.cur) } :=
          ⟨hs.inv, hs.rep, hs.order, hs.cur, hs.done, hs.known, hs.sync, hs.src⟩
        obtain ⟨op', e, h1, h2, h3⟩ := addOut_spec hs' hp
        refine .inr ⟨op', [F :: T], e, .keep (by simpa using hF) .nil, h1, by rw [h2]; exact List.prefix_refl _, ?_⟩
        rw [h3]
        have : f = op.cur ↔ F = A := by
          constructor
          · rintro rfl
            have := hs.cur
            rw [hf] at this; exact Option.some.inj this
          · rintro rfl; exact get_inj hs.inv hf hs.cur
        simp [hasHead, this]
      · rw [if_neg hd, symString_ok hf]
        have hd : op.done[f]?.getD false = true := by simpa using hd
        obtain ⟨F', hF, hf'⟩ := (hs.done f).1 hd
        rw [hf] at hf'
        cases hf'
        obtain ⟨hFT, ps, hps, hne, _⟩ := hs.known F hF
        simp only [Out.bind_ok, hps]
        have hs' : St g X dn A G (A :: T) op := by
          refine hs.pend ?_
          rw [List.foldl_cons, List.foldl_cons, List.foldl_cons]
          congr 1
          rw [ins, if_pos]
          exact (foldl_ins_prefix [A] _).subset hFT
        rcases subLoop_spec ih hX hF ps G op hs' ht ⟨ps, hps, fun _ h => h⟩ with
          e | ⟨op', qs, e, hE, _, h1, h2, h3⟩
        · exact .inl e
        · exact .inr ⟨op', qs, e, .subst hF hps (by simpa using hE), h1 hne, h2, h3⟩

/-- Enough fuel for every production that expands. -/
theorem subLoop_fuel {rec : Op → List Nat → Out Op} (h : CallSpec g X dn A rec)
    (hX : ∀ r ∈ dn, ∀ rs, g.prods r = some rs → ∀ p ∈ rs, ∀ y ∈ p, X y) {F : Str} (hF : F ∈ dn)
    {t : List Nat} {T : List Str} : ∀ (rs : List (List Str)) G op, St g X dn A G (A :: T) op →
    Nm op.set t T → (∃ ps, g.prods F = some ps ∧ ∀ r ∈ rs, r ∈ ps) →
    (∀ r ∈ rs, ∀ G op p, St g X dn A G (A :: (r ++ T)) op → Nm op.set p (r ++ T) → rec op p ≠ .fuel) →
    subLoop rec t op rs ≠ .fuel := by
  intro rs
  induction rs with
  | nil => intro G op _ _ _ _ e; cases e
  | cons r rs ih =>
    intro G op hs ht hr hrec
    obtain ⟨ps, hps, hsub⟩ := hr
    -- the same steps as in `subLoop_spec`, for one production
    rcases subLoop_spec h hX hF [r] G op hs ht ⟨ps, hps, by simpa using hsub r (by simp)⟩ with
      e | ⟨op1, q1, e, hE, hs1, _, hp1, _⟩
    · exfalso
      simp only [subLoop] at e
      obtain ⟨_, ps', hps', _, hk⟩ := hs.known F hF
      rw [hps] at hps'
      cases hps'
      have hrT : ∀ y ∈ r, y ∈ op.out.set.symb2str := hk r (hsub r (by simp))
      have hc2 := hs.lead hrT (hX F hF ps hps r (hsub r (by simp)))
      have hnm : Nm (castSyms op.set r).1 ((castSyms op.set r).2 ++ t) (r ++ T) :=
        (castSyms_nm hs.inv r).append (ht.mono (castSyms_prefix _ r))
      have := hrec r (by simp) G _ _ hc2 hnm
      cases hh : rec { op with set := (castSyms op.set r).1 } ((castSyms op.set r).2 ++ t) with
      | ok a => rw [hh] at e; cases e
      | panic => rw [hh] at e; cases e
      | fuel => exact this hh
    · have e1 : subLoop rec t op (r :: rs) = subLoop rec t op1 rs := by
        simp only [subLoop] at e ⊢
        obtain ⟨a, ha, hb⟩ := Out.bind_eq_ok.1 e
        cases hb
        simp only [ha, Out.bind_ok]
      rw [e1]
      exact ih _ op1 hs1 (ht.mono hp1) ⟨ps, hps, fun r hr => hsub r (by simp [hr])⟩
        fun r hr => hrec r (by simp [hr])

theorem safeAdd_fuel (hX : ∀ r ∈ dn, ∀ rs, g.prods r = some rs → ∀ p ∈ rs, ∀ y ∈ p, X y) {ps qs}
    (h : Expands g dn ps qs) : ∃ N, ∀ n, N ≤ n → ∀ P ∈ ps, ∀ G op p,
      St g X dn A G (A :: P) op → Nm op.set p P → safeAdd g n op p ≠ .fuel := by
  induction h with
  | nil => exact ⟨0, by simp⟩
  | @keep P ps qs hk _ ih =>
    obtain ⟨N, hN⟩ := ih
    refine ⟨N + 1, fun n hn Q hQ G op p hs hp => ?_⟩
    rcases List.mem_cons.1 hQ with rfl | hQ
    · obtain ⟨n, rfl⟩ : ∃ m, n = m + 1 := ⟨n - 1, by omega⟩
      cases p with
      | nil =>
        have := Nm.nil_inv hp
        subst this
        obtain ⟨op', e, _⟩ := addOut_spec hs hp
        simp only [safeAdd, e]
        simp
      | cons f t =>
        obtain ⟨F, T, rfl, hf, ht⟩ := Nm.cons_inv hp
        have hd : op.done[f]?.getD false = false := by
          cases hd : op.done[f]?.getD false with
          | false => rfl
          | true =>
            obtain ⟨F', hF, hf'⟩ := (hs.done f).1 hd
            rw [hf] at hf'
            cases hf'
            exact absurd hF (hk F rfl)
        simp only [safeAdd]
        rw [if_pos hd]
        have hs' : St g X dn A G (A :: F :: T) { op with hasDirect := op.hasDirect || decide (f = op.cur) } :=
          ⟨hs.inv, hs.rep, hs.order, hs.cur, hs.done, hs.known, hs.sync, hs.src⟩
        obtain ⟨op', e, _⟩ := addOut_spec hs' hp
        rw [e]; simp
    · exact hN n (by omega) Q hQ G op p hs hp
  | @subst F T rs ps qs hF hrs _ ih =>
    obtain ⟨N, hN⟩ := ih
    refine ⟨N + 1, fun n hn Q hQ G op p hs hp => ?_⟩
    rcases List.mem_cons.1 hQ with rfl | hQ
    · obtain ⟨n, rfl⟩ : ∃ m, n = m + 1 := ⟨n - 1, by omega⟩
      cases p with
      | nil => cases Nm.nil_inv hp
      | cons f t =>
        obtain ⟨F', T', e, hf, ht⟩ := Nm.cons_inv hp
        cases e
        have hd : ¬ op.done[f]?.getD false = false := by
          rw [(hs.done f).2 ⟨F, hF, hf⟩]; simp
        simp only [safeAdd]
        rw [if_neg hd, symString_ok hf]
        simp only [Out.bind_ok, hrs]
        have hFT := (hs.known F hF).1
        have hs' : St g X dn A G (A :: T) op := by
          refine hs.pend ?_
          rw [List.foldl_cons, List.foldl_cons, List.foldl_cons]
          congr 1
          rw [ins, if_pos]
          exact (foldl_ins_prefix [A] _).subset hFT
        refine subLoop_fuel (safeAdd_spec hX n) hX hF rs G op hs' ht ⟨rs, hrs, fun _ h => h⟩ ?_
        intro r hr G op p h1 h2
        exact hN n (by omega) (r ++ T) (List.mem_append_left _ (List.mem_map_of_mem hr)) G op p h1 h2
    · exact hN n (by omega) Q (by simp [hQ]) G op p hs hp

theorem prodLoop_spec (hX : ∀ r ∈ dn, ∀ rs, g.prods r = some rs → ∀ p ∈ rs, ∀ y ∈ p, X y) (n : Nat) :
    ∀ (ps : List (List Str)) G op, St g X dn A G [A] op → (∀ p ∈ ps, ∀ y ∈ p, X y) →
    prodLoop g n op ps = .fuel ∨ ∃ op' qs, prodLoop g n op ps = .ok op' ∧ Expands g dn ps qs ∧
      St g X dn A (qs.foldl (put A) G) [A] op' ∧ (ps ≠ [] → op'.set.symb2str = op'.out.set.symb2str) ∧
      op.set.symb2str <+: op'.set.symb2str ∧ (∀ p ∈ ps, ∀ y ∈ p, y ∈ op'.set.symb2str) ∧
      op'.hasDirect = (op.hasDirect || hasHead A qs) := by
  intro ps
  induction ps with
  | nil =>
    intro G op hs _
    exact .inr ⟨op, [], rfl, .nil, hs, by simp, List.prefix_refl _, by simp, by simp [hasHead]⟩
  | cons p ps ih =>
    intro G op hs hx
    have hc := hs.cast (p := p) (hx p (by simp))
    have hnm := castSyms_nm hs.inv p
    rcases safeAdd_spec hX n G _ _ _ hc hnm with e | ⟨op1, q1, e, hE, hs1, hp1, hd1⟩
    · left; simp only [prodLoop, e, Out.bind_fuel]
    · have hp0 : op.set.symb2str <+: op1.set.symb2str := (castSyms_prefix _ p).trans hp1
      have hsy : op1.set.symb2str = op1.out.set.symb2str := hs1.sync
      have hs1' : St g X dn A (q1.foldl (put A) G) [A] op1 := by
        refine hs1.pend ?_
        rw [foldl_ins_of_mem (l := [A])]
        · rfl
        · intro x hx
          rw [← hsy, List.mem_singleton.1 hx]
          exact List.mem_of_getElem? hs1.cur
      simp only [prodLoop, e, Out.bind_ok]
      rcases ih _ op1 hs1' (fun p hp => hx p (by simp [hp])) with
        e2 | ⟨op2, q2, e2, hE2, hs2, h3, hp2, h4, hd2⟩
      · exact .inl e2
      · right
        refine ⟨op2, q1 ++ q2, e2, hE.append hE2, by rw [List.foldl_append]; exact hs2, fun _ => ?_,
          hp0.trans hp2, ?_, by rw [hd2, hd1, hasHead_append, Bool.or_assoc]⟩
        · cases ps with
          | nil =>
            simp only [prodLoop, Out.ok.injEq] at e2
            subst e2; exact hsy
          | cons p' ps => exact h3 (by simp)
        · intro p' hp' y hy
          rcases List.mem_cons.1 hp' with rfl | hp'
          · exact (hp1.trans hp2).subset (Nm.mem hnm y hy)
          · exact h4 p' hp' y hy

theorem prodLoop_fuel (hX : ∀ r ∈ dn, ∀ rs, g.prods r = some rs → ∀ p ∈ rs, ∀ y ∈ p, X y) {n : Nat} :
    ∀ (ps : List (List Str)) G op, St g X dn A G [A] op → (∀ p ∈ ps, ∀ y ∈ p, X y) →
    (∀ P ∈ ps, ∀ G op p, St g X dn A G (A :: P) op → Nm op.set p P → safeAdd g n op p ≠ .fuel) →
    prodLoop g n op ps ≠ .fuel := by
  intro ps
  induction ps with
  | nil => intro G op _ _ _ e; cases e
  | cons p ps ih =>
    intro G op hs hx hf
    have hc := hs.cast (p := p) (hx p (by simp))
    have hnm := castSyms_nm hs.inv p
    rcases prodLoop_spec hX n [p] G op hs (by simpa using hx p (by simp)) with
      e | ⟨op1, q1, e, hE, hs1, _⟩
    · exfalso
      simp only [prodLoop] at e
      have := hf p (by simp) G _ _ hc hnm
      cases hh : safeAdd g n { op with set := (castSyms op.set p).1 } (castSyms op.set p).2 with
      | ok a => rw [hh] at e; cases e
      | panic => rw [hh] at e; cases e
      | fuel => exact this hh
    · have e1 : prodLoop g n op (p :: ps) = prodLoop g n op1 ps := by
        simp only [prodLoop] at e ⊢
        obtain ⟨a, ha, hb⟩ := Out.bind_eq_ok.1 e
        cases hb
        simp only [ha, Out.bind_ok]
      rw [e1]
      exact ih _ op1 hs1 (fun p hp => hx p (by simp [hp])) fun P hP => hf P (by simp [hP])

/-! ### More fuel gives the same outcome -/

theorem subLoop_mono {r1 r2 : Op → List Nat → Out Op} (h : ∀ op p, Out.Le (r1 op p) (r2 op p)) (t : List Nat) :
    ∀ rs op, Out.Le (subLoop r1 t op rs) (subLoop r2 t op rs) := by
  intro rs
  induction rs with
  | nil => intro op; exact .refl _
  | cons r rs ih => intro op; exact (h _ _).bind fun op' => ih op'

theorem safeAdd_mono (g : Spec.Grammar Str) : ∀ n m, n ≤ m → ∀ op p,
    Out.Le (safeAdd g n op p) (safeAdd g m op p) := by
  intro n
  induction n with
  | zero => intro m _ op p; exact .inl rfl
  | succ n ih =>
    intro m hm op p
    obtain ⟨m, rfl⟩ : ∃ k, m = k + 1 := ⟨m - 1, by omega⟩
    cases p with
    | nil => exact .refl _
    | cons f t =>
      simp only [safeAdd]
      split
      · exact .refl _
      · refine (Out.Le.refl _).bind fun F => ?_
        split
        · exact .refl _
        · exact subLoop_mono (ih m (by omega)) t _ op

theorem prodLoop_mono (g : Spec.Grammar Str) {n m : Nat} (h : n ≤ m) : ∀ ps op,
    Out.Le (prodLoop g n op ps) (prodLoop g m op ps) := by
  intro ps
  induction ps with
  | nil => intro op; exact .refl _
  | cons p ps ih => intro op; exact (safeAdd_mono g n m h _ _).bind fun op' => ih op'

theorem ntLoop_mono (g : Spec.Grammar Str) {n m : Nat} (h : n ≤ m) : ∀ As op,
    Out.Le (ntLoop g n op As) (ntLoop g m op As) := by
  intro As
  induction As with
  | nil => intro op; exact .refl _
  | cons A As ih =>
    intro op
    simp only [ntLoop]
    split
    · exact .refl _
    · exact (prodLoop_mono g h _ _).bind fun op1 => (Out.Le.refl _).bind fun op2 => ih _

theorem removeLeftRecursion_mono (g : Spec.Grammar Str) (n m : Nat) (h : n ≤ m) :
    Out.Le (removeLeftRecursion g n) (removeLeftRecursion g m) :=
  (ntLoop_mono g h _ _).bind fun _ => .refl _

end Verif.LeftRecursion
