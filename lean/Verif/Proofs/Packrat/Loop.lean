import Verif.Proofs.Packrat.Engine
/- The main loop of the packrat engine: termination and completeness. -/
namespace Verif.Packrat
open Verif.Spec Verif.Spec.Grammar Relation

/-- Processed updates had their effect. -/
def Eff (env : Env) (st : St) (P : Partial × Key → Prop) (tp : Partial) (k : Key) : Prop :=
  if tp.td.children.length + 1 = tp.prod.length then Done env st (extend tp k).td
  else ∃ X, tp.prod[tp.td.children.length + 1]? = some X ∧ Item env st P (extend tp k) ⟨X, k.stop⟩

theorem Eff.mono {env st st' P tp k} (h : Eff env st P tp k) (l : Le env st st') :
    Eff env st' P tp k := by
  unfold Eff at *
  split
  · rename_i hl; rw [if_pos hl] at h; exact h.mono l
  · rename_i hl; rw [if_neg hl] at h
    obtain ⟨X, hX, hi⟩ := h
    exact ⟨X, hX, hi.mono l⟩

def C2 (env : Env) (st : St) (P : Partial × Key → Prop) : Prop := ∀ tp k, P (tp, k) → Eff env st P tp k

theorem extend_PartialOK {env st base ext X} (h : WF env st) (hb : PartialOK env st base ext.marker)
    (hm : (st.memo ext).isSome) (hX : base.prod[base.td.children.length + 1]? = some X) :
    PartialOK env st (extend base ext) ⟨X, ext.stop⟩ := by
  have sp := h.span hm
  have hnext := hb.next
  obtain ⟨hlt, he⟩ := List.getElem?_eq_some_iff.1 hnext
  refine ⟨hb.rule, ?_, ?_, ?_, hb.queued, ?_, sp.2⟩
  · have : (extend base ext).prod.take (extend base ext).td.children.length =
        base.prod.take base.td.children.length ++ [ext.idx] := by
      simp only [extend, List.length_append, List.length_cons, List.length_nil]
      rw [List.take_succ_eq_append_getElem hlt, he]
      rfl
    rw [this]
    exact hb.chain.snoc ext rfl
  · simpa [extend] using hX
  · intro c hc
    simp only [extend, List.mem_append, List.mem_singleton] at hc
    rcases hc with hc | rfl
    · exact hb.memo c hc
    · exact hm
  · have h1 := hb.le1
    simp only [Key.marker] at h1
    simp only [extend]
    omega

theorem extend_DefOK {env st base ext} (h : WF env st) (hb : PartialOK env st base ext.marker)
    (hm : (st.memo ext).isSome) (hl : base.td.children.length + 1 = base.prod.length) :
    DefOK env st (extend base ext).td := by
  have sp := h.span hm
  obtain ⟨hlt, he⟩ := List.getElem?_eq_some_iff.1 hb.next
  refine .inr ⟨base.prod, hb.rule, ?_, ?_, hb.queued, ?_, sp.2⟩
  · have : base.prod = base.prod.take base.td.children.length ++ [ext.idx] := by
      conv => lhs; rw [← List.take_length (l := base.prod), ← hl,
        List.take_succ_eq_append_getElem hlt, he]
      rfl
    rw [this]
    exact hb.chain.snoc ext rfl
  · intro c hc
    simp only [extend, List.mem_append, List.mem_singleton] at hc
    rcases hc with hc | rfl
    · exact hb.memo c hc
    · exact hm
  · have h1 := hb.le1
    simp only [Key.marker] at h1
    simp only [extend]
    omega

theorem update_spec {env nts} (e : EnvOK env nts) {P} {st : St} (h : WF env st) (c1 : C1 st P)
    {base : Partial} {ext : Key} (hb : PartialOK env st base ext.marker) (hm : (st.memo ext).isSome)
    {fuel n} (hf : (allKeys env nts).card + 2 ≤ fuel) (hf2 : (allM env nts).card < fuel) :
    ∃ st', update env fuel (n + 1) st base ext = .ok st' ∧
      Post env nts P st st' ((env.lex.length + 1) * W env.lex.length (base.rest - 1)) ∧
      (∀ ex, C3 env st P ex → C3 env st' P ex) ∧ Eff env st' P base ext := by
  unfold update
  dsimp only
  by_cases hl : base.td.children.length + 1 = base.prod.length
  · rw [if_pos (by simpa [extend] using hl)]
    obtain ⟨st', e', p', d', q', _⟩ := addToMemo_spec e h c1 (extend_DefOK h hb hm hl) hf
    refine ⟨st', e', ⟨p'.wf, p'.c1, p'.le, by have := p'.phi; omega⟩, fun ex hex => hex.mono p'.le q', ?_⟩
    unfold Eff
    rw [if_pos hl]
    exact d'
  · rw [if_neg (by simpa [extend] using hl)]
    obtain ⟨hlt, he⟩ := List.getElem?_eq_some_iff.1 hb.next
    have hlt' : base.td.children.length + 1 < base.prod.length := by omega
    have hX : base.prod[base.td.children.length + 1]? = some base.prod[base.td.children.length + 1] :=
      List.getElem?_eq_getElem hlt'
    have hX' : (extend base ext).prod[base.td.children.length + 1]? =
        some base.prod[base.td.children.length + 1] := hX
    rw [hX']
    dsimp only
    generalize base.prod[base.td.children.length + 1] = X at *
    -- the left-hand side is a nonterminal, so no lexeme has its kind
    have hcn : checkNonTerminal env fuel st (extend base ext).td.key.marker = .ok (st, none) := by
      unfold checkNonTerminal
      rw [if_neg]
      intro hlx
      have hd := e.disj _ (List.mem_of_getElem? hlx)
      obtain ⟨ps, hps, _⟩ := hb.rule
      have hps : env.prods base.td.key.idx = some ps := hps
      have hd : env.prods base.td.key.idx = none := hd
      rw [hps] at hd; cases hd
    rw [hcn]
    simp only [Out.bind_ok]
    unfold addPartial
    obtain ⟨st1, e1, p1, it1, q1⟩ := addPartialPre_spec e h c1 (extend_PartialOK h hb hm hX) hf
    have hstop : (extend base ext).td.key.stop = ext.stop := rfl
    rw [hstop, e1]
    simp only [Out.bind_ok]
    have hu : unq env nts st1 < fuel := Nat.lt_of_le_of_lt (Finset.card_filter_le _ _) hf2
    obtain ⟨st2, e2, p2, c32, hq2⟩ := addProds_spec e hf fuel st1 ⟨X, ext.stop⟩ p1.wf p1.c1
      (h.span hm).2 hu
    refine ⟨st2, e2, ⟨p2.wf, p2.c1, p1.le.trans p2.le, ?_⟩, fun ex hex => c32 ex (hex.mono p1.le q1), ?_⟩
    · have h1 := p1.phi; have h2 := p2.phi
      have : cost env.lex.length (extend base ext) = W env.lex.length (base.rest - 1) := by
        simp only [cost, Partial.rest, extend, List.length_append, List.length_cons, List.length_nil]
        congr 1
      rw [this] at h1
      omega
    · unfold Eff
      rw [if_neg hl]
      exact ⟨X, hX, hq2, it1.mono p2.le⟩

/-- Invariant of the main loop. -/
structure LInv (env : Env) (st : St) (P : Partial × Key → Prop) : Prop where
  wf : WF env st
  c1 : C1 st P
  c2 : C2 env st P
  c3 : C3 env st P (fun _ => False)

theorem Item.pop {env st P tp m u rest} (hs : st.stack = u :: rest) (h : Item env st P tp m) :
    Item env { st with stack := rest } (fun v => P v ∨ v = u) tp m := by
  refine ⟨h.1, ?_⟩
  have h2 := h.2
  unfold Item2 at *
  split
  · rename_i hn; rw [if_pos hn] at h2; exact h2
  · rename_i hn; rw [if_neg hn] at h2
    intro hl
    rcases h2 hl with h3 | h3
    · rw [hs] at h3
      rcases List.mem_cons.1 h3 with h3 | h3
      · exact .inr (.inr h3)
      · exact .inl h3
    · exact .inr (.inl h3)

/-- One round of the main loop. -/
theorem step_spec {env nts} (e : EnvOK env nts) {fuel} (hf : (allKeys env nts).card + 2 ≤ fuel)
    (hf2 : (allM env nts).card < fuel) {st : St} {P} (h : LInv env st P) {tp : Partial} {k : Key}
    {rest : List (Partial × Key)} (hs : st.stack = (tp, k) :: rest) :
    ∃ st1, update env fuel fuel { st with stack := rest } tp k = .ok st1 ∧
      LInv env st1 (fun v => P v ∨ v = (tp, k)) ∧ Le env { st with stack := rest } st1 ∧
      phi env nts st1 < phi env nts st := by
  have hstk := h.wf.stk (tp, k) (by simp [hs])
  -- the popped state
  have wf0 : WF env { st with stack := rest } :=
    ⟨h.wf.key, h.wf.ok, h.wf.mark, h.wf.nd, h.wf.acyc,
      fun m t ht => ⟨⟨(h.wf.part m t ht).1.rule, (h.wf.part m t ht).1.chain, (h.wf.part m t ht).1.next,
        (h.wf.part m t ht).1.memo, (h.wf.part m t ht).1.queued, (h.wf.part m t ht).1.le1,
        (h.wf.part m t ht).1.le2⟩, (h.wf.part m t ht).2⟩,
      fun u hu => by
        have := h.wf.stk u (by rw [hs]; exact List.mem_cons_of_mem _ hu)
        exact ⟨⟨this.1.rule, this.1.chain, this.1.next, this.1.memo, this.1.queued, this.1.le1,
          this.1.le2⟩, this.2⟩⟩
  have c10 : C1 { st with stack := rest } (fun v => P v ∨ v = (tp, k)) := by
    intro m t ht k' hk hks
    rcases h.c1 m t ht k' hk hks with h1 | h1
    · rw [hs] at h1
      rcases List.mem_cons.1 h1 with h1 | h1
      · exact .inr (.inr h1)
      · exact .inl h1
    · exact .inr (.inl h1)
  have c30 : C3 env { st with stack := rest } (fun v => P v ∨ v = (tp, k)) (fun _ => False) := by
    intro m hm hne k' p hr
    have := h.c3 m hm hne k' p hr
    cases p with
    | nil => exact this
    | cons X p => exact Item.pop hs this
  obtain ⟨st1, e1, p1, c31, eff⟩ := update_spec e wf0 c10 (base := tp) (ext := k)
    ⟨hstk.1.rule, hstk.1.chain, hstk.1.next, hstk.1.memo, hstk.1.queued, hstk.1.le1, hstk.1.le2⟩
    hstk.2 (n := fuel - 1) hf hf2
  have ef : fuel - 1 + 1 = fuel := by omega
  rw [ef] at e1
  have inv1 : LInv env st1 (fun v => P v ∨ v = (tp, k)) := by
    refine ⟨p1.wf, p1.c1, ?_, c31 _ c30⟩
    intro tp' k' hP
    rcases hP with hP | hP
    · have := h.c2 tp' k' hP
      have : Eff env { st with stack := rest } (fun v => P v ∨ v = (tp, k)) tp' k' := by
        unfold Eff at *
        split
        · rename_i hl; rw [if_pos hl] at this; exact this
        · rename_i hl; rw [if_neg hl] at this
          obtain ⟨X, hX, hi⟩ := this
          exact ⟨X, hX, hi.pop hs⟩
      exact this.mono p1.le
    · cases hP; exact eff
  refine ⟨st1, e1, inv1, p1.le, ?_⟩
  have h1 := p1.phi
  obtain ⟨hlt, _⟩ := List.getElem?_eq_some_iff.1 hstk.1.next
  have hr : tp.rest = (tp.rest - 1) + 1 := by
    have hlt : tp.td.children.length < tp.prod.length := hlt
    unfold Partial.rest; omega
  have : phi env nts st = phi env nts { st with stack := rest } +
      (1 + (env.lex.length + 1) * W env.lex.length (tp.rest - 1)) := by
    have h2 : phiStack env st = phiStack env { st with stack := rest } +
        (1 + (env.lex.length + 1) * W env.lex.length (tp.rest - 1)) := by
      simp only [phiStack, hs, List.map_cons, List.sum_cons]
      have : cost env.lex.length tp = 1 + (env.lex.length + 1) * W env.lex.length (tp.rest - 1) := by
        unfold cost
        rw [hr]
        rfl
      omega
    simp only [phi, h2]
    simp only [phiPart, phiQ]
    omega
  omega

theorem loop_spec {env nts} (e : EnvOK env nts) {fuel} (hf : (allKeys env nts).card + 2 ≤ fuel)
    (hf2 : (allM env nts).card < fuel) :
    ∀ (n : Nat) (st : St) P, LInv env st P → phi env nts st < n →
      ∃ st' P', loop env fuel n st = .ok st' ∧ LInv env st' P' ∧ st'.stack = [] ∧
        ∀ m, st.queued m = true → st'.queued m = true := by
  intro n
  induction n with
  | zero => intro st P _ h; omega
  | succ n ih =>
    intro st P h hphi
    unfold loop
    cases hs : st.stack with
    | nil => exact ⟨st, P, rfl, h, hs, fun _ h => h⟩
    | cons u rest =>
      obtain ⟨tp, k⟩ := u
      dsimp only
      obtain ⟨st1, e1, inv1, le1, hphi1⟩ := step_spec e hf hf2 h hs
      rw [e1]
      simp only [Out.bind_ok]
      obtain ⟨st', P', e', inv', hs', hq'⟩ := ih st1 _ inv1 (by omega)
      exact ⟨st', P', e', inv', hs', fun m hm => hq' m (le1.queued m hm)⟩

/-- What every round of the main loop keeps holds at its end. -/
theorem loop_keeps {env nts} (e : EnvOK env nts) {fuel} (hf : (allKeys env nts).card + 2 ≤ fuel)
    (hf2 : (allM env nts).card < fuel) (I : St → (Partial × Key → Prop) → Prop)
    (hI : ∀ st P tp k rest st1, LInv env st P → I st P → st.stack = (tp, k) :: rest →
      update env fuel fuel { st with stack := rest } tp k = .ok st1 →
      LInv env st1 (fun v => P v ∨ v = (tp, k)) → Le env { st with stack := rest } st1 →
      I st1 (fun v => P v ∨ v = (tp, k))) :
    ∀ (n : Nat) (st : St) P st', LInv env st P → I st P → loop env fuel n st = .ok st' →
      ∃ P', LInv env st' P' ∧ I st' P' ∧ st'.stack = [] := by
  intro n
  induction n with
  | zero => intro st P st' _ _ h; cases h
  | succ n ih =>
    intro st P st' h hi hl
    unfold loop at hl
    cases hs : st.stack with
    | nil => rw [hs] at hl; cases hl; exact ⟨P, h, hi, hs⟩
    | cons u rest =>
      obtain ⟨tp, k⟩ := u
      rw [hs] at hl
      dsimp only at hl
      obtain ⟨st1, e1, inv1, le1, _⟩ := step_spec e hf hf2 h hs
      rw [e1] at hl
      exact ih st1 _ st' inv1 (hI st P tp k rest st1 h hi hs e1 inv1 le1) hl

/-- A key is memoised, with a priority at least as good as `k` for cycle-free grammars. -/
def DoneK (env : Env) (st : St) (A i j k : Nat) : Prop :=
  ∃ d, st.memo ⟨A, i, j⟩ = some d ∧ (env.gram.CycleFree → d.priority ≤ k)

theorem complete_aux {env nts} (e : EnvOK env nts) {st P} (h : LInv env st P) (hs : st.stack = [])
    {ss i j} (hd : env.gram.Der env.lex ss i j) :
    ∀ tp X rest, tp.prod.drop tp.td.children.length = ss → ss = X :: rest →
      Item env st P tp ⟨X, i⟩ → DoneK env st tp.td.key.idx tp.td.key.start j tp.td.priority := by
  -- one processed extension, given completeness for the rest
  have stepEff : ∀ (tp : Partial) (X : Nat) (rest : List Nat) (k : Key) (j : Nat),
      tp.prod.drop tp.td.children.length = X :: rest → P (tp, k) →
      (∀ tp' X' rest', tp'.prod.drop tp'.td.children.length = rest → rest = X' :: rest' →
        Item env st P tp' ⟨X', k.stop⟩ →
        DoneK env st tp'.td.key.idx tp'.td.key.start j tp'.td.priority) →
      (rest = [] → j = k.stop) →
      DoneK env st tp.td.key.idx tp.td.key.start j tp.td.priority := by
    intro tp X rest k j hdrop hP ih hend
    have heff := h.c2 tp k hP
    have hdrop' : tp.prod.drop (tp.td.children.length + 1) = rest := by
      rw [← List.drop_drop, hdrop]; rfl
    unfold Eff at heff
    split at heff
    · rename_i hl
      have hr : rest = [] := by rw [← hdrop', hl]; simp
      obtain ⟨d, ed, hp⟩ := heff
      rw [hend hr]
      exact ⟨d, ed, fun cf => (hp cf).1⟩
    · obtain ⟨X', hX', hi⟩ := heff
      obtain ⟨hlt, hXe⟩ := List.getElem?_eq_some_iff.1 hX'
      have hr : rest = X' :: tp.prod.drop (tp.td.children.length + 1 + 1) := by
        rw [← hdrop', List.drop_eq_getElem_cons hlt, hXe]
      have := ih (extend tp k) X' _ (by simpa [extend] using hdrop') hr hi
      simpa [extend] using this
  induction hd with
  | nil => intro tp X rest _ h2; cases h2
  | @term t ss i j ht hl hd' ih =>
    intro tp X rest hdrop h2 hi
    cases h2
    have hn : env.nonterms t = false := by
      have ht : env.prods t = none := ht
      rw [e.nt, ht]; rfl
    have h3 := hi.2
    unfold Item2 at h3
    rw [if_neg (by simp [hn])] at h3
    rcases h3 hl with h4 | h4
    · rw [hs] at h4; cases h4
    · refine stepEff tp t ss _ j hdrop h4 ?_ ?_
      · intro tp' X' rest' h5 h6 h7
        exact ih tp' X' rest' h5 h6 h7
      · intro he; subst he; cases hd'; rfl
  | @nonterm A k p ss i m j hr hd1 hd2 ih1 ih2 =>
    intro tp X rest hdrop h2 hi
    cases h2
    have hn : env.nonterms A = true := by
      obtain ⟨ps, hps, _⟩ := hr
      have hps : env.prods A = some ps := hps
      rw [e.nt, hps]; rfl
    have h3 := hi.2
    unfold Item2 at h3
    rw [if_pos hn] at h3
    -- the nonterminal's own derivation is memoised
    have hmemo : (st.memo ⟨A, i, m⟩).isSome := by
      have hp := h.c3 ⟨A, i⟩ hi.1 (by simp) k p hr
      cases p with
      | nil =>
        cases hd1
        obtain ⟨d, ed, _⟩ := hp
        have ed : st.memo ⟨A, i, i⟩ = some d := ed
        simp [ed]
      | cons Y p =>
        obtain ⟨d, ed, _⟩ := ih1 _ Y p (by simp [initPartial]) rfl hp
        have ed : st.memo ⟨A, i, m⟩ = some d := ed
        simp [ed]
    rcases h.c1 _ tp h3 ⟨A, i, m⟩ rfl hmemo with h4 | h4
    · rw [hs] at h4; cases h4
    · refine stepEff tp A ss _ j hdrop h4 ?_ ?_
      · intro tp' X' rest' h5 h6 h7
        exact ih2 tp' X' rest' h5 h6 h7
      · intro he; subst he; cases hd2; rfl

/-- Completeness at the end of the loop. -/
theorem complete {env nts} (e : EnvOK env nts) {st P} (h : LInv env st P) (hs : st.stack = [])
    {A i k p j} (hq : st.queued ⟨A, i⟩ = true) (hr : env.gram.Rule A k p)
    (hd : env.gram.Der env.lex p i j) : DoneK env st A i j k := by
  have hp := h.c3 ⟨A, i⟩ hq (by simp) k p hr
  cases p with
  | nil => cases hd; obtain ⟨d, ed, hp⟩ := hp; exact ⟨d, ed, fun cf => (hp cf).1⟩
  | cons X p =>
    exact complete_aux e h hs hd _ X p (by simp [initPartial]) rfl hp

theorem processed {env nts} (e : EnvOK env nts) {st P} (h : LInv env st P) (hs : st.stack = []) {tp : Partial} {c : Key}
    (hder : env.gram.Der env.lex [c.idx] c.start c.stop) (hi : Item env st P tp ⟨c.idx, c.start⟩) : P (tp, c) := by
  have h3 := hi.2
  unfold Item2 at h3
  generalize hy : [c.idx] = ys at hder
  generalize hu : c.start = u at hder
  generalize hv : c.stop = v at hder
  cases hder with
  | nil => cases hy
  | term ht hl hd =>
    cases hy
    cases hd
    have hn : env.nonterms c.idx = false := by
      have ht : env.prods c.idx = none := ht
      rw [e.nt, ht]; rfl
    rw [if_neg (by simp [hn])] at h3
    have hk : (leafDef ⟨c.idx, c.start⟩).key = c := by
      cases c
      simp only at hu hv
      simp [leafDef, hu, ← hv]
    rw [hk] at h3
    rcases h3 (by rw [hu]; exact hl) with h4 | h4
    · rw [hs] at h4; cases h4
    · exact h4
  | nonterm hr hd1 hd2 =>
    cases hy
    cases hd2
    have hn : env.nonterms c.idx = true := by
      obtain ⟨ps, hps, _⟩ := hr
      have hps : env.prods c.idx = some ps := hps
      rw [e.nt, hps]; rfl
    rw [if_pos hn] at h3
    rw [← hu, ← hv] at hd1
    obtain ⟨d, ed, _⟩ := complete e h hs hi.1 hr hd1
    rcases h.c1 _ tp h3 c rfl (by simp [ed]) with h4 | h4
    · rw [hs] at h4; cases h4
    · exact h4

theorem offered_aux {env nts} (e : EnvOK env nts) {st P} (h : LInv env st P) (hs : st.stack = []) (j : Nat) :
    ∀ (cs : List Key) (c : Key) (tp : Partial) (rest : List Nat), tp.prod.drop tp.td.children.length = c.idx :: rest →
      Chain (c :: cs) (c.idx :: rest) c.start j →
      (∀ c' ∈ c :: cs, env.gram.Der env.lex [c'.idx] c'.start c'.stop) → Item env st P tp ⟨c.idx, c.start⟩ →
      Done env st ⟨⟨tp.td.key.idx, tp.td.key.start, j⟩, tp.td.children ++ c :: cs, tp.td.priority⟩ := by
  intro cs
  induction cs with
  | nil =>
    intro c tp rest hdrop hch hder hi
    have hP := processed e h hs (hder c (by simp)) hi
    have heff := h.c2 tp c hP
    cases hch with
    | cons hch =>
      cases hch
      have hl : tp.td.children.length + 1 = tp.prod.length := by
        have := congrArg List.length hdrop
        simp at this
        omega
      unfold Eff at heff
      rw [if_pos hl] at heff
      exact heff
  | cons c' cs ih =>
    intro c tp rest hdrop hch hder hi
    have hP := processed e h hs (hder c (by simp)) hi
    have heff := h.c2 tp c hP
    cases hch with
    | cons hch =>
      generalize hst : c.stop = m at hch
      cases hch with
      | @cons _ _ p _ hch =>
        have hdrop' : tp.prod.drop (tp.td.children.length + 1) = c'.idx :: p := by
          rw [← List.drop_drop, hdrop]; rfl
        have hl : tp.td.children.length + 1 ≠ tp.prod.length := by
          intro hl
          rw [hl] at hdrop'
          simp at hdrop'
        unfold Eff at heff
        rw [if_neg hl] at heff
        obtain ⟨X, hX, hi'⟩ := heff
        have hXe : X = c'.idx := by
          obtain ⟨hlt, he⟩ := List.getElem?_eq_some_iff.1 hX
          rw [List.drop_eq_getElem_cons hlt, he] at hdrop'
          exact (List.cons.inj hdrop').1
        subst hXe
        rw [hst] at hi'
        have := ih c' (extend tp c) p (by simpa [extend] using hdrop') (.cons hch) (fun x hx => hder x (by simp [hx])) hi'
        simpa [extend] using this

/-- Everything that can be put together from memoised parts has been offered to the memo. -/
theorem offered {env nts} (e : EnvOK env nts) {st P} (h : LInv env st P) (hs : st.stack = [])
    {A i k p j cs} (hq : st.queued ⟨A, i⟩ = true) (hr : env.gram.Rule A k p) (hch : Chain cs p i j)
    (hder : ∀ c ∈ cs, env.gram.Der env.lex [c.idx] c.start c.stop) : Done env st ⟨⟨A, i, j⟩, cs, k⟩ := by
  have hp := h.c3 ⟨A, i⟩ hq (by simp) k p hr
  cases hch with
  | nil => exact hp
  | @cons c cs p _ hch => exact offered_aux e h hs j cs c _ p (by simp [initPartial]) (.cons hch) hder hp

theorem WF_init (env : Env) : WF env St.init := by
  refine ⟨by simp [St.init], by simp [St.init], by simp [St.init], by simp [St.init], ?_,
    by simp [St.init], by simp [St.init]⟩
  intro k hk
  obtain ⟨b, ⟨d, ed, _⟩, _⟩ := TransGen.head'_iff.1 hk
  simp [St.init] at ed

/-- Enough fuel for a parse. -/
def bound (env : Env) (nts : Finset Nat) : Nat :=
  (allKeys env nts).card + (allM env nts).card + phi env nts St.init + 2

/-- The engine always finishes, with a sound, acyclic, complete and optimal memo. -/
theorem engine {env nts} (e : EnvOK env nts) (s : Nat) {fuel} (hf : bound env nts ≤ fuel) :
    ∃ st0 st P, addProds env fuel fuel St.init ⟨s, 0⟩ = .ok st0 ∧ loop env fuel fuel st0 = .ok st ∧
      LInv env st P ∧ st.stack = [] ∧ st.queued ⟨s, 0⟩ = true := by
  unfold bound at hf
  have hu : unq env nts St.init < fuel := by
    have : unq env nts St.init ≤ (allM env nts).card := Finset.card_filter_le _ _
    omega
  obtain ⟨st0, e0, p0, c30, hq0⟩ := addProds_spec (P := fun _ => False) (nts := nts) e (fuel := fuel) (by omega) fuel St.init ⟨s, 0⟩
    (WF_init env) (by intro m tp h; simp [St.init] at h) (Nat.zero_le _) hu
  have inv0 : LInv env st0 (fun _ => False) :=
    ⟨p0.wf, p0.c1, fun _ _ h => h.elim, c30 _ (by intro m hm; simp [St.init] at hm)⟩
  obtain ⟨st, P, e1, inv, hs, hq⟩ := loop_spec e (fuel := fuel) (by omega) (by omega) fuel st0 _ inv0
    (by have := p0.phi; omega)
  exact ⟨st0, st, P, e0, e1, inv, hs, hq _ hq0⟩

end Verif.Packrat
