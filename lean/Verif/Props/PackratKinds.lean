import Verif.Props.Packrat
/-
C23 with lexemes whose kinds are nonterminals (packrat.go:150-170, 243-253). Nothing reads such a lexeme
unless, while a reading of the nonterminal is being made at the lexeme's position, a first symbol has been
read without using it up. If no production of the nonterminal can begin so, then nothing panics and the
lexemes are rejected.
-/
namespace Verif.Props.PackratKinds
open Verif.Spec Verif.Spec.Grammar Verif.Packrat Verif.SetSymbol Verif.Props.Packrat

section engine
variable {env env' : Env} {F : Nat}

/-- `env'` is `env` with the kinds that are nonterminals replaced by `F`, which no production mentions. -/
structure Masks (env env' : Env) (F : Nat) : Prop where
  prods : env'.prods = env.prods
  nonterms : env'.nonterms = env.nonterms
  lex : env'.lex = env.lex.map fun k => if (env.prods k).isSome then F else k
  free : env.prods F = none
  fresh : ∀ A k p, env.gram.Rule A k p → F ∉ p
  nt : ∀ i, env.nonterms i = (env.prods i).isSome

theorem Masks.ok (h : Masks env env' F) {nts} (fin : ∀ i, (env.prods i).isSome → i ∈ nts) : EnvOK env' nts := by
  refine ⟨fun i => by rw [h.nonterms, h.prods, h.nt], fun i hi => fin i (by rwa [h.prods] at hi), ?_⟩
  intro k hk
  rw [h.lex] at hk
  obtain ⟨x, _, rfl⟩ := List.mem_map.1 hk
  rw [h.prods]
  split
  · exact h.free
  · rename_i hn
    simpa using hn

theorem Masks.gram (h : Masks env env' F) : env'.gram = env.gram := by simp [Env.gram, h.prods]

theorem Masks.at_iff (h : Masks env env' F) {x i : Nat} (hx : env.prods x = none) (hF : x ≠ F) :
    env'.lex[i]? = some x ↔ env.lex[i]? = some x := by
  rw [h.lex, List.getElem?_map]
  cases e : env.lex[i]? with
  | none => simp
  | some k =>
    simp only [Option.map_some, Option.some.injEq]
    split
    · rename_i hk
      constructor
      · intro h1; exact absurd h1.symm hF
      · intro h1; subst h1; rw [hx] at hk; cases hk
    · rfl

theorem Masks.pre (h : Masks env env' F) (fuel : Nat) (st : St) (tp : Partial) {m : Marker} (hF : m.idx ≠ F) :
    addPartialPre env fuel st tp m = addPartialPre env' fuel st tp m := by
  unfold addPartialPre
  rw [h.nonterms]
  by_cases hn : env.nonterms m.idx = true
  · rw [if_pos hn, if_pos hn]
  · rw [if_neg hn, if_neg hn]
    have hx : env.prods m.idx = none := by
      rw [h.nt] at hn
      simpa using hn
    have : checkNonTerminal env fuel st m = checkNonTerminal env' fuel st m := by
      unfold checkNonTerminal
      by_cases hl : env.lex[m.start]? = some m.idx
      · rw [if_pos hl, if_pos ((h.at_iff hx hF).2 hl)]
      · rw [if_neg hl, if_neg fun h1 => hl ((h.at_iff hx hF).1 h1)]
    rw [this]

theorem Masks.prodsLoop (h : Masks env env' F) (fuel : Nat) {rec rec' : St → Marker → Out St}
    (hrec : ∀ st m, rec st m = rec' st m) (root : Marker) :
    ∀ (ps : List (List Nat)) (st : St) (k : Nat), (∀ p ∈ ps, F ∉ p) →
      addProdsLoop env fuel rec root st k ps = addProdsLoop env' fuel rec' root st k ps := by
  intro ps
  induction ps with
  | nil => intro st k _; simp only [addProdsLoop]
  | cons p ps ih =>
    intro st k hp
    have ih := fun st k => ih st k fun q hq => hp q (by simp [hq])
    cases p with
    | nil => simp only [addProdsLoop, ih]
    | cons X p =>
      have hX : X ≠ F := by
        intro h1
        exact hp (X :: p) (by simp) (by simp [h1])
      simp only [addProdsLoop, ih, hrec, h.pre fuel st _ (m := ⟨X, root.start⟩) hX]

theorem Masks.addProds (h : Masks env env' F) (fuel : Nat) : ∀ (depth : Nat) (st : St) (root : Marker),
    addProds env fuel depth st root = addProds env' fuel depth st root := by
  intro depth
  induction depth with
  | zero => intro st root; rfl
  | succ depth ih =>
    intro st root
    unfold Verif.Packrat.addProds
    rw [h.prods]
    split
    · rfl
    · dsimp only
      cases e : env.prods root.idx with
      | none => rfl
      | some ps =>
        dsimp only
        refine h.prodsLoop fuel ih root ps _ 0 fun p hp => ?_
        obtain ⟨k, hk⟩ := List.getElem?_of_mem hp
        exact h.fresh root.idx k p ⟨ps, e, hk⟩

/-- What is derived is made of symbols that occur in the grammar. -/
theorem der_symbols {g : Grammar Nat} {inp ss i j} (h : g.Der inp ss i j) : ∀ q, i ≤ q → q < j →
    ∃ t, inp[q]? = some t ∧ (t ∈ ss ∨ ∃ A k p, g.Rule A k p ∧ t ∈ p) := by
  induction h with
  | nil => intro q h1 h2; omega
  | @term t ss i j ht hi _ ih =>
    intro q h1 h2
    by_cases hq : q = i
    · exact ⟨t, by rw [hq]; exact hi, .inl (by simp)⟩
    · obtain ⟨t', e, h3⟩ := ih q (by omega) h2
      exact ⟨t', e, h3.imp (fun h => by simp [h]) id⟩
  | @nonterm A k p ss i m j hr _ _ ih1 ih2 =>
    intro q h1 h2
    by_cases hq : q < m
    · obtain ⟨t', e, h3⟩ := ih1 q h1 hq
      exact ⟨t', e, .inr (h3.elim (fun h => ⟨A, k, p, hr, h⟩) id)⟩
    · obtain ⟨t', e, h3⟩ := ih2 q (by omega) h2
      exact ⟨t', e, h3.imp (fun h => by simp [h]) id⟩

/-- No production of two or more symbols for a lexeme's kind begins with a symbol that derives nothing. -/
def Lead (env : Env) : Prop := ∀ A ∈ env.lex, ∀ k X Y p, env.gram.Rule A k (X :: Y :: p) → ¬ env.gram.Derives [X] []

/-- A lexeme whose kind is a nonterminal is asked for only behind a first symbol that derives the empty word. -/
theorem Masks.stray (h : Masks env env' F) {nts} (e : EnvOK env' nts) {st : St} (wf : WF env' st)
    {base : Partial} {ext : Key} (hb : PartialOK env' st base ext.marker) (hm : (st.memo ext).isSome)
    (hc : base.td.children.length + 1 ≠ base.prod.length) (hlx : env.lex[base.td.key.start]? = some base.td.key.idx) :
    ∃ X Y p, base.prod = X :: Y :: p ∧ env.gram.Derives [X] [] := by
  have hlt := (List.getElem?_eq_some_iff.1 hb.next).1
  have hr := hb.rule
  rw [h.gram] at hr
  obtain ⟨ps, hps, _⟩ := id hr
  have hps : env.prods base.td.key.idx = some ps := hps
  have hF : env'.lex[base.td.key.start]? = some F := by
    rw [h.lex, List.getElem?_map, hlx]
    simp [hps]
  obtain ⟨c, hcs, hcm, hci⟩ : ∃ c : Key, c.start = base.td.key.start ∧ (st.memo c).isSome ∧
      base.prod[0]? = some c.idx := by
    have hch := hb.chain
    have hnx := hb.next
    have hmm := hb.memo
    cases hk : base.td.children with
    | nil =>
      rw [hk] at hch hnx
      generalize hu : base.td.key.start = u at hch
      generalize hv : ext.marker.start = v at hch
      cases hch
      exact ⟨ext, hv, hm, hnx⟩
    | cons c cs =>
      rw [hk] at hch hmm
      cases hpr : base.prod with
      | nil => rw [hpr] at hlt; simp at hlt
      | cons Z p =>
        rw [hpr] at hch
        simp only [List.length_cons, List.take_succ_cons] at hch
        generalize hu : base.td.key.start = u at hch
        cases hch
        exact ⟨c, rfl, hmm c (by simp), by simp⟩
  have hder := wf.sound e hcm
  obtain ⟨X, Y, p, hpr⟩ : ∃ X Y p, base.prod = X :: Y :: p := by
    cases h1 : base.prod with
    | nil => rw [h1] at hlt; simp at hlt
    | cons X p =>
      cases p with
      | nil => rw [h1] at hlt hc; simp at hlt; simp [hlt] at hc
      | cons Y p => exact ⟨X, Y, p, rfl⟩
  refine ⟨X, Y, p, hpr, ?_⟩
  rw [hpr] at hci hr
  simp only [List.getElem?_cons_zero, Option.some.injEq] at hci
  subst hci
  have hsp := wf.span hcm
  by_cases hse : c.start = c.stop
  · rw [← hse] at hder
    have := hder.eps
    rwa [h.gram] at this
  · exfalso
    obtain ⟨t, et, ht⟩ := der_symbols hder c.start (Nat.le_refl _) (by omega)
    rw [hcs, hF] at et
    cases et
    rw [h.gram] at ht
    rcases ht with ht | ⟨A, k, q, hq, ht⟩
    · refine h.fresh _ _ _ hr ?_
      simp only [List.mem_singleton] at ht
      simp [ht]
    · exact h.fresh _ _ _ hq ht

/-- While no such lexeme is asked for, readings are made as of the masked lexemes. -/
theorem Masks.update_same (h : Masks env env' F) {nts} (e : EnvOK env' nts) {st : St}
    {base : Partial} {ext : Key} (hb : PartialOK env' st base ext.marker)
    (hno : base.td.children.length + 1 ≠ base.prod.length → env.lex[base.td.key.start]? ≠ some base.td.key.idx)
    (fuel n : Nat) : update env fuel n st base ext = update env' fuel n st base ext := by
  cases n with
  | zero => rfl
  | succ n =>
    unfold Verif.Packrat.update
    dsimp only
    by_cases hc : base.td.children.length + 1 = (extend base ext).prod.length
    · rw [if_pos hc, if_pos hc]
    · rw [if_neg hc, if_neg hc]
      have hc : base.td.children.length + 1 ≠ base.prod.length := hc
      have hlt := (List.getElem?_eq_some_iff.1 hb.next).1
      have hX := List.getElem?_eq_getElem (show base.td.children.length + 1 < base.prod.length by omega)
      have hr := hb.rule
      rw [h.gram] at hr
      have hp : (extend base ext).prod[base.td.children.length + 1]? = base.prod[base.td.children.length + 1]? := rfl
      rw [hp, hX]
      dsimp only
      have hXF : base.prod[base.td.children.length + 1] ≠ F := by
        intro h1
        exact h.fresh _ _ _ hr (by rw [← h1]; exact List.getElem_mem _)
      have hck : checkNonTerminal env fuel st (extend base ext).td.key.marker = .ok (st, none) := by
        unfold checkNonTerminal
        exact if_neg (hno hc)
      have hck' : checkNonTerminal env' fuel st (extend base ext).td.key.marker = .ok (st, none) := by
        unfold checkNonTerminal
        rw [if_neg]
        intro hlx
        have hd := e.disj _ (List.mem_of_getElem? hlx)
        obtain ⟨ps, hps, _⟩ := hb.rule
        have hps : env'.prods base.td.key.idx = some ps := hps
        have hd : env'.prods base.td.key.idx = none := hd
        rw [hps] at hd; cases hd
      rw [hck, hck']
      simp only [Out.bind_ok]
      unfold addPartial
      rw [h.pre fuel st _ (m := ⟨_, _⟩) hXF]
      exact congrArg _ (funext fun st1 => h.addProds fuel fuel st1 _)

/-- While readings are made of the masked lexemes, no masked lexeme is asked for. -/
theorem Masks.update (h : Masks env env' F) (hl : Lead env) {nts} (e : EnvOK env' nts) {st : St} (wf : WF env' st)
    {base : Partial} {ext : Key} (hb : PartialOK env' st base ext.marker) (hm : (st.memo ext).isSome) (fuel n : Nat) :
    update env fuel n st base ext = update env' fuel n st base ext := by
  refine h.update_same e hb (fun hc hlx => ?_) fuel n
  obtain ⟨X, Y, p, hp, hd⟩ := h.stray e wf hb hm hc hlx
  have hr := hb.rule
  rw [h.gram, hp] at hr
  exact hl _ (List.mem_of_getElem? hlx) _ _ _ _ hr hd

theorem Masks.loop (h : Masks env env' F) (hl : Lead env) {nts} (e : EnvOK env' nts) {fuel}
    (hf : (allKeys env' nts).card + 2 ≤ fuel) (hf2 : (allM env' nts).card < fuel) :
    ∀ (n : Nat) (st : St) P, LInv env' st P → loop env fuel n st = loop env' fuel n st := by
  intro n
  induction n with
  | zero => intro st P _; rfl
  | succ n ih =>
    intro st P inv
    unfold Verif.Packrat.loop
    cases hs : st.stack with
    | nil => rfl
    | cons u rest =>
      obtain ⟨tp, k⟩ := u
      dsimp only
      obtain ⟨st1, e1, inv1, _, _⟩ := step_spec e hf hf2 inv hs
      have hstk := inv.wf.stk (tp, k) (by simp [hs])
      have wf0 : WF env' { st with stack := rest } :=
        ⟨inv.wf.key, inv.wf.ok, inv.wf.mark, inv.wf.nd, inv.wf.acyc,
          fun m t ht => ⟨⟨(inv.wf.part m t ht).1.rule, (inv.wf.part m t ht).1.chain, (inv.wf.part m t ht).1.next,
            (inv.wf.part m t ht).1.memo, (inv.wf.part m t ht).1.queued, (inv.wf.part m t ht).1.le1,
            (inv.wf.part m t ht).1.le2⟩, (inv.wf.part m t ht).2⟩,
          fun u hu => by
            have := inv.wf.stk u (by rw [hs]; exact List.mem_cons_of_mem _ hu)
            exact ⟨⟨this.1.rule, this.1.chain, this.1.next, this.1.memo, this.1.queued, this.1.le1,
              this.1.le2⟩, this.2⟩⟩
      have := h.update hl e wf0 (base := tp) (ext := k)
        ⟨hstk.1.rule, hstk.1.chain, hstk.1.next, hstk.1.memo, hstk.1.queued, hstk.1.le1, hstk.1.le2⟩ hstk.2 fuel fuel
      rw [this, e1]
      simp only [Out.bind_ok]
      exact ih st1 _ inv1

/-- The engine finishes on lexemes of any kinds, and reads no lexeme whose kind is a nonterminal. -/
theorem engine_kinds (h : Masks env env' F) (hl : Lead env) {nts} (fin : ∀ i, (env.prods i).isSome → i ∈ nts) (s : Nat)
    (hs : (env.prods s).isSome) (hk : ∃ k ∈ env.lex, (env.prods k).isSome) {fuel} (hf : bound env' nts ≤ fuel) :
    ∃ st0 st, addProds env fuel fuel St.init ⟨s, 0⟩ = .ok st0 ∧ loop env fuel fuel st0 = .ok st ∧
      st.memo ⟨s, 0, env.lex.length⟩ = none := by
  have e := h.ok fin
  unfold bound at hf
  have hu : unq env' nts St.init < fuel := by
    have : unq env' nts St.init ≤ (allM env' nts).card := Finset.card_filter_le _ _
    omega
  obtain ⟨st0, e0, p0, c30, hq0⟩ := addProds_spec (P := fun _ => False) (nts := nts) e (fuel := fuel) (by omega) fuel St.init
    ⟨s, 0⟩ (WF_init env') (by intro m tp h; simp [St.init] at h) (Nat.zero_le _) hu
  have inv0 : LInv env' st0 (fun _ => False) :=
    ⟨p0.wf, p0.c1, fun _ _ h => h.elim, c30 _ (by intro m hm; simp [St.init] at hm)⟩
  obtain ⟨st, P, e1, inv, _, _⟩ := loop_spec e (fuel := fuel) (by omega) (by omega) fuel st0 _ inv0
    (by have := p0.phi; omega)
  refine ⟨st0, st, by rw [h.addProds, e0], by rw [h.loop hl e (by omega) (by omega) fuel st0 _ inv0, e1], ?_⟩
  cases hm : st.memo ⟨s, 0, env.lex.length⟩ with
  | none => rfl
  | some d =>
    exfalso
    have hder := inv.wf.sound e (k := ⟨s, 0, env.lex.length⟩) (by simp [hm])
    obtain ⟨k, hkm, hkn⟩ := hk
    obtain ⟨q, hq⟩ := List.getElem?_of_mem hkm
    obtain ⟨t, et, ht⟩ := der_symbols hder q (Nat.zero_le _) (List.getElem?_eq_some_iff.1 hq).1
    rw [h.lex, List.getElem?_map, hq] at et
    simp only [Option.map_some, if_pos hkn, Option.some.injEq] at et
    subst et
    rw [h.gram] at ht
    rcases ht with ht | ⟨A, k, p, hr, ht⟩
    · simp only [List.mem_singleton] at ht
      rw [← ht, h.free] at hs
      cases hs
    · exact h.fresh _ _ _ hr ht

end engine

variable {α V : Type} [DecidableEq α]

/-- C23: a nonterminal as the kind of a lexeme, rejected. Whatever else is in the input, a lexeme whose kind is a
nonterminal makes Parse return nil, if no production of two or more symbols for the kind of a lexeme begins with a
symbol that derives the empty word. -/
theorem C23_rejects_partial (ev : V) (g : Grammar α) (hg : g.WF) (ls : List (Lexeme α V))
    (hl : ∀ l ∈ ls, ∀ k X Y p, g.Rule l.kind k (X :: Y :: p) → ¬ g.Derives [X] [])
    (hk : ∃ l ∈ ls, ¬ g.Term l.kind) : Out.Returns (parse ev g ls) none := by
  cases ho : g.order with
  | nil => exact ⟨0, fun n _ => by simp [parse, ho]⟩
  | cons S rest =>
    obtain ⟨s, es, hs, hls, h0⟩ := loadSet_ok g hg ls
    have h0 := h0 S (by simp [ho])
    have hS : S ∈ s.symb2str := List.mem_of_getElem? h0
    have hSo : (g.prods S).isSome := (hg S).2 (by simp [ho])
    let env := mkEnv g s ls
    let F := s.symb2str.length
    let env' : Env := { env with lex := env.lex.map fun k => if (env.prods k).isSome then F else k }
    have key : ∀ i, (idxProds g s i).isSome ↔ i ∈ g.order.map (symIdx s) := by
      intro i
      rw [List.mem_map]
      constructor
      · intro hi
        unfold idxProds at hi
        split at hi
        · cases hi
        · rename_i x hx
          refine ⟨x, (hg x).1 ?_, symIdx_unique hs.inv hx⟩
          rwa [Option.isSome_map] at hi
      · rintro ⟨x, hx, rfl⟩
        rw [idxProds_symIdx hs.inv (hs.order x hx), Option.isSome_map]
        exact (hg x).2 hx
    have hmask : Masks env env' F := by
      refine ⟨rfl, rfl, rfl, ?_, ?_, ?_⟩
      · show idxProds g s F = none
        simp [idxProds, F]
      · intro A k p hr hF
        exact absurd (rule_lt hs S (o := []) hr F hF) (Nat.lt_irrefl _)
      · intro i
        show decide (i ∈ g.order.map (symIdx s)) = (idxProds g s i).isSome
        rw [Bool.eq_iff_iff, decide_eq_true_iff, key]
    have hlead : Lead env := by
      intro A hA k X Y p hr hd
      obtain ⟨l, hlm, rfl⟩ := List.mem_map.1 hA
      obtain ⟨A', q, e1, hr', e2, e3, e4⟩ := rule_down hs (o := []) hr S
      rw [symIdx_get hs.inv (hls l hlm)] at e1
      cases e1
      have hlt := rule_lt hs S (o := []) hr X (by simp)
      have := derives_down hs (o := []) S hd (by simpa using hlt)
      refine hl l hlm k (nm s S X) (nm s S Y) (p.map (nm s S)) ?_ (by simpa using this)
      rw [← e4] at hr'
      simpa using hr'
    have hsn : (env.prods (symIdx s S)).isSome := by
      show (idxProds g s (symIdx s S)).isSome
      rw [idxProds_symIdx hs.inv hS, Option.isSome_map]; exact hSo
    have hkn : ∃ k ∈ env.lex, (env.prods k).isSome := by
      obtain ⟨l, hlm, hlt⟩ := hk
      refine ⟨symIdx s l.kind, List.mem_map.2 ⟨l, hlm, rfl⟩, ?_⟩
      show (idxProds g s (symIdx s l.kind)).isSome
      rw [idxProds_symIdx hs.inv (hls l hlm), Option.isSome_map]
      cases hp : g.prods l.kind with
      | none => exact absurd hp hlt
      | some _ => rfl
    have hne : ls ≠ [] := by
      obtain ⟨l, hlm, _⟩ := hk
      exact List.ne_nil_of_mem hlm
    obtain ⟨B, hB⟩ : ∃ B, B = bound env' (g.order.map (symIdx s)).toFinset := ⟨_, rfl⟩
    obtain ⟨st0, st, e0, e1, hm⟩ := engine_kinds hmask hlead (nts := (g.order.map (symIdx s)).toFinset)
      (fun i hi => by simpa using (key i).1 hi) (symIdx s S) hsn hkn (fuel := B) (Nat.le_of_eq hB.symm)
    refine Out.returns_of (parse_mono ev g ls) (n := B) ?_
    simp only [parse, ho, es, Out.bind_ok]
    unfold parseIdx
    have e0 : addProds (mkEnv g s ls) B B St.init ⟨symIdx s S, 0⟩ = .ok st0 := e0
    have e1 : loop (mkEnv g s ls) B B st0 = .ok st := e1
    have hm : st.memo ⟨symIdx s S, 0, ls.length⟩ = none := by
      have h2 : env.lex.length = ls.length := by simp [env, mkEnv]
      rwa [h2] at hm
    simp only [e0, e1, Out.bind_ok, List.length_map, St.get, hm, Option.getD_none]
    rw [if_pos]
    · rfl
    · intro h1
      apply hne
      exact List.length_eq_zero_iff.1 h1.symm

/-- C23: no panic for more lexemes than those whose kinds are terminals: Parse returns if no production of two or
more symbols for the kind of a lexeme begins with a symbol that derives the empty word. `C23_refuted` shows such a
production at work. -/
theorem C23_lead_partial (ev : V) (g : Grammar α) (hg : g.WF) (ls : List (Lexeme α V))
    (hl : ∀ l ∈ ls, ∀ k X Y p, g.Rule l.kind k (X :: Y :: p) → ¬ g.Derives [X] []) :
    (∃ r, Out.Returns (parse ev g ls) r) ∧ ∀ n, parse ev g ls n ≠ .panic := by
  have hr : ∃ r, Out.Returns (parse ev g ls) r := by
    by_cases hk : ∃ l ∈ ls, ¬ g.Term l.kind
    · exact ⟨_, C23_rejects_partial ev g hg ls hl hk⟩
    · exact C18_terminates ev g hg ls fun l hlm => by
        by_contra h
        exact hk ⟨l, hlm, h⟩
  refine ⟨hr, fun n h => ?_⟩
  obtain ⟨r, N, hN⟩ := hr
  have h1 := hN (max n N) (by omega)
  have h2 := (parse_mono ev g ls n (max n N) (by omega)).panic h
  rw [h1] at h2; cases h2

/-- `A -> A y | x` and `N ->` with A = 0, N = 1, x = 2, y = 3: the lexemes `N`, and `x y A` in any order, are
rejected though `N` and `A` are nonterminals. -/
def gN : Grammar Nat := table [(0, [[0, 3], [2]]), (1, [[]])]

theorem gN_lead (A k X Y : Nat) (p : List Nat) (h : gN.Rule A k (X :: Y :: p)) : ¬ gN.Derives [X] [] := by
  have hX : X = 0 := by
    obtain ⟨ps, e, hk⟩ := h
    have : gN.prods A = if A = 0 then some [[0, 3], [2]] else if A = 1 then some [[]] else none := by
      match A with
      | 0 => rfl
      | 1 => rfl
      | A + 2 => simp [gN, table]
    rw [this] at e
    split at e
    · cases e
      match k, hk with
      | 0, hk => simp at hk; exact hk.1.symm
      | 1, hk => simp at hk
    · split at e
      · cases e
        match k, hk with
        | 0, hk => simp at hk
      · cases e
  subst hX
  have key : ∀ {ss w : List Nat}, gN.Derives ss w → (0 ∈ ss ∨ 2 ∈ ss) → w ≠ [] := by
    intro ss w hd
    induction hd with
    | nil => intro h; simp at h
    | term => intro _; simp
    | @nonterm A k p ss u v hr _ _ ih1 ih2 =>
      intro h0
      have h1 : A = 0 → 0 ∈ p ∨ 2 ∈ p := by
        rintro rfl
        obtain ⟨ps, e, hk⟩ := hr
        have e' : gN.prods 0 = some [[0, 3], [2]] := by decide
        rw [e'] at e
        cases e
        match k, hk with
        | 0, hk => simp at hk; simp [← hk]
        | 1, hk => simp at hk; simp [← hk]
      have h2 : A ≠ 2 := by
        rintro rfl
        obtain ⟨ps, e, hk⟩ := hr
        have e' : gN.prods 2 = none := by decide
        rw [e'] at e
        cases e
      intro huv
      obtain ⟨hu, hv⟩ := List.append_eq_nil_iff.1 huv
      by_cases hA : A = 0
      · exact ih1 (h1 hA) hu
      · refine ih2 ?_ hv
        rcases h0 with h0 | h0
        · rcases List.mem_cons.1 h0 with h | h
          · exact absurd h.symm hA
          · exact .inl h
        · rcases List.mem_cons.1 h0 with h | h
          · exact absurd h.symm h2
          · exact .inr h
  intro hd
  exact key hd (.inl (by simp)) rfl

example : Out.Returns (parse 0 gN (lexs [2, 3, 0])) none :=
  C23_rejects_partial 0 gN (table_wf _) _ (fun _ _ _ _ _ _ h => gN_lead _ _ _ _ _ h) ⟨⟨0, 102, 1, 2⟩, by decide, by decide⟩

end Verif.Props.PackratKinds
