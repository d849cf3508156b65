import Verif.Proofs.Packrat.Loop
/- From the memo table to the result tree. -/
namespace Verif.Packrat
open Verif.Spec Verif.Spec.Grammar Relation

variable {V : Type}

/-- Terminal test of the engine's grammar. -/
abbrev Env.isTerm (env : Env) : Nat → Bool := fun s => (env.gram.prods s).isNone

/-- What the tree built for a memo entry with key `k` satisfies. -/
structure TreeOK (env : Env) (ev : V) (lxms : List (Lexeme Nat V)) (k : Key) (t : PN Nat V) : Prop where
  kind : t.kind = k.idx
  valid : t.Valid env.gram
  fringe : t.fringe env.isTerm = slice lxms k.start k.stop
  first : env.gram.CycleFree → t.FirstChoice env.gram
  pos : t.Positioned env.gram ev
  best : env.gram.CycleFree → t.Best env.gram

theorem fringes_ok {env : Env} {ev : V} {lxms : List (Lexeme Nat V)} {cs p i j}
    (h : Chain cs p i j) : ∀ ks, List.Forall₂ (TreeOK env ev lxms) cs ks →
      (∀ c ∈ cs, c.start ≤ c.stop) →
      PN.fringes env.isTerm ks = slice lxms i j ∧ ks.map PN.kind = p := by
  induction h with
  | nil => intro ks hk _; cases hk; simp [PN.fringes, slice_self]
  | @cons c cs p j hc ih =>
    intro ks hk hle
    cases hk with
    | @cons _ t _ ts h1 h2 =>
      obtain ⟨e1, e2⟩ := ih ts h2 (fun c' h' => hle c' (by simp [h']))
      have sp := (hc.span fun c' h' => hle c' (by simp [h'])).1
      refine ⟨?_, by simp [e2, h1.kind]⟩
      rw [PN.fringes, h1.fringe, e1, slice_append _ (hle c (by simp)) sp]

theorem slice_drop_take {α : Type} (l : List α) {i j m : Nat} (h1 : i ≤ m) (h2 : m ≤ j) :
    (slice l i j).take (m - i) = slice l i m ∧ (slice l i j).drop (m - i) = slice l m j := by
  simp only [slice]
  constructor
  · rw [List.take_take]; congr 1; omega
  · rw [List.drop_take, List.drop_drop]; congr 1
    · omega
    · congr 1; omega

/-- A way of reading the word of a span gives keys for the parts. -/
theorem exists_chain {env : Env} : ∀ (a : List (Nat × List Nat)) (i j : Nat), (∀ x ∈ a, env.gram.Derives [x.1] x.2) →
    (a.map (·.2)).flatten = slice env.lex i j → i ≤ j → j ≤ env.lex.length →
    ∃ cs, Chain cs (a.map (·.1)) i j ∧ env.pairs cs = a ∧ ∀ c ∈ cs, env.gram.Der env.lex [c.idx] c.start c.stop := by
  intro a
  induction a with
  | nil =>
    intro i j _ hw h1 h2
    have := congrArg List.length hw
    rw [slice_length _ h1 h2] at this
    simp at this
    have : i = j := by omega
    subst this
    exact ⟨[], .nil, rfl, by simp⟩
  | cons x a ih =>
    intro i j hd hw h1 h2
    simp only [List.map_cons, List.flatten_cons] at hw
    have hlen := congrArg List.length hw
    rw [slice_length _ h1 h2, List.length_append] at hlen
    have sp := slice_drop_take env.lex (i := i) (m := i + x.2.length) (j := j) (by omega) (by omega)
    rw [← hw, Nat.add_sub_cancel_left, List.take_left, List.drop_left] at sp
    obtain ⟨cs, hch, hp, hder⟩ := ih (i + x.2.length) j (fun y hy => hd y (by simp [hy])) sp.2 (by omega) h2
    refine ⟨⟨x.1, i, i + x.2.length⟩ :: cs, .cons hch, ?_, ?_⟩
    · simp only [Env.pairs, List.map_cons, List.cons.injEq]
      exact ⟨by rw [Env.word, ← sp.1], hp⟩
    · intro c hc
      rcases List.mem_cons.1 hc with rfl | hc
      · have := (hd x (by simp)).der (inp := env.lex) (env.lex.take i) (env.lex.drop (i + x.2.length)) (by
          have e1 : env.lex.take i = slice env.lex 0 i := by simp [slice]
          have e2 : env.lex.drop (i + x.2.length) = slice env.lex (i + x.2.length) env.lex.length := by simp [slice]
          rw [e1, e2]
          conv => rhs; lhs; rhs; rw [sp.1]
          rw [slice_append _ (Nat.zero_le _) (by omega), slice_append _ (Nat.zero_le _) (by omega), slice_full])
        have e1 : (env.lex.take i).length = i := by simp; omega
        rw [e1] at this
        exact this
      · exact hder c hc

theorem toPN_spec {env nts} (e : EnvOK env nts) {st} (h : WF env st)
    (hopt : ∀ A i k p j, st.queued ⟨A, i⟩ = true → env.gram.Rule A k p →
      env.gram.Der env.lex p i j → DoneK env st A i j k)
    (hset : ∀ A i k p j cs, st.queued ⟨A, i⟩ = true → env.gram.Rule A k p → Chain cs p i j →
      (∀ c ∈ cs, env.gram.Der env.lex [c.idx] c.start c.stop) → Done env st ⟨⟨A, i, j⟩, cs, k⟩)
    (ev : V) (lxms : List (Lexeme Nat V)) (hl : lxms.map (·.kind) = env.lex)
    (r : Key → Nat) (hr : ∀ a b, Child st.memo a b → r b < r a) :
    ∀ f k d, st.memo k = some d → r k < f →
      ∃ t, toPN ev lxms st.get f d = .ok t ∧ TreeOK env ev lxms k t := by
  have hlen : lxms.length = env.lex.length := by rw [← hl]; simp
  intro f
  induction f with
  | zero => intro k d _ h; omega
  | succ f ih =>
    intro k d ed hk
    have hkey := h.key k d ed
    subst hkey
    have kids : ∀ cs : List Key, (∀ c ∈ cs, (st.memo c).isSome ∧ r c < f) →
        ∃ ks, kidsPN (toPN ev lxms st.get f) st.get cs = .ok ks ∧
          List.Forall₂ (TreeOK env ev lxms) cs ks := by
      intro cs
      induction cs with
      | nil => intro _; exact ⟨[], rfl, .nil⟩
      | cons c cs ihc =>
        intro hcs
        obtain ⟨hm, hrk⟩ := hcs c (by simp)
        obtain ⟨dc, edc⟩ := Option.isSome_iff_exists.1 hm
        obtain ⟨t, et, ht⟩ := ih c dc edc hrk
        obtain ⟨ks, eks, hks⟩ := ihc fun c' h' => hcs c' (by simp [h'])
        refine ⟨t :: ks, ?_, .cons ht hks⟩
        simp only [kidsPN, h.get edc, et, eks, Out.bind_ok]
    obtain ⟨ks, eks, hks⟩ := kids d.children fun c hc =>
      ⟨(h.ok _ d ed).kids c hc, by have := hr d.key c ⟨d, ed, hc⟩; omega⟩
    refine ⟨.node (nodeLexeme ev lxms d ks) ks, by simp only [toPN, eks, Out.bind_ok], ?_⟩
    have hkl : ∀ i : Nat, env.lex[i]? = (lxms[i]?).map Lexeme.kind := by
      intro i; rw [← hl, List.getElem?_map]
    rcases h.ok _ d ed with ⟨h1, h2, h3, h4, h5⟩ | ⟨p, hp, hch, hm, hq, hsp⟩
    · -- a lexeme
      rw [h4] at hks
      cases hks
      have hl1 := hkl d.key.start
      rw [h2] at hl1
      cases hlx : lxms[d.key.start]? with
      | none => rw [hlx] at hl1; cases hl1
      | some l =>
        rw [hlx] at hl1
        have hlk : l.kind = d.key.idx := by simpa using hl1.symm
        have hn : nodeLexeme ev lxms d ([] : List (PN Nat V)) = l := by
          simp [nodeLexeme, hlx, hlk]
        rw [hn]
        have ht : env.gram.Term l.kind := by rw [hlk]; exact h1
        refine ⟨hlk, .leaf ht, ?_, fun _ => .leaf ht, .leaf ht, fun _ => .leaf ht⟩
        have ht' : env.gram.prods l.kind = none := ht
        rw [PN.fringe, if_pos (by simp [ht']), h3, slice_cons _ hlx (Nat.le_refl _), slice_self]
    · -- a production
      obtain ⟨ps, hps, hpk⟩ := hp
      have hps : env.prods d.key.idx = some ps := hps
      have hfresh : nodeLexeme ev lxms d ks =
          ⟨d.key.idx, ev, (PN.posOf ks).1, (PN.posOf ks).2⟩ := by
        have : ∀ l, lxms[d.key.start]? = some l → l.kind ≠ d.key.idx := by
          intro l hlx he
          have h2 := hkl d.key.start
          rw [hlx] at h2
          have := e.disj l.kind (List.mem_of_getElem? h2)
          rw [he, hps] at this; cases this
        unfold nodeLexeme
        dsimp only
        split
        · rename_i l hlx
          rw [if_neg (this l hlx)]
          cases ks <;> rfl
        · cases ks <;> rfl
      rw [hfresh]
      obtain ⟨hfr, hkinds⟩ := fringes_ok hch ks hks (fun c hc => (h.span (hm c hc)).1)
      have hall : ∀ t ∈ ks, ∃ c, TreeOK env ev lxms c t := by
        intro t ht
        clear hch hfr hkinds hm eks kids hfresh ed hk
        generalize d.children = cs at hks
        induction hks with
        | nil => cases ht
        | cons h1 _ ih =>
          rcases List.mem_cons.1 ht with rfl | ht
          · exact ⟨_, h1⟩
          · exact ih ht
      have hnt : env.gram.prods d.key.idx = some ps := hps
      refine ⟨rfl, .inner (p := p) ⟨ps, hps, hpk⟩ hkinds fun t ht => (hall t ht).choose_spec.valid, ?_, ?_, ?_, ?_⟩
      · rw [PN.fringe, if_neg (by simp [hnt]), hfr]
      · intro hcf
        refine .inner (k := d.priority) ?_ ?_ fun t ht => (hall t ht).choose_spec.first hcf
        · rw [hkinds]; exact ⟨ps, hps, hpk⟩
        · intro k' p' hr' hd'
          rw [hfr] at hd'
          have hsl : (slice lxms d.key.start d.key.stop).map (·.kind) =
              slice env.lex d.key.start d.key.stop := by
            rw [← hl]; simp [slice]
          rw [hsl] at hd'
          have hle : d.key.start ≤ env.lex.length := by omega
          have := hd'.der (inp := env.lex) (env.lex.take d.key.start) (env.lex.drop d.key.stop) (by
            have h1 : env.lex.take d.key.start = slice env.lex 0 d.key.start := by simp [slice]
            have h2 : env.lex.drop d.key.stop = slice env.lex d.key.stop env.lex.length := by
              simp [slice]
            rw [h1, h2, slice_append _ (Nat.zero_le _) hsp.1, slice_append _ (Nat.zero_le _) hsp.2,
              slice_full])
          have hlen2 : (slice env.lex d.key.start d.key.stop).length = d.key.stop - d.key.start := by
            simp [slice]; omega
          rw [hlen2] at this
          have e1 : (env.lex.take d.key.start).length = d.key.start := by simp; omega
          rw [e1, Nat.add_sub_cancel' hsp.1] at this
          obtain ⟨d', ed', hpr⟩ := hopt _ _ _ _ _ hq hr' this
          have : (⟨d.key.idx, d.key.start, d.key.stop⟩ : Key) = d.key := rfl
          rw [this, ed] at ed'
          cases ed'
          exact hpr hcf
      · refine .inner ?_ rfl rfl fun t ht => (hall t ht).choose_spec.pos
        intro hT
        have hT : env.prods d.key.idx = none := hT
        rw [hps] at hT; cases hT
      · intro hcf
        refine .inner ?_ ?_ fun t ht => (hall t ht).choose_spec.best hcf
        · intro hT
          have hT : env.prods d.key.idx = none := hT
          rw [hps] at hT; cases hT
        · intro k a hse
          have hwd : ∀ i j, (slice lxms i j).map (·.kind) = slice env.lex i j := by
            intro i j; rw [← hl]; simp [slice]
          have hword : (PN.node ⟨d.key.idx, ev, (PN.posOf ks).1, (PN.posOf ks).2⟩ ks).word env.gram = env.word d.key := by
            rw [PN.word, PN.fringe, if_neg (by simp [hnt]), hfr, hwd]; rfl
          have hpairs : ks.map (fun t => (t.kind, t.word env.gram)) = env.pairs d.children := by
            clear hch hfr hkinds hm eks kids hfresh ed hk hall hword hse
            generalize d.children = cs at hks
            induction hks with
            | nil => rfl
            | @cons c t cs ts h1 _ ih =>
              simp only [List.map_cons, Env.pairs, List.cons.injEq]
              exact ⟨by rw [h1.kind, PN.word, h1.fringe, hwd]; rfl, ih⟩
          rw [hword] at hse
          obtain ⟨hre, n, hbt⟩ := hse
          obtain ⟨cs, hcs, hpr, hder⟩ := exists_chain a _ _ hre.derives hre.word hsp.1 hsp.2
          obtain ⟨d', ed', hpr'⟩ := hset _ _ _ _ _ _ hq hre.rule hcs hder
          have hdd : d' = ⟨⟨d.key.idx, d.key.start, d.key.stop⟩, cs, k⟩ := by
            refine (hpr' hcf).2 ⟨n, ?_⟩
            intro k' b hb hne
            rw [hpr] at hne ⊢
            exact hbt k' b hb hne
          have ed'' : st.memo d.key = some d' := ed'
          rw [ed] at ed''
          cases ed''
          rw [hpairs, ← hpr, hdd]

/-- The whole index level parse. -/
theorem parseIdx_spec {env nts} (e : EnvOK env nts) (s : Nat)
    (hsn : (env.prods s).isSome) (ev : V) (lxms : List (Lexeme Nat V))
    (hl : lxms.map (·.kind) = env.lex) {fuel} (hf : bound env nts ≤ fuel) :
    (∃ t, parseIdx ev env s lxms fuel = .ok (some t) ∧ TreeOK env ev lxms ⟨s, 0, lxms.length⟩ t) ∨
    (¬ env.gram.Der env.lex [s] 0 env.lex.length ∧
      ((lxms ≠ [] ∧ parseIdx ev env s lxms fuel = .ok none) ∨
       (lxms = [] ∧ parseIdx ev env s lxms fuel = .ok (some (.node ⟨0, ev, -1, 0⟩ []))))) := by
  have hlen : lxms.length = env.lex.length := by rw [← hl]; simp
  obtain ⟨st0, st, P, e0, e1, inv, hs, hq⟩ := engine e s hf
  obtain ⟨r, hr1, hr2⟩ := inv.wf.exists_rank e
  unfold parseIdx
  simp only [e0, e1, Out.bind_ok]
  cases hm : st.memo ⟨s, 0, lxms.length⟩ with
  | some d =>
    left
    have hkey := inv.wf.key _ d hm
    rw [inv.wf.get hm, if_neg (by simp [hkey])]
    have hlt : r ⟨s, 0, lxms.length⟩ < fuel := by
      have := hr1 ⟨s, 0, lxms.length⟩
      unfold bound at hf; omega
    obtain ⟨t, et, ht⟩ := toPN_spec e inv.wf
      (fun A i k p j hq hr hd => complete e inv hs hq hr hd)
      (fun A i k p j cs hq hr hch hd => offered e inv hs hq hr hch hd) ev lxms hl r hr2 fuel _ d hm hlt
    exact ⟨t, by rw [et]; rfl, ht⟩
  | none =>
    right
    refine ⟨?_, ?_⟩
    · intro hd
      -- the start symbol's derivation would be memoised
      cases hd with
      | nonterm hr hd1 hd2 =>
        cases hd2
        obtain ⟨d, ed, _⟩ := complete e inv hs hq hr hd1
        rw [← hlen, hm] at ed; cases ed
      | term ht hi hd2 =>
        have ht : env.prods s = none := ht
        rw [ht] at hsn; cases hsn
    · have hg : st.get ⟨s, 0, lxms.length⟩ = Def.zero := by simp [St.get, hm]
      rw [hg]
      cases lxms with
      | cons l ls => left; exact ⟨by simp, by rw [if_pos]; simp [Def.zero]⟩
      | nil =>
        right
        refine ⟨rfl, ?_⟩
        obtain ⟨f, rfl⟩ : ∃ f, fuel = f + 1 := ⟨fuel - 1, by unfold bound at hf; omega⟩
        rw [if_neg (by simp [Def.zero])]
        simp [toPN, Def.zero, kidsPN, nodeLexeme, Out.bind]

end Verif.Packrat
