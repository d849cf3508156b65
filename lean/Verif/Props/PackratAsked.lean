import Verif.Spec.Asked
import Verif.Props.PackratKinds
/-
C23, when exactly Parse panics (packrat.go:150-170, 180-191, 205-227, 243-253). A lexeme whose kind is a nonterminal is
taken for a reading of it without children when the nonterminal is asked for at the lexeme and a production of it of two
or more symbols has been begun without using the lexeme up. If that is the first production, its completion is compared
with the childless reading, which panics.
-/
namespace Verif.Props.PackratAsked
open Verif.Spec Verif.Spec.Grammar Verif.Packrat Verif.SetSymbol Verif.Props.Packrat Verif.Props.PackratKinds

/-! ### What is asked for is queued, and nothing else -/

section queue
variable {env : Env} {S : Nat}

/-- Only what is asked for is queued. -/
def OnlyAsked (env : Env) (S : Nat) (st : St) : Prop :=
  ∀ m, st.queued m = true → env.gram.Asked env.lex S m.idx m.start

theorem addToMemo_queued {fuel st td st'} (h : addToMemo fuel st td = .ok st') : st'.queued = st.queued := by
  unfold addToMemo at h
  split at h
  · cases h
    rw [foldl_push]
  · cases hc : comparePriority st.get fuel td ‹_› with
    | panic => rw [hc] at h; cases h
    | fuel => rw [hc] at h; cases h
    | ok c =>
      rw [hc] at h
      simp only [Out.bind_ok] at h
      split at h
      · cases hd : createsCircularDep st.get td.key fuel td with
        | panic => rw [hd] at h; cases h
        | fuel => rw [hd] at h; cases h
        | ok d =>
          rw [hd] at h
          simp only [Out.bind_ok] at h
          split at h <;> cases h <;> rfl
      · cases h; rfl

theorem foldl_push_keys (tds : List Def) (tp : Partial) (st : St) :
    (tds.foldl (fun s td => push s tp td.key) st).queued = st.queued := by
  induction tds generalizing st with
  | nil => rfl
  | cons t ts ih => rw [List.foldl_cons, ih]; rfl

theorem addPartialPre_queued {fuel st tp m st'} (h : addPartialPre env fuel st tp m = .ok st') : st'.queued = st.queued := by
  unfold addPartialPre at h
  by_cases hn : env.nonterms m.idx = true
  · rw [if_pos hn] at h
    simp only [Out.bind_ok] at h
    cases h
    rw [foldl_push_keys]
  · rw [if_neg hn] at h
    unfold checkNonTerminal at h
    split at h
    · cases ha : addToMemo fuel st (leafDef m) with
      | panic => rw [ha] at h; cases h
      | fuel => rw [ha] at h; cases h
      | ok st1 =>
        rw [ha] at h
        simp only [Out.bind_ok] at h
        cases h
        rw [foldl_push_keys, addToMemo_queued ha]
    · simp only [Out.bind_ok] at h
      cases h
      rw [foldl_push_keys]

theorem addProdsLoop_asked {fuel} {rec : St → Marker → Out St} {root : Marker}
    (hrec : ∀ st m st', rec st m = .ok st' → env.gram.Asked env.lex S m.idx m.start → OnlyAsked env S st → OnlyAsked env S st')
    (hroot : env.gram.Asked env.lex S root.idx root.start) :
    ∀ (ps : List (List Nat)) (st : St) (k : Nat) (st' : St), (∀ p ∈ ps, ∃ k, env.gram.Rule root.idx k p) →
      addProdsLoop env fuel rec root st k ps = .ok st' → OnlyAsked env S st → OnlyAsked env S st' := by
  intro ps
  induction ps with
  | nil => intro st k st' _ h hq; simp only [addProdsLoop] at h; cases h; exact hq
  | cons p ps ih =>
    intro st k st' hp h hq
    have ih := fun st k st' => ih st k st' fun q hq => hp q (by simp [hq])
    cases p with
    | nil =>
      simp only [addProdsLoop] at h
      cases ha : addToMemo fuel st (nilDef root k) with
      | panic => rw [ha] at h; cases h
      | fuel => rw [ha] at h; cases h
      | ok st1 =>
        rw [ha] at h
        simp only [Out.bind_ok] at h
        exact ih st1 _ st' h fun m hm => hq m (by rwa [addToMemo_queued ha] at hm)
    | cons X p =>
      simp only [addProdsLoop] at h
      cases ha : addPartialPre env fuel st (initPartial root k (X :: p)) ⟨X, root.start⟩ with
      | panic => rw [ha] at h; cases h
      | fuel => rw [ha] at h; cases h
      | ok st1 =>
        rw [ha] at h
        simp only [Out.bind_ok] at h
        cases hb : rec st1 ⟨X, root.start⟩ with
        | panic => rw [hb] at h; cases h
        | fuel => rw [hb] at h; cases h
        | ok st2 =>
          rw [hb] at h
          simp only [Out.bind_ok] at h
          obtain ⟨k', hr⟩ := hp (X :: p) (by simp)
          exact ih st2 _ st' h (hrec _ _ _ hb (.next (u := []) hroot hr .nil)
            fun m hm => hq m (by rwa [addPartialPre_queued ha] at hm))

theorem addProds_asked {fuel} : ∀ (depth : Nat) (st : St) (root : Marker) (st' : St),
    addProds env fuel depth st root = .ok st' → env.gram.Asked env.lex S root.idx root.start → OnlyAsked env S st →
      OnlyAsked env S st' := by
  intro depth
  induction depth with
  | zero => intro st root st' h; cases h
  | succ depth ih =>
    intro st root st' h hroot hq
    unfold addProds at h
    split at h
    · cases h; exact hq
    · have hq1 : OnlyAsked env S { st with queued := upd st.queued root true } := by
        intro m hm
        by_cases e : m = root
        · rw [e]; exact hroot
        · exact hq m (by simpa [upd_ne _ _ e] using hm)
      dsimp only at h
      cases hp : env.prods root.idx with
      | none => rw [hp] at h; cases h; exact hq1
      | some ps =>
        rw [hp] at h
        refine addProdsLoop_asked ih hroot ps _ 0 st' (fun p hp' => ?_) h hq1
        obtain ⟨k, hk⟩ := List.getElem?_of_mem hp'
        exact ⟨k, ps, hp, hk⟩

/-- The next symbol of a partial reading is asked for. -/
theorem partial_asked {nts} (e : EnvOK env nts) {st : St} (wf : WF env st) (hq : OnlyAsked env S st) {tp : Partial} {m : Marker}
    (h : PartialOK env st tp m) : env.gram.Asked env.lex S m.idx m.start := by
  obtain ⟨hlt, he⟩ := List.getElem?_eq_some_iff.1 h.next
  have hr := h.rule
  have hsplit : tp.prod = tp.prod.take tp.td.children.length ++ m.idx :: tp.prod.drop (tp.td.children.length + 1) := by
    conv => lhs; rw [← List.take_append_drop tp.td.children.length tp.prod, List.drop_eq_getElem_cons hlt, he]
  rw [hsplit] at hr
  exact .next (hq _ h.queued) hr (h.chain.der fun c hc => wf.sound e (h.memo c hc))

theorem update_asked {nts} (e : EnvOK env nts) {st st' : St} (wf : WF env st) (hq : OnlyAsked env S st) {base : Partial}
    {ext : Key} (hb : PartialOK env st base ext.marker) (hm : (st.memo ext).isSome) {fuel n}
    (h : update env fuel n st base ext = .ok st') : OnlyAsked env S st' := by
  cases n with
  | zero => cases h
  | succ n =>
    unfold update at h
    dsimp only at h
    split at h
    · intro m hm'
      exact hq m (by rwa [addToMemo_queued h] at hm')
    · have hp : (extend base ext).prod[base.td.children.length + 1]? = base.prod[base.td.children.length + 1]? := rfl
      rw [hp] at h
      cases hX : base.prod[base.td.children.length + 1]? with
      | none => rw [hX] at h; cases h
      | some X =>
        rw [hX] at h
        dsimp only at h
        have hcn : checkNonTerminal env fuel st (extend base ext).td.key.marker = .ok (st, none) := by
          unfold checkNonTerminal
          rw [if_neg]
          intro hlx
          have hd := e.disj _ (List.mem_of_getElem? hlx)
          obtain ⟨ps, hps, _⟩ := hb.rule
          have hps : env.prods base.td.key.idx = some ps := hps
          have hd : env.prods base.td.key.idx = none := hd
          rw [hps] at hd; cases hd
        rw [hcn] at h
        simp only [Out.bind_ok] at h
        unfold addPartial at h
        have hx := extend_PartialOK wf hb hm hX
        have ha := partial_asked e wf hq hx
        cases hpre : addPartialPre env fuel st (extend base ext) ⟨X, (extend base ext).td.key.stop⟩ with
        | panic => rw [hpre] at h; cases h
        | fuel => rw [hpre] at h; cases h
        | ok st1 =>
          rw [hpre] at h
          simp only [Out.bind_ok] at h
          exact addProds_asked _ _ _ _ h ha fun m hm => hq m (by rwa [addPartialPre_queued hpre] at hm)

theorem queued_aux {nts} (e : EnvOK env nts) {st P} (h : LInv env st P) (hs : st.stack = []) {Y j} {v : List Nat} :
    ∀ (u : List Nat) (tp : Partial) (X i : Nat) (rest : List Nat), tp.prod.drop tp.td.children.length = u ++ Y :: v →
      u ++ Y :: v = X :: rest → Item env st P tp ⟨X, i⟩ → env.gram.Der env.lex u i j → st.queued ⟨Y, j⟩ = true := by
  intro u
  induction u with
  | nil =>
    intro tp X i rest _ h2 hi hd
    cases h2
    cases hd
    exact hi.1
  | cons Z u ih =>
    intro tp X i rest hdrop h2 hi hd
    cases h2
    obtain ⟨m, hd1, hd2⟩ := hd.cons_split
    have hP := processed e h hs (c := ⟨Z, i, m⟩) hd1 hi
    have heff := h.c2 tp _ hP
    have hdrop' : tp.prod.drop (tp.td.children.length + 1) = u ++ Y :: v := by
      rw [← List.drop_drop, hdrop]; rfl
    have hl : tp.td.children.length + 1 ≠ tp.prod.length := by
      intro hl
      rw [hl] at hdrop'
      simp at hdrop'
    unfold Eff at heff
    rw [if_neg hl] at heff
    obtain ⟨X', hX', hi'⟩ := heff
    obtain ⟨hlt, he⟩ := List.getElem?_eq_some_iff.1 hX'
    refine ih (extend tp ⟨Z, i, m⟩) X' m (tp.prod.drop (tp.td.children.length + 1 + 1)) (by simpa [extend] using hdrop') ?_ hi' hd2
    rw [← hdrop', List.drop_eq_getElem_cons hlt, he]

/-- At the end everything asked for is queued. -/
theorem asked_queued {nts} (e : EnvOK env nts) {st P} (h : LInv env st P) (hs : st.stack = [])
    (h0 : st.queued ⟨S, 0⟩ = true) {A i} (ha : env.gram.Asked env.lex S A i) : st.queued ⟨A, i⟩ = true := by
  induction ha with
  | start => exact h0
  | @next A i k u Y v j _ hr hd ih =>
    have hp := h.c3 ⟨A, i⟩ ih (by simp) k _ hr
    cases u with
    | nil =>
      cases hd
      exact hp.1
    | cons X u =>
      exact queued_aux e h hs (Y := Y) (v := v) (X :: u) _ X i _ (by simp [initPartial]) rfl hp hd

end queue

/-! ### The first lexeme asked for as a nonterminal -/

section stray
variable {env env' : Env} {F : Nat}

/-- The extension of a partial reading asks for a lexeme whose kind is the nonterminal being read. -/
def Stray (env : Env) (u : Partial × Key) : Prop :=
  u.1.td.children.length + 1 ≠ u.1.prod.length ∧ env.lex[u.1.td.key.start]? = some u.1.td.key.idx

/-- A reading of the first production cannot be completed beside the childless reading. -/
theorem update_leaf {A i fuel : Nat} (hl : env.lex[i]? = some A) (hf : 0 < fuel) {st : St}
    (hm : st.memo ⟨A, i, i + 1⟩ = some (leafDef ⟨A, i⟩)) : ∀ (n : Nat) (base : Partial), base.td.key.idx = A →
      base.td.key.start = i → base.td.priority = 0 → base.td.children.length < base.prod.length →
      base.prod.length ≤ n + base.td.children.length → update env fuel n st base ⟨A, i, i + 1⟩ = .panic := by
  obtain ⟨f, rfl⟩ : ∃ f, fuel = f + 1 := ⟨fuel - 1, by omega⟩
  intro n
  induction n with
  | zero => intro base _ _ _ h1 h2; omega
  | succ n ih =>
    intro base hA hi hp hlt hn
    unfold update
    dsimp only
    have hkey : (extend base ⟨A, i, i + 1⟩).td.key = ⟨A, i, i + 1⟩ := by simp [extend, hA, hi]
    by_cases hc : base.td.children.length + 1 = (extend base ⟨A, i, i + 1⟩).prod.length
    · rw [if_pos hc]
      unfold addToMemo
      rw [hkey, hm]
      dsimp only
      have : comparePriority st.get (f + 1) (extend base ⟨A, i, i + 1⟩).td (leafDef ⟨A, i⟩) = .panic := by
        unfold comparePriority
        have h1 : (extend base ⟨A, i, i + 1⟩).td.priority = 0 := hp
        have h2 : (extend base ⟨A, i, i + 1⟩).td.children = base.td.children ++ [⟨A, i, i + 1⟩] := rfl
        rw [h1, h2]
        simp only [leafDef, ne_eq, not_true_eq_false, if_false]
        cases base.td.children <;> rfl
      rw [this]
      rfl
    · rw [if_neg hc]
      have hc : base.td.children.length + 1 ≠ base.prod.length := hc
      have hp' : (extend base ⟨A, i, i + 1⟩).prod[base.td.children.length + 1]? = base.prod[base.td.children.length + 1]? := rfl
      rw [hp', List.getElem?_eq_getElem (show base.td.children.length + 1 < base.prod.length by omega)]
      dsimp only
      have hck : checkNonTerminal env (f + 1) st (extend base ⟨A, i, i + 1⟩).td.key.marker =
          .ok (st, some (leafDef ⟨A, i⟩)) := by
        rw [hkey, show (⟨A, i, i + 1⟩ : Key).marker = ⟨A, i⟩ from rfl]
        unfold checkNonTerminal
        rw [if_pos (show env.lex[(⟨A, i⟩ : Marker).start]? = some (⟨A, i⟩ : Marker).idx from hl)]
        have : addToMemo (f + 1) st (leafDef ⟨A, i⟩) = .ok st := by
          unfold addToMemo
          have : (leafDef ⟨A, i⟩).key = ⟨A, i, i + 1⟩ := rfl
          rw [this, hm]
          simp [comparePriority, leafDef, compareKids, Out.bind]
        rw [this]
        rfl
      rw [hck]
      simp only [Out.bind_ok]
      exact ih (extend base ⟨A, i, i + 1⟩) hA hi hp
        (by simp only [extend, List.length_append, List.length_cons, List.length_nil]; omega)
        (by simp only [extend, List.length_append, List.length_cons, List.length_nil]; omega)

/-- A lexeme asked for so by the first production makes `update` panic. -/
theorem stray_panics (h : Masks env env' F) {nts} (e : EnvOK env' nts) {st : St} (wf : WF env' st)
    {base : Partial} {ext : Key} (hb : PartialOK env' st base ext.marker)
    (hs : Stray env (base, ext)) (h0 : base.td.priority = 0) {fuel n} (hf : 0 < fuel) (hn : base.prod.length ≤ n) :
    update env fuel (n + 1) st base ext = .panic := by
  obtain ⟨hc, hlx⟩ := hs
  simp only at hc hlx
  have hlt := (List.getElem?_eq_some_iff.1 hb.next).1
  have hr := hb.rule
  rw [h.gram] at hr
  obtain ⟨ps, hps, _⟩ := id hr
  have hps : env.prods base.td.key.idx = some ps := hps
  have hnone : st.memo ⟨base.td.key.idx, base.td.key.start, base.td.key.start + 1⟩ = none := by
    cases hm : st.memo ⟨base.td.key.idx, base.td.key.start, base.td.key.start + 1⟩ with
    | none => rfl
    | some d =>
      exfalso
      have hder := wf.sound e (k := ⟨base.td.key.idx, base.td.key.start, base.td.key.start + 1⟩) (by simp [hm])
      obtain ⟨t, et, ht⟩ := der_symbols hder base.td.key.start (Nat.le_refl _) (by simp)
      have hF : env'.lex[base.td.key.start]? = some F := by
        rw [h.lex, List.getElem?_map, hlx]
        simp [hps]
      rw [hF] at et
      cases et
      rw [h.gram] at ht
      rcases ht with ht | ⟨A, k, q, hq, ht⟩
      · simp only [List.mem_singleton] at ht
        rw [← ht, h.free] at hps
        cases hps
      · exact h.fresh _ _ _ hq ht
  unfold update
  dsimp only
  have hc' : ¬ base.td.children.length + 1 = (extend base ext).prod.length := hc
  rw [if_neg hc']
  have hp' : (extend base ext).prod[base.td.children.length + 1]? = base.prod[base.td.children.length + 1]? := rfl
  rw [hp', List.getElem?_eq_getElem (show base.td.children.length + 1 < base.prod.length by omega)]
  dsimp only
  have hmk : (extend base ext).td.key.marker = ⟨base.td.key.idx, base.td.key.start⟩ := rfl
  obtain ⟨st1, e1, hm1⟩ : ∃ st1, checkNonTerminal env fuel st (extend base ext).td.key.marker =
      .ok (st1, some (leafDef ⟨base.td.key.idx, base.td.key.start⟩)) ∧
      st1.memo ⟨base.td.key.idx, base.td.key.start, base.td.key.start + 1⟩ =
        some (leafDef ⟨base.td.key.idx, base.td.key.start⟩) := by
    rw [hmk]
    unfold checkNonTerminal
    rw [if_pos (show env.lex[(⟨base.td.key.idx, base.td.key.start⟩ : Marker).start]? =
      some (⟨base.td.key.idx, base.td.key.start⟩ : Marker).idx from hlx)]
    unfold addToMemo
    have hk : (leafDef ⟨base.td.key.idx, base.td.key.start⟩).key =
      ⟨base.td.key.idx, base.td.key.start, base.td.key.start + 1⟩ := rfl
    rw [hk, hnone]
    dsimp only
    simp only [Out.bind_ok]
    refine ⟨_, rfl, ?_⟩
    rw [foldl_push]
    simp [upd]
  rw [e1]
  simp only [Out.bind_ok]
  exact update_leaf hlx hf hm1 n (extend base ext) rfl rfl h0
    (by simp only [extend, List.length_append, List.length_cons, List.length_nil]; omega)
    (by simp only [extend, List.length_append, List.length_cons, List.length_nil]; omega)

/-- Until such a lexeme is asked for, the loop goes as with the masked lexemes. -/
theorem loop_stray (h : Masks env env' F) {nts} (e : EnvOK env' nts) {S fuel}
    (hf : (allKeys env' nts).card + 2 ≤ fuel) (hf2 : (allM env' nts).card < fuel) {L : Nat}
    (hL : ∀ A ∈ env.lex, ∀ k p, env.gram.Rule A k p → p.length ≤ L) (hLf : L < fuel) :
    ∀ (n : Nat) (st : St) P, LInv env' st P → OnlyAsked env' S st → (∀ u, P u → ¬ Stray env u) → phi env' nts st < n →
      (∃ A i k X Y p, env.lex[i]? = some A ∧ env'.gram.Asked env'.lex S A i ∧ env.gram.Rule A k (X :: Y :: p) ∧
        env.gram.Derives [X] [] ∧ (k = 0 → loop env fuel n st = .panic)) ∨
      ∃ st' P', loop env fuel n st = .ok st' ∧ LInv env' st' P' ∧ st'.stack = [] ∧
        (∀ m, st.queued m = true → st'.queued m = true) ∧ ∀ u, P' u → ¬ Stray env u := by
  intro n
  induction n with
  | zero => intro st P _ _ _ hp; omega
  | succ n ih =>
    intro st P inv hq hP hphi
    unfold loop
    cases hs : st.stack with
    | nil => exact .inr ⟨st, P, rfl, inv, hs, fun _ h => h, hP⟩
    | cons u rest =>
      obtain ⟨tp, k⟩ := u
      dsimp only
      obtain ⟨st1, e1, inv1, le1, hphi1⟩ := step_spec e hf hf2 inv hs
      have hstk := inv.wf.stk (tp, k) (by simp [hs])
      have wf0 : WF env' { st with stack := rest } :=
        ⟨inv.wf.key, inv.wf.ok, inv.wf.mark, inv.wf.nd, inv.wf.acyc,
          fun m t ht => ⟨⟨(inv.wf.part m t ht).1.rule, (inv.wf.part m t ht).1.chain, (inv.wf.part m t ht).1.next,
            (inv.wf.part m t ht).1.memo, (inv.wf.part m t ht).1.queued, (inv.wf.part m t ht).1.le1,
            (inv.wf.part m t ht).1.le2⟩, (inv.wf.part m t ht).2⟩,
          fun u hu => by
            have := inv.wf.stk u (by rw [hs]; exact List.mem_cons_of_mem _ hu)
            exact ⟨⟨this.1.rule, this.1.chain, this.1.next, this.1.memo, this.1.queued, this.1.le1,
              this.1.le2⟩, this.2⟩⟩
      have hb0 : PartialOK env' { st with stack := rest } tp k.marker :=
        ⟨hstk.1.rule, hstk.1.chain, hstk.1.next, hstk.1.memo, hstk.1.queued, hstk.1.le1, hstk.1.le2⟩
      have hq0 : OnlyAsked env' S { st with stack := rest } := hq
      by_cases hst : Stray env (tp, k)
      · left
        obtain ⟨X, Y, p, hp, hd⟩ := h.stray e wf0 hb0 hstk.2 hst.1 hst.2
        have hr := hb0.rule
        rw [h.gram] at hr
        refine ⟨tp.td.key.idx, tp.td.key.start, tp.td.priority, X, Y, p, hst.2, hq _ hstk.1.queued, hp ▸ hr, hd, fun h0 => ?_⟩
        obtain ⟨f, hf'⟩ : ∃ f, fuel = f + 1 := ⟨fuel - 1, by omega⟩
        have hlen := hL _ (List.mem_of_getElem? hst.2) _ _ hr
        have : update env fuel fuel { st with stack := rest } tp k = .panic := by
          have := stray_panics h e wf0 hb0 hst h0 (fuel := fuel) (n := f) (by omega) (by omega)
          rwa [← hf'] at this
        rw [this]
        rfl
      · have hsame := h.update_same e hb0 (fun hc hlx => hst ⟨hc, hlx⟩) fuel fuel
        rw [hsame, e1]
        simp only [Out.bind_ok]
        have hq1 := update_asked e wf0 hq0 hb0 hstk.2 e1
        have hP1 : ∀ u, (P u ∨ u = (tp, k)) → ¬ Stray env u := by
          rintro u (hu | rfl)
          · exact hP u hu
          · exact hst
        rcases ih st1 _ inv1 hq1 hP1 (by omega) with h1 | ⟨st', P', g1, g2, g3, g4, g5⟩
        · exact .inl h1
        · exact .inr ⟨st', P', g1, g2, g3, fun m hm => g4 m (le1.queued m hm), g5⟩

theorem mask_der (h : Masks env env' F) {ss i j} (hd : env.gram.Der env'.lex ss i j) : F ∉ ss → env.gram.Der env.lex ss i j := by
  induction hd with
  | nil => intro _; exact .nil
  | @term t ss i j ht hi _ ih =>
    intro hF
    simp only [List.mem_cons, not_or] at hF
    exact .term ht ((h.at_iff ht (Ne.symm hF.1)).1 hi) (ih hF.2)
  | @nonterm A k p ss i m j hr _ _ ih1 ih2 =>
    intro hF
    simp only [List.mem_cons, not_or] at hF
    exact .nonterm hr (ih1 (h.fresh _ _ _ hr)) (ih2 hF.2)

theorem der_mask (h : Masks env env' F) {ss i j} (hd : env.gram.Der env.lex ss i j) : F ∉ ss → env.gram.Der env'.lex ss i j := by
  induction hd with
  | nil => intro _; exact .nil
  | @term t ss i j ht hi _ ih =>
    intro hF
    simp only [List.mem_cons, not_or] at hF
    exact .term ht ((h.at_iff ht (Ne.symm hF.1)).2 hi) (ih hF.2)
  | @nonterm A k p ss i m j hr _ _ ih1 ih2 =>
    intro hF
    simp only [List.mem_cons, not_or] at hF
    exact .nonterm hr (ih1 (h.fresh _ _ _ hr)) (ih2 hF.2)

theorem mask_asked (h : Masks env env' F) {S A i} : env'.gram.Asked env'.lex S A i ↔ env.gram.Asked env.lex S A i := by
  rw [h.gram]
  constructor
  · intro ha
    induction ha with
    | start => exact .start
    | next _ r d ih => exact .next ih r (mask_der h d fun hF => h.fresh _ _ _ r (by simp [hF]))
  · intro ha
    induction ha with
    | start => exact .start
    | next _ r d ih => exact .next ih r (der_mask h d fun hF => h.fresh _ _ _ r (by simp [hF]))

theorem derives_eps {α : Type} {g : Grammar α} {inp ss w} (h : g.Derives ss w) : w = [] → ∀ i, g.Der inp ss i i := by
  induction h with
  | nil => intro _ _; exact .nil
  | term => intro h; cases h
  | nonterm r _ _ ih1 ih2 =>
    intro h i
    obtain ⟨h1, h2⟩ := List.append_eq_nil_iff.1 h
    exact .nonterm r (ih1 h1 i) (ih2 h2 i)

/-- The engine on lexemes of any kinds. -/
theorem engine_asked (h : Masks env env' F) {nts} (fin : ∀ i, (env.prods i).isSome → i ∈ nts) (s : Nat)
    (hs : (env.prods s).isSome) {L : Nat} (hL : ∀ A ∈ env.lex, ∀ k p, env.gram.Rule A k p → p.length ≤ L) {fuel}
    (hf : bound env' nts ≤ fuel) (hLf : L < fuel) :
    ∃ st0, addProds env fuel fuel St.init ⟨s, 0⟩ = .ok st0 ∧
      ((∃ k, Misread env.gram env.lex s k ∧ (k = 0 → loop env fuel fuel st0 = .panic)) ∨
        ((∀ k, ¬ Misread env.gram env.lex s k) ∧ ∃ st, loop env fuel fuel st0 = .ok st ∧
          ((∃ k ∈ env.lex, (env.prods k).isSome) → st.memo ⟨s, 0, env.lex.length⟩ = none))) := by
  have e := h.ok fin
  unfold bound at hf
  have hu : unq env' nts St.init < fuel := by
    have : unq env' nts St.init ≤ (allM env' nts).card := Finset.card_filter_le _ _
    omega
  obtain ⟨st0, e0, p0, c30, hq0⟩ := addProds_spec (P := fun _ => False) (nts := nts) e (fuel := fuel) (by omega) fuel St.init
    ⟨s, 0⟩ (WF_init env') (by intro m tp h; simp [St.init] at h) (Nat.zero_le _) hu
  have inv0 : LInv env' st0 (fun _ => False) :=
    ⟨p0.wf, p0.c1, fun _ _ h => h.elim, c30 _ (by intro m hm; simp [St.init] at hm)⟩
  have ha0 : OnlyAsked env' s st0 := addProds_asked _ _ _ _ e0 .start (by intro m hm; simp [St.init] at hm)
  refine ⟨st0, by rw [h.addProds, e0], ?_⟩
  rcases loop_stray h e (S := s) (fuel := fuel) (by omega) (by omega) hL hLf fuel st0 _ inv0 ha0 (fun _ h => h.elim)
    (by have := p0.phi; omega) with ⟨A, i, k, X, Y, p, h1, h2, h3, h4, h5⟩ | ⟨st, P, g1, g2, g3, g4, g5⟩
  · exact .inl ⟨k, ⟨A, i, X, Y, p, h1, (mask_asked h).1 h2, h3, h4⟩, h5⟩
  · refine .inr ⟨?_, st, g1, ?_⟩
    · rintro k ⟨A, i, X, Y, p, h1, h2, h3, h4⟩
      have hq := asked_queued e g2 g3 (g4 _ hq0) ((mask_asked h).2 h2)
      have hr : env'.gram.Rule A k (X :: Y :: p) := by rw [h.gram]; exact h3
      have hp := g2.c3 ⟨A, i⟩ hq (by simp) k _ hr
      have hd : env'.gram.Der env'.lex [X] i i := by rw [h.gram]; exact derives_eps h4 rfl i
      have := processed e g2 g3 (c := ⟨X, i, i⟩) hd hp
      exact g5 _ this ⟨by simp [initPartial], h1⟩
    · rintro ⟨k, hkm, hkn⟩
      cases hm : st.memo ⟨s, 0, env.lex.length⟩ with
      | none => rfl
      | some d =>
        exfalso
        have hder := g2.wf.sound e (k := ⟨s, 0, env.lex.length⟩) (by simp [hm])
        obtain ⟨q, hq⟩ := List.getElem?_of_mem hkm
        obtain ⟨t, et, ht⟩ := der_symbols hder q (Nat.zero_le _) (List.getElem?_eq_some_iff.1 hq).1
        rw [h.lex, List.getElem?_map, hq] at et
        simp only [Option.map_some, if_pos hkn, Option.some.injEq] at et
        subst et
        rw [h.gram] at ht
        rcases ht with ht | ⟨A, k, p, hr, ht⟩
        · simp only [List.mem_singleton] at ht
          rw [← ht, h.free] at hs
          cases hs
        · exact h.fresh _ _ _ hr ht

end stray

/-! ### From indices to names -/

section lift
variable {α V : Type} [DecidableEq α]

theorem der_up {g : Grammar α} {s : SymSet α} (h : SetOK g s) (hg : g.WF) {o inp ss i j}
    (hd : g.Der inp ss i j) : (∀ x ∈ ss, x ∈ s.symb2str) →
    (⟨o, idxProds g s⟩ : Grammar Nat).Der (inp.map (symIdx s)) (ss.map (symIdx s)) i j := by
  induction hd with
  | nil => intro _; exact .nil
  | @term t ss i j ht hi _ ih =>
    intro hs
    have ht : g.prods t = none := ht
    refine .term ((idxProds_symIdx h.inv (hs t (by simp))).trans (by rw [ht]; rfl)) ?_ (ih fun x hx => hs x (by simp [hx]))
    rw [List.getElem?_map, hi]
    rfl
  | @nonterm A k p ss i m j hr _ _ ih1 ih2 =>
    intro hs
    exact .nonterm (rule_up h hg hr) (ih1 (h.syms A k p hr)) (ih2 fun x hx => hs x (by simp [hx]))

theorem der_down {g : Grammar α} {s : SymSet α} (h : SetOK g s) {o} (x0 : α) {inp : List α} (hin : ∀ x ∈ inp, x ∈ s.symb2str)
    {ss i j} (hd : (⟨o, idxProds g s⟩ : Grammar Nat).Der (inp.map (symIdx s)) ss i j) :
    (∀ i ∈ ss, i < s.symb2str.length) → g.Der inp (ss.map (nm s x0)) i j := by
  induction hd with
  | nil => intro _; exact .nil
  | @term t ss i j ht hi _ ih =>
    intro hs
    refine .term (term_down x0 (hs t (by simp)) ht) ?_ (ih fun x hx => hs x (by simp [hx]))
    rw [List.getElem?_map] at hi
    obtain ⟨x, hx, rfl⟩ := Option.map_eq_some_iff.1 hi
    rw [nm_symIdx h.inv (hin x (List.mem_of_getElem? hx))]
    exact hx
  | @nonterm A k p ss i m j hr _ _ ih1 ih2 =>
    intro hs
    obtain ⟨A', p', e1, hr', e2, e3, e4⟩ := rule_down h hr x0
    have ih1' := ih1 (rule_lt h x0 hr)
    rw [e4] at ih1'
    simp only [List.map_cons, e3]
    exact .nonterm hr' ih1' (ih2 fun x hx => hs x (by simp [hx]))

theorem asked_up {g : Grammar α} {s : SymSet α} (h : SetOK g s) (hg : g.WF) {o inp S A i}
    (ha : g.Asked inp S A i) : (⟨o, idxProds g s⟩ : Grammar Nat).Asked (inp.map (symIdx s)) (symIdx s S) (symIdx s A) i := by
  induction ha with
  | start => exact .start
  | @next A i k u Y v j _ r d ih =>
    have hr := rule_up h hg (o := o) r
    rw [List.map_append, List.map_cons] at hr
    exact .next ih hr (der_up h hg d fun x hx => h.syms _ _ _ r x (by simp [hx]))

theorem asked_down {g : Grammar α} {s : SymSet α} (h : SetOK g s) {o} (x0 : α) {inp : List α} (hin : ∀ x ∈ inp, x ∈ s.symb2str)
    {S : α} (hS : S ∈ s.symb2str) {A i}
    (ha : (⟨o, idxProds g s⟩ : Grammar Nat).Asked (inp.map (symIdx s)) (symIdx s S) A i) : g.Asked inp S (nm s x0 A) i := by
  induction ha with
  | start => rw [nm_symIdx h.inv hS]; exact .start
  | @next A i k u Y v j _ r d ih =>
    obtain ⟨A', p', e1, hr', e2, e3, e4⟩ := rule_down h r x0
    rw [← e4, List.map_append, List.map_cons] at hr'
    rw [e3] at ih
    exact .next ih hr' (der_down h x0 hin d fun x hx => rule_lt h x0 r x (by simp [hx]))

theorem misread_down {g : Grammar α} {s : SymSet α} (h : SetOK g s) {o} {inp : List α} (hin : ∀ x ∈ inp, x ∈ s.symb2str)
    {S : α} (hS : S ∈ s.symb2str) {k}
    (hm : Misread (⟨o, idxProds g s⟩ : Grammar Nat) (inp.map (symIdx s)) (symIdx s S) k) : Misread g inp S k := by
  obtain ⟨A, i, X, Y, p, h1, h2, h3, h4⟩ := hm
  obtain ⟨A', p', e1, hr', e2, e3, e4⟩ := rule_down h h3 S
  have ha := asked_down h S hin hS h2
  have hd := derives_down h S h4 (by simpa using rule_lt h S h3 X (by simp))
  rw [List.getElem?_map] at h1
  obtain ⟨x, hx, rfl⟩ := Option.map_eq_some_iff.1 h1
  rw [nm_symIdx h.inv (hin x (List.mem_of_getElem? hx))] at e3 ha
  subst e3
  rw [← e4] at hr'
  exact ⟨x, i, _, _, _, hx, ha, by simpa using hr', by simpa using hd⟩

theorem misread_up {g : Grammar α} {s : SymSet α} (h : SetOK g s) (hg : g.WF) {o} {inp : List α} {S : α} {k}
    (hm : Misread g inp S k) : Misread (⟨o, idxProds g s⟩ : Grammar Nat) (inp.map (symIdx s)) (symIdx s S) k := by
  obtain ⟨A, i, X, Y, p, h1, h2, h3, h4⟩ := hm
  refine ⟨symIdx s A, i, symIdx s X, symIdx s Y, p.map (symIdx s), by rw [List.getElem?_map, h1]; rfl, asked_up h hg h2, ?_, ?_⟩
  · simpa using rule_up h hg (o := o) h3
  · simpa using derives_up h hg (o := o) h4 (by simpa using h.syms _ _ _ h3 X (by simp))

/-- Productions of finitely many symbols are bounded in length. -/
theorem rules_bounded (g : Grammar Nat) (l : List Nat) : ∃ L, ∀ A ∈ l, ∀ k p, g.Rule A k p → p.length ≤ L := by
  induction l with
  | nil => exact ⟨0, by simp⟩
  | cons a l ih =>
    obtain ⟨L, hL⟩ := ih
    refine ⟨L + (((g.prods a).getD []).map List.length).sum, fun A hA k p hr => ?_⟩
    rcases List.mem_cons.1 hA with rfl | hA
    · obtain ⟨ps, e, hk⟩ := hr
      rw [e]
      have := List.le_sum_of_mem (List.mem_map_of_mem (f := List.length) (List.mem_of_getElem? hk))
      simp only [Option.getD_some]
      omega
    · have := hL A hA k p hr
      omega

/-- Parse on lexemes of any kinds: a lexeme is misread, and if that is by the first production then Parse panics; or none
is, and it returns. -/
theorem parse_asked (ev : V) (g : Grammar α) (hg : g.WF) (ls : List (Lexeme α V)) {S : α} (ho : g.order.head? = some S) :
    (∃ k, Misread g (ls.map (·.kind)) S k ∧ (k = 0 → Out.Panics (parse ev g ls))) ∨
      ((∀ k, ¬ Misread g (ls.map (·.kind)) S k) ∧ (∃ r, Out.Returns (parse ev g ls) r) ∧
        ((∃ l ∈ ls, ¬ g.Term l.kind) → Out.Returns (parse ev g ls) none)) := by
  obtain ⟨rest, ho⟩ : ∃ rest, g.order = S :: rest := by
    cases h : g.order with
    | nil => rw [h] at ho; cases ho
    | cons a rest => rw [h] at ho; cases ho; exact ⟨rest, rfl⟩
  obtain ⟨s, es, hs, hls, h0⟩ := loadSet_ok g hg ls
  have h0 := h0 S (by simp [ho])
  have hS : S ∈ s.symb2str := List.mem_of_getElem? h0
  have hSo : (g.prods S).isSome := (hg S).2 (by simp [ho])
  let env := mkEnv g s ls
  let F := s.symb2str.length
  let env' : Env := { env with lex := env.lex.map fun k => if (env.prods k).isSome then F else k }
  have key : ∀ i, (idxProds g s i).isSome ↔ i ∈ g.order.map (symIdx s) := by
    intro i
    rw [List.mem_map]
    constructor
    · intro hi
      unfold idxProds at hi
      split at hi
      · cases hi
      · rename_i x hx
        refine ⟨x, (hg x).1 ?_, symIdx_unique hs.inv hx⟩
        rwa [Option.isSome_map] at hi
    · rintro ⟨x, hx, rfl⟩
      rw [idxProds_symIdx hs.inv (hs.order x hx), Option.isSome_map]
      exact (hg x).2 hx
  have hmask : Masks env env' F := by
    refine ⟨rfl, rfl, rfl, ?_, ?_, ?_⟩
    · show idxProds g s F = none
      simp [idxProds, F]
    · intro A k p hr hF
      exact absurd (rule_lt hs S (o := []) hr F hF) (Nat.lt_irrefl _)
    · intro i
      show decide (i ∈ g.order.map (symIdx s)) = (idxProds g s i).isSome
      rw [Bool.eq_iff_iff, decide_eq_true_iff, key]
  have hsn : (env.prods (symIdx s S)).isSome := by
    show (idxProds g s (symIdx s S)).isSome
    rw [idxProds_symIdx hs.inv hS, Option.isSome_map]; exact hSo
  have hlex : env.lex = (ls.map (·.kind)).map (symIdx s) := by simp [env, mkEnv]
  have hin : ∀ x ∈ ls.map (·.kind), x ∈ s.symb2str := by
    intro x hx
    obtain ⟨l, hl, rfl⟩ := List.mem_map.1 hx
    exact hls l hl
  obtain ⟨L, hL⟩ := rules_bounded env.gram env.lex
  obtain ⟨B, hB⟩ : ∃ B, B = bound env' (g.order.map (symIdx s)).toFinset + L + 1 := ⟨_, rfl⟩
  obtain ⟨st0, e0, hcase⟩ := engine_asked hmask (nts := (g.order.map (symIdx s)).toFinset)
    (fun i hi => by simpa using (key i).1 hi) (symIdx s S) hsn hL (fuel := B) (by omega) (by omega)
  have e0 : addProds (mkEnv g s ls) B B St.init ⟨symIdx s S, 0⟩ = .ok st0 := e0
  rw [hlex] at hcase
  rcases hcase with ⟨k, hm, hp⟩ | ⟨hno, st, e1, hm⟩
  · refine .inl ⟨k, misread_down hs hin hS hm, fun hk => ?_⟩
    have hp : loop (mkEnv g s ls) B B st0 = .panic := hp hk
    refine ⟨B, fun n hn => (parse_mono ev g ls B n hn).panic ?_⟩
    simp only [parse, ho, es, Out.bind_ok]
    unfold parseIdx
    simp only [e0, hp, Out.bind_ok]
    rfl
  · have hno' : ∀ k, ¬ Misread g (ls.map (·.kind)) S k := fun k hk => hno k (misread_up hs hg hk)
    have hret : (∃ l ∈ ls, ¬ g.Term l.kind) → Out.Returns (parse ev g ls) none := by
      rintro ⟨l, hlm, hlt⟩
      refine Out.returns_of (parse_mono ev g ls) (n := B) ?_
      have e1 : loop (mkEnv g s ls) B B st0 = .ok st := e1
      have hm := hm ⟨symIdx s l.kind, List.mem_map.2 ⟨l.kind, List.mem_map.2 ⟨l, hlm, rfl⟩, rfl⟩, by
        show (idxProds g s (symIdx s l.kind)).isSome
        rw [idxProds_symIdx hs.inv (hls l hlm), Option.isSome_map]
        cases hp : g.prods l.kind with
        | none => exact absurd hp hlt
        | some _ => rfl⟩
      simp only [List.length_map] at hm
      simp only [parse, ho, es, Out.bind_ok]
      unfold parseIdx
      simp only [e0, e1, Out.bind_ok, List.length_map, St.get, hm, Option.getD_none]
      rw [if_pos]
      · rfl
      · intro h1
        exact List.ne_nil_of_mem hlm (List.length_eq_zero_iff.1 h1.symm)
    refine .inr ⟨hno', ?_, hret⟩
    by_cases hk : ∃ l ∈ ls, ¬ g.Term l.kind
    · exact ⟨_, hret hk⟩
    · exact C18_terminates ev g hg ls fun l hlm => by
        by_contra h
        exact hk ⟨l, hlm, h⟩

/-! ### The claims -/

/-- **C23**, no panic: Parse returns if no lexeme is a nonterminal asked for there of which a production of two or more
symbols begins with a symbol that derives the empty word; and it returns nil then if the kind of any lexeme is a
nonterminal. -/
theorem C23_asked_partial (ev : V) (g : Grammar α) (hg : g.WF) (ls : List (Lexeme α V))
    (hno : ∀ S k, g.order.head? = some S → ¬ Misread g (ls.map (·.kind)) S k) :
    (∃ r, Out.Returns (parse ev g ls) r) ∧ ((∃ l ∈ ls, ¬ g.Term l.kind) → Out.Returns (parse ev g ls) none) := by
  cases ho : g.order.head? with
  | none =>
    have : g.order = [] := List.head?_eq_none_iff.1 ho
    have h : Out.Returns (parse ev g ls) none := ⟨0, fun n _ => by simp [parse, this]⟩
    exact ⟨⟨_, h⟩, fun _ => h⟩
  | some S =>
    rcases parse_asked ev g hg ls ho with ⟨k, hm, -⟩ | ⟨-, h⟩
    · exact absurd hm (hno S k ho)
    · exact h

/-- **C23**, exactly when Parse panics, if of the nonterminals that are kinds of lexemes only first productions begin with
a symbol that derives the empty word and go on: if such a nonterminal is asked for at a lexeme of its kind. -/
theorem C23_panics_exact_partial (ev : V) (g : Grammar α) (hg : g.WF) (ls : List (Lexeme α V))
    (hfirst : ∀ l ∈ ls, ∀ k X Y p, g.Rule l.kind k (X :: Y :: p) → g.Derives [X] [] → k = 0) :
    Out.Panics (parse ev g ls) ↔ ∃ S, g.order.head? = some S ∧ Misread g (ls.map (·.kind)) S 0 := by
  have h0 : ∀ S k, Misread g (ls.map (·.kind)) S k → k = 0 := by
    rintro S k ⟨A, i, X, Y, p, h1, -, h3, h4⟩
    obtain ⟨l, hl, rfl⟩ := List.mem_map.1 (List.mem_of_getElem? h1)
    exact hfirst l hl k X Y p h3 h4
  constructor
  · intro hp
    by_contra hno
    obtain ⟨⟨r, N, hN⟩, -⟩ := C23_asked_partial ev g hg ls fun S k hS hm => hno ⟨S, hS, h0 S k hm ▸ hm⟩
    obtain ⟨M, hM⟩ := hp
    have a := hN (max N M) (by omega)
    rw [hM (max N M) (by omega)] at a
    cases a
  · rintro ⟨S, hS, hm⟩
    rcases parse_asked ev g hg ls hS with ⟨k, hm', hp⟩ | ⟨hno, -⟩
    · exact hp (h0 S k hm')
    · exact absurd hm (hno 0)

end lift

/-! ### A concrete grammar -/

/-- `S -> x A ; A -> N y ; N ->` with S = 0, A = 1, N = 2, x = 3, y = 4. -/
def gB : Grammar Nat := table [(0, [[3, 1]]), (1, [[2, 4]]), (2, [[]])]

theorem gB_rule {A k p} (h : gB.Rule A k p) : k = 0 ∧ (A = 0 ∧ p = [3, 1] ∨ A = 1 ∧ p = [2, 4] ∨ A = 2 ∧ p = []) := by
  obtain ⟨ps, e, hk⟩ := h
  match A with
  | 0 => cases e; cases k <;> simp_all
  | 1 => cases e; cases k <;> simp_all
  | 2 => cases e; cases k <;> simp_all
  | A + 3 => simp [gB, table] at e

/-- The lexemes `x A`: `A` is asked for at the second, and Parse panics. -/
example : Out.Panics (parse 0 gB (lexs [3, 1])) := by
  refine (C23_panics_exact_partial 0 gB (table_wf _) _ fun _ _ _ _ _ _ h _ => (gB_rule h).1).2 ⟨0, rfl, 1, 1, 2, 4, [], rfl, ?_, ?_, ?_⟩
  · exact .next (A := 0) (k := 0) (u := [3]) (v := []) .start ⟨_, rfl, rfl⟩ (.term rfl rfl .nil)
  · exact ⟨_, rfl, rfl⟩
  · exact .nonterm (u := []) (v := []) ⟨_, rfl, (rfl : ([[]] : List (List Nat))[0]? = some [])⟩ .nil .nil

/-- The lexemes `A x`: `A` is not asked for at the first, and Parse returns nil. -/
theorem gB_not_asked {A i} (h : gB.Asked [1, 3] 0 A i) : (A = 0 ∨ A = 3) ∧ i = 0 := by
  induction h with
  | start => simp
  | @next A i k u Y v j _ r d ih =>
    obtain ⟨hA, rfl⟩ := ih
    obtain ⟨-, ⟨rfl, h⟩ | ⟨rfl, h⟩ | ⟨rfl, h⟩⟩ := gB_rule r
    · match u, h, d with
      | [], h, .nil => simp at h; simp [h.1]
      | [a], h, .term _ hi _ => simp at h hi; omega
      | [a], h, .nonterm hr _ _ =>
        simp at h
        have := (gB_rule hr).2
        omega
      | a :: b :: u, h, d => simp at h
    · omega
    · omega

theorem gB_not_misread (S k : Nat) (hS : gB.order.head? = some S) : ¬ Misread gB [1, 3] S k := by
  rintro ⟨A, i, X, Y, p, h1, h2, h3, -⟩
  cases hS
  obtain ⟨hA, rfl⟩ := gB_not_asked h2
  simp at h1
  omega

example : Out.Returns (parse 0 gB (lexs [1, 3])) none :=
  (C23_asked_partial 0 gB (table_wf _) (lexs [1, 3]) gB_not_misread).2 ⟨⟨1, 100, 1, 0⟩, by decide, by decide⟩

example : ¬ Out.Panics (parse 0 gB (lexs [1, 3])) := fun h => by
  obtain ⟨S, hS, hm⟩ := (C23_panics_exact_partial 0 gB (table_wf _) (lexs [1, 3]) fun _ _ _ _ _ _ h _ => (gB_rule h).1).1 h
  exact gB_not_misread S 0 hS hm

end Verif.Props.PackratAsked
