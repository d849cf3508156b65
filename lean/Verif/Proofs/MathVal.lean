import Verif.Proofs.MathKeep
/-
Which reading of an expression the packrat engine keeps for the grammar of examples/parlexmath: of the splits with the best
priority the one that is furthest to the right.
-/
namespace Verif.PMath
open Verif Verif.Packrat Verif.Spec Verif.Spec.Grammar

variable {env : Env} {st st1 : St} {P : Partial × Key → Prop}

/-! ### Entries -/

/-- An entry for an expression. -/
theorem entry (me : MEnv env) (w : WF env st) {s e d} (hm : st.memo ⟨0, s, e⟩ = some d) :
    (Atm env.lex s e ∧ 2 ≤ d.priority) ∨ (d.priority ≤ 1 ∧ ∃ q, env.lex[q]? = some (d.priority + 1) ∧
      d.children = [⟨0, s, q⟩, ⟨d.priority + 1, q, q + 1⟩, ⟨0, q + 1, e⟩] ∧ Kn st s q ∧ Kn st (q + 1) e) := by
  have hk := w.key _ _ hm
  have hex : Ex env.lex s e := Kn.ex me w (by unfold Kn; rw [hm]; rfl)
  rcases w.ok _ _ hm with ⟨h1, _⟩ | ⟨pr, hr, hc, hs, _⟩
  · rw [hk, me.prods] at h1; cases h1
  · rw [hk] at hr hc
    dsimp only at hr hc
    have hd : Den env.lex pr s e := den_of me (hc.der fun c hc' => w.sound me.ok (hs c hc'))
    rcases rule_cases me hr with ⟨_, h⟩ | ⟨h, _⟩
    · rcases h with ⟨hp, rfl⟩ | ⟨hp, rfl⟩ | ⟨hp, rfl⟩ | ⟨hp, rfl⟩
      · refine .inr ⟨hp, ?_⟩
        have hlen := hc.length
        generalize hcs : d.children = cs at *
        match cs, hlen, hc, hs with
        | [a, b, c], _, hc, hs =>
          obtain ⟨ai, as, ae⟩ := a
          obtain ⟨bi, bs, be⟩ := b
          obtain ⟨ci, cs, ce⟩ := c
          have hb := memo_sym me w (hs ⟨bi, bs, be⟩ (by simp))
          dsimp only at hb
          have h0 := hs ⟨ai, as, ae⟩ (by simp)
          have h2 := hs ⟨ci, cs, ce⟩ (by simp)
          cases hc with
          | cons hc => cases hc with
            | cons hc => cases hc with
              | cons hc =>
                cases hc
                have hb : Sym env.lex (d.priority + 1) ae be := hb
                rw [sym_t (not_NT (by omega))] at hb
                obtain ⟨hb1, hb2⟩ := hb
                dsimp only at hb1 hb2 h0 h2
                subst hb2
                exact ⟨_, hb1, rfl, h0, h2⟩
      · left
        obtain ⟨a, h1, h2⟩ := hd
        cases h2
        rw [sym_t (not_NT (by omega))] at h1
        obtain ⟨h1, rfl⟩ := h1
        exact ⟨.num h1, by omega⟩
      · left
        obtain ⟨a, h1, b, h2, h3⟩ := hd
        cases h3
        rw [sym_t (not_NT (by omega))] at h1 h2
        obtain ⟨h1, rfl⟩ := h1
        obtain ⟨h2, rfl⟩ := h2
        exact ⟨.un h1 h2, by omega⟩
      · left
        obtain ⟨a, h1, h2⟩ := hd
        cases h2
        rw [sym_P] at h1
        obtain ⟨h1, x, rfl, h2, h3⟩ := h1
        exact ⟨.par h1 h2 h3, by omega⟩
    · cases h

theorem entry_cmp (me : MEnv env) (w : WF env st) {s e d} (hm : st.memo ⟨0, s, e⟩ = some d) (hc : Cmp env.lex s e) :
    d.priority ≤ 1 ∧ ∃ q, env.lex[q]? = some (d.priority + 1) ∧
      d.children = [⟨0, s, q⟩, ⟨d.priority + 1, q, q + 1⟩, ⟨0, q + 1, e⟩] ∧ Kn st s q ∧ Kn st (q + 1) e := by
  rcases entry me w hm with ⟨h, _⟩ | h
  · exact absurd hc h.not_cmp
  · exact h

theorem entry_atm (me : MEnv env) (w : WF env st) {s e d} (hm : st.memo ⟨0, s, e⟩ = some d) (ha : Atm env.lex s e) :
    2 ≤ d.priority := by
  rcases entry me w hm with ⟨_, h⟩ | ⟨h, q, h1, _, h2, h3⟩
  · exact h
  · exact absurd ((h2.ex me w).split (op_of h h1) (h3.ex me w)) ha.not_cmp

/-- The grammar has no cycles. -/
theorem cycleFree (me : MEnv env) : env.gram.CycleFree := by
  have hne : ∀ X p, ¬ env.gram.Derives (X :: p) [] := by
    have aux : ∀ ss w, env.gram.Derives ss w → w = [] → ss = [] := by
      intro ss w h
      induction h with
      | nil => intro _; rfl
      | term => intro h; cases h
      | @nonterm A k q ss u v hr _ _ ih1 ih2 =>
        intro h
        have := ih1 (List.append_eq_nil_iff.1 h).1
        subst this
        rcases rule_cases me hr with ⟨_, h⟩ | ⟨_, _, h⟩
        · rcases h with ⟨_, h⟩ | ⟨_, h⟩ | ⟨_, h⟩ | ⟨_, h⟩ <;> cases h
        · cases h
    intro X p h
    cases aux _ _ h rfl
  have hu : ∀ A B, env.gram.UnitStep A B → A = 0 ∧ B ≠ 0 := by
    rintro A B ⟨k, pre, post, hr, h1, h2⟩
    cases pre with
    | cons X l => exact absurd h1 (hne _ _)
    | nil =>
      cases post with
      | cons X l => exact absurd h2 (hne _ _)
      | nil =>
        rcases rule_cases me hr with ⟨h0, h⟩ | ⟨_, _, h⟩
        · rcases h with ⟨_, h⟩ | ⟨_, h⟩ | ⟨_, h⟩ | ⟨_, h⟩
          · cases h
          · cases h; exact ⟨h0, by omega⟩
          · cases h
          · cases h; exact ⟨h0, by omega⟩
        · cases h
  have hp : ∀ A B, Plus env.gram.UnitStep A B → A = 0 ∧ B ≠ 0 := by
    intro A B h
    induction h with
    | one h => exact hu _ _ h
    | step h _ ih => exact ⟨(hu _ _ h).1, ih.2⟩
  intro A h
  obtain ⟨h1, h2⟩ := hp A A h
  exact h2 h1

/-! ### Comparing -/

/-- The first split decides how good an entry can be. -/
def Pri (lex : List Nat) (st : St) : Prop :=
  ∀ s e c i d, Cmp lex s e → st.memo ⟨0, s, e⟩ = some d → Atm lex s c → lex[c]? = some (i + 1) → d.priority ≤ i

theorem Sub.next {lex : List Nat} {s c s'} (h : Sub lex (c + 1) s') (ha : Atm lex s c) (ho : Op lex c) : Sub lex s s' := by
  rcases h with rfl | ⟨r, rfl, h1, h2⟩
  · exact .inr ⟨c, rfl, .one ha, ho⟩
  · exact .inr ⟨r, rfl, .more ha ho h1, h2⟩

/-- The shorter of two readings with the same beginning is the worse one. -/
theorem cmp_lt (me : MEnv env) (w : WF env st) (hp : Pri env.lex st) :
    ∀ n s q m d1 d2 c, q < m → st.memo ⟨0, s, q⟩ = some d1 → st.memo ⟨0, s, m⟩ = some d2 →
      (Cmp env.lex s q → NoSmall env.lex st s q) → comparePriority st.get n d1 d2 = .ok c → c = -1 := by
  intro n
  induction n with
  | zero => intro s q m d1 d2 c _ _ _ _ h; cases h
  | succ n ih =>
    intro s q m d1 d2 c hl h1 h2 hno hc
    have hx1 : Ex env.lex s q := Kn.ex me w (by unfold Kn; rw [h1]; rfl)
    have hx2 : Ex env.lex s m := Kn.ex me w (by unfold Kn; rw [h2]; rfl)
    obtain ⟨a, ha⟩ := hx1.first
    have hcm : Cmp env.lex s m := by
      rcases hx2.past ha with h | ⟨_, h⟩
      · rcases hx1.past ha with h' | ⟨h', _⟩ <;> omega
      · exact h
    obtain ⟨p2, q2, hq2, hc2, k2, k2'⟩ := entry_cmp me w h2 hcm
    unfold comparePriority at hc
    rcases hx1.cases' with hat | hcq
    · have := entry_atm me w h1 hat
      rw [if_pos (by omega), if_neg (by omega)] at hc
      cases hc; rfl
    · have hno := hno hcq
      obtain ⟨p1, q1, hq1, hc1, k1, k1'⟩ := entry_cmp me w h1 hcq
      have e1 : q1 = a := by
        rcases (k1.ex me w).past ha with h | ⟨_, h⟩
        · exact h
        · have := hno s q1 (.inl rfl) k1 h
          have := (k1'.ex me w).lt
          omega
      subst e1
      have hle := hp s m q1 d1.priority d2 hcm h2 ha hq1
      by_cases hpr : d1.priority = d2.priority
      · rw [if_neg (by omega), hc1, hc2] at hc
        rcases (k2.ex me w).past ha with e2 | ⟨hlt, hcc⟩
        · subst e2
          unfold compareKids at hc
          rw [if_pos rfl] at hc
          unfold compareKids at hc
          rw [if_pos (by rw [hpr])] at hc
          unfold compareKids at hc
          rw [if_neg (by simp; omega)] at hc
          obtain ⟨c', hc', hc⟩ := Out.bind_eq_ok.1 hc
          obtain ⟨d1', hd1'⟩ := Option.isSome_iff_exists.1 k1'
          obtain ⟨d2', hd2'⟩ := Option.isSome_iff_exists.1 k2'
          rw [w.get hd1', w.get hd2'] at hc'
          have := ih (q2 + 1) q m d1' d2' c' hl hd1' hd2' (fun _ s' q' hs' hk' hcq' =>
            hno s' q' (hs'.next ha (op_of p1 hq1)) hk' hcq') hc'
          subst this
          rw [if_pos (by decide)] at hc
          cases hc; rfl
        · unfold compareKids at hc
          rw [if_neg (by simp; omega)] at hc
          obtain ⟨c', hc', hc⟩ := Out.bind_eq_ok.1 hc
          obtain ⟨d1', hd1'⟩ := Option.isSome_iff_exists.1 k1
          obtain ⟨d2', hd2'⟩ := Option.isSome_iff_exists.1 k2
          rw [w.get hd1', w.get hd2'] at hc'
          have g1 := entry_atm me w hd1' ha
          have g2 := (entry_cmp me w hd2' hcc).1
          cases n with
          | zero => cases hc'
          | succ n =>
            unfold comparePriority at hc'
            rw [if_pos (by omega), if_neg (by omega)] at hc'
            cases hc'
            rw [if_pos (by decide)] at hc
            cases hc; rfl
      · rw [if_pos (by omega), if_neg (by omega)] at hc
        cases hc; rfl

/-- The invariant: the entries are the best that was offered. -/
structure Bst (lex : List Nat) (st : St) (P : Partial × Key → Prop) : Prop where
  pri : Pri lex st
  pst : ∀ i s q e, P (b2 i s q, ⟨0, q + 1, e⟩) → i ≤ 1 ∧ lex[q]? = some (i + 1) ∧ Kn st s q ∧ Kn st (q + 1) e
  best : ∀ s e d q, st.memo ⟨0, s, e⟩ = some d → P (b2 d.priority s q, ⟨0, q + 1, e⟩) →
    ∃ q', q ≤ q' ∧ d.children.head? = some ⟨0, s, q'⟩

/-! ### Other steps -/

theorem memo_other {fuel} {td : Def} (hr : addToMemo fuel st td = .ok st1) {k : Key} (hk : k ≠ td.key) :
    st1.memo k = st.memo k := by
  cases hn : st.memo td.key with
  | none =>
    rw [(memo_new hn hr).1, upd_of _ _ hk]
  | some old =>
    obtain ⟨_, _, _, c, _, h | h | h⟩ := memo_old hn hr
    · rw [h.2]
    · rw [h.2, upd_of _ _ hk]
    · rw [h.2.1]

theorem pre_memo (me : MEnv env) {fuel tp} {m : Marker} (hr : addPartialPre env fuel st tp m = .ok st1) {k : Key}
    (hk : NT k.idx) : st1.memo k = st.memo k := by
  unfold addPartialPre at hr
  obtain ⟨s1, h1, hr⟩ := Out.bind_eq_ok.1 hr
  rw [foldl_push'] at hr
  cases hr
  show s1.memo k = st.memo k
  split at h1
  · cases h1; rfl
  · obtain ⟨⟨s2, o⟩, h2, h1⟩ := Out.bind_eq_ok.1 h1
    cases h1
    unfold checkNonTerminal at h2
    split at h2
    · rename_i hl
      obtain ⟨s3, h3, h2⟩ := Out.bind_eq_ok.1 h2
      cases h2
      refine memo_other h3 ?_
      rintro rfl
      exact me.lexNT hk hl
    · cases h2; rfl

theorem prods_memo (me : MEnv env) {fuel} {k : Key} (hk : NT k.idx) : ∀ d (st st1 : St) (m : Marker),
    addProds env fuel d st m = .ok st1 → st1.memo k = st.memo k := by
  intro d
  induction d with
  | zero => intro st st1 m h; cases h
  | succ d ih =>
    intro st st1 m h
    unfold addProds at h
    split at h
    · cases h; rfl
    · dsimp only at h
      cases hp : env.prods m.idx with
      | none => rw [hp] at h; cases h; rfl
      | some ps =>
        rw [hp] at h
        dsimp only at h
        have hne : ∀ x ∈ ps, x ≠ [] := by
          rintro x hx rfl
          obtain ⟨i, hi⟩ := List.getElem?_of_mem hx
          rcases rule_cases me (A := m.idx) (k := i) (q := []) ⟨ps, hp, hi⟩ with ⟨_, h⟩ | ⟨_, _, h⟩
          · rcases h with ⟨_, h⟩ | ⟨_, h⟩ | ⟨_, h⟩ | ⟨_, h⟩ <;> cases h
          · cases h
        have loop : ∀ (ps : List (List Nat)) (n : Nat) (s s' : St), (∀ x ∈ ps, x ≠ []) →
            addProdsLoop env fuel (addProds env fuel d) m s n ps = .ok s' → s'.memo k = s.memo k := by
          intro ps
          induction ps with
          | nil => intro n s s' _ h; cases h; rfl
          | cons x ps ihp =>
            intro n s s' hx h
            cases x with
            | nil => exact absurd rfl (hx [] (by simp))
            | cons X x =>
              unfold addProdsLoop at h
              obtain ⟨s2, h2, h⟩ := Out.bind_eq_ok.1 h
              obtain ⟨s3, h3, h⟩ := Out.bind_eq_ok.1 h
              rw [ihp _ _ _ (fun y hy => hx y (by simp [hy])) h, ih _ _ _ h3, pre_memo me h2 hk]
        have := loop _ _ _ _ hne h
        exact this

theorem part_memo (me : MEnv env) {fuel tp} {m : Marker} (hr : addPartial env fuel st tp m = .ok st1) {k : Key}
    (hk : NT k.idx) : st1.memo k = st.memo k := by
  unfold addPartial at hr
  obtain ⟨s1, h1, hr⟩ := Out.bind_eq_ok.1 hr
  rw [prods_memo me hk _ _ _ _ hr, pre_memo me h1 hk]

/-- Steps that complete no binary expression leave these alone. -/
theorem step_other (me : MEnv env) {fuel} {tp k rest} (w : WF env st) (n : Nv env.lex st)
    (hs : st.stack = (tp, k) :: rest) (hu : update env fuel fuel { st with stack := rest } tp k = .ok st1) :
    (∃ i s q e, i ≤ 1 ∧ env.lex[q]? = some (i + 1) ∧ tp = b2 i s q ∧ k = ⟨0, q + 1, e⟩ ∧
      addToMemo fuel { st with stack := rest } (extend (b2 i s q) ⟨0, q + 1, e⟩).td = .ok st1) ∨
    ((∀ i s q, tp ≠ b2 i s q) ∧ ∀ s e, Cmp env.lex s e → st1.memo ⟨0, s, e⟩ = st.memo ⟨0, s, e⟩) := by
  cases fuel with
  | zero => cases hu
  | succ f =>
    have hF := n.form (tp, k) (by rw [hs]; simp)
    have hw := w.stk (tp, k) (by rw [hs]; simp)
    have hmemo : (st.memo k).isSome = true := hw.2
    have hsym := memo_sym me w hmemo
    obtain ⟨ki, kb, ke⟩ := k
    dsimp only at hsym
    dsimp only [Key.marker] at hF
    generalize hm : (⟨ki, kb⟩ : Marker) = m at hF
    have atom : ∀ td : Def, ∀ b e, addToMemo (f + 1) { st with stack := rest } td = .ok st1 → td.key = ⟨0, b, e⟩ →
        Atm env.lex b e → ∀ s e, Cmp env.lex s e → st1.memo ⟨0, s, e⟩ = st.memo ⟨0, s, e⟩ := by
      intro td b e h hk ha s e' hc
      refine memo_other h ?_
      rw [hk]
      intro he
      cases he
      exact ha.not_cmp hc
    cases hF with
    | @p i b hi =>
      rw [update_next me (.inl rfl) (X := i + 1) (by simp [p, initPartial])] at hu
      exact .inr ⟨fun _ _ _ => p_ne_b2, fun s e _ => part_memo me hu (.inl rfl)⟩
    | @b1 i s q hi =>
      rw [update_next me (.inl rfl) (X := 0) (by simp [b1, p, initPartial, extend])] at hu
      exact .inr ⟨fun _ _ _ => b1_ne_b2, fun s e _ => part_memo me hu (.inl rfl)⟩
    | @b2 i s q hi hl =>
      replace hm := hm.symm
      injection hm with hm1 hm2
      subst hm1 hm2
      rw [update_last (by simp [b2, b1, p, initPartial, extend])] at hu
      exact .inl ⟨i, s, q, ke, hi, hl, rfl, rfl, hu⟩
    | @aN b =>
      replace hm := hm.symm
      injection hm with hm1 hm2
      subst hm1 hm2
      rw [sym_t (not_NT (by omega))] at hsym
      obtain ⟨hl, rfl⟩ := hsym
      rw [update_last (by simp [aN, initPartial])] at hu
      exact .inr ⟨fun _ _ _ he => (by have := congrArg isBin he; cases this), atom _ b (b + 1) hu rfl (.num hl)⟩
    | @aU b =>
      rw [update_next me (.inl rfl) (X := 3) (by simp [aU, initPartial])] at hu
      exact .inr ⟨fun _ _ _ he => (by have := congrArg isBin he; cases this), fun s e _ => part_memo me hu (.inl rfl)⟩
    | @aU1 b h1 =>
      replace hm := hm.symm
      injection hm with hm1 hm2
      subst hm1 hm2
      rw [sym_t (not_NT (by omega))] at hsym
      obtain ⟨hl, rfl⟩ := hsym
      rw [update_last (by simp [aU1, aU, initPartial, extend])] at hu
      exact .inr ⟨fun _ _ _ he => (by have := congrArg isBin he; cases this), atom _ b (b + 2) hu rfl (.un h1 hl)⟩
    | @aP b =>
      replace hm := hm.symm
      injection hm with hm1 hm2
      subst hm1 hm2
      rw [sym_P] at hsym
      obtain ⟨h5, e, rfl, hx, h6⟩ := hsym
      rw [update_last (by simp [aP, initPartial])] at hu
      exact .inr ⟨fun _ _ _ he => (by have := congrArg isBin he; cases this), atom _ b (e + 1) hu rfl (.par h5 hx h6)⟩
    | @r0 b =>
      rw [update_next me (.inr rfl) (X := 0) (by simp [r0, initPartial])] at hu
      exact .inr ⟨fun _ _ _ he => (by have := congrArg isBin he; cases this), fun s e _ => part_memo me hu (.inl rfl)⟩
    | @r1 b h5 =>
      rw [update_next me (.inr rfl) (X := 6) (by simp [r1, r0, initPartial, extend])] at hu
      exact .inr ⟨fun _ _ _ he => (by have := congrArg isBin he; cases this), fun s e _ => part_memo me hu (.inl rfl)⟩
    | @r2 b e h5 =>
      rw [update_last (by simp [r2, r1, r0, initPartial, extend])] at hu
      refine .inr ⟨fun _ _ _ he => (by have := congrArg isBin he; cases this), fun s e' _ => memo_other hu ?_⟩
      intro he
      have := congrArg Key.idx he
      cases this

/-! ### Completing a binary expression -/

theorem Bst.step (me : MEnv env) {fuel} {tp k rest} (h : LInv env st P) (n : Nv env.lex st) (b : Bst env.lex st P)
    (hs : st.stack = (tp, k) :: rest) (hu : update env fuel fuel { st with stack := rest } tp k = .ok st1)
    (h1 : LInv env st1 (fun v => P v ∨ v = (tp, k))) (le : Le env { st with stack := rest } st1) :
    Bst env.lex st1 (fun v => P v ∨ v = (tp, k)) := by
  have w := h.wf
  have hw := w.stk (tp, k) (by rw [hs]; simp)
  have lek : ∀ s e, Kn st s e → Kn st1 s e := fun s e hk => le.isSome hk
  -- what was processed is a binary expression
  have hcm : ∀ i s q e, P (b2 i s q, ⟨0, q + 1, e⟩) → Cmp env.lex s e := by
    intro i s q e hP
    obtain ⟨hi, hl, h2, h3⟩ := b.pst _ _ _ _ hP
    exact (h2.ex me w).split (op_of hi hl) (h3.ex me w)
  -- entries that were there before keep to the bound
  have priOld : ∀ s e c i d, Cmp env.lex s e → Kn st s e → st1.memo ⟨0, s, e⟩ = some d → Atm env.lex s c →
      env.lex[c]? = some (i + 1) → d.priority ≤ i := by
    intro s e c i d hc hk hm ha hl
    obtain ⟨d0, hd0⟩ := Option.isSome_iff_exists.1 hk
    obtain ⟨d', hd', hle⟩ := le.memo _ _ hd0
    rw [hm] at hd'
    cases hd'
    have := b.pri s e c i d0 hc hd0 ha hl
    omega
  rcases step_other me w n hs hu with ⟨i, s, q, e, hi, hl, rfl, rfl, hr⟩ | ⟨hne, hsame⟩
  · have hks : Kn st s q := hw.1.memo ⟨0, s, q⟩ (by simp [b2, b1, extend])
    have hke : Kn st (q + 1) e := hw.2
    have hcse : Cmp env.lex s e := (hks.ex me w).split (op_of hi hl) (hke.ex me w)
    have pst' : ∀ i' s' q' e', (P (b2 i' s' q', ⟨0, q' + 1, e'⟩) ∨
        (b2 i' s' q', (⟨0, q' + 1, e'⟩ : Key)) = (b2 i s q, ⟨0, q + 1, e⟩)) →
        i' ≤ 1 ∧ env.lex[q']? = some (i' + 1) ∧ Kn st1 s' q' ∧ Kn st1 (q' + 1) e' := by
      rintro i' s' q' e' (hP | he)
      · obtain ⟨a1, a2, a3, a4⟩ := b.pst _ _ _ _ hP
        exact ⟨a1, a2, lek _ _ a3, lek _ _ a4⟩
      · obtain ⟨rfl, rfl, rfl⟩ := b2_inj (congrArg Prod.fst he)
        have := congrArg Prod.snd he
        cases this
        exact ⟨hi, hl, lek _ _ hks, lek _ _ hke⟩
    have other : ∀ s' e', ¬ (s' = s ∧ e' = e) → st1.memo ⟨0, s', e'⟩ = st.memo ⟨0, s', e'⟩ := by
      intro s' e' hn
      refine memo_other hr ?_
      intro he
      exact hn ⟨congrArg Key.start he, congrArg Key.stop he⟩
    have htdp : (extend (b2 i s q) ⟨0, q + 1, e⟩).td.priority = i := rfl
    have htdc : (extend (b2 i s q) ⟨0, q + 1, e⟩).td.children = [⟨0, s, q⟩, ⟨i + 1, q, q + 1⟩, ⟨0, q + 1, e⟩] := by
      simp [b2, b1, p, initPartial, extend]
    by_cases hkn : Kn st s e
    · -- known
      obtain ⟨old, hold⟩ := Option.isSome_iff_exists.1 hkn
      refine ⟨?_, pst', ?_⟩
      · intro s' e' c j d hc hm ha hlc
        by_cases hse : s' = s ∧ e' = e
        · obtain ⟨rfl, rfl⟩ := hse
          exact priOld _ _ c j d hc hkn hm ha hlc
        · rw [other _ _ hse] at hm
          exact b.pri _ _ c j d hc hm ha hlc
      · intro s' e' d q' hm hP
        by_cases hse : s' = s ∧ e' = e
        swap
        · rw [other _ _ hse] at hm
          rcases hP with hP | he
          · exact b.best _ _ _ _ hm hP
          · exact absurd ⟨(b2_inj (congrArg Prod.fst he)).2.1, congrArg (fun x => x.2.stop) he⟩ hse
        · obtain ⟨rfl, rfl⟩ := hse
          obtain ⟨hp0, q0, hq0, hc0, k0, k0'⟩ := entry_cmp me w hold hcse
          obtain ⟨c, hca⟩ := (hks.ex me w).first
          obtain ⟨g1, g2, g3, x, hx, hcase⟩ := memo_old (st := { st with stack := rest })
            (td := (extend (b2 i s' q) ⟨0, q + 1, e'⟩).td) (old := old) hold hr
          have nocirc : ¬ createsCircularDep st.get (extend (b2 i s' q) ⟨0, q + 1, e'⟩).td.key fuel
              (extend (b2 i s' q) ⟨0, q + 1, e'⟩).td = .ok true := by
            intro hcirc
            obtain ⟨y, hy, hreach⟩ := circ_reach st.get _ (Child st.memo) (by
              intro k' c' hc'
              unfold St.get at hc'
              cases hm' : st.memo k' with
              | none => rw [hm'] at hc'; cases hc'
              | some d' => rw [hm'] at hc'; exact ⟨d', hm', hc'⟩) _ _ hcirc
            have hdef : DefOK env st (extend (b2 i s' q) ⟨0, q + 1, e'⟩).td := by
              refine extend_DefOK w hw.1 hw.2 ?_
              simp [b2, b1, p, initPartial, extend]
            exact cycleFree me _ (w.circ_cyclic me.ok hdef hy hreach)
          have hx : comparePriority st.get fuel (extend (b2 i s' q) ⟨0, q + 1, e'⟩).td old = .ok x := hx
          cases fuel with
          | zero => cases hx
          | succ f =>
          unfold comparePriority at hx
          rw [htdp] at hx
          -- the items that were processed before
          have oldP : ∀ j q', P (b2 j s' q', ⟨0, q' + 1, e'⟩) → old.priority ≤ j := by
            intro j q' hP
            have := h.c2 _ _ hP
            unfold Eff at this
            rw [if_pos (by simp [b2, b1, p, initPartial, extend])] at this
            obtain ⟨d', hd', hcf⟩ := this
            have hd' : st.memo ⟨0, s', e'⟩ = some d' := hd'
            rw [hold] at hd'
            cases hd'
            exact (hcf (cycleFree me)).1
          have cur : ∀ j q', (b2 j s' q', (⟨0, q' + 1, e'⟩ : Key)) = (b2 i s' q, ⟨0, q + 1, e'⟩) → j = i ∧ q' = q := by
            intro j q' he
            obtain ⟨rfl, _, rfl⟩ := b2_inj (congrArg Prod.fst he)
            exact ⟨rfl, rfl⟩
          by_cases hpr : i = old.priority
          swap
          · rw [if_pos hpr] at hx
            by_cases hlt : i < old.priority
            · rw [if_pos hlt] at hx
              cases hx
              rcases hcase with ⟨hne1, _⟩ | ⟨_, hm1⟩ | ⟨_, _, hci⟩
              · exact absurd rfl hne1
              · rw [hm1] at hm
                have : d = (extend (b2 i s' q) ⟨0, q + 1, e'⟩).td := by
                  have e1 : upd st.memo (⟨0, s', e'⟩ : Key) (some (extend (b2 i s' q) ⟨0, q + 1, e'⟩).td) ⟨0, s', e'⟩ = some d := hm
                  rw [upd_same] at e1
                  cases e1; rfl
                subst this
                rw [htdp] at hP
                rcases hP with hP | he
                · have := oldP _ _ hP; omega
                · rw [htdc]
                  have := (cur _ _ he).2
                  subst this
                  exact ⟨q', Nat.le_refl _, rfl⟩
              · exact absurd hci nocirc
            · rw [if_neg hlt] at hx
              cases hx
              rcases hcase with ⟨_, hm1⟩ | ⟨h0, _⟩ | ⟨h0, _⟩
              · rw [hm1] at hm
                have hm : st.memo ⟨0, s', e'⟩ = some d := hm
                rw [hold] at hm
                cases hm
                rcases hP with hP | he
                · exact b.best _ _ _ _ hold hP
                · have := (cur _ _ he).1; omega
              · exact absurd h0 (by decide)
              · exact absurd h0 (by decide)
          · rw [if_neg (by omega), htdc, hc0] at hx
            -- which entry is there now
            have hnow : (d = old ∧ (x ≠ 1)) ∨ (d = (extend (b2 i s' q) ⟨0, q + 1, e'⟩).td ∧ x = 1) := by
              rcases hcase with ⟨hne1, hm1⟩ | ⟨h11, hm1⟩ | ⟨_, _, hci⟩
              · rw [hm1] at hm
                have hm : st.memo ⟨0, s', e'⟩ = some d := hm
                rw [hold] at hm
                cases hm
                exact .inl ⟨rfl, hne1⟩
              · rw [hm1] at hm
                have e1 : upd st.memo (⟨0, s', e'⟩ : Key) (some (extend (b2 i s' q) ⟨0, q + 1, e'⟩).td) ⟨0, s', e'⟩ = some d := hm
                rw [upd_same] at e1
                cases e1
                exact .inr ⟨rfl, h11⟩
              · exact absurd hci nocirc
            have hdp : d.priority = i := by
              rcases hnow with ⟨rfl, _⟩ | ⟨rfl, _⟩
              · exact hpr.symm
              · rfl
            rw [hdp] at hP
            have hdc : d.children.head? = some ⟨0, s', if x = 1 then q else q0⟩ := by
              rcases hnow with ⟨rfl, hx1⟩ | ⟨rfl, hx1⟩
              · rw [hc0, if_neg hx1]; rfl
              · rw [htdc, if_pos hx1]; rfl
            refine ⟨_, ?_, hdc⟩
            -- the items of the class known before end at q0 at the latest
            have hb0 : ∀ q', P (b2 i s' q', ⟨0, q' + 1, e'⟩) → q' ≤ q0 := by
              intro q' hP
              rw [hpr] at hP
              obtain ⟨q1, hq1, hh⟩ := b.best _ _ _ _ hold hP
              rw [hc0] at hh
              simp only [List.head?_cons, Option.some.injEq, Key.mk.injEq, true_and] at hh
              omega
            obtain ⟨d1, hd1⟩ := Option.isSome_iff_exists.1 hks
            obtain ⟨d2, hd2⟩ := Option.isSome_iff_exists.1 k0
            have hno : Cmp env.lex s' q → NoSmall env.lex st s' q :=
              n.sm2 i s' q ⟨0, q + 1, e'⟩ (by rw [hs]; exact List.mem_cons_self)
            rcases Nat.lt_trichotomy q q0 with hlt | heq | hgt
            · have hx1 : x = -1 := by
                unfold compareKids at hx
                rw [if_neg (by simp; omega)] at hx
                obtain ⟨c', hc', hx⟩ := Out.bind_eq_ok.1 hx
                rw [w.get hd1, w.get hd2] at hc'
                have := cmp_lt me w b.pri _ _ _ _ _ _ _ hlt hd1 hd2 hno hc'
                subst this
                rw [if_pos (by decide)] at hx
                cases hx; rfl
              rw [if_neg (by rw [hx1]; decide)]
              rcases hP with hP | he
              · exact hb0 _ hP
              · have := (cur _ _ he).2; omega
            · have : (if x = 1 then q else q0) = q := by split <;> omega
              rw [this]
              rcases hP with hP | he
              · have := hb0 _ hP; omega
              · have := (cur _ _ he).2; omega
            · have hcq : Cmp env.lex s' q := by
                rcases (hks.ex me w).past hca with h' | ⟨_, h'⟩
                · rcases (k0.ex me w).past hca with h'' | ⟨h'', _⟩ <;> omega
                · exact h'
              have ha0 : Atm env.lex s' q0 := by
                rcases (k0.ex me w).cases' with h' | h'
                · exact h'
                · have := hno hcq s' q0 (.inl rfl) k0 h'; omega
              have hx1 : x = 1 := by
                unfold compareKids at hx
                rw [if_neg (by simp; omega)] at hx
                obtain ⟨c', hc', hx⟩ := Out.bind_eq_ok.1 hx
                rw [w.get hd1, w.get hd2] at hc'
                have g1 := (entry_cmp me w hd1 hcq).1
                have g2 := entry_atm me w hd2 ha0
                cases f with
                | zero => cases hc'
                | succ f =>
                  unfold comparePriority at hc'
                  rw [if_pos (by omega), if_pos (by omega)] at hc'
                  cases hc'
                  rw [if_pos (by decide)] at hx
                  cases hx; rfl
              rw [if_pos hx1]
              rcases hP with hP | he
              · have := hb0 _ hP; omega
              · have := (cur _ _ he).2; omega
    · -- new
      obtain ⟨ha, _⟩ := keep_comp me h n hs hi hl hkn hr
      have hnone : st.memo ⟨0, s, e⟩ = none := by
        unfold Kn at hkn
        simpa using hkn
      have hnew : st1.memo ⟨0, s, e⟩ = some (extend (b2 i s q) ⟨0, q + 1, e⟩).td := by
        rw [(memo_new (st := { st with stack := rest }) (td := (extend (b2 i s q) ⟨0, q + 1, e⟩).td) hnone hr).1]
        exact upd_same _ _ _
      refine ⟨?_, pst', ?_⟩
      · intro s' e' c j d hc hm hac hlc
        by_cases hse : s' = s ∧ e' = e
        · obtain ⟨rfl, rfl⟩ := hse
          rw [hnew] at hm
          cases hm
          have := ha.unique hac
          subst this
          rw [hl] at hlc
          cases hlc
          exact Nat.le_refl _
        · rw [other _ _ hse] at hm
          exact b.pri _ _ c j d hc hm hac hlc
      · intro s' e' d q' hm hP
        by_cases hse : s' = s ∧ e' = e
        · obtain ⟨rfl, rfl⟩ := hse
          rw [hnew] at hm
          cases hm
          rw [htdc]
          rcases hP with hP | he
          · exfalso
            have := h.c2 _ _ hP
            unfold Eff at this
            rw [if_pos (by simp [b2, b1, p, initPartial, extend])] at this
            obtain ⟨d', hd', _⟩ := this
            have hd' : st.memo ⟨0, s', e'⟩ = some d' := hd'
            rw [hnone] at hd'
            cases hd'
          · obtain ⟨_, _, rfl⟩ := b2_inj (congrArg Prod.fst he)
            exact ⟨q', Nat.le_refl _, rfl⟩
        · rw [other _ _ hse] at hm
          rcases hP with hP | he
          · exact b.best _ _ _ _ hm hP
          · exact absurd ⟨(b2_inj (congrArg Prod.fst he)).2.1, congrArg (fun x => x.2.stop) he⟩ hse
  · refine ⟨?_, ?_, ?_⟩
    · intro s e c i d hc hm ha hl
      rw [hsame _ _ hc] at hm
      exact b.pri s e c i d hc hm ha hl
    · rintro i s q e (hP | he)
      · obtain ⟨a1, a2, a3, a4⟩ := b.pst _ _ _ _ hP
        exact ⟨a1, a2, lek _ _ a3, lek _ _ a4⟩
      · exact absurd (congrArg Prod.fst he).symm (hne _ _ _)
    · rintro s e d q hm (hP | he)
      · rw [hsame _ _ (hcm _ _ _ _ hP)] at hm
        exact b.best _ _ _ _ hm hP
      · exact absurd (congrArg Prod.fst he).symm (hne _ _ _)

/-! ### The end of the loop -/

/-- What the engine knows when it is done. -/
structure Fin (lex : List Nat) (st : St) : Prop where
  all : ∀ b e, Qu st b → Ex lex b e → Kn st b e
  best : ∀ s e d, st.memo ⟨0, s, e⟩ = some d → Cmp lex s e → d.priority ≤ 1 ∧ ∃ q, lex[q]? = some (d.priority + 1) ∧
    d.children = [⟨0, s, q⟩, ⟨d.priority + 1, q, q + 1⟩, ⟨0, q + 1, e⟩] ∧
    ∀ q' i, i ≤ 1 → Ex lex s q' → lex[q']? = some (i + 1) → Ex lex (q' + 1) e → d.priority < i ∨ (d.priority = i ∧ q' ≤ q)

theorem fin_of (me : MEnv env) (h : LInv env st P) (n : Nv env.lex st) (b : Bst env.lex st P) (hs : st.stack = []) :
    Fin env.lex st := by
  have w := h.wf
  have all : ∀ b e, Qu st b → Ex env.lex b e → Kn st b e := fun b e hq hx =>
    close me h (τ := 0) (by rw [hs]; simp) hq (Nat.zero_le _) hx
  refine ⟨all, ?_⟩
  intro s e d hm hc
  obtain ⟨hp, q, hq, hch, k1, k2⟩ := entry_cmp me w hm hc
  refine ⟨hp, q, hq, hch, ?_⟩
  intro q' i hi hx1 hl hx2
  have hqs : Qu st s := k1.qu me w
  have hk1 := all _ _ hqs hx1
  obtain ⟨hqq, hmem⟩ := next_item me h hi (n.p_mem hi hqs) hk1 hl (by rw [hs]; simp) (by rw [hs]; simp)
  have hk2 := all _ _ hqq hx2
  have hP : P (b2 i s q', ⟨0, q' + 1, e⟩) := by
    rcases h.c1 _ _ hmem ⟨0, q' + 1, e⟩ rfl hk2 with h1 | h1
    · rw [hs] at h1; cases h1
    · exact h1
  have heff := h.c2 _ _ hP
  unfold Eff at heff
  rw [if_pos (by simp [b2, b1, p, initPartial, extend])] at heff
  obtain ⟨d', hd', hcf⟩ := heff
  have hd' : st.memo ⟨0, s, e⟩ = some d' := hd'
  rw [hm] at hd'
  cases hd'
  have hle : d.priority ≤ i := (hcf (cycleFree me)).1
  rcases Nat.lt_or_ge d.priority i with hlt | hge
  · exact .inl hlt
  · have he : d.priority = i := by omega
    subst he
    obtain ⟨q1, hq1, hh⟩ := b.best _ _ _ _ hm hP
    rw [hch] at hh
    simp only [List.head?_cons, Option.some.injEq, Key.mk.injEq, true_and] at hh
    exact .inr ⟨rfl, by omega⟩

/-- The engine ends in such a state. -/
theorem engine_fin (me : MEnv env) {fuel} (hf : bound env {0, 4} ≤ fuel) :
    ∃ st0 st P, addProds env fuel fuel St.init ⟨0, 0⟩ = .ok st0 ∧ loop env fuel fuel st0 = .ok st ∧
      LInv env st P ∧ Fin env.lex st ∧ Qu st 0 := by
  obtain ⟨st0, st, P, e0, e1, _, _, hq⟩ := engine me.ok 0 hf
  have hf' := hf
  unfold bound at hf'
  have hu : unq env {0, 4} St.init < fuel := by
    have : unq env {0, 4} St.init ≤ (allM env {0, 4}).card := Finset.card_filter_le _ _
    omega
  obtain ⟨st0', e0', p0, c30, hq0⟩ := addProds_spec (P := fun _ => False) (nts := {0, 4}) me.ok (fuel := fuel) (by omega)
    fuel St.init ⟨0, 0⟩ (WF_init env) (by intro m tp h; simp [St.init] at h) (Nat.zero_le _) hu
  rw [e0] at e0'
  cases e0'
  have inv0 : LInv env st0 (fun _ => False) :=
    ⟨p0.wf, p0.c1, fun _ _ h => h.elim, c30 _ (by intro m hm; simp [St.init] at hm)⟩
  have n0 := Nv.init me e0
  have b0 : Bst env.lex st0 (fun _ => False) := by
    refine ⟨?_, fun _ _ _ _ h => h.elim, fun _ _ _ _ _ h => h.elim⟩
    intro s e c i d _ hm
    rw [prods_memo me (.inl rfl) _ _ _ _ e0] at hm
    simp [St.init] at hm
  obtain ⟨P', inv', ⟨n', b'⟩, hs'⟩ := loop_keeps me.ok (fuel := fuel) (by omega) (by omega)
    (fun st P => Nv env.lex st ∧ Bst env.lex st P)
    (fun st P tp k rest st1 h hi hs hu h1 le => ⟨hi.1.step me h hs hu, hi.2.step me h hi.1 hs hu h1 le⟩)
    fuel st0 _ st inv0 ⟨n0, b0⟩ e1
  exact ⟨st0, st, P', e0, e1, inv', fin_of me inv' n' b' hs', hq⟩

end Verif.PMath
