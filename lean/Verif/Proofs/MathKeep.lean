import Verif.Proofs.MathInv
/-
Every round of the engine's main loop keeps the invariant of `MathInv`.
-/
namespace Verif.PMath
open Verif Verif.Packrat Verif.Spec Verif.Spec.Grammar

variable {env : Env} {st st1 : St} {P : Partial × Key → Prop}

theorem term_pop (me : MEnv env) (w : WF env st) (rest : List (Partial × Key)) : TermOK env { st with stack := rest } :=
  let t := wf_termOK me w
  ⟨t.leaf, t.mark, t.lex, t.part⟩

/-- A request for a terminal. -/
theorem keep_term (me : MEnv env) (w : WF env st) (n : Nv env.lex st) {tp k rest} (hs : st.stack = (tp, k) :: rest)
    {X tp' fuel} (ht : ¬ NT X) (hr : addPartial env fuel { st with stack := rest } tp' ⟨X, k.stop⟩ = .ok st1)
    (hd : ¬ Dead st (tp, k)) (hF : Form env.lex tp' ⟨X, k.stop⟩) (hr0 : ∀ b, tp' ≠ r0 b) (h0 : ∀ i b, tp' ≠ p i b)
    (h1 : ∀ i s q, tp' = b1 i s q → Cmp env.lex s q → NoSmall env.lex st s q) (h2 : ∀ i s q, tp' ≠ b2 i s q) :
    Nv env.lex st1 := by
  obtain ⟨kp, hstk⟩ := term_step me ht (term_pop me w rest) hr
  have hk : ∀ s e, Kn st1 s e ↔ Kn st s e := fun s e => by unfold Kn; rw [kp.memo _ (.inl rfl)]
  have hst : Stat env.lex st1 := n.toStat.congr hk (fun m hm => kp.queued m hm) kp.partials
  obtain ⟨ht1, ht2⟩ := n.top hs hd
  have hsm : ∀ s q, NoSmall env.lex st s q → NoSmall env.lex st1 s q :=
    fun s q h s' q' h1 h2 h3 => h s' q' h1 ((hk _ _).1 h2) h3
  have hS : ∀ v ∈ (if env.lex[k.stop]? = some X then [(tp', (⟨X, k.stop, k.stop + 1⟩ : Key))] else []),
      v = (tp', ⟨X, k.stop, k.stop + 1⟩) := by
    intro v hv
    split at hv
    · simpa using hv
    · cases hv
  refine ⟨hst, n.toStk.swap me w hs hstk ht2 (fun m t h => by rw [kp.partials]; exact h)
    (fun s e h => .inl ((hk s e).1 h)) ?_ ?_ ?_ ?_ ?_ ?_ ?_ ?_⟩
  · intro v hv; rw [hS v hv]; exact hF
  · intro b k' hv; have := hS _ hv; exact absurd (congrArg Prod.fst this).symm (hr0 b)
  · intro v hv
    split at hv
    · cases hv
    · cases hv
  · refine ⟨[], if env.lex[k.stop]? = some X then [(tp', (⟨X, k.stop, k.stop + 1⟩ : Key))] else [], rfl, by simp, ?_, ?_⟩
    · split
      · exact List.pairwise_singleton _ _
      · exact List.Pairwise.nil
    · intro v hv x hx
      rw [hS v hv]
      have := (ht1 x hx).le
      have : x.2.stop ≤ k.stop := this
      exact .inl (by show x.2.stop < k.stop + 1; omega)
  · intro v hv hi
    rw [hS v hv] at hi
    exact absurd (.inl hi) ht
  · intro i s q hv
    have := hS _ hv
    exact absurd (congrArg Prod.fst this).symm (h0 i s)
  · intro i s q k' hv hc
    have := hS _ hv
    exact hsm _ _ (h1 i s q (congrArg Prod.fst this).symm hc)
  · intro i s q k' hv
    have := hS _ hv
    exact absurd (congrArg Prod.fst this).symm (h2 i s q)

/-- What becomes of items for a new expression. -/
theorem push_cases {lex : List Nat} {b e pre} (hp : Pre lex b pre) :
    (∀ v ∈ ((pre ++ [p 0 b, p 1 b]).map fun tp => (tp, (⟨0, b, e⟩ : Key))).reverse,
      v.2 = ⟨0, b, e⟩ ∧ ((∃ i, i ≤ 1 ∧ v.1 = p i b) ∨
        (∃ i s q, b = q + 1 ∧ i ≤ 1 ∧ lex[q]? = some (i + 1) ∧ Atm lex s q ∧ v.1 = b2 i s q) ∨
        (∃ b', b = b' + 1 ∧ lex[b']? = some 5 ∧ v.1 = r1 b'))) ∧
    (((pre ++ [p 0 b, p 1 b]).map fun tp => (tp, (⟨0, b, e⟩ : Key))).reverse).Pairwise R := by
  have hl : pre.length ≤ 1 := by cases hp <;> simp
  constructor
  · intro v hv
    rw [List.mem_reverse, List.mem_map] at hv
    obtain ⟨tp, ht, rfl⟩ := hv
    refine ⟨rfl, ?_⟩
    replace ht := List.mem_append.1 ht
    rcases ht with ht | ht
    · cases hp with
      | zero => cases ht
      | @op i s q hi ho ha =>
        rw [List.mem_singleton] at ht
        exact .inr (.inl ⟨i, s, q, rfl, hi, ho, ha, ht⟩)
      | @par b' h5 =>
        rw [List.mem_singleton] at ht
        exact .inr (.inr ⟨b', rfl, h5, ht⟩)
    · simp only [List.mem_cons, List.not_mem_nil, or_false] at ht
      rcases ht with ht | ht
      · exact .inl ⟨0, by omega, ht⟩
      · exact .inl ⟨1, by omega, ht⟩
  · match pre, hl with
    | [], _ =>
      simp only [List.nil_append, List.map_cons, List.map_nil, List.reverse_cons, List.reverse_nil, List.cons_append,
        List.pairwise_cons, List.mem_singleton, List.not_mem_nil, false_implies, implies_true, List.Pairwise.nil, and_true]
      rintro v rfl
      exact .inr ⟨rfl, 1, b, rfl⟩
    | [x], _ =>
      simp only [List.map_cons, List.map_nil, List.reverse_cons, List.reverse_nil, List.cons_append, List.nil_append,
        List.pairwise_cons, List.mem_cons, List.not_mem_nil, or_false, false_implies, implies_true, List.Pairwise.nil, and_true]
      constructor
      · rintro v (rfl | rfl)
        · exact .inr ⟨rfl, 1, b, rfl⟩
        · exact .inr ⟨rfl, 1, b, rfl⟩
      · rintro v rfl
        exact .inr ⟨rfl, 0, b, rfl⟩

/-- A new expression is stored. -/
theorem keep_newE (me : MEnv env) (w : WF env st) (n : Nv env.lex st) {tp k rest} (hs : st.stack = (tp, k) :: rest)
    {td fuel b e} (hkey : td.key = ⟨0, b, e⟩) (hnk : ¬ Kn st b e) (hx : Ex env.lex b e) (hq : Qu st b) (hke : k.stop = e)
    (hr : addToMemo fuel { st with stack := rest } td = .ok st1)
    (hd : ¬ Dead st (tp, k)) (hnp : ∀ i b, tp ≠ p i b)
    (hfst : Cmp env.lex b e → ∀ c, Atm env.lex b c → Kn st b c ∧ Kn st (c + 1) e)
    (hom : Cmp env.lex b e → Op env.lex e → ∀ s q, Sub env.lex s b → Qu st s → Ex env.lex s q → e < q → Kn st s q)
    (hnxt : Cmp env.lex b e → Op env.lex e → Qu st (e + 1))
    (hsm : Cmp env.lex b e → NoSmall env.lex st b e) : Nv env.lex st1 := by
  have hnone : st.memo td.key = none := by
    rw [hkey]
    cases hm : st.memo ⟨0, b, e⟩ with
    | none => rfl
    | some d => exact absurd (by unfold Kn; rw [hm]; rfl) hnk
  obtain ⟨g1, g2, g3, g4⟩ := memo_new (st := { st with stack := rest }) hnone hr
  dsimp only at g1 g2 g3 g4
  rw [hkey] at g1 g4
  have hk : ∀ s q, Kn st1 s q ↔ Kn st s q ∨ (s = b ∧ q = e) := by
    intro s q
    unfold Kn
    rw [g1]
    by_cases hc : s = b ∧ q = e
    · obtain ⟨rfl, rfl⟩ := hc; rw [upd_same]; simp
    · rw [upd_of _ _ (by rintro ⟨⟩; exact hc ⟨rfl, rfl⟩)]; simp [hc]
  have hQ : ∀ b, Qu st1 b ↔ Qu st b := fun b => by unfold Qu; rw [g3]
  obtain ⟨pre, more, hpe, hpre, hmore⟩ := n.partE b hq
  have hm : more = [] := by
    rcases hmore with h | h
    · exact h
    · exact absurd (h e hx) hnk
  subst hm
  obtain ⟨ht1, ht2⟩ := n.top hs hd
  have hlt : ∀ v ∈ rest, v.2.stop < e := fun v hv => by
    have := (ht1 v hv).lt hnp
    rw [← hke]; exact this
  have hm0 : Key.marker ⟨0, b, e⟩ = ⟨0, b⟩ := rfl
  rw [hm0, hpe] at g4
  obtain ⟨pc, pw⟩ := push_cases (e := e) hpre
  constructor
  · -- what is known
    refine ⟨fun b h => n.beg b ((hQ b).1 h), fun b h => (hQ b).2 (n.qP b (by rw [← g3]; exact h)),
      fun b h h5 => (hQ b).2 (n.par b ((hQ _).1 h) h5), ?_,
      fun b h => by rw [g2]; exact n.partE0 b (fun h' => h ((hQ b).2 h')), fun b => by rw [g2]; exact n.partP b, ?_, ?_, ?_⟩
    · intro b' h
      obtain ⟨pre, more, h1, h2, h3⟩ := n.partE b' ((hQ b').1 h)
      refine ⟨pre, more, by rw [g2]; exact h1, h2, ?_⟩
      rcases h3 with h3 | h3
      · exact .inl h3
      · exact .inr fun e he => (hk _ _).2 (.inl (h3 e he))
    · intro s q c h1 h2 h3
      have : Kn st s c ∧ Kn st (c + 1) q := by
        rcases (hk _ _).1 h1 with h1 | ⟨rfl, rfl⟩
        · exact n.fst s q c h1 h2 h3
        · exact hfst h2 c h3
      exact ⟨(hk _ _).2 (.inl this.1), (hk _ _).2 (.inl this.2)⟩
    · intro s s' e' q h1 h2 h3 h4 h5 h6 h7
      refine (hk _ _).2 (.inl ?_)
      rcases (hk _ _).1 h3 with h3 | ⟨rfl, rfl⟩
      · exact n.om s s' e' q h1 ((hQ s).1 h2) h3 h4 h5 h6 h7
      · exact hom h4 h5 s q h1 ((hQ s).1 h2) h6 h7
    · intro s q h1 h2 h3
      refine (hQ _).2 ?_
      rcases (hk _ _).1 h1 with h1 | ⟨rfl, rfl⟩
      · exact n.nxt s q h1 h2 h3
      · exact hnxt h2 h3
  · -- the stack
    refine n.toStk.swap me w hs g4 ht2 (fun m t h => by rw [g2]; exact h) ?_ ?_ ?_ ?_ ?_ ?_ ?_ ?_ ?_
    · intro s q h
      rcases (hk s q).1 h with h | ⟨rfl, rfl⟩
      · exact .inl h
      · exact .inr (.inr hlt)
    · intro v hv
      obtain ⟨h1, h2⟩ := pc v hv
      rw [h1]
      rcases h2 with ⟨i, hi, h2⟩ | ⟨i, s, q, rfl, hi, hl, _, h2⟩ | ⟨b', rfl, h5, h2⟩
      · rw [h2]; exact .p hi
      · rw [h2]; exact .b2 hi hl
      · rw [h2]; exact .r1 h5
    · intro b' k' hv
      obtain ⟨_, h2⟩ := pc _ hv
      dsimp only at h2
      rcases h2 with ⟨i, hi, h2⟩ | ⟨i, s, q, _, hi, hl, _, h2⟩ | ⟨b'', _, h5, h2⟩
      · exact absurd h2.symm p_ne_r0
      · exact absurd h2.symm b2_ne_r0
      · simp [r0, r1, initPartial, extend] at h2
    · intro v hv
      rw [(pc v (List.mem_of_mem_tail hv)).1]
    · refine ⟨[], _, rfl, by simp, pw, ?_⟩
      intro v hv x hx
      refine .inl ?_
      rw [(pc v hv).1]
      exact hlt x hx
    · intro v hv _
      rw [g2, (pc v hv).1, hm0, hpe]
      rw [List.mem_reverse, List.mem_map] at hv
      obtain ⟨t, ht, rfl⟩ := hv
      exact ht
    · intro i s q hv hc
      have h1 := (pc _ hv).1
      cases h1
      intro s' q' h3 h4 h5
      rcases (hk s' q').1 h4 with h4 | ⟨rfl, rfl⟩
      · exact hsm hc s' q' h3 h4 h5
      · exact Nat.le_refl _
    · intro i s q k' hv hc
      obtain ⟨_, h2⟩ := pc _ hv
      dsimp only at h2
      rcases h2 with ⟨i, hi, h2⟩ | ⟨i, s, q, _, hi, hl, _, h2⟩ | ⟨b'', _, h5, h2⟩
      · exact absurd h2.symm p_ne_b1
      · exact absurd h2 b1_ne_b2
      · have := congrArg isBin h2; rw [b1_bin, r1_bin] at this; cases this
    · intro i s q k' hv hc
      obtain ⟨_, h2⟩ := pc _ hv
      dsimp only at h2
      rcases h2 with ⟨i, hi, h2⟩ | ⟨i, s, q, _, hi, hl, ha, h2⟩ | ⟨b'', _, h5, h2⟩
      · exact absurd h2.symm p_ne_b2
      · obtain ⟨rfl, rfl, rfl⟩ := b2_inj h2
        exact absurd hc ha.not_cmp
      · have := congrArg isBin h2; rw [b2_bin, r1_bin] at this; cases this

/-- A new parenthesised expression is stored. -/
theorem keep_newP (me : MEnv env) (w : WF env st) (n : Nv env.lex st) {tp k rest} (hs : st.stack = (tp, k) :: rest)
    {td fuel b e} (hkey : td.key = ⟨4, b, e⟩) (hnone : st.memo ⟨4, b, e⟩ = none) (hke : k.stop = e)
    (hr : addToMemo fuel { st with stack := rest } td = .ok st1)
    (hd : ¬ Dead st (tp, k)) (hnp : ∀ i b, tp ≠ p i b) : Nv env.lex st1 := by
  obtain ⟨g1, g2, g3, g4⟩ := memo_new (st := { st with stack := rest }) (by rw [hkey]; exact hnone) hr
  dsimp only at g1 g2 g3 g4
  rw [hkey] at g1 g4
  have hk : ∀ s q, Kn st1 s q ↔ Kn st s q := by
    intro s q
    unfold Kn
    rw [g1, upd_of _ _ (by simp)]
  obtain ⟨ht1, ht2⟩ := n.top hs hd
  have hm0 : Key.marker ⟨4, b, e⟩ = ⟨4, b⟩ := rfl
  rw [hm0] at g4
  have hst : Stat env.lex st1 := n.toStat.congr hk (fun m _ => by rw [g3]) g2
  have hS : ∃ S, st1.stack = S ++ rest ∧ (S = [] ∨ S = [(aP b, ⟨4, b, e⟩)]) := by
    refine ⟨_, g4, ?_⟩
    rcases n.partP b with h | h
    · rw [h]; exact .inl rfl
    · rw [h]; exact .inr rfl
  obtain ⟨S, hs1, hS⟩ := hS
  have hS1 : ∀ v ∈ S, v = (aP b, ⟨4, b, e⟩) := by
    rcases hS with rfl | rfl
    · simp
    · simp
  refine ⟨hst, n.toStk.swap me w hs hs1 ht2 (fun m t h => by rw [g2]; exact h)
    (fun s e h => .inl ((hk s e).1 h)) ?_ ?_ ?_ ?_ ?_ ?_ ?_ ?_⟩
  · intro v hv; rw [hS1 v hv]; exact .aP
  · intro b' k' hv
    have := congrArg Prod.fst (hS1 _ hv)
    simp [r0, aP, initPartial] at this
  · intro v hv
    rcases hS with rfl | rfl
    · cases hv
    · cases hv
  · refine ⟨[], _, rfl, by simp, ?_, ?_⟩
    · rcases hS with rfl | rfl
      · exact List.Pairwise.nil
      · exact List.pairwise_singleton _ _
    · intro v hv x hx
      rw [hS1 v hv]
      have := (ht1 x hx).lt hnp
      exact .inl (by show x.2.stop < e; rw [← hke]; exact this)
  · intro v hv hi
    rw [hS1 v hv] at hi
    cases hi
  · intro i s q hv
    have := congrArg isBin (congrArg Prod.fst (hS1 _ hv)); cases this
  · intro i s q k' hv hc
    have := congrArg isBin (congrArg Prod.fst (hS1 _ hv)); cases this
  · intro i s q k' hv
    have := congrArg isBin (congrArg Prod.fst (hS1 _ hv)); cases this

/-- Another reading of what is known is offered. -/
theorem keep_old (n : Nv env.lex st) {u rest} (hs : st.stack = u :: rest) {td fuel old} (ho : st.memo td.key = some old)
    (hr : addToMemo fuel { st with stack := rest } td = .ok st1) : Nv env.lex st1 := by
  obtain ⟨g1, g2, g3, c, _, g4⟩ := memo_old (st := { st with stack := rest }) ho hr
  dsimp only at g1 g2 g3
  have hk : ∀ s q, Kn st1 s q ↔ Kn st s q := by
    intro s q
    unfold Kn
    have : st1.memo = st.memo ∨ st1.memo = upd st.memo td.key (some td) := by
      rcases g4 with ⟨_, g⟩ | ⟨_, g⟩ | ⟨_, g, _⟩
      · exact .inl g
      · exact .inr g
      · exact .inl g
    rcases this with g | g
    · rw [g]
    · rw [g]
      by_cases hc : (⟨0, s, q⟩ : Key) = td.key
      · rw [hc, upd_same, ho]; simp
      · rw [upd_of _ _ hc]
  exact ⟨n.toStat.congr hk (fun m _ => by rw [g2]) g1, n.toStk.pop hs g3 g1 hk (fun b => by unfold Qu; rw [g2])⟩

/-- An expression is asked for the first time. -/
theorem keep_first (me : MEnv env) (w : WF env st) (n : Nv env.lex st) {tp k rest} (hs : st.stack = (tp, k) :: rest)
    {tp' fuel e} (hke : k.stop = e) (hnq : ¬ Qu st e) (hpre : Pre env.lex e [tp']) (hb : Beg env.lex e)
    (hpar : ∀ b, e = b + 1 → env.lex[b]? = some 5 → Qu st b) (hd : ¬ Dead st (tp, k))
    (hr : addPartial env fuel { st with stack := rest } tp' ⟨0, e⟩ = .ok st1) : Nv env.lex st1 := by
  have hq4 : ¬ st.queued ⟨4, e⟩ = true := fun h => hnq (n.qP e h)
  have hmE : st.markers ⟨0, e⟩ = [] := by
    cases hm : st.markers ⟨0, e⟩ with
    | nil => rfl
    | cons d l =>
      exfalso
      obtain ⟨h1, h2⟩ := (w.mark ⟨0, e⟩ d.key).1 (by rw [hm]; simp)
      obtain ⟨⟨i, s, j⟩, _, _⟩ := d
      cases h1
      exact hnq (Kn.qu me w (e := j) h2)
  have hmP : st.markers ⟨4, e⟩ = [] := by
    cases hm : st.markers ⟨4, e⟩ with
    | nil => rfl
    | cons d l =>
      exfalso
      obtain ⟨h1, h2⟩ := (w.mark ⟨4, e⟩ d.key).1 (by rw [hm]; simp)
      obtain ⟨⟨i, s, j⟩, _, _⟩ := d
      cases h1
      obtain ⟨d, hd⟩ := Option.isSome_iff_exists.1 h2
      have hkey := w.key _ _ hd
      rcases w.ok _ _ hd with ⟨h1, _⟩ | ⟨q, _, _, _, hq, _⟩
      · rw [hkey, me.prods] at h1; cases h1
      · rw [hkey] at hq; exact hq4 hq
  have hp4 : st.partials ⟨4, e⟩ = [] := by
    rcases n.partP e with h | h
    · exact h
    · exact absurd (w.part ⟨4, e⟩ (aP e) (by rw [h]; simp)).1.queued hnq
  obtain ⟨g1, g2, g3, S, g4, g5⟩ := first_E me (term_pop me w rest) (by exact hnq) (by exact hq4) (by exact hmE) (by exact hmP) hr
  dsimp only at g1 g2 g3 g5
  rw [n.partE0 e hnq, hp4] at g1
  have hk : ∀ s q, Kn st1 s q ↔ Kn st s q := fun s q => by unfold Kn; rw [g3 _ (.inl rfl)]
  have hQ : ∀ b, Qu st1 b ↔ Qu st b ∨ b = e := by
    intro b
    unfold Qu
    rw [g2 _ (.inl rfl)]
    simp
  have hpE : ∀ b, b ≠ e → st1.partials ⟨0, b⟩ = st.partials ⟨0, b⟩ := by
    intro b hb
    rw [g1, upd_of _ _ (by simp), upd_of _ _ (by simpa using hb)]
  have hpE' : st1.partials ⟨0, e⟩ = [tp', p 0 e, p 1 e] := by
    rw [g1, upd_of _ _ (by simp), upd_same]; rfl
  have hpP : ∀ b, b ≠ e → st1.partials ⟨4, b⟩ = st.partials ⟨4, b⟩ := by
    intro b hb
    rw [g1, upd_of _ _ (by simpa using hb), upd_of _ _ (by simp)]
  have hpP' : st1.partials ⟨4, e⟩ = [aP e] := by
    rw [g1, upd_same]; rfl
  obtain ⟨ht1, ht2⟩ := n.top hs hd
  constructor
  · refine ⟨?_, ?_, ?_, ?_, ?_, ?_, ?_, ?_, ?_⟩
    · intro b h
      rcases (hQ b).1 h with h | rfl
      · exact n.beg b h
      · exact hb
    · intro b h
      rw [g2 _ (.inr rfl)] at h
      rcases h with h | h | h
      · exact (hQ b).2 (.inl (n.qP b h))
      · cases h
      · cases h; exact (hQ _).2 (.inr rfl)
    · intro b h h5
      refine (hQ b).2 (.inl ?_)
      rcases (hQ _).1 h with h | h
      · exact n.par b h h5
      · exact hpar b h.symm h5
    · intro b h
      by_cases hc : b = e
      · subst hc
        exact ⟨[tp'], [], by rw [hpE']; rfl, hpre, .inl rfl⟩
      · have h : Qu st b := by
          rcases (hQ b).1 h with h | h
          · exact h
          · exact absurd h hc
        obtain ⟨pre, more, h1, h2, h3⟩ := n.partE b h
        refine ⟨pre, more, by rw [hpE b hc]; exact h1, h2, ?_⟩
        rcases h3 with h3 | h3
        · exact .inl h3
        · exact .inr fun e he => (hk _ _).2 (h3 e he)
    · intro b h
      rw [hpE b (fun hc => h ((hQ b).2 (.inr hc)))]
      exact n.partE0 b (fun h' => h ((hQ b).2 (.inl h')))
    · intro b
      by_cases hc : b = e
      · subst hc; exact .inr hpP'
      · rw [hpP b hc]; exact n.partP b
    · intro s q c h1 h2 h3
      have := n.fst s q c ((hk _ _).1 h1) h2 h3
      exact ⟨(hk _ _).2 this.1, (hk _ _).2 this.2⟩
    · intro s s' e' q h1 h2 h3 h4 h5 h6 h7
      refine (hk _ _).2 ?_
      rcases (hQ s).1 h2 with h2 | rfl
      · exact n.om s s' e' q h1 h2 ((hk _ _).1 h3) h4 h5 h6 h7
      · exact absurd (n.sub_qu me w h1 (((hk _ _).1 h3).qu me w) hb) hnq
    · intro s q h1 h2 h3
      exact (hQ _).2 (.inl (n.nxt s q ((hk _ _).1 h1) h2 h3))
  · have hS : ∀ v ∈ S, v.2.stop = e + 1 ∧ v.2.idx ≠ 0 ∧ isBin v.1 = false ∧ Form env.lex v.1 v.2.marker ∧
        ∀ b, v.1 = r0 b → b = e ∧ env.lex[e]? = some 5 := by
      intro v hv
      cases g4 with
      | none => cases hv
      | num h =>
        rw [List.mem_singleton] at hv; subst hv
        refine ⟨rfl, by simp, rfl, .aN, ?_⟩
        intro b hb; simp [aN, r0, initPartial] at hb
      | un h =>
        rw [List.mem_singleton] at hv; subst hv
        refine ⟨rfl, by simp, rfl, .aU, ?_⟩
        intro b hb; simp [aU, r0, initPartial] at hb
      | par h =>
        rw [List.mem_singleton] at hv; subst hv
        refine ⟨rfl, by simp, rfl, .r0, ?_⟩
        intro b hb; exact ⟨(r0_inj hb).symm, h⟩
    have hl : S.length ≤ 1 := by cases g4 <;> simp
    refine n.toStk.swap me w hs g5 ht2 ?_ (fun s e h => .inl ((hk s e).1 h)) (fun v hv => (hS v hv).2.2.2.1) ?_ ?_ ?_ ?_ ?_ ?_ ?_
    · intro m t h
      obtain ⟨i, b⟩ := m
      by_cases h0 : (⟨i, b⟩ : Marker) = ⟨0, e⟩
      · cases h0; rw [n.partE0 e hnq] at h; cases h
      · by_cases h4 : (⟨i, b⟩ : Marker) = ⟨4, e⟩
        · cases h4; rw [hp4] at h; cases h
        · rw [g1, upd_of _ _ h4, upd_of _ _ h0]; exact h
    · intro b k' hv hq
      obtain ⟨rfl, h5⟩ := (hS _ hv).2.2.2.2 b rfl
      rcases (hQ _).1 hq with hq | hq
      · exact hnq (n.par _ hq h5)
      · omega
    · intro v hv
      match S, hl with
      | [], _ => cases hv
      | [x], _ => cases hv
    · refine ⟨[], S, rfl, by simp, ?_, ?_⟩
      · match S, hl with
        | [], _ => exact List.Pairwise.nil
        | [x], _ => exact List.pairwise_singleton _ _
      · intro v hv x hx
        refine .inl ?_
        rw [(hS v hv).1]
        have := (ht1 x hx).le
        have : x.2.stop ≤ k.stop := this
        omega
    · intro v hv hi; exact absurd hi (hS v hv).2.1
    · intro i s q hv; have := (hS _ hv).2.2.1; cases this
    · intro i s q k' hv; have := (hS _ hv).2.2.1; cases this
    · intro i s q k' hv; have := (hS _ hv).2.2.1; cases this

/-- An expression is asked for again. -/
theorem keep_again (me : MEnv env) (h : LInv env st P) (n : Nv env.lex st) {i s q rest}
    (hs : st.stack = (b1 i s q, ⟨i + 1, q, q + 1⟩) :: rest) {fuel} (hi : i ≤ 1) (hl : env.lex[q]? = some (i + 1))
    (hq : Qu st (q + 1)) (hr : addPartial env fuel { st with stack := rest } (b2 i s q) ⟨0, q + 1⟩ = .ok st1) :
    Nv env.lex st1 := by
  have w := h.wf
  have hd : ¬ Dead st (b1 i s q, ⟨i + 1, q, q + 1⟩) := by
    rintro ⟨i', s', q', e', he, _⟩
    exact b1_ne_b2 (congrArg Prod.fst he)
  obtain ⟨ht1, ht2⟩ := n.top hs hd
  have hst : ∀ v ∈ st.stack, v.2.stop ≤ q + 1 := by
    intro v hv
    rw [hs] at hv
    rcases List.mem_cons.1 hv with rfl | hv
    · exact Nat.le_refl _
    · exact (ht1 v hv).le
  have hall : ∀ e, Ex env.lex (q + 1) e → Kn st (q + 1) e := fun e hx => close me h hst hq (Nat.le_refl _) hx
  have hw := w.stk (b1 i s q, ⟨i + 1, q, q + 1⟩) (by rw [hs]; simp)
  have hks : Kn st s q := hw.1.memo ⟨0, s, q⟩ (by simp [b1, extend])
  have hqs : Qu st s := hks.qu me w
  have hop := op_of hi hl
  have hdead : ∀ e, Kn st (q + 1) e → Kn st s e := by
    intro e hk
    have hlt := (hk.ex me w).lt
    rcases (hks.ex me w).cases' with ha | hc
    · obtain ⟨i', t, hi', hl', ha', hm, _, hqt⟩ := n.pred me w hq hop
      have : t = s := ha'.unique' ha (n.beg _ hqt) (n.beg _ hqs)
      subst this
      refine ext_known h hm hk ?_
      intro hin
      have := hst _ hin
      have : e ≤ q + 1 := this
      omega
    · exact n.om s s q e (.inl rfl) hqs hks hc hop ((hks.ex me w).app hop (hk.ex me w)) (by omega)
  obtain ⟨g1, g2, g3, g4⟩ := again_E me (st := { st with stack := rest }) hq hr
  dsimp only at g1 g2 g3 g4
  have hk : ∀ s e, Kn st1 s e ↔ Kn st s e := fun s e => by unfold Kn; rw [g3]
  have hQ : ∀ b, Qu st1 b ↔ Qu st b := fun b => by unfold Qu; rw [g2]
  have hpo : ∀ m, m ≠ ⟨0, q + 1⟩ → st1.partials m = st.partials m := fun m hm => by rw [g1, upd_of _ _ hm]
  have hps : st1.partials ⟨0, q + 1⟩ = st.partials ⟨0, q + 1⟩ ++ [b2 i s q] := by rw [g1, upd_same]
  constructor
  · refine ⟨fun b h => n.beg b ((hQ b).1 h), fun b h => (hQ b).2 (n.qP b (by rw [← g2]; exact h)),
      fun b h h5 => (hQ b).2 (n.par b ((hQ _).1 h) h5), ?_, ?_, ?_, ?_, ?_, ?_⟩
    · intro b hb
      obtain ⟨pre, more, h1, h2, h3⟩ := n.partE b ((hQ b).1 hb)
      by_cases hc : b = q + 1
      · subst hc
        refine ⟨pre, more ++ [b2 i s q], by rw [hps, h1]; simp, h2, .inr fun e he => (hk _ _).2 (hall e he)⟩
      · refine ⟨pre, more, by rw [hpo _ (by simpa using hc)]; exact h1, h2, ?_⟩
        rcases h3 with h3 | h3
        · exact .inl h3
        · exact .inr fun e he => (hk _ _).2 (h3 e he)
    · intro b hb
      have hc : b ≠ q + 1 := by rintro rfl; exact hb ((hQ _).2 hq)
      rw [hpo _ (by simpa using hc)]
      exact n.partE0 b (fun h' => hb ((hQ b).2 h'))
    · intro b
      rw [hpo _ (by simp)]; exact n.partP b
    · intro s q c h1 h2 h3
      have := n.fst s q c ((hk _ _).1 h1) h2 h3
      exact ⟨(hk _ _).2 this.1, (hk _ _).2 this.2⟩
    · intro s s' e' q h1 h2 h3 h4 h5 h6 h7
      exact (hk _ _).2 (n.om s s' e' q h1 ((hQ s).1 h2) ((hk _ _).1 h3) h4 h5 h6 h7)
    · intro s q h1 h2 h3
      exact (hQ _).2 (n.nxt s q ((hk _ _).1 h1) h2 h3)
  · have hS : ∀ v ∈ ((st.markers ⟨0, q + 1⟩).map fun td => (b2 i s q, td.key)).reverse,
        ∃ e, v = (b2 i s q, ⟨0, q + 1, e⟩) ∧ Kn st (q + 1) e := by
      intro v hv
      rw [List.mem_reverse, List.mem_map] at hv
      obtain ⟨d, hd, rfl⟩ := hv
      obtain ⟨h1, h2⟩ := (w.mark ⟨0, q + 1⟩ d.key).1 (List.mem_map_of_mem hd)
      obtain ⟨⟨i', s', j⟩, _, _⟩ := d
      cases h1
      exact ⟨j, rfl, h2⟩
    refine n.toStk.swap me w hs g4 ht2 ?_ (fun s e h => .inl ((hk s e).1 h)) ?_ ?_ ?_ ?_ ?_ ?_ ?_ ?_
    · intro m t hm
      by_cases hc : m = ⟨0, q + 1⟩
      · subst hc; rw [hps]; simp [hm]
      · rw [hpo _ hc]; exact hm
    · intro v hv
      obtain ⟨e, rfl, _⟩ := hS v hv
      exact .b2 hi hl
    · intro b k' hv
      obtain ⟨e, he, _⟩ := hS _ hv
      exact absurd (congrArg Prod.fst he).symm b2_ne_r0
    · intro v hv
      obtain ⟨e, rfl, _⟩ := hS v (List.mem_of_mem_tail hv)
      rfl
    · refine ⟨_, [], (List.append_nil _).symm, ?_, List.Pairwise.nil, by simp⟩
      intro v hv
      obtain ⟨e, rfl, h1⟩ := hS v hv
      exact ⟨i, s, q, e, rfl, (hk _ _).2 (hdead e h1)⟩
    · intro v hv _
      obtain ⟨e, rfl, _⟩ := hS v hv
      show b2 i s q ∈ st1.partials ⟨0, q + 1⟩
      rw [hps]; simp
    · intro i' s' q' hv
      obtain ⟨e, he, _⟩ := hS _ hv
      exact absurd (congrArg Prod.fst he) p_ne_b2
    · intro i' s' q' k' hv
      obtain ⟨e, he, _⟩ := hS _ hv
      exact absurd (congrArg Prod.fst he) b1_ne_b2
    · intro i' s' q' k' hv hc
      obtain ⟨e, he, _⟩ := hS _ hv
      obtain ⟨rfl, rfl, rfl⟩ := b2_inj (congrArg Prod.fst he)
      intro s2 q2 h3 h4 h5
      exact n.sm1 i' s' q' ⟨i' + 1, q', q' + 1⟩ (by rw [hs]; exact List.mem_cons_self) hc s2 q2 h3 ((hk _ _).1 h4) h5

/-- Two operands make an expression that was not known. -/
theorem keep_comp (me : MEnv env) (h : LInv env st P) (n : Nv env.lex st) {i s q e rest}
    (hs : st.stack = (b2 i s q, ⟨0, q + 1, e⟩) :: rest) {fuel} (hi : i ≤ 1) (hl : env.lex[q]? = some (i + 1))
    (hnk : ¬ Kn st s e) (hr : addToMemo fuel { st with stack := rest } (extend (b2 i s q) ⟨0, q + 1, e⟩).td = .ok st1) :
    Atm env.lex s q ∧ Nv env.lex st1 := by
  have w := h.wf
  have hd : ¬ Dead st (b2 i s q, ⟨0, q + 1, e⟩) := by
    rintro ⟨i', s', q', e', he, hk⟩
    obtain ⟨rfl, rfl, rfl⟩ := b2_inj (congrArg Prod.fst he)
    have := congrArg Prod.snd he
    cases this
    exact hnk hk
  obtain ⟨ht1, ht2⟩ := n.top hs hd
  have hlt : ∀ v ∈ rest, v.2.stop < e := fun v hv => (ht1 v hv).lt (fun _ _ h => p_ne_b2 h.symm)
  have hst : ∀ v ∈ st.stack, v.2.stop ≤ e := by
    intro v hv
    rw [hs] at hv
    rcases List.mem_cons.1 hv with rfl | hv
    · exact Nat.le_refl _
    · exact Nat.le_of_lt (hlt v hv)
  have hw := w.stk (b2 i s q, ⟨0, q + 1, e⟩) (by rw [hs]; simp)
  have hks : Kn st s q := hw.1.memo ⟨0, s, q⟩ (by simp [b2, b1, extend])
  have hke : Kn st (q + 1) e := hw.2
  have hqs : Qu st s := hks.qu me w
  have hqq : Qu st (q + 1) := hke.qu me w
  have hop := op_of hi hl
  have hx1 := hks.ex me w
  have hx2 := hke.ex me w
  have hx : Ex env.lex s e := hx1.app hop hx2
  have hb := n.beg _ hqs
  have ha : Atm env.lex s q := by
    rcases hx1.cases' with ha | hc
    · exact ha
    · exact absurd (n.om s s q e (.inl rfl) hqs hks hc hop hx (by have := hx2.lt; omega)) hnk
  have hmem : b2 i s q ∈ st.partials ⟨0, q + 1⟩ := n.wait (b2 i s q, ⟨0, q + 1, e⟩) (by rw [hs]; simp) rfl
  -- the operand on the right and what follows it
  have hatom : Atm env.lex (q + 1) e → Op env.lex e →
      Qu st (e + 1) ∧ ∃ j, b2 j (q + 1) e ∈ st.partials ⟨0, e + 1⟩ := by
    intro _ hoe
    obtain ⟨j, hj, hlj⟩ := hoe.idx
    have := next_item me h hj (n.p_mem hj hqq) hke hlj (by
      intro hin
      rw [hs] at hin
      rcases List.mem_cons.1 hin with hin | hin
      · exact p_ne_b2 (congrArg Prod.fst hin)
      · have := hlt _ hin
        have : e < e := this
        omega) (by
      intro hin
      have := hst _ hin
      have : e + 1 ≤ e := this
      omega)
    exact ⟨this.1, j, this.2⟩
  have hnext : Op env.lex e → Qu st (e + 1) := by
    intro hoe
    rcases hx2.cases' with h2 | h2
    · exact (hatom h2 hoe).1
    · exact n.nxt _ _ hke h2 hoe
  have hright : Op env.lex e → ∀ m, Ex env.lex (q + 1) m → e < m → Kn st (q + 1) m := by
    intro hoe m hm hlm
    rcases hx2.cases' with h2 | h2
    · obtain ⟨hqe, j, hj⟩ := hatom h2 hoe
      have hsh := hx2.shorter hm hlm
      have := close me h (τ := e + 1) (fun v hv => by have := hst v hv; omega) hqe (Nat.le_refl _) hsh.2
      refine ext_known h hj this ?_
      intro hin
      have := hst _ hin
      have : m ≤ e := this
      omega
    · exact n.om _ _ e m (.inl rfl) hqq hke h2 hoe hm hlm
  have hself : Op env.lex e → ∀ m, Ex env.lex s m → e < m → Kn st s m := by
    intro hoe m hm hlm
    have hsh := hx1.shorter hm (by have := hx2.lt; omega)
    refine ext_known h hmem (hright hoe m hsh.2 hlm) ?_
    intro hin
    have := hst _ hin
    have : m ≤ e := this
    omega
  refine ⟨ha, keep_newE me w n hs (td := (extend (b2 i s q) ⟨0, q + 1, e⟩).td) (b := s) (e := e) rfl hnk hx hqs rfl hr hd
    (fun _ _ h => p_ne_b2 h.symm) ?_ ?_ (fun _ => hnext) ?_⟩
  · intro _ c hc
    have := ha.unique hc
    subst this
    exact ⟨hks, hke⟩
  · intro _ hoe s0 m hsub hq0 hm hlm
    exact n.spread me h hst s s0 s (Nat.le_refl _) hqs (hself hoe) hsub (n.beg _ hq0) m hm hlm (by have := hx.lt; omega)
  · intro _ s' q' hsub hk' hc'
    refine Nat.le_of_not_lt fun hlq => hnk ?_
    have hxs : Ex env.lex s q' := by
      rcases hsub with rfl | ⟨r, rfl, h1, h2⟩
      · exact hc'.ex
      · exact h1.app h2 hc'.ex
    have hsh := hxs.shorter hx hlq
    exact n.om s s' q' e hsub hqs hk' hc' hsh.1 hx hlq

/-- Every round keeps the invariant. -/
theorem Nv.step (me : MEnv env) {fuel} {tp k rest} (h : LInv env st P) (n : Nv env.lex st)
    (hs : st.stack = (tp, k) :: rest) (hu : update env fuel fuel { st with stack := rest } tp k = .ok st1) :
    Nv env.lex st1 := by
  have w := h.wf
  cases fuel with
  | zero => cases hu
  | succ f =>
    have hF := n.form (tp, k) (by rw [hs]; simp)
    have hw := w.stk (tp, k) (by rw [hs]; simp)
    have hmemo : (st.memo k).isSome = true := hw.2
    have hsym := memo_sym me w hmemo
    obtain ⟨ki, kb, ke⟩ := k
    dsimp only at hsym
    dsimp only [Key.marker] at hF
    have notDead : (∀ i s q, tp ≠ b2 i s q) → ¬ Dead st (tp, ⟨ki, kb, ke⟩) := by
      rintro hne ⟨i, s, q, e, he, _⟩
      exact hne i s q (congrArg Prod.fst he)
    generalize hm : (⟨ki, kb⟩ : Marker) = m at hF
    cases hF with
    | @p i b hi =>
      replace hm := hm.symm
      injection hm with hm1 hm2
      subst hm1 hm2
      rw [update_next me (.inl rfl) (X := i + 1) (by simp [p, initPartial])] at hu
      exact keep_term me w n hs (not_NT (by omega)) hu (notDead fun _ _ _ => p_ne_b2) (.b1 hi)
        (fun _ => b1_ne_r0) (fun _ _ h => p_ne_b1 h.symm)
        (fun i' s q he hc => by
          obtain ⟨rfl, rfl, rfl⟩ := b1_inj he
          exact n.sm0 _ _ _ (by rw [hs]; exact List.mem_cons_self) hc) (fun _ _ _ => b1_ne_b2)
    | @b1 i s q hi =>
      replace hm := hm.symm
      injection hm with hm1 hm2
      subst hm1 hm2
      rw [sym_t (not_NT (by omega))] at hsym
      obtain ⟨hl, rfl⟩ := hsym
      rw [update_next me (.inl rfl) (X := 0) (by simp [b1, p, initPartial, extend])] at hu
      by_cases hq : Qu st (q + 1)
      · exact keep_again me h n hs hi hl hq hu
      · have hks : Kn st s q := hw.1.memo ⟨0, s, q⟩ (by simp [b1, extend])
        have hop := op_of hi hl
        have ha : Atm env.lex s q := by
          rcases (hks.ex me w).cases' with ha | hc
          · exact ha
          · exact absurd (n.nxt _ _ hks hc hop) hq
        exact keep_first me w n hs rfl hq (.op hi hl ha) (.inr ⟨q, rfl, .inr ⟨hop, s, .one ha⟩⟩)
          (fun b hb h5 => by cases hb; exact absurd h5 hop.not.2.1) (notDead fun _ _ _ => b1_ne_b2) hu
    | @b2 i s q hi hl =>
      replace hm := hm.symm
      injection hm with hm1 hm2
      subst hm1 hm2
      rw [update_last (by simp [b2, b1, p, initPartial, extend])] at hu
      by_cases hk : Kn st s ke
      · obtain ⟨d, hd⟩ := Option.isSome_iff_exists.1 hk
        exact keep_old n hs (td := (extend (b2 i s q) ⟨0, q + 1, ke⟩).td) hd hu
      · exact (keep_comp me h n hs hi hl hk hu).2
    | @aN b =>
      replace hm := hm.symm
      injection hm with hm1 hm2
      subst hm1 hm2
      rw [sym_t (not_NT (by omega))] at hsym
      obtain ⟨hl, rfl⟩ := hsym
      rw [update_last (by simp [aN, initPartial])] at hu
      have ha : Atm env.lex b (b + 1) := .num hl
      cases hk : st.memo ⟨0, b, b + 1⟩ with
      | some d => exact keep_old n hs (td := (extend (aN b) ⟨3, b, b + 1⟩).td) hk hu
      | none =>
        exact keep_newE me w n hs (td := (extend (aN b) ⟨3, b, b + 1⟩).td) (b := b) (e := b + 1) rfl (by unfold Kn; rw [hk]; simp)
          (.one ha) hw.1.queued rfl hu (notDead fun _ _ _ he => by have := congrArg isBin he; cases this)
          (fun _ _ he => by have := congrArg isBin he; cases this)
          (fun hc => absurd hc ha.not_cmp) (fun hc => absurd hc ha.not_cmp) (fun hc => absurd hc ha.not_cmp)
          (fun hc => absurd hc ha.not_cmp)
    | @aU b =>
      replace hm := hm.symm
      injection hm with hm1 hm2
      subst hm1 hm2
      rw [sym_t (not_NT (by omega))] at hsym
      obtain ⟨hl, rfl⟩ := hsym
      rw [update_next me (.inl rfl) (X := 3) (by simp [aU, initPartial])] at hu
      exact keep_term me w n hs (not_NT (by omega)) hu (notDead fun _ _ _ he => by have := congrArg isBin he; cases this)
        (.aU1 hl) (fun _ he => by simp [aU, r0, initPartial, extend] at he)
        (fun _ _ he => by have := congrArg isBin he; cases this)
        (fun _ _ _ he => by have := congrArg isBin he; cases this)
        (fun _ _ _ he => by have := congrArg isBin he; cases this)
    | @aU1 b h1 =>
      replace hm := hm.symm
      injection hm with hm1 hm2
      subst hm1 hm2
      rw [sym_t (not_NT (by omega))] at hsym
      obtain ⟨hl, rfl⟩ := hsym
      rw [update_last (by simp [aU1, aU, initPartial, extend])] at hu
      have ha : Atm env.lex b (b + 2) := .un h1 hl
      cases hk : st.memo ⟨0, b, b + 2⟩ with
      | some d => exact keep_old n hs (td := (extend (aU1 b) ⟨3, b + 1, b + 1 + 1⟩).td) hk hu
      | none =>
        exact keep_newE me w n hs (td := (extend (aU1 b) ⟨3, b + 1, b + 1 + 1⟩).td) (b := b) (e := b + 2) rfl
          (by unfold Kn; rw [hk]; simp)
          (.one ha) hw.1.queued rfl hu (notDead fun _ _ _ he => by have := congrArg isBin he; cases this)
          (fun _ _ he => by have := congrArg isBin he; cases this)
          (fun hc => absurd hc ha.not_cmp) (fun hc => absurd hc ha.not_cmp) (fun hc => absurd hc ha.not_cmp)
          (fun hc => absurd hc ha.not_cmp)
    | @aP b =>
      replace hm := hm.symm
      injection hm with hm1 hm2
      subst hm1 hm2
      rw [sym_P] at hsym
      obtain ⟨h5, e, rfl, hx, h6⟩ := hsym
      rw [update_last (by simp [aP, initPartial])] at hu
      have ha : Atm env.lex b (e + 1) := .par h5 hx h6
      cases hk : st.memo ⟨0, b, e + 1⟩ with
      | some d => exact keep_old n hs (td := (extend (aP b) ⟨4, b, e + 1⟩).td) hk hu
      | none =>
        exact keep_newE me w n hs (td := (extend (aP b) ⟨4, b, e + 1⟩).td) (b := b) (e := e + 1) rfl (by unfold Kn; rw [hk]; simp)
          (.one ha) hw.1.queued rfl hu (notDead fun _ _ _ he => by have := congrArg isBin he; cases this)
          (fun _ _ he => by have := congrArg isBin he; cases this)
          (fun hc => absurd hc ha.not_cmp) (fun hc => absurd hc ha.not_cmp) (fun hc => absurd hc ha.not_cmp)
          (fun hc => absurd hc ha.not_cmp)
    | @r0 b =>
      replace hm := hm.symm
      injection hm with hm1 hm2
      subst hm1 hm2
      rw [sym_t (not_NT (by omega))] at hsym
      obtain ⟨hl, rfl⟩ := hsym
      rw [update_next me (.inr rfl) (X := 0) (by simp [r0, initPartial])] at hu
      have hnq := n.n1 b _ (by rw [hs]; exact List.mem_cons_self)
      refine keep_first me w n hs rfl hnq (.par hl) (.inr ⟨b, rfl, .inl hl⟩) ?_
        (notDead fun _ _ _ he => by have := congrArg isBin he; cases this) hu
      intro b' hb _
      cases hb
      exact n.qP b hw.1.queued
    | @r1 b h5 =>
      replace hm := hm.symm
      injection hm with hm1 hm2
      subst hm1 hm2
      rw [update_next me (.inr rfl) (X := 6) (by simp [r1, r0, initPartial, extend])] at hu
      exact keep_term me w n hs (not_NT (by omega)) hu (notDead fun _ _ _ he => by have := congrArg isBin he; cases this)
        (.r2 h5) (fun _ he => by simp [r1, r0, initPartial, extend] at he)
        (fun _ _ he => by have := congrArg isBin he; cases this)
        (fun _ _ _ he => by have := congrArg isBin he; cases this)
        (fun _ _ _ he => by have := congrArg isBin he; cases this)
    | @r2 b e h5 =>
      replace hm := hm.symm
      injection hm with hm1 hm2
      subst hm1 hm2
      rw [sym_t (not_NT (by omega))] at hsym
      obtain ⟨hl, rfl⟩ := hsym
      rw [update_last (by simp [r2, r1, r0, initPartial, extend])] at hu
      cases hk : st.memo ⟨4, b, e + 1⟩ with
      | some d => exact keep_old n hs (td := (extend (r2 b e) ⟨6, e, e + 1⟩).td) hk hu
      | none =>
        exact keep_newP me w n hs (td := (extend (r2 b e) ⟨6, e, e + 1⟩).td) (b := b) (e := e + 1) rfl hk rfl hu
          (notDead fun _ _ _ he => by have := congrArg isBin he; cases this)
          (fun _ _ he => by have := congrArg isBin he; cases this)

/-- The invariant holds when the main loop begins. -/
theorem Nv.init (me : MEnv env) {fuel d} (hr : addProds env fuel d St.init ⟨0, 0⟩ = .ok st) : Nv env.lex st := by
  obtain ⟨g1, g2, g3, S, g4, g5⟩ := fresh_E me (wf_termOK me (WF_init env)) (by simp [St.init]) (by simp [St.init])
    rfl rfl hr
  have hk : ∀ s q, ¬ Kn st s q := by
    intro s q
    unfold Kn
    rw [g3 _ (.inl rfl)]
    simp [St.init]
  have hQ : ∀ b, Qu st b ↔ b = 0 := by
    intro b
    unfold Qu
    rw [g2 _ (.inl rfl)]
    simp [St.init]
  have hS : ∀ v ∈ S, v.2.stop = 1 ∧ v.2.idx ≠ 0 ∧ isBin v.1 = false ∧ Form env.lex v.1 v.2.marker := by
    intro v hv
    cases g4 with
    | none => cases hv
    | num h =>
      rw [List.mem_singleton] at hv; subst hv
      exact ⟨rfl, by simp, rfl, .aN⟩
    | un h =>
      rw [List.mem_singleton] at hv; subst hv
      exact ⟨rfl, by simp, rfl, .aU⟩
    | par h =>
      rw [List.mem_singleton] at hv; subst hv
      exact ⟨rfl, by simp, rfl, .r0⟩
  have hl : S.length ≤ 1 := by cases g4 <;> simp
  have g5 : st.stack = S := by rw [g5]; simp [St.init]
  constructor
  · refine ⟨fun b h => .inl ((hQ b).1 h), ?_, ?_, ?_, ?_, ?_, fun s e c h => absurd h (hk s e),
      fun s s' e q _ _ h => absurd h (hk s' e), fun s e h => absurd h (hk s e)⟩
    · intro b h
      rw [g2 _ (.inr rfl)] at h
      rcases h with h | h | h
      · cases h
      · cases h
      · cases h; exact (hQ _).2 rfl
    · intro b h
      have := (hQ _).1 h
      omega
    · intro b h
      have := (hQ _).1 h
      subst this
      refine ⟨[], [], ?_, .zero, .inl rfl⟩
      rw [g1, upd_of _ _ (by simp), upd_same]
      rfl
    · intro b h
      have : b ≠ 0 := fun hb => h ((hQ b).2 hb)
      rw [g1, upd_of _ _ (by simp), upd_of _ _ (by simpa using this)]
      rfl
    · intro b
      by_cases hc : b = 0
      · subst hc; rw [g1, upd_same]; exact .inr rfl
      · rw [g1, upd_of _ _ (by simpa using hc), upd_of _ _ (by simp)]; exact .inl rfl
  · refine ⟨?_, ?_, ?_, ⟨[], S, by rw [g5]; rfl, by simp, ?_⟩, ?_, ?_, ?_, ?_⟩
    · intro v hv; rw [g5] at hv; exact (hS v hv).2.2.2
    · intro b k hv h
      have := (hQ _).1 h
      omega
    · intro v hv
      rw [g5] at hv
      match S, hl with
      | [], _ => cases hv
      | [x], _ => cases hv
    · match S, hl with
      | [], _ => exact List.Pairwise.nil
      | [x], _ => exact List.pairwise_singleton _ _
    · intro v hv hi; rw [g5] at hv; exact absurd hi (hS v hv).2.1
    · intro i s q hv; rw [g5] at hv; have := (hS _ hv).2.2.1; cases this
    · intro i s q k' hv; rw [g5] at hv; have := (hS _ hv).2.2.1; cases this
    · intro i s q k' hv; rw [g5] at hv; have := (hS _ hv).2.2.1; cases this

end Verif.PMath
