import Verif.Proofs.MathDer
/-
The order in which the packrat engine finds the expressions of examples/parlexmath: an invariant of its main loop.
-/
namespace Verif.PMath
open Verif Verif.Packrat Verif.Spec Verif.Spec.Grammar

/-- The partial that first asked for an expression. -/
inductive Pre (lex : List Nat) : Nat → List Partial → Prop
  | zero : Pre lex 0 []
  | op {i s q} : i ≤ 1 → lex[q]? = some (i + 1) → Atm lex s q → Pre lex (q + 1) [b2 i s q]
  | par {b} : lex[b]? = some 5 → Pre lex (b + 1) [r1 b]

/-- `s'` is `s` or follows an operator of the expression at `s`. -/
def Sub (lex : List Nat) (s s' : Nat) : Prop := s' = s ∨ ∃ r, s' = r + 1 ∧ Ex lex s r ∧ Op lex r

/-- No compound expression at `s` or later is known that ends before `q`. -/
def NoSmall (lex : List Nat) (st : St) (s q : Nat) : Prop :=
  ∀ s' q', Sub lex s s' → Kn st s' q' → Cmp lex s' q' → q ≤ q'

/-- An item that can only offer another reading of what is known. -/
def Dead (st : St) (u : Partial × Key) : Prop := ∃ i s q e, u = (b2 i s q, ⟨0, q + 1, e⟩) ∧ Kn st s e

/-- The order of the stack. -/
def R (u v : Partial × Key) : Prop := v.2.stop < u.2.stop ∨ (v.2.stop = u.2.stop ∧ ∃ i b, u.1 = p i b)

/-- The invariant: what was asked for and what is known. -/
structure Stat (lex : List Nat) (st : St) : Prop where
  beg : ∀ b, Qu st b → Beg lex b
  qP : ∀ b, st.queued ⟨4, b⟩ = true → Qu st b
  par : ∀ b, Qu st (b + 1) → lex[b]? = some 5 → Qu st b
  partE : ∀ b, Qu st b → ∃ pre more, st.partials ⟨0, b⟩ = pre ++ p 0 b :: p 1 b :: more ∧ Pre lex b pre ∧
    (more = [] ∨ ∀ e, Ex lex b e → Kn st b e)
  partE0 : ∀ b, ¬ Qu st b → st.partials ⟨0, b⟩ = []
  partP : ∀ b, st.partials ⟨4, b⟩ = [] ∨ st.partials ⟨4, b⟩ = [aP b]
  fst : ∀ s e c, Kn st s e → Cmp lex s e → Atm lex s c → Kn st s c ∧ Kn st (c + 1) e
  om : ∀ s s' e q, Sub lex s s' → Qu st s → Kn st s' e → Cmp lex s' e → Op lex e → Ex lex s q → e < q → Kn st s q
  nxt : ∀ s e, Kn st s e → Cmp lex s e → Op lex e → Qu st (e + 1)

/-- The invariant: the stack. -/
structure Stk (lex : List Nat) (st : St) : Prop where
  form : ∀ u ∈ st.stack, Form lex u.1 u.2.marker
  n1 : ∀ b k, (r0 b, k) ∈ st.stack → ¬ Qu st (b + 1)
  tail : ∀ u ∈ st.stack.tail, u.2.idx = 0
  shape : ∃ D L, st.stack = D ++ L ∧ (∀ u ∈ D, Dead st u) ∧ L.Pairwise R
  wait : ∀ u ∈ st.stack, u.2.idx = 0 → u.1 ∈ st.partials u.2.marker
  sm0 : ∀ i s q, (p i s, ⟨0, s, q⟩) ∈ st.stack → Cmp lex s q → NoSmall lex st s q
  sm1 : ∀ i s q k, (b1 i s q, k) ∈ st.stack → Cmp lex s q → NoSmall lex st s q
  sm2 : ∀ i s q k, (b2 i s q, k) ∈ st.stack → Cmp lex s q → NoSmall lex st s q

/-- The invariant. -/
structure Nv (lex : List Nat) (st : St) : Prop extends Stat lex st, Stk lex st

/-! ### Partials are different -/

theorem p_inj {i b i' b'} (h : p i b = p i' b') : i = i' ∧ b = b' := by
  simp [p, initPartial] at h; exact ⟨h.2, h.1⟩

theorem b2_inj {i s q i' s' q'} (h : b2 i s q = b2 i' s' q') : i = i' ∧ s = s' ∧ q = q' := by
  simp [b2, b1, p, initPartial, extend] at h; omega

theorem b1_inj {i s q i' s' q'} (h : b1 i s q = b1 i' s' q') : i = i' ∧ s = s' ∧ q = q' := by
  simp [b1, p, initPartial, extend] at h; omega

theorem r0_inj {b b'} (h : r0 b = r0 b') : b = b' := by
  simp [r0, initPartial] at h; exact h

theorem p_ne_b1 {i b i' s q} : p i b ≠ b1 i' s q := by simp [b1, p, initPartial, extend]
theorem p_ne_b2 {i b i' s q} : p i b ≠ b2 i' s q := by simp [b2, b1, p, initPartial, extend]
theorem b1_ne_b2 {i b j i' s q} : b1 i b j ≠ b2 i' s q := by simp [b2, b1, p, initPartial, extend]
theorem p_ne_r0 {i b b'} : p i b ≠ r0 b' := by simp [r0, p, initPartial]
theorem b1_ne_r0 {i s q b'} : b1 i s q ≠ r0 b' := by simp [r0, p, b1, initPartial, extend]
theorem b2_ne_r0 {i s q b'} : b2 i s q ≠ r0 b' := by simp [r0, p, b1, b2, initPartial, extend]

/-- A partial for two operands. -/
def isBin (tp : Partial) : Bool := tp.prod.length == 3 && tp.td.key.idx == 0

theorem p_bin {i b} : isBin (p i b) = true := rfl
theorem b1_bin {i s q} : isBin (b1 i s q) = true := rfl
theorem b2_bin {i s q} : isBin (b2 i s q) = true := rfl
theorem aN_bin {b} : isBin (aN b) = false := rfl
theorem aU_bin {b} : isBin (aU b) = false := rfl
theorem aU1_bin {b} : isBin (aU1 b) = false := rfl
theorem aP_bin {b} : isBin (aP b) = false := rfl
theorem r0_bin {b} : isBin (r0 b) = false := rfl
theorem r1_bin {b} : isBin (r1 b) = false := rfl
theorem r2_bin {b e} : isBin (r2 b e) = false := rfl

theorem form_r0 {lex : List Nat} {b m} (h : Form lex (r0 b) m) : m = ⟨5, b⟩ := by
  generalize ht : r0 b = tp at h
  cases h with
  | r0 => rw [r0_inj ht]
  | p => exact absurd ht.symm p_ne_r0
  | b1 => exact absurd ht.symm b1_ne_r0
  | b2 => exact absurd ht.symm b2_ne_r0
  | aN => simp [r0, aN, initPartial] at ht
  | aU => simp [r0, aU, initPartial] at ht
  | aU1 => simp [r0, aU, aU1, initPartial, extend] at ht
  | aP => simp [r0, aP, initPartial] at ht
  | r1 => simp [r0, r1, initPartial, extend] at ht
  | r2 => simp [r0, r1, r2, initPartial, extend] at ht

theorem form_b1 {lex : List Nat} {i s q m} (h : Form lex (b1 i s q) m) : m = ⟨i + 1, q⟩ ∧ i ≤ 1 := by
  generalize ht : b1 i s q = tp at h
  have hb : isBin tp = true := by rw [← ht]; rfl
  cases h with
  | p => exact absurd ht.symm p_ne_b1
  | b1 hi => obtain ⟨rfl, rfl, rfl⟩ := b1_inj ht; exact ⟨rfl, hi⟩
  | b2 => exact absurd ht b1_ne_b2
  | aN => cases hb
  | aU => cases hb
  | aU1 => cases hb
  | aP => cases hb
  | r0 => cases hb
  | r1 => cases hb
  | r2 => cases hb

theorem form_b2 {lex : List Nat} {i s q m} (h : Form lex (b2 i s q) m) :
    m = ⟨0, q + 1⟩ ∧ i ≤ 1 ∧ lex[q]? = some (i + 1) := by
  generalize ht : b2 i s q = tp at h
  have hb : isBin tp = true := by rw [← ht]; rfl
  cases h with
  | p => exact absurd ht.symm p_ne_b2
  | b1 hi => exact absurd ht.symm b1_ne_b2
  | b2 hi hl => obtain ⟨rfl, rfl, rfl⟩ := b2_inj ht; exact ⟨rfl, hi, hl⟩
  | aN => cases hb
  | aU => cases hb
  | aU1 => cases hb
  | aP => cases hb
  | r0 => cases hb
  | r1 => cases hb
  | r2 => cases hb

/-! ### Consequences -/

variable {env : Env} {st : St} {P : Partial × Key → Prop}

theorem Nv.p_mem (n : Nv env.lex st) {i b} (hi : i ≤ 1) (hq : Qu st b) : p i b ∈ st.partials ⟨0, b⟩ := by
  obtain ⟨pre, more, h, _⟩ := n.partE b hq
  rw [h]
  obtain rfl | rfl : i = 0 ∨ i = 1 := by omega
  · simp
  · simp

/-- What is asked for after an operator was asked for by the operand before it. -/
theorem Nv.pred (me : MEnv env) (w : WF env st) (n : Nv env.lex st) {r} (hq : Qu st (r + 1)) (ho : Op env.lex r) :
    ∃ i t, i ≤ 1 ∧ env.lex[r]? = some (i + 1) ∧ Atm env.lex t r ∧ b2 i t r ∈ st.partials ⟨0, r + 1⟩ ∧ Kn st t r ∧ Qu st t := by
  obtain ⟨pre, more, h, hp, _⟩ := n.partE _ hq
  cases hp with
  | @op i s q hi hl ha =>
    have hm : b2 i s r ∈ st.partials ⟨0, r + 1⟩ := by rw [h]; simp
    have hk : Kn st s r := (w.part _ _ hm).1.memo ⟨0, s, r⟩ (by simp [b2, b1, extend])
    exact ⟨i, s, hi, hl, ha, hm, hk, hk.qu me w⟩
  | par h5 => exact absurd h5 ho.not.2.1

/-- Where the operand before an operator may begin. -/
theorem last_cases {lex : List Nat} {s r t} (h : Ex lex s r) (hb : Beg lex s) (ha : Atm lex t r) (ht : Beg lex t) :
    t = s ∨ ∃ r', t = r' + 1 ∧ Ex lex s r' ∧ Op lex r' := by
  rcases h.cases' with h | h
  · exact .inl (ha.unique' h ht hb)
  · obtain ⟨r', h1, h2, h3⟩ := h.last_atom
    have hb' : Beg lex (r' + 1) := .inr ⟨r', rfl, .inr ⟨h2, s, h1⟩⟩
    exact .inr ⟨r', ha.unique' h3 ht hb', h1, h2⟩

theorem Nv.back (me : MEnv env) (w : WF env st) (n : Nv env.lex st) :
    ∀ k r s, r ≤ k → Qu st (r + 1) → Op env.lex r → Ex env.lex s r → Beg env.lex s → Qu st s := by
  intro k
  induction k with
  | zero => intro r s hk _ _ h; have := h.lt; omega
  | succ k ih =>
    intro r s hk hq ho hx hb
    obtain ⟨i, t, hi, hl, ha, hm, hkn, hqt⟩ := n.pred me w hq ho
    rcases last_cases hx hb ha (n.beg _ hqt) with rfl | ⟨r', rfl, h1, h2⟩
    · exact hqt
    · have := ha.lt
      exact ih r' s (by omega) hqt h2 h1 hb

theorem Nv.sub_qu (me : MEnv env) (w : WF env st) (n : Nv env.lex st) {s s'} (h : Sub env.lex s s') (hq : Qu st s')
    (hb : Beg env.lex s) : Qu st s := by
  rcases h with rfl | ⟨r, rfl, h1, h2⟩
  · exact hq
  · exact n.back me w r r s (Nat.le_refl _) hq h2 h1 hb

/-- What is known about the ends of the operand carries over to all that it is the last of. -/
theorem Nv.spread (me : MEnv env) (h : LInv env st P) (n : Nv env.lex st) {e : Nat} (hs : ∀ u ∈ st.stack, u.2.stop ≤ e) :
    ∀ k s s', s' ≤ k → Qu st s' → (∀ q, Ex env.lex s' q → e < q → Kn st s' q) → Sub env.lex s s' → Beg env.lex s →
      ∀ q, Ex env.lex s q → e < q → s' ≤ e → Kn st s q := by
  intro k
  induction k with
  | zero =>
    intro s s' hk hq hall hsub hb q hx hlt _
    rcases hsub with rfl | ⟨r, rfl, _⟩
    · exact hall q hx hlt
    · omega
  | succ k ih =>
    intro s s' hk hq hall hsub hb q hx hlt hle
    rcases hsub with rfl | ⟨r, rfl, h1, h2⟩
    · exact hall q hx hlt
    · obtain ⟨i, t, hi, hl, ha, hm, hkn, hqt⟩ := n.pred me h.wf hq h2
      have hall' : ∀ q, Ex env.lex t q → e < q → Kn st t q := by
        intro q hx hlt
        have hsh := (Ex.one ha).shorter hx (by omega)
        refine ext_known h hm (hall q hsh.2 hlt) ?_
        intro hin
        have := hs _ hin
        have : q ≤ e := this
        omega
      have := ha.lt
      refine ih s t (by omega) hqt hall' ?_ hb q hx hlt (by omega)
      rcases last_cases h1 hb ha (n.beg _ hqt) with h3 | h3
      · exact .inl h3
      · exact .inr h3

/-! ### The top of the stack -/

theorem Nv.top (n : Nv env.lex st) {u rest} (hs : st.stack = u :: rest) (hd : ¬ Dead st u) :
    (∀ v ∈ rest, R u v) ∧ rest.Pairwise R := by
  obtain ⟨D, L, h1, h2, h3⟩ := n.shape
  cases D with
  | nil =>
    rw [List.nil_append] at h1
    rw [← h1, hs] at h3
    exact List.pairwise_cons.1 h3
  | cons d D =>
    rw [hs] at h1
    cases h1
    exact absurd (h2 u (by simp)) hd

theorem R.le {u v} (h : R u v) : v.2.stop ≤ u.2.stop := by
  rcases h with h | h
  · omega
  · omega

theorem R.lt {u v} (h : R u v) (hu : ∀ i b, u.1 ≠ p i b) : v.2.stop < u.2.stop := by
  rcases h with h | ⟨_, i, b, h⟩
  · exact h
  · exact absurd h (hu i b)

/-! ### Keeping the invariant -/

/-- Nothing new is known. -/
theorem Stat.congr {lex : List Nat} {st st1 : St} (n : Stat lex st) (hk : ∀ s e, Kn st1 s e ↔ Kn st s e)
    (hq : ∀ m : Marker, NT m.idx → st1.queued m = st.queued m) (hp : st1.partials = st.partials) : Stat lex st1 := by
  have hQ : ∀ b, Qu st1 b ↔ Qu st b := fun b => by unfold Qu; rw [hq _ (.inl rfl)]
  refine ⟨fun b h => n.beg b ((hQ b).1 h), fun b h => (hQ b).2 (n.qP b (by rw [← hq _ (.inr rfl)]; exact h)),
    fun b h h5 => (hQ b).2 (n.par b ((hQ _).1 h) h5), ?_, fun b h => by rw [hp]; exact n.partE0 b (fun h' => h ((hQ b).2 h')),
    fun b => by rw [hp]; exact n.partP b, ?_, ?_, ?_⟩
  · intro b h
    obtain ⟨pre, more, h1, h2, h3⟩ := n.partE b ((hQ b).1 h)
    refine ⟨pre, more, by rw [hp]; exact h1, h2, ?_⟩
    rcases h3 with h3 | h3
    · exact .inl h3
    · exact .inr fun e he => (hk _ _).2 (h3 e he)
  · intro s e c h1 h2 h3
    have := n.fst s e c ((hk _ _).1 h1) h2 h3
    exact ⟨(hk _ _).2 this.1, (hk _ _).2 this.2⟩
  · intro s s' e q h1 h2 h3 h4 h5 h6 h7
    exact (hk _ _).2 (n.om s s' e q h1 ((hQ s).1 h2) ((hk _ _).1 h3) h4 h5 h6 h7)
  · intro s e h1 h2 h3
    exact (hQ _).2 (n.nxt s e ((hk _ _).1 h1) h2 h3)

/-- The top of the stack is replaced. -/
theorem Stk.swap (me : MEnv env) {st1 : St} (w : WF env st) (n : Stk env.lex st) {u S rest} (hs : st.stack = u :: rest)
    (hs1 : st1.stack = S ++ rest) (hrest : rest.Pairwise R) (hp : ∀ m tp, tp ∈ st.partials m → tp ∈ st1.partials m)
    (hnew : ∀ s e, Kn st1 s e → Kn st s e ∨ ¬ Cmp env.lex s e ∨ ∀ v ∈ rest, v.2.stop < e)
    (hF : ∀ v ∈ S, Form env.lex v.1 v.2.marker) (hn1 : ∀ b k, (r0 b, k) ∈ S → ¬ Qu st1 (b + 1))
    (htail : ∀ v ∈ S.tail, v.2.idx = 0)
    (hshape : ∃ D L, S = D ++ L ∧ (∀ v ∈ D, Dead st1 v) ∧ L.Pairwise R ∧ ∀ v ∈ L, ∀ x ∈ rest, R v x)
    (hwait : ∀ v ∈ S, v.2.idx = 0 → v.1 ∈ st1.partials v.2.marker)
    (h0 : ∀ i s q, (p i s, ⟨0, s, q⟩) ∈ S → Cmp env.lex s q → NoSmall env.lex st1 s q)
    (h1 : ∀ i s q k, (b1 i s q, k) ∈ S → Cmp env.lex s q → NoSmall env.lex st1 s q)
    (h2 : ∀ i s q k, (b2 i s q, k) ∈ S → Cmp env.lex s q → NoSmall env.lex st1 s q) : Stk env.lex st1 := by
  have hr0 : ∀ v ∈ rest, v.2.idx = 0 := fun v hv => n.tail v (by rw [hs]; exact hv)
  have hrm : ∀ v ∈ rest, v ∈ st.stack := fun v hv => by rw [hs]; exact List.mem_cons_of_mem _ hv
  refine ⟨?_, ?_, ?_, ?_, ?_, ?_, ?_, ?_⟩
  · intro v hv
    rw [hs1] at hv
    rcases List.mem_append.1 hv with hv | hv
    · exact hF v hv
    · exact n.form v (hrm v hv)
  · intro b k hv
    rw [hs1] at hv
    rcases List.mem_append.1 hv with hv | hv
    · exact hn1 b k hv
    · have e1 := form_r0 (n.form _ (hrm _ hv))
      have e2 := hr0 _ hv
      have e3 : k.idx = 5 := congrArg Marker.idx e1
      have e2 : k.idx = 0 := e2
      omega
  · intro v hv
    rw [hs1] at hv
    cases S with
    | nil => exact hr0 v (List.mem_of_mem_tail hv)
    | cons x S =>
      simp only [List.cons_append, List.tail_cons] at hv
      rcases List.mem_append.1 hv with hv | hv
      · exact htail v hv
      · exact hr0 v hv
  · obtain ⟨D, L, e1, e2, e3, e4⟩ := hshape
    refine ⟨D, L ++ rest, by rw [hs1, e1, List.append_assoc], e2, ?_⟩
    exact List.pairwise_append.2 ⟨e3, hrest, e4⟩
  · intro v hv h
    rw [hs1] at hv
    rcases List.mem_append.1 hv with hv | hv
    · exact hwait v hv h
    · exact hp _ _ (n.wait v (hrm v hv) h)
  · intro i s q hv hc
    rw [hs1] at hv
    rcases List.mem_append.1 hv with hv | hv
    · exact h0 i s q hv hc
    · intro s' q' h3 h4 h5
      rcases hnew s' q' h4 with h6 | h6 | h6
      · exact n.sm0 i s q (hrm _ hv) hc s' q' h3 h6 h5
      · exact absurd h5 h6
      · have := h6 _ hv
        have : q < q' := this
        omega
  · intro i s q k hv hc
    rw [hs1] at hv
    rcases List.mem_append.1 hv with hv | hv
    · exact h1 i s q k hv hc
    · have e1 := (form_b1 (n.form _ (hrm _ hv))).1
      have e2 := hr0 _ hv
      have e3 : k.idx = i + 1 := congrArg Marker.idx e1
      have e2 : k.idx = 0 := e2
      omega
  · intro i s q k hv hc
    rw [hs1] at hv
    rcases List.mem_append.1 hv with hv | hv
    · exact h2 i s q k hv hc
    · have e1 := (form_b2 (n.form _ (hrm _ hv))).1
      have e3 : k.start = q + 1 := congrArg Marker.start e1
      have sp := sym_lt (memo_sym me w (w.stk _ (hrm _ hv)).2)
      have sp : k.start < k.stop := sp
      intro s' q' h3 h4 h5
      rcases hnew s' q' h4 with h6 | h6 | h6
      · exact n.sm2 i s q k (hrm _ hv) hc s' q' h3 h6 h5
      · exact absurd h5 h6
      · have := h6 _ hv
        have : k.stop < q' := this
        omega

/-- The top of the stack is removed. -/
theorem Stk.pop {lex : List Nat} {st1 : St} (n : Stk lex st) {u rest} (hs : st.stack = u :: rest)
    (hs1 : st1.stack = rest) (hp : st1.partials = st.partials) (hk : ∀ s e, Kn st1 s e ↔ Kn st s e)
    (hq : ∀ b, Qu st1 b ↔ Qu st b) : Stk lex st1 := by
  have hrm : ∀ v ∈ rest, v ∈ st.stack := fun v hv => by rw [hs]; exact List.mem_cons_of_mem _ hv
  have hsm : ∀ s q, NoSmall lex st s q → NoSmall lex st1 s q := fun s q h s' q' h1 h2 h3 => h s' q' h1 ((hk _ _).1 h2) h3
  refine ⟨?_, ?_, ?_, ?_, ?_, ?_, ?_, ?_⟩
  · intro v hv; rw [hs1] at hv; exact n.form v (hrm v hv)
  · intro b k hv; rw [hs1] at hv; rw [hq]; exact n.n1 b k (hrm _ hv)
  · intro v hv; rw [hs1] at hv; exact n.tail v (by rw [hs]; exact List.mem_of_mem_tail hv)
  · obtain ⟨D, L, e1, e2, e3⟩ := n.shape
    rw [hs1]
    have hd : ∀ v, Dead st v → Dead st1 v := fun v ⟨i, s, q, e, h1, h2⟩ => ⟨i, s, q, e, h1, (hk _ _).2 h2⟩
    cases D with
    | nil =>
      rw [hs, List.nil_append] at e1
      rw [← e1] at e3
      exact ⟨[], rest, rfl, by simp, (List.pairwise_cons.1 e3).2⟩
    | cons d D =>
      rw [hs] at e1
      cases e1
      exact ⟨D, L, rfl, fun v hv => hd v (e2 v (by simp [hv])), e3⟩
  · intro v hv h; rw [hs1] at hv; rw [hp]; exact n.wait v (hrm v hv) h
  · intro i s q hv hc; rw [hs1] at hv; exact hsm _ _ (n.sm0 i s q (hrm _ hv) hc)
  · intro i s q k hv hc; rw [hs1] at hv; exact hsm _ _ (n.sm1 i s q k (hrm _ hv) hc)
  · intro i s q k hv hc; rw [hs1] at hv; exact hsm _ _ (n.sm2 i s q k (hrm _ hv) hc)

end Verif.PMath
