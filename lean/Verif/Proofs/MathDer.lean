import Verif.Proofs.MathStep
/-
What the grammar of examples/parlexmath derives, and what the engine knows for certain while its stack is not empty.
-/
namespace Verif.PMath
open Verif Verif.Packrat Verif.Spec Verif.Spec.Grammar

/-! ### Derivations -/

/-- What a symbol stands for. -/
def Sym (lex : List Nat) (X i j : Nat) : Prop :=
  if X = 0 then Ex lex i j
  else if X = 4 then lex[i]? = some 5 ∧ ∃ e, j = e + 1 ∧ Ex lex (i + 1) e ∧ lex[e]? = some 6
  else lex[i]? = some X ∧ j = i + 1

/-- What a list of symbols stands for. -/
def Den (lex : List Nat) : List Nat → Nat → Nat → Prop
  | [], i, j => i = j
  | X :: ss, i, j => ∃ m, Sym lex X i m ∧ Den lex ss m j

theorem rule_cases {env A k q} (me : MEnv env) (h : env.gram.Rule A k q) :
    (A = 0 ∧ ((k ≤ 1 ∧ q = [0, k + 1, 0]) ∨ (k = 2 ∧ q = [3]) ∨ (k = 3 ∧ q = [1, 3]) ∨ (k = 4 ∧ q = [4]))) ∨
      (A = 4 ∧ k = 0 ∧ q = [5, 0, 6]) := by
  obtain ⟨ps, h1, h2⟩ := h
  have h1 : env.prods A = some ps := h1
  rw [me.prods] at h1
  by_cases hn : NT A
  · rcases hn with rfl | rfl
    · cases h1
      refine .inl ⟨rfl, ?_⟩
      match k, h2 with
      | 0, h => cases h; exact .inl ⟨by omega, rfl⟩
      | 1, h => cases h; exact .inl ⟨by omega, rfl⟩
      | 2, h => cases h; exact .inr (.inl ⟨rfl, rfl⟩)
      | 3, h => cases h; exact .inr (.inr (.inl ⟨rfl, rfl⟩))
      | 4, h => cases h; exact .inr (.inr (.inr ⟨rfl, rfl⟩))
      | n + 5, h => cases h
    · cases h1
      refine .inr ⟨rfl, ?_⟩
      match k, h2 with
      | 0, h => cases h; exact ⟨rfl, rfl⟩
      | n + 1, h => cases h
  · rw [mprods_none hn] at h1; cases h1

theorem rule_bin {env i} (me : MEnv env) (hi : i ≤ 1) : env.gram.Rule 0 i [0, i + 1, 0] := by
  refine ⟨[[0, 1, 0], [0, 2, 0], [3], [1, 3], [4]], ?_, ?_⟩
  · show env.prods 0 = _
    rw [me.prods]; rfl
  · obtain rfl | rfl : i = 0 ∨ i = 1 := by omega
    · rfl
    · rfl

theorem rule_E {env k q} (me : MEnv env) (h : [[0, 1, 0], [0, 2, 0], [3], [1, 3], [4]][k]? = some q) : env.gram.Rule 0 k q := by
  refine ⟨_, ?_, h⟩
  show env.prods 0 = _
  rw [me.prods]; rfl

theorem rule_P {env} (me : MEnv env) : env.gram.Rule 4 0 [5, 0, 6] := by
  refine ⟨[[5, 0, 6]], ?_, rfl⟩
  show env.prods 4 = _
  rw [me.prods]; rfl

theorem sym_t {lex : List Nat} {t i j} (ht : ¬ NT t) : Sym lex t i j ↔ lex[i]? = some t ∧ j = i + 1 := by
  unfold Sym
  rw [if_neg (fun h => ht (.inl h)), if_neg (fun h => ht (.inr h))]

theorem sym_E {lex : List Nat} {i j} : Sym lex 0 i j ↔ Ex lex i j := by simp [Sym]

theorem sym_P {lex : List Nat} {i j} :
    Sym lex 4 i j ↔ lex[i]? = some 5 ∧ ∃ e, j = e + 1 ∧ Ex lex (i + 1) e ∧ lex[e]? = some 6 := by simp [Sym]

theorem op_of {lex : List Nat} {i q} (hi : i ≤ 1) (h : lex[q]? = some (i + 1)) : Op lex q := by
  obtain rfl | rfl : i = 0 ∨ i = 1 := by omega
  · exact .inl h
  · exact .inr h

theorem Op.idx {lex : List Nat} {q} (h : Op lex q) : ∃ i, i ≤ 1 ∧ lex[q]? = some (i + 1) := by
  rcases h with h | h
  · exact ⟨0, by omega, h⟩
  · exact ⟨1, by omega, h⟩

theorem den_of {env ss i j} (me : MEnv env) (h : env.gram.Der env.lex ss i j) : Den env.lex ss i j := by
  induction h with
  | nil => rfl
  | @term t ss i j ht hl _ ih =>
    refine ⟨i + 1, ?_, ih⟩
    have ht : env.prods t = none := ht
    rw [me.prods] at ht
    rw [sym_t (by rintro (rfl | rfl) <;> cases ht)]
    exact ⟨hl, rfl⟩
  | @nonterm A k q ss i m j hr _ _ ih1 ih2 =>
    refine ⟨m, ?_, ih2⟩
    rcases rule_cases me hr with ⟨rfl, h⟩ | ⟨rfl, _, rfl⟩
    · rw [sym_E]
      rcases h with ⟨hk, rfl⟩ | ⟨_, rfl⟩ | ⟨_, rfl⟩ | ⟨_, rfl⟩
      · obtain ⟨a, h1, b, h2, c, h3, h4⟩ := ih1
        cases h4
        rw [sym_E] at h1 h3
        rw [sym_t (not_NT (by omega))] at h2
        obtain ⟨h2, rfl⟩ := h2
        exact h1.app (op_of hk h2) h3
      · obtain ⟨a, h1, h2⟩ := ih1
        cases h2
        rw [sym_t (not_NT (by omega))] at h1
        obtain ⟨h1, rfl⟩ := h1
        exact .one (.num h1)
      · obtain ⟨a, h1, b, h2, h3⟩ := ih1
        cases h3
        rw [sym_t (not_NT (by omega))] at h1 h2
        obtain ⟨h1, rfl⟩ := h1
        obtain ⟨h2, rfl⟩ := h2
        exact .one (.un h1 h2)
      · obtain ⟨a, h1, h2⟩ := ih1
        cases h2
        rw [sym_P] at h1
        obtain ⟨h1, e, rfl, h2, h3⟩ := h1
        exact .one (.par h1 h2 h3)
    · rw [sym_P]
      obtain ⟨a, h1, b, h2, c, h3, h4⟩ := ih1
      cases h4
      rw [sym_E] at h2
      rw [sym_t (not_NT (by omega))] at h1 h3
      obtain ⟨h1, rfl⟩ := h1
      obtain ⟨h3, rfl⟩ := h3
      exact ⟨h1, b, rfl, h2, h3⟩

theorem termOf {env t} (me : MEnv env) (ht : ¬ NT t) : env.gram.Term t := by
  show env.prods t = none
  rw [me.prods, mprods_none ht]

mutual
theorem Atm.der {env b e} (me : MEnv env) : Atm env.lex b e → env.gram.Der env.lex [0] b e
  | .num h => .nonterm (rule_E (k := 2) me rfl) (.term (termOf me (not_NT (by omega))) h .nil) .nil
  | .un h h' => .nonterm (rule_E (k := 3) me rfl) (.term (termOf me (not_NT (by omega))) h
      (.term (termOf me (not_NT (by omega))) h' .nil)) .nil
  | .par h x h' => .nonterm (rule_E (k := 4) me rfl) (.nonterm (rule_P me)
      (.term (termOf me (not_NT (by omega))) h
        ((x.der me).append (.term (termOf me (not_NT (by omega))) h' .nil))) .nil) .nil
theorem Ex.der {env b e} (me : MEnv env) : Ex env.lex b e → env.gram.Der env.lex [0] b e
  | .one h => h.der me
  | @Ex.more _ _ a _ h o x => by
    obtain ⟨i, hi, hl⟩ := o.idx
    exact .nonterm (rule_bin me hi) ((h.der me).append
      (.term (termOf me (not_NT (by omega))) hl (x.der me))) .nil
end

theorem der_E {env b e} (me : MEnv env) : env.gram.Der env.lex [0] b e ↔ Ex env.lex b e := by
  constructor
  · intro h
    obtain ⟨m, h1, h2⟩ := den_of me h
    cases h2
    exact sym_E.1 h1
  · exact fun h => h.der me

theorem sym_lt {lex : List Nat} {X i j} (h : Sym lex X i j) : i < j := by
  unfold Sym at h
  split at h
  · exact h.lt
  · split at h
    · obtain ⟨_, e, rfl, h, _⟩ := h; have := h.lt; omega
    · omega

theorem der_lt {env A i m} (me : MEnv env) (h : env.gram.Der env.lex [A] i m) : i < m := by
  obtain ⟨x, h1, h2⟩ := den_of me h
  cases h2
  exact sym_lt h1

/-! ### What is known -/

/-- An expression is in the memo. -/
def Kn (st : St) (s e : Nat) : Prop := (st.memo ⟨0, s, e⟩).isSome = true

/-- An expression was asked for. -/
def Qu (st : St) (b : Nat) : Prop := st.queued ⟨0, b⟩ = true

theorem Kn.ex {env st s e} (me : MEnv env) (h : WF env st) (hk : Kn st s e) : Ex env.lex s e :=
  (der_E me).1 (h.sound me.ok hk)

theorem memo_sym {env st} {k : Key} (me : MEnv env) (h : WF env st) (hk : (st.memo k).isSome = true) :
    Sym env.lex k.idx k.start k.stop := by
  obtain ⟨m, h1, h2⟩ := den_of me (h.sound me.ok hk)
  cases h2
  exact h1

theorem Kn.qu {env st s e} (me : MEnv env) (h : WF env st) (hk : Kn st s e) : Qu st s := by
  obtain ⟨d, hd⟩ := Option.isSome_iff_exists.1 hk
  have hkey := h.key _ _ hd
  rcases h.ok _ _ hd with ⟨h1, _⟩ | ⟨q, _, _, _, hq, _⟩
  · rw [hkey, me.prods] at h1; cases h1
  · rw [hkey] at hq; exact hq

/-- Whatever an item far enough to the right can still become is known. -/
theorem known_aux {env} (me : MEnv env) {st P} {τ : Nat} (h : LInv env st P) (hs : ∀ u ∈ st.stack, u.2.stop ≤ τ)
    {ss i j} (hd : env.gram.Der env.lex ss i j) :
    ∀ tp X rest, tp.prod.drop tp.td.children.length = ss → ss = X :: rest → τ ≤ i →
      Item env st P tp ⟨X, i⟩ → (st.memo ⟨tp.td.key.idx, tp.td.key.start, j⟩).isSome = true := by
  have e := me.ok
  have stepEff : ∀ (tp : Partial) (X : Nat) (rest : List Nat) (k : Key) (j : Nat),
      tp.prod.drop tp.td.children.length = X :: rest → P (tp, k) →
      (∀ tp' X' rest', tp'.prod.drop tp'.td.children.length = rest → rest = X' :: rest' →
        Item env st P tp' ⟨X', k.stop⟩ → (st.memo ⟨tp'.td.key.idx, tp'.td.key.start, j⟩).isSome = true) →
      (rest = [] → j = k.stop) → (st.memo ⟨tp.td.key.idx, tp.td.key.start, j⟩).isSome = true := by
    intro tp X rest k j hdrop hP ih hend
    have heff := h.c2 tp k hP
    have hdrop' : tp.prod.drop (tp.td.children.length + 1) = rest := by
      rw [← List.drop_drop, hdrop]; rfl
    unfold Eff at heff
    split at heff
    · rename_i hl
      have hr : rest = [] := by rw [← hdrop', hl]; simp
      obtain ⟨d, ed, _⟩ := heff
      rw [hend hr]
      have ed : st.memo ⟨tp.td.key.idx, tp.td.key.start, k.stop⟩ = some d := ed
      rw [ed]; rfl
    · obtain ⟨X', hX', hi⟩ := heff
      obtain ⟨hlt, hXe⟩ := List.getElem?_eq_some_iff.1 hX'
      have hr : rest = X' :: tp.prod.drop (tp.td.children.length + 1 + 1) := by
        rw [← hdrop', List.drop_eq_getElem_cons hlt, hXe]
      have := ih (extend tp k) X' _ (by simpa [extend] using hdrop') hr hi
      simpa [extend] using this
  induction hd with
  | nil => intro tp X rest _ h2; cases h2
  | @term t ss i j ht hl hd' ih =>
    intro tp X rest hdrop h2 hτ hi
    cases h2
    have hn : env.nonterms t = false := by
      have ht : env.prods t = none := ht
      rw [e.nt, ht]; rfl
    have h3 := hi.2
    unfold Item2 at h3
    rw [if_neg (by simp [hn])] at h3
    rcases h3 hl with h4 | h4
    · have := hs _ h4
      have : i + 1 ≤ τ := this
      omega
    · refine stepEff tp t ss _ j hdrop h4 ?_ ?_
      · intro tp' X' rest' h5 h6 h7
        exact ih tp' X' rest' h5 h6 (by omega) h7
      · intro he; subst he; cases hd'; rfl
  | @nonterm A k q ss i m j hr hd1 hd2 ih1 ih2 =>
    intro tp X rest hdrop h2 hτ hi
    cases h2
    have hn : env.nonterms A = true := by
      obtain ⟨ps, hps, _⟩ := hr
      have hps : env.prods A = some ps := hps
      rw [e.nt, hps]; rfl
    have h3 := hi.2
    unfold Item2 at h3
    rw [if_pos hn] at h3
    have hlt : i < m := der_lt me (.nonterm hr hd1 .nil)
    have hmemo : (st.memo ⟨A, i, m⟩).isSome = true := by
      have hp := h.c3 ⟨A, i⟩ hi.1 (by simp) k q hr
      cases q with
      | nil => cases hd1; omega
      | cons Y q => exact ih1 _ Y q (by simp [initPartial]) rfl hτ hp
    rcases h.c1 _ tp h3 ⟨A, i, m⟩ rfl hmemo with h4 | h4
    · have := hs _ h4
      have : m ≤ τ := this
      omega
    · refine stepEff tp A ss _ j hdrop h4 ?_ ?_
      · intro tp' X' rest' h5 h6 h7
        exact ih2 tp' X' rest' h5 h6 (by have := hd1.le; show τ ≤ m; omega) h7
      · intro he; subst he; cases hd2; rfl

/-- All expressions that begin to the right of the stack are known. -/
theorem close {env} (me : MEnv env) {st P} {τ : Nat} (h : LInv env st P) (hs : ∀ u ∈ st.stack, u.2.stop ≤ τ)
    {b e} (hq : Qu st b) (hb : τ ≤ b) (hx : Ex env.lex b e) : Kn st b e := by
  have hd := hx.der me
  cases hd with
  | term ht _ _ =>
    have ht : env.prods 0 = none := ht
    rw [me.prods] at ht; cases ht
  | @nonterm _ k q _ _ m _ hr hd1 hd2 =>
    cases hd2
    have hp := h.c3 ⟨0, b⟩ hq (by simp) k q hr
    cases q with
    | nil => cases hd1; have := hx.lt; omega
    | cons Y q => exact known_aux me h hs hd1 _ Y q (by simp [initPartial]) rfl hb hp

/-! ### What processed items led to -/

/-- A partial that waits for its last operand gets it. -/
theorem ext_known {env} {st P} (h : LInv env st P) {i s q m} (hp : b2 i s q ∈ st.partials ⟨0, q + 1⟩) (hk : Kn st (q + 1) m)
    (hs : (b2 i s q, (⟨0, q + 1, m⟩ : Key)) ∉ st.stack) : Kn st s m := by
  rcases h.c1 _ _ hp ⟨0, q + 1, m⟩ rfl hk with h1 | h1
  · exact absurd h1 hs
  · have := h.c2 _ _ h1
    unfold Eff at this
    rw [if_pos (by simp [b2, b1, p, initPartial, extend])] at this
    obtain ⟨d, hd, _⟩ := this
    have hd : st.memo ⟨0, s, m⟩ = some d := hd
    unfold Kn; rw [hd]; rfl

/-- After an expression that is followed by an operator the next operand is asked for. -/
theorem next_item {env} (me : MEnv env) {st P} (h : LInv env st P) {i s q} (hi : i ≤ 1)
    (hp : p i s ∈ st.partials ⟨0, s⟩) (hk : Kn st s q) (hl : env.lex[q]? = some (i + 1))
    (hs : (p i s, (⟨0, s, q⟩ : Key)) ∉ st.stack) (hs1 : (b1 i s q, (⟨i + 1, q, q + 1⟩ : Key)) ∉ st.stack) :
    Qu st (q + 1) ∧ b2 i s q ∈ st.partials ⟨0, q + 1⟩ := by
  rcases h.c1 _ _ hp ⟨0, s, q⟩ rfl hk with h1 | h1
  · exact absurd h1 hs
  · have := h.c2 _ _ h1
    unfold Eff at this
    rw [if_neg (by simp [p, initPartial])] at this
    obtain ⟨X, hX, hit⟩ := this
    have : X = i + 1 := by simpa [p, initPartial] using hX.symm
    subst this
    have h2 := hit.2
    unfold Item2 at h2
    have hn : env.nonterms (i + 1) = false := by rw [me.nonterms, mprods_none (not_NT (by omega))]; rfl
    rw [if_neg (by simp [hn])] at h2
    rcases h2 hl with h3 | h3
    · exact absurd h3 hs1
    · have := h.c2 _ _ h3
      unfold Eff at this
      rw [if_neg (by simp [p, initPartial, extend])] at this
      obtain ⟨X, hX, hit⟩ := this
      have : X = 0 := by simpa [p, initPartial, extend] using hX.symm
      subst this
      refine ⟨hit.1, ?_⟩
      have h4 := hit.2
      unfold Item2 at h4
      rw [if_pos (by show env.nonterms 0 = true; rw [me.nonterms]; rfl)] at h4
      exact h4

end Verif.PMath
