import Verif.Model.TopdownCount
import Verif.Proofs.TopdownSpec
/- The work of the top-down parser. -/
namespace Verif.Topdown
open Verif.Spec Verif.Spec.Grammar

/-- The result without the count. -/
abbrev forget {A : Type} (o : Out (A × Nat)) : Out A := o.bind fun x => .ok x.1

section
variable {β V : Type} [DecidableEq β] {ev : V} {prods : β → Option (List (List β))} {inp : List (Lexeme β V)}

theorem forget_bind {A B C : Type} {o : Out (A × Nat)} {f : A × Nat → Out (B × Nat)} {g : A → Out B} (h : ∀ x, forget (f x) = g x.1) :
    forget (o.bind f) = (forget o).bind g := by
  cases o with
  | ok x => exact h x
  | panic => rfl
  | fuel => rfl

theorem prodLoopC_forget {rec rec'} (h : ∀ m X p, forget (rec m X p) = rec' m X p) : ∀ (p : List β) (m : Memo β V) (pos : Nat),
    forget (prodLoopC rec m p pos) = prodLoop rec' m p pos
  | [], m, pos => rfl
  | X :: p, m, pos => by
    rw [prodLoopC, prodLoop, ← h m X pos]
    refine forget_bind (C := Unit) fun r => ?_
    obtain ⟨⟨m1, r1⟩, c⟩ := r
    cases r1 with
    | none => rfl
    | some a =>
      simp only
      rw [← prodLoopC_forget h p m1 a.stop]
      refine forget_bind (C := Unit) fun q => ?_
      obtain ⟨⟨m2, _ | ⟨ks, e⟩⟩, c⟩ := q <;> rfl

theorem prodsLoopC_forget {rec rec'} (h : ∀ m X p, forget (rec m X p) = rec' m X p) (len : Nat) (s : β) (pos : Nat) (all : Bool) :
    ∀ (ps : List (List β)) (m : Memo β V), forget (prodsLoopC ev rec len s pos all m ps) = prodsLoop ev rec' len s pos all m ps
  | [], m => rfl
  | p :: ps, m => by
    rw [prodsLoopC, prodsLoop, ← prodLoopC_forget h p m pos]
    refine forget_bind (C := Unit) fun r => ?_
    have rest : ∀ (m1 : Memo β V) (c : Nat), forget ((prodsLoopC ev rec len s pos all m1 ps).bind fun q => .ok (q.1, 1 + c + q.2)) =
        prodsLoop ev rec' len s pos all m1 ps := by
      intro m1 c
      rw [← prodsLoopC_forget h len s pos all ps m1]
      cases prodsLoopC ev rec len s pos all m1 ps <;> rfl
    obtain ⟨⟨m1, _ | ⟨ks, e⟩⟩, c⟩ := r
    · exact rest m1 c
    · simp only
      by_cases hc : (!all || decide (e = len)) = true
      · rw [if_pos hc, if_pos hc]; rfl
      · rw [if_neg hc, if_neg hc]; exact rest m1 c

theorem acceptC_forget : ∀ (n : Nat) (m : Memo β V) (s : β) (pos : Nat) (all : Bool),
    forget (acceptC ev prods inp n m s pos all) = accept ev prods inp n m s pos all
  | 0, _, _, _, _ => rfl
  | n + 1, m, s, pos, all => by
    rw [acceptC, accept]
    cases hm : m (s, pos) with
    | some r => rfl
    | none =>
      simp only
      have : forget (tryAcceptC ev prods inp (fun m X p => acceptC ev prods inp n m X p false) m s pos all) =
          tryAccept ev prods inp (fun m X p => accept ev prods inp n m X p false) m s pos all := by
        unfold tryAcceptC tryAccept
        cases hp : prods s with
        | none =>
          simp only
          cases inp[pos]? with
          | none => rfl
          | some l => simp only; split <;> rfl
        | some ps => exact prodsLoopC_forget (fun m X p => acceptC_forget n m X p false) _ _ _ _ _ _
      rw [← this]
      exact forget_bind (C := Unit) fun _ => rfl

theorem of_forget {A : Type} {o : Out (A × Nat)} {o' : Out A} (h : forget o = o') {x : A} {c : Nat} (e : o = .ok (x, c)) : o' = .ok x := by
  subst e; exact h.symm

/-! ### Heights -/

/-- `Match` with at most `n` nonterminals within each other. -/
inductive MH (g : Grammar β) (ev : V) (inp : List (Lexeme β V)) : Nat → Goal β → Nat → Option (Nat × List (PN β V)) → Prop
  | term {n t i r} : g.Term t → Match g ev inp (.sym t) i r → MH g ev inp n (.sym t) i r
  | nonterm {n A ps i r} : g.prods A = some ps → MH g ev inp n (.alts A ps) i r → MH g ev inp (n + 1) (.sym A) i r
  | alts_nil {n A i} : MH g ev inp n (.alts A []) i none
  | alts_ok {n A p ps i j ks} : MH g ev inp n (.seq p) i (some (j, ks)) →
      MH g ev inp n (.alts A (p :: ps)) i (some (j, [.node ⟨A, ev, -1, 0⟩ ks]))
  | alts_no {n A p ps i r} : MH g ev inp n (.seq p) i none → MH g ev inp n (.alts A ps) i r → MH g ev inp n (.alts A (p :: ps)) i r
  | seq_nil {n i} : MH g ev inp n (.seq []) i (some (i, []))
  | seq_no {n X ss i} : MH g ev inp n (.sym X) i none → MH g ev inp n (.seq (X :: ss)) i none
  | seq_rest_no {n X ss i m ts} : MH g ev inp n (.sym X) i (some (m, ts)) → MH g ev inp n (.seq ss) m none → MH g ev inp n (.seq (X :: ss)) i none
  | seq_cons {n X ss i m ts j ts'} : MH g ev inp n (.sym X) i (some (m, ts)) → MH g ev inp n (.seq ss) m (some (j, ts')) →
      MH g ev inp n (.seq (X :: ss)) i (some (j, ts ++ ts'))

variable {g : Grammar β}

theorem MH.mono {n goal i r} (h : MH g ev inp n goal i r) : ∀ {k}, n ≤ k → MH g ev inp k goal i r := by
  induction h with
  | term h1 h2 => exact fun _ => .term h1 h2
  | nonterm h1 _ ih =>
    intro k hk
    obtain ⟨k, rfl⟩ : ∃ k', k = k' + 1 := ⟨k - 1, by omega⟩
    exact .nonterm h1 (ih (by omega))
  | alts_nil => exact fun _ => .alts_nil
  | alts_ok _ ih => exact fun hk => .alts_ok (ih hk)
  | alts_no _ _ ih1 ih2 => exact fun hk => .alts_no (ih1 hk) (ih2 hk)
  | seq_nil => exact fun _ => .seq_nil
  | seq_no _ ih => exact fun hk => .seq_no (ih hk)
  | seq_rest_no _ _ ih1 ih2 => exact fun hk => .seq_rest_no (ih1 hk) (ih2 hk)
  | seq_cons _ _ ih1 ih2 => exact fun hk => .seq_cons (ih1 hk) (ih2 hk)

theorem MH.match {n goal i r} (h : MH g ev inp n goal i r) : Match g ev inp goal i r := by
  induction h with
  | term _ h => exact h
  | nonterm h1 _ ih => exact .nonterm h1 ih
  | alts_nil => exact .alts_nil
  | alts_ok _ ih => exact .alts_ok ih
  | alts_no _ _ ih1 ih2 => exact .alts_no ih1 ih2
  | seq_nil => exact .seq_nil
  | seq_no _ ih => exact .seq_no ih
  | seq_rest_no _ _ ih1 ih2 => exact .seq_rest_no ih1 ih2
  | seq_cons _ _ ih1 ih2 => exact .seq_cons ih1 ih2

theorem Match.mh {goal i r} (h : Match g ev inp goal i r) : ∃ n, MH g ev inp n goal i r := by
  induction h with
  | term_ok h1 h2 h3 => exact ⟨0, .term h1 (.term_ok h1 h2 h3)⟩
  | term_no h1 h2 => exact ⟨0, .term h1 (.term_no h1 h2)⟩
  | nonterm h1 _ ih => obtain ⟨n, ih⟩ := ih; exact ⟨n + 1, .nonterm h1 ih⟩
  | alts_nil => exact ⟨0, .alts_nil⟩
  | alts_ok _ ih => obtain ⟨n, ih⟩ := ih; exact ⟨n, .alts_ok ih⟩
  | alts_no _ _ ih1 ih2 =>
    obtain ⟨n, ih1⟩ := ih1; obtain ⟨k, ih2⟩ := ih2
    exact ⟨max n k, .alts_no (ih1.mono (by omega)) (ih2.mono (by omega))⟩
  | seq_nil => exact ⟨0, .seq_nil⟩
  | seq_no _ ih => obtain ⟨n, ih⟩ := ih; exact ⟨n, .seq_no ih⟩
  | seq_rest_no _ _ ih1 ih2 =>
    obtain ⟨n, ih1⟩ := ih1; obtain ⟨k, ih2⟩ := ih2
    exact ⟨max n k, .seq_rest_no (ih1.mono (by omega)) (ih2.mono (by omega))⟩
  | seq_cons _ _ ih1 ih2 =>
    obtain ⟨n, ih1⟩ := ih1; obtain ⟨k, ih2⟩ := ih2
    exact ⟨max n k, .seq_cons (ih1.mono (by omega)) (ih2.mono (by omega))⟩

/-! ### The potential -/

/-- What trying all productions counts, without what is in the memo. -/
def workOf (ps : Option (List (List β))) : Nat := ((ps.getD []).map fun p => p.length + 1).sum

/-- The work still to be done for keys not in the memo. -/
def todo (prods : β → Option (List (List β))) (keys : List (β × Nat)) (m : Memo β V) : Nat :=
  (keys.map fun k => if m k = none then workOf (prods k.1) else 0).sum

theorem todo_upd {keys : List (β × Nat)} {m : Memo β V} {k : β × Nat} {r} (hk : k ∈ keys) (hm : m k = none) :
    todo prods keys (upd m k (some r)) + workOf (prods k.1) ≤ todo prods keys m := by
  have le : ∀ keys : List (β × Nat), todo prods keys (upd m k (some r)) ≤ todo prods keys m := by
    intro keys
    induction keys with
    | nil => simp [todo]
    | cons x keys ih =>
      simp only [todo, List.map_cons, List.sum_cons] at ih ⊢
      by_cases e : x = k
      · subst e; rw [upd_same]; simp; omega
      · rw [upd_ne _ _ e]; omega
  induction keys with
  | nil => cases hk
  | cons x keys ih =>
    by_cases e : x = k
    · subst e
      have := le keys
      simp only [todo, List.map_cons, List.sum_cons] at this ⊢
      rw [upd_same]
      simp [hm]
      omega
    · have := ih (by rcases List.mem_cons.1 hk with h | h; exact absurd h.symm e; exact h)
      simp only [todo, List.map_cons, List.sum_cons] at this ⊢
      rw [upd_ne _ _ e]
      omega

/-- What a call does to the memo: keys are added whose matches are no higher than `n`, and the work is paid for by what is no longer to do. -/
structure Paid (g : Grammar β) (ev : V) (inp : List (Lexeme β V)) (keys : List (β × Nat)) (n : Nat) (own : Nat) (m m' : Memo β V) (c : Nat) : Prop where
  new : ∀ k, m k = none → m' k ≠ none → ∃ r, MH g ev inp n (.sym k.1) k.2 r
  work : c + todo g.prods keys m' ≤ own + todo g.prods keys m

theorem Paid.trans {keys : List (β × Nat)} {n a b : Nat} {m1 m2 m3 : Memo β V} {c d : Nat} (h : Paid g ev inp keys n a m1 m2 c)
    (h' : Paid g ev inp keys n b m2 m3 d) : Paid g ev inp keys n (a + b) m1 m3 (c + d) := by
  refine ⟨fun k h1 h3 => ?_, by have := h.work; have := h'.work; omega⟩
  by_cases h2 : m2 k = none
  · exact h'.new k h2 h3
  · exact h.new k h1 h2

theorem Paid.refl {keys : List (β × Nat)} {n : Nat} {m : Memo β V} (a : Nat) : Paid g ev inp keys n a m m a :=
  ⟨fun _ h h' => absurd h h', Nat.le_refl _⟩

theorem Paid.more {keys : List (β × Nat)} {n a b : Nat} {m m' : Memo β V} {c : Nat} (h : Paid g ev inp keys n a m m' c) (hab : a ≤ b) :
    Paid g ev inp keys n b m m' c := ⟨h.new, by have := h.work; omega⟩

/-- Calls of `accept` at height `n` are paid for. -/
def Pays (g : Grammar β) (ev : V) (inp : List (Lexeme β V)) (keys : List (β × Nat)) (n : Nat) : Prop :=
  ∀ f m X i r0 m' r c, MH g ev inp n (.sym X) i r0 → (X, i) ∈ keys → MemoOK g ev inp m →
    acceptC ev g.prods inp f m X i false = .ok ((m', r), c) → Paid g ev inp keys n 1 m m' c

/-- The keys are closed: symbols of productions at all positions of the input. -/
structure Keys (g : Grammar β) (inp : List (Lexeme β V)) (keys : List (β × Nat)) (ok : β → Prop) : Prop where
  all : ∀ X i, ok X → i ≤ inp.length → (X, i) ∈ keys
  closed : ∀ A ps, g.prods A = some ps → ∀ p ∈ ps, ∀ X ∈ p, ok X

variable {keys : List (β × Nat)} {ok : β → Prop}

theorem seq_pays (hK : Keys g inp keys ok) {n : Nat} (hn : Pays g ev inp keys n) (f : Nat) : ∀ (p : List β) (m : Memo β V) (i : Nat) r0 m' r c,
    MH g ev inp n (.seq p) i r0 → (∀ X ∈ p, ok X) → i ≤ inp.length → MemoOK g ev inp m →
    prodLoopC (fun m X p => acceptC ev g.prods inp f m X p false) m p i = .ok ((m', r), c) → Paid g ev inp keys n p.length m m' c
  | [], m, i, r0, m', r, c, _, _, _, _, e => by
    cases e
    exact .refl 0
  | X :: p, m, i, r0, m', r, c, h, hp, hi, hm, e => by
    rw [prodLoopC] at e
    obtain ⟨⟨⟨m1, r1⟩, c1⟩, e1, e⟩ := Out.bind_eq_ok.1 e
    have s1 := accept_sound (g := g) (ev := ev) (inp := inp) f m X i m1 r1 hm (of_forget (acceptC_forget ..) e1)
    have hX : ∃ r, MH g ev inp n (.sym X) i r := by
      cases h with
      | seq_no h => exact ⟨_, h⟩
      | seq_rest_no h _ => exact ⟨_, h⟩
      | seq_cons h _ => exact ⟨_, h⟩
    obtain ⟨rX, hX⟩ := hX
    have p1 := hn f m X i rX m1 r1 c1 hX (hK.all X i (hp X (by simp)) hi) hm e1
    cases r1 with
    | none =>
      cases e
      exact p1.more (by simp)
    | some a =>
      simp only at e
      obtain ⟨⟨⟨m2, r2⟩, c2⟩, e2, e⟩ := Out.bind_eq_ok.1 e
      have hrest : ∃ r, MH g ev inp n (.seq p) a.stop r := by
        cases h with
        | seq_no h => cases Match.det (MH.match h) _ s1.2
        | seq_rest_no h h' => cases Match.det (MH.match h) _ s1.2; exact ⟨_, h'⟩
        | seq_cons h h' => cases Match.det (MH.match h) _ s1.2; exact ⟨_, h'⟩
      obtain ⟨r', hrest⟩ := hrest
      have hle : a.stop ≤ inp.length := by
        rcases Match.bound s1.2 _ _ rfl with h | h <;> omega
      have p2 := seq_pays hK hn f p m1 a.stop r' m2 r2 c2 hrest (fun Y hY => hp Y (by simp [hY])) hle s1.1 e2
      have e : m' = m2 ∧ c = c1 + c2 := by
        cases r2 with
        | none => cases e; exact ⟨rfl, rfl⟩
        | some q => cases e; exact ⟨rfl, rfl⟩
      obtain ⟨rfl, rfl⟩ := e
      exact (p1.trans p2).more (by simp; omega)

theorem alts_pays (hK : Keys g inp keys ok) {n : Nat} (hn : Pays g ev inp keys n) (f : Nat) (A : β) : ∀ (ps : List (List β)) (m : Memo β V) (i : Nat) r0 m' r c,
    MH g ev inp n (.alts A ps) i r0 → (∀ p ∈ ps, ∀ X ∈ p, ok X) → i ≤ inp.length → MemoOK g ev inp m →
    prodsLoopC ev (fun m X p => acceptC ev g.prods inp f m X p false) inp.length A i false m ps = .ok ((m', r), c) →
    Paid g ev inp keys n (workOf (some ps)) m m' c
  | [], m, i, r0, m', r, c, _, _, _, _, e => by
    cases e
    exact .refl 0
  | p :: ps, m, i, r0, m', r, c, h, hp, hi, hm, e => by
    rw [prodsLoopC] at e
    obtain ⟨⟨⟨m1, r1⟩, c1⟩, e1, e⟩ := Out.bind_eq_ok.1 e
    have s1 := prodLoop_sound (g := g) (ev := ev) (inp := inp) (accept_sound f) p m i m1 r1 hm
      (of_forget (prodLoopC_forget (fun m X p => acceptC_forget f m X p false) ..) e1)
    have hX : ∃ r, MH g ev inp n (.seq p) i r := by
      cases h with
      | alts_ok h => exact ⟨_, h⟩
      | alts_no h _ => exact ⟨_, h⟩
    obtain ⟨rX, hX⟩ := hX
    have p1 := seq_pays hK hn f p m i rX m1 r1 c1 hX (hp p (by simp)) hi hm e1
    have one : Paid g ev inp keys n (p.length + 1) m m1 (1 + c1) := ⟨p1.new, by have := p1.work; omega⟩
    have hw : workOf (some (p :: ps)) = p.length + 1 + workOf (some ps) := by simp [workOf]
    cases r1 with
    | some q =>
      simp only [Bool.not_false, Bool.true_or, if_true] at e
      cases e
      exact one.more (by omega)
    | none =>
      simp only at e
      obtain ⟨⟨⟨m2, r2⟩, c2⟩, e2, e⟩ := Out.bind_eq_ok.1 e
      cases e
      have hrest : ∃ r, MH g ev inp n (.alts A ps) i r := by
        cases h with
        | alts_ok h => cases Match.det (MH.match h) _ s1.2
        | alts_no _ h => exact ⟨_, h⟩
      obtain ⟨r', hrest⟩ := hrest
      have p2 := alts_pays hK hn f A ps m1 i r' _ _ c2 hrest (fun q hq => hp q (by simp [hq])) hi s1.1 e2
      rw [hw]
      exact one.trans p2

theorem pays (hK : Keys g inp keys ok) (hk : ∀ k ∈ keys, k.2 ≤ inp.length) : ∀ n, Pays g ev inp keys n := by
  intro n
  induction n using Nat.strongRecOn with
  | ind n ih =>
    intro f m X i r0 m' r c h hX hm e
    cases f with
    | zero => cases e
    | succ f =>
      rw [acceptC] at e
      cases hmk : m (X, i) with
      | some r =>
        rw [hmk] at e
        cases e
        exact .refl 1
      | none =>
        rw [hmk] at e
        simp only at e
        obtain ⟨⟨⟨m1, r1⟩, c1⟩, e1, e⟩ := Out.bind_eq_ok.1 e
        cases e
        -- what the call leaves, up to the entry itself
        have key : m1 (X, i) = none ∧ Paid g ev inp keys n (workOf (g.prods X)) m m1 c1 := by
          unfold tryAcceptC at e1
          cases hp : g.prods X with
          | none =>
            rw [hp] at e1
            have : m1 = m ∧ c1 = 0 := by
              simp only at e1
              split at e1
              · split at e1 <;> (cases e1; exact ⟨rfl, rfl⟩)
              · cases e1; exact ⟨rfl, rfl⟩
            obtain ⟨rfl, rfl⟩ := this
            exact ⟨hmk, .refl 0⟩
          | some ps =>
            rw [hp] at e1
            simp only at e1
            -- the least height
            obtain ⟨k, ⟨r2, hk2⟩, hmin⟩ : ∃ k, (∃ r, MH g ev inp k (.sym X) i r) ∧ ∀ k' < k, ¬ ∃ r, MH g ev inp k' (.sym X) i r := by
              classical
              have hex : ∃ k, ∃ r, MH g ev inp k (.sym X) i r := ⟨n, r0, h⟩
              exact ⟨Nat.find hex, Nat.find_spec hex, fun k' hk' => Nat.find_min hex hk'⟩
            have hkn : k ≤ n := by
              by_contra hlt
              exact hmin n (by omega) ⟨r0, h⟩
            cases hk2 with
            | term ht _ => rw [show g.prods X = none from ht] at hp; cases hp
            | @nonterm k' _ ps' _ _ hps hk2 =>
              rw [hp] at hps
              cases hps
              have hi : i ≤ inp.length := hk _ hX
              have := alts_pays hK (ih k' (by omega)) f X ps m i r2 m1 r1 c1 hk2 (hK.closed X ps hp) hi hm e1
              refine ⟨?_, fun y h1 h2 => ?_, this.work⟩
              · by_contra hne
                exact hmin k' (by omega) (this.new (X, i) hmk hne)
              · obtain ⟨r, hr⟩ := this.new y h1 h2
                exact ⟨r, hr.mono (by omega)⟩
        obtain ⟨k1, k2⟩ := key
        refine ⟨fun y h1 h2 => ?_, ?_⟩
        · by_cases ey : y = (X, i)
          · subst ey; exact ⟨r0, h⟩
          · rw [upd_ne _ _ ey] at h2
            exact k2.new y h1 h2
        · have t := todo_upd (prods := g.prods) (r := r1) hX k1
          have := k2.work
          simp only at t
          show 1 + c1 + todo g.prods keys (upd m1 (X, i) (some r1)) ≤ 1 + todo g.prods keys m
          omega

/-- All productions of the start symbol. -/
theorem all_pays (hK : Keys g inp keys ok) (hk : ∀ k ∈ keys, k.2 ≤ inp.length) (f : Nat) (A : β) : ∀ (ps : List (List β)) (m : Memo β V) m' r c,
    (∀ p ∈ ps, ∀ X ∈ p, ok X) → MemoOK g ev inp m →
    prodsLoopC ev (fun m X p => acceptC ev g.prods inp f m X p false) inp.length A 0 true m ps = .ok ((m', r), c) →
    c + todo g.prods keys m' ≤ workOf (some ps) + todo g.prods keys m
  | [], m, m', r, c, _, _, e => by
    cases e
    simp
  | p :: ps, m, m', r, c, hp, hm, e => by
    rw [prodsLoopC] at e
    obtain ⟨⟨⟨m1, r1⟩, c1⟩, e1, e⟩ := Out.bind_eq_ok.1 e
    have s1 := prodLoop_sound (g := g) (ev := ev) (inp := inp) (accept_sound f) p m 0 m1 r1 hm
      (of_forget (prodLoopC_forget (fun m X p => acceptC_forget f m X p false) ..) e1)
    obtain ⟨n, hn⟩ := Match.mh s1.2
    have p1 := (seq_pays hK (pays hK hk n) f p m 0 _ m1 r1 c1 hn (hp p (by simp)) (by omega) hm e1).work
    have hw : workOf (some (p :: ps)) = p.length + 1 + workOf (some ps) := by simp [workOf]
    have rest : ∀ {m2 r2 c2}, prodsLoopC ev (fun m X p => acceptC ev g.prods inp f m X p false) inp.length A 0 true m1 ps = .ok ((m2, r2), c2) →
        1 + c1 + c2 + todo g.prods keys m2 ≤ workOf (some (p :: ps)) + todo g.prods keys m := by
      intro m2 r2 c2 e2
      have := all_pays hK hk f A ps m1 m2 r2 c2 (fun q hq => hp q (by simp [hq])) s1.1 e2
      omega
    cases r1 with
    | none =>
      simp only at e
      obtain ⟨⟨⟨m2, r2⟩, c2⟩, e2, e⟩ := Out.bind_eq_ok.1 e
      cases e
      exact rest e2
    | some q =>
      simp only at e
      split at e
      · cases e
        omega
      · obtain ⟨⟨⟨m2, r2⟩, c2⟩, e2, e⟩ := Out.bind_eq_ok.1 e
        cases e
        exact rest e2

end

end Verif.Topdown
