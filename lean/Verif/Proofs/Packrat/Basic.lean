import Verif.Proofs.Packrat.Code
import Verif.Spec.Settled
import Verif.Proofs.CFG
import Mathlib.Logic.Relation
import Mathlib.Data.Finset.Prod
import Mathlib.Data.Finset.Card
import Mathlib.Data.Finset.Range
/-
Invariants of the packrat engine and the lemmas about its read-only recursions
(comparePriority, createsCircularDep).
-/
namespace Verif.Packrat
open Verif.Spec Relation

/-- The grammar seen by the engine. -/
def Env.gram (env : Env) : Grammar Nat := ⟨[], env.prods⟩

/-- Hypotheses on the engine's environment: `nonterms` agrees with the grammar, nonterminals are
finitely many, and no lexeme kind is a nonterminal. -/
structure EnvOK (env : Env) (nts : Finset Nat) : Prop where
  nt : ∀ i, env.nonterms i = (env.prods i).isSome
  fin : ∀ i, (env.prods i).isSome → i ∈ nts
  disj : ∀ k ∈ env.lex, env.prods k = none

/-- `Chain cs p i j`: keys `cs` carry the symbols `p` and cover `i .. j` contiguously. -/
inductive Chain : List Key → List Nat → Nat → Nat → Prop
  | nil {i} : Chain [] [] i i
  | cons {c cs p j} : Chain cs p c.stop j → Chain (c :: cs) (c.idx :: p) c.start j

theorem Chain.snoc {cs p i j} (h : Chain cs p i j) (c : Key) (hc : c.start = j) :
    Chain (cs ++ [c]) (p ++ [c.idx]) i c.stop := by
  induction h with
  | nil => subst hc; exact .cons .nil
  | cons _ ih => exact .cons (ih hc)

theorem Chain.length {cs p i j} (h : Chain cs p i j) : cs.length = p.length := by
  induction h with
  | nil => rfl
  | cons _ ih => simp [ih]

/-- Shape of a memo entry. -/
def DefOK (env : Env) (st : St) (d : Def) : Prop :=
  (env.prods d.key.idx = none ∧ env.lex[d.key.start]? = some d.key.idx ∧
    d.key.stop = d.key.start + 1 ∧ d.children = [] ∧ d.priority = 0) ∨
  (∃ p, env.gram.Rule d.key.idx d.priority p ∧ Chain d.children p d.key.start d.key.stop ∧
    (∀ c ∈ d.children, (st.memo c).isSome) ∧ st.queued d.key.marker = true ∧
    d.key.start ≤ d.key.stop ∧ d.key.stop ≤ env.lex.length)

/-- Shape of a partial waiting for marker `m`. -/
structure PartialOK (env : Env) (st : St) (tp : Partial) (m : Marker) : Prop where
  rule : env.gram.Rule tp.td.key.idx tp.td.priority tp.prod
  chain : Chain tp.td.children (tp.prod.take tp.td.children.length) tp.td.key.start m.start
  next : tp.prod[tp.td.children.length]? = some m.idx
  memo : ∀ c ∈ tp.td.children, (st.memo c).isSome
  queued : st.queued tp.td.key.marker = true
  le1 : tp.td.key.start ≤ m.start
  le2 : m.start ≤ env.lex.length

/-- The engine's state invariant. -/
structure WF (env : Env) (st : St) : Prop where
  key : ∀ k d, st.memo k = some d → d.key = k
  ok : ∀ k d, st.memo k = some d → DefOK env st d
  mark : ∀ m k, k ∈ (st.markers m).map (·.key) ↔ k.marker = m ∧ (st.memo k).isSome
  nd : ∀ m, ((st.markers m).map (·.key)).Nodup
  acyc : ∀ k, ¬ TransGen (Child st.memo) k k
  part : ∀ m tp, tp ∈ st.partials m → PartialOK env st tp m ∧ env.nonterms m.idx = true
  stk : ∀ u ∈ st.stack, PartialOK env st u.1 u.2.marker ∧ (st.memo u.2).isSome

/-- The word of a key. -/
def Env.word (env : Env) (k : Key) : List Nat := Grammar.slice env.lex k.start k.stop

/-- Keys as symbols with words. -/
def Env.pairs (env : Env) (ks : List Key) : List (Nat × List Nat) := ks.map fun c => (c.idx, env.word c)

/-- A definition is better than all others of its key. -/
def Settles (env : Env) (d : Def) : Prop :=
  ∃ n, ∀ k b, env.gram.Reading d.key.idx k b (env.word d.key) → (k, b) ≠ (d.priority, env.pairs d.children) →
    Grammar.Better (env.gram.Prefers n) d.priority (env.pairs d.children) k b

/-- Information only grows, priorities only improve; what is better than all others is kept. -/
structure Le (env : Env) (st st' : St) : Prop where
  memo : ∀ k d, st.memo k = some d → ∃ d', st'.memo k = some d' ∧ d'.priority ≤ d.priority
  keep : ∀ k d, st.memo k = some d → Settles env d → st'.memo k = some d
  partials : ∀ m tp, tp ∈ st.partials m → tp ∈ st'.partials m
  queued : ∀ m, st.queued m = true → st'.queued m = true
  stack : ∀ u ∈ st.stack, u ∈ st'.stack
  better : Improves st.memo st'.memo

theorem Le.refl {env : Env} (st : St) : Le env st st :=
  ⟨fun _ d h => ⟨d, h, Nat.le_refl _⟩, fun _ _ h _ => h, fun _ _ h => h, fun _ h => h, fun _ h => h, .refl _⟩

theorem Le.trans {env : Env} {a b c : St} (h1 : Le env a b) (h2 : Le env b c) : Le env a c := by
  refine ⟨?_, fun k d h s => h2.keep k d (h1.keep k d h s) s, fun m tp h => h2.partials _ _ (h1.partials _ _ h),
    fun m h => h2.queued _ (h1.queued _ h), fun u h => h2.stack _ (h1.stack _ h), h1.better.trans h2.better⟩
  intro k d h
  obtain ⟨d1, e1, l1⟩ := h1.memo k d h
  obtain ⟨d2, e2, l2⟩ := h2.memo k d1 e1
  exact ⟨d2, e2, by omega⟩

theorem Le.isSome {env : Env} {a b : St} (h : Le env a b) {k} (hk : (a.memo k).isSome) : (b.memo k).isSome := by
  obtain ⟨d, e⟩ := Option.isSome_iff_exists.1 hk
  obtain ⟨d', e', _⟩ := h.memo k d e
  simp [e']

theorem PartialOK.mono {env st st' tp m} (h : PartialOK env st tp m) (l : Le env st st') :
    PartialOK env st' tp m :=
  ⟨h.rule, h.chain, h.next, fun c hc => l.isSome (h.memo c hc), l.queued _ h.queued, h.le1, h.le2⟩

theorem DefOK.mono {env st st' d} (h : DefOK env st d) (l : Le env st st') : DefOK env st' d := by
  rcases h with h | ⟨p, h1, h2, h3, h4, h5⟩
  · exact .inl h
  · exact .inr ⟨p, h1, h2, fun c hc => l.isSome (h3 c hc), l.queued _ h4, h5⟩

theorem DefOK.span {env st d} (h : DefOK env st d) :
    d.key.start ≤ d.key.stop ∧ d.key.stop ≤ env.lex.length := by
  rcases h with ⟨_, h2, h3, _⟩ | ⟨p, _, _, _, _, h5⟩
  · have := (List.getElem?_eq_some_iff.1 h2).1
    omega
  · exact h5

theorem WF.span {env st} (h : WF env st) {k} (hk : (st.memo k).isSome) :
    k.start ≤ k.stop ∧ k.stop ≤ env.lex.length := by
  obtain ⟨d, e⟩ := Option.isSome_iff_exists.1 hk
  have := (h.ok k d e).span
  rwa [h.key k d e] at this

/-- All keys that can be in the memo. -/
def allKeys (env : Env) (nts : Finset Nat) : Finset (Nat × Nat × Nat) :=
  (nts ∪ env.lex.toFinset) ×ˢ (Finset.range (env.lex.length + 1) ×ˢ Finset.range (env.lex.length + 1))

def Key.tup (k : Key) : Nat × Nat × Nat := (k.idx, k.start, k.stop)

theorem Key.tup_inj {a b : Key} (h : a.tup = b.tup) : a = b := by
  cases a; cases b; simp [Key.tup] at h; simp [h]

theorem WF.mem_allKeys {env nts st} (e : EnvOK env nts) (h : WF env st) {k} (hk : (st.memo k).isSome) :
    k.tup ∈ allKeys env nts := by
  have sp := h.span hk
  obtain ⟨d, ed⟩ := Option.isSome_iff_exists.1 hk
  have hkey := h.key k d ed
  subst hkey
  simp only [allKeys, Key.tup, Finset.mem_product, Finset.mem_union, List.mem_toFinset,
    Finset.mem_range]
  refine ⟨?_, by omega, by omega⟩
  rcases h.ok _ d ed with ⟨h1, h2, h3, _⟩ | ⟨p, ⟨ps, h1, _⟩, _⟩
  · exact .inr (List.mem_of_getElem? h2)
  · refine .inl (e.fin _ ?_)
    have : env.prods d.key.idx = some ps := h1
    simp [this]

/-- The memo graph has a rank bounded by the number of possible keys. -/
theorem WF.exists_rank {env nts st} (e : EnvOK env nts) (h : WF env st) :
    ∃ r : Key → Nat, (∀ k, r k ≤ (allKeys env nts).card) ∧
      ∀ a b, Child st.memo a b → r b < r a := by
  classical
  refine ⟨fun k => ((allKeys env nts).filter fun t =>
    TransGen (Child st.memo) k ⟨t.1, t.2.1, t.2.2⟩).card, ?_, ?_⟩
  · intro k; exact Finset.card_filter_le _ _
  · intro a b hab
    apply Finset.card_lt_card
    rw [Finset.ssubset_iff_of_subset]
    · refine ⟨b.tup, ?_, ?_⟩
      · simp only [Finset.mem_filter]
        refine ⟨?_, TransGen.single hab⟩
        obtain ⟨d, e1, hb⟩ := hab
        have := h.ok a d e1
        rcases this with ⟨_, _, _, h4, _⟩ | ⟨p, _, _, h3, _⟩
        · simp [h4] at hb
        · exact h.mem_allKeys e (h3 b hb)
      · simp only [Finset.mem_filter, not_and]
        intro _
        exact h.acyc b
    · intro t ht
      simp only [Finset.mem_filter] at ht ⊢
      exact ⟨ht.1, TransGen.head hab ht.2⟩

theorem WF.get {env st} (_h : WF env st) {k d} (e : st.memo k = some d) : st.get k = d := by
  simp [St.get, e]

/-- Children of a well formed memo entry or candidate are in the memo. -/
theorem DefOK.kids {env st d} (h : DefOK env st d) : ∀ c ∈ d.children, (st.memo c).isSome := by
  rcases h with ⟨_, _, _, h4, _⟩ | ⟨p, _, _, h3, _⟩
  · simp [h4]
  · exact h3

theorem Chain.map_idx {cs p i j} (h : Chain cs p i j) : cs.map (·.idx) = p := by
  induction h with
  | nil => rfl
  | cons _ ih => simp [ih]

theorem Chain.same_idx {cs p i j cs' i' j'} (h : Chain cs p i j) (h' : Chain cs' p i' j') :
    List.Forall₂ (fun a b : Key => a.idx = b.idx) cs cs' := by
  have e : cs.map (·.idx) = cs'.map (·.idx) := h.map_idx.trans h'.map_idx.symm
  clear h h'
  induction cs generalizing cs' with
  | nil => cases cs' with
    | nil => exact .nil
    | cons => simp at e
  | cons c cs ih => cases cs' with
    | nil => simp at e
    | cons c' cs' =>
      simp only [List.map_cons, List.cons.injEq] at e
      exact .cons e.1 (ih e.2)

/-- Same symbol and same priority: the children carry the same symbols. -/
theorem DefOK.same_idx {env st a b} (ha : DefOK env st a) (hb : DefOK env st b)
    (hi : a.key.idx = b.key.idx) (hp : a.priority = b.priority) :
    List.Forall₂ (fun a b : Key => a.idx = b.idx) a.children b.children := by
  rcases ha with ⟨h1, _, _, h4, _⟩ | ⟨p, ⟨ps, h1, h2⟩, h3, _⟩ <;>
  rcases hb with ⟨h1', _, _, h4', _⟩ | ⟨p', ⟨ps', h1', h2'⟩, h3', _⟩
  · rw [h4, h4']; exact .nil
  · have h1' : env.prods b.key.idx = some ps' := h1'
    rw [hi, h1'] at h1; simp at h1
  · have h1 : env.prods a.key.idx = some ps := h1
    rw [hi, h1'] at h1; simp at h1
  · have h1 : env.prods a.key.idx = some ps := h1
    have h1' : env.prods b.key.idx = some ps' := h1'
    rw [hi, h1'] at h1
    simp only [Option.some.injEq] at h1
    subst h1
    rw [hp, h2'] at h2
    simp only [Option.some.injEq] at h2
    subst h2
    exact h3.same_idx h3'

/-- `comparePriority` returns without panicking, and its sign bounds the priorities. -/
theorem comparePriority_ok {env st} (h : WF env st) (r : Key → Nat)
    (hr : ∀ a b, Child st.memo a b → r b < r a) :
    ∀ (f : Nat) (a b : Def), DefOK env st a → DefOK env st b → a.key.idx = b.key.idx →
      (∀ c ∈ a.children, r c < f) →
      ∃ c, comparePriority st.get (f + 1) a b = .ok c ∧ (c = 1 → a.priority ≤ b.priority) ∧
        (c ≠ 1 → b.priority ≤ a.priority) := by
  intro f
  induction f with
  | zero =>
    intro a b ha hb hi hc
    unfold comparePriority
    by_cases hp : a.priority = b.priority
    · rw [if_neg (by simpa using hp)]
      have : a.children = [] := by
        cases hk : a.children with
        | nil => rfl
        | cons c cs => exact absurd (hc c (by simp [hk])) (by omega)
      rw [this]
      exact ⟨0, by simp [compareKids], by simp, by simp [hp]⟩
    · rw [if_pos (by simpa using hp)]
      split
      · exact ⟨1, rfl, by omega, by simp⟩
      · exact ⟨-1, rfl, by simp, by omega⟩
  | succ f ih =>
    intro a b ha hb hi hc
    unfold comparePriority
    by_cases hp : a.priority = b.priority
    · rw [if_neg (by simpa using hp)]
      have same := ha.same_idx hb hi hp
      have ka := ha.kids
      have kb := hb.kids
      suffices hs : ∀ ks1 ks2 : List Key, List.Forall₂ (fun a b : Key => a.idx = b.idx) ks1 ks2 →
          (∀ c ∈ ks1, (st.memo c).isSome) → (∀ c ∈ ks2, (st.memo c).isSome) →
          (∀ c ∈ ks1, r c < f + 1) →
          ∃ c, compareKids (comparePriority st.get (f + 1)) st.get ks1 ks2 = .ok c by
        obtain ⟨c, e⟩ := hs _ _ same ka kb hc
        exact ⟨c, e, by omega, by omega⟩
      intro ks1 ks2 hf
      induction hf with
      | nil => intro _ _ _; exact ⟨0, rfl⟩
      | @cons k1 k2 ks1 ks2 hk _ ihk =>
        intro m1 m2 hr'
        unfold compareKids
        obtain ⟨c', e'⟩ := ihk (fun c hc => m1 c (by simp [hc])) (fun c hc => m2 c (by simp [hc]))
          (fun c hc => hr' c (by simp [hc]))
        split
        · exact ⟨c', e'⟩
        · obtain ⟨d1, e1⟩ := Option.isSome_iff_exists.1 (m1 k1 (by simp))
          obtain ⟨d2, e2⟩ := Option.isSome_iff_exists.1 (m2 k2 (by simp))
          have o1 := h.ok k1 d1 e1
          have o2 := h.ok k2 d2 e2
          obtain ⟨c, e, _⟩ := ih d1 d2 o1 o2 (by rw [h.key _ _ e1, h.key _ _ e2, hk])
            (fun c hc => by
              have := hr k1 c ⟨d1, e1, hc⟩
              have := hr' k1 (by simp)
              omega)
          rw [h.get e1, h.get e2, e]
          simp only [Out.bind_ok]
          split
          · exact ⟨c, rfl⟩
          · exact ⟨c', e'⟩
    · rw [if_pos (by simpa using hp)]
      split
      · exact ⟨1, rfl, by omega, by simp⟩
      · exact ⟨-1, rfl, by simp, by omega⟩

/-- `createsCircularDep` returns, and decides whether `root` is reachable from the children. -/
theorem circ_ok {env st} (h : WF env st) (root : Key) (r : Key → Nat)
    (hr : ∀ a b, Child st.memo a b → r b < r a) :
    ∀ (f : Nat) (a : Def), (∀ c ∈ a.children, (st.memo c).isSome) → (∀ c ∈ a.children, r c < f) →
      ∃ b, createsCircularDep st.get root (f + 1) a = .ok b ∧
        (b = true ↔ ∃ c ∈ a.children, ReflTransGen (Child st.memo) c root) := by
  intro f
  induction f with
  | zero =>
    intro a _ hc
    have : a.children = [] := by
      cases hk : a.children with
      | nil => rfl
      | cons c cs => exact absurd (hc c (by simp [hk])) (by omega)
    unfold createsCircularDep
    rw [this]
    exact ⟨false, rfl, by simp⟩
  | succ f ih =>
    intro a ha hc
    unfold createsCircularDep
    revert ha hc
    generalize a.children = ks
    intro ha hc
    induction ks with
    | nil => exact ⟨false, rfl, by simp⟩
    | cons k ks ihk =>
      unfold circKids
      split
      · rename_i hk
        subst hk
        exact ⟨true, rfl, by simp; exact .inl .refl⟩
      · rename_i hk
        obtain ⟨d, e⟩ := Option.isSome_iff_exists.1 (ha k (by simp))
        obtain ⟨b, e1, e2⟩ := ih d (h.ok k d e).kids (fun c hc' => by
          have := hr k c ⟨d, e, hc'⟩
          have := hc k (by simp)
          omega)
        obtain ⟨b', e1', e2'⟩ := ihk (fun c hc' => ha c (by simp [hc'])) (fun c hc' => hc c (by simp [hc']))
        have key : ReflTransGen (Child st.memo) k root ↔ b = true := by
          rw [e2]
          constructor
          · intro hp
            rcases ReflTransGen.cases_head hp with hh | ⟨c, ⟨d', e', hc'⟩, h2⟩
            · exact absurd hh hk
            · rw [e] at e'; cases e'
              exact ⟨c, hc', h2⟩
          · rintro ⟨c, hc', h2⟩
            exact ReflTransGen.head ⟨d, e, hc'⟩ h2
        rw [h.get e, e1]
        simp only [Out.bind_ok]
        cases b with
        | true => exact ⟨true, rfl, by simp [key]⟩
        | false =>
          refine ⟨b', by simpa using e1', ?_⟩
          rw [e2']
          simp only [List.mem_cons, exists_eq_or_imp, key]
          simp

end Verif.Packrat
