import Verif.Proofs.Packrat.Sound
/- A definition that is better than all others wins every comparison. -/
namespace Verif.Packrat
open Verif.Spec Verif.Spec.Grammar Relation

variable {env : Env} {nts : Finset Nat} {st : St}

/-- A chain of memoised keys spells the word between its ends. -/
theorem Chain.word {cs p i j} (h : Chain cs p i j) (hc : ∀ c ∈ cs, c.start ≤ c.stop) :
    ((env.pairs cs).map (·.2)).flatten = slice env.lex i j := by
  induction h with
  | nil => simp [Env.pairs, slice_self]
  | @cons c cs p j hch ih =>
    have h0 := hc c (by simp)
    have hs := (hch.span fun c' h' => hc c' (by simp [h'])).1
    have := ih fun c' h' => hc c' (by simp [h'])
    simp only [Env.pairs, List.map_cons, List.flatten_cons] at this ⊢
    rw [this]
    exact slice_append _ h0 hs

theorem pairs_idx (cs : List Key) : (env.pairs cs).map (·.1) = cs.map (·.idx) := by
  simp [Env.pairs, Function.comp_def]

/-- A definition made from memoised children is a way of reading the word of its key. -/
theorem DefOK.reading (e : EnvOK env nts) (h : WF env st) {d} (hd : DefOK env st d) (hn : ¬ env.gram.Term d.key.idx) :
    env.gram.Reading d.key.idx d.priority (env.pairs d.children) (env.word d.key) := by
  rcases hd with ⟨h1, _⟩ | ⟨p, hp, hch, hm, _⟩
  · exact absurd h1 hn
  · refine ⟨by rw [pairs_idx, hch.map_idx]; exact hp, ?_, hch.word fun c hc => (h.span (hm c hc)).1⟩
    intro x hx
    obtain ⟨c, hc, rfl⟩ := List.mem_map.1 hx
    exact (h.sound e (hm c hc)).derives

theorem slice_length {α : Type} (l : List α) {i j : Nat} (h1 : i ≤ j) (h2 : j ≤ l.length) : (slice l i j).length = j - i := by
  simp [slice]; omega

/-- Keys in range with the same symbol, start and word are the same. -/
theorem key_eq {a b : Key} (hi : a.idx = b.idx) (hs : a.start = b.start) (hw : env.word a = env.word b)
    (ha : a.start ≤ a.stop ∧ a.stop ≤ env.lex.length) (hb : b.start ≤ b.stop ∧ b.stop ≤ env.lex.length) : a = b := by
  have := congrArg List.length hw
  rw [Env.word, Env.word, slice_length _ ha.1 ha.2, slice_length _ hb.1 hb.2] at this
  cases a; cases b
  simp only at hi hs this ha hb
  subst hi; subst hs
  congr
  omega

/-- Chains with the same start and the same words are the same. -/
theorem Chain.pairs_inj {cs p i j} (h : Chain cs p i j) :
    ∀ {cs' p' j'}, Chain cs' p' i j' → (∀ c ∈ cs, c.start ≤ c.stop ∧ c.stop ≤ env.lex.length) →
      (∀ c ∈ cs', c.start ≤ c.stop ∧ c.stop ≤ env.lex.length) → env.pairs cs = env.pairs cs' → cs = cs' := by
  induction h with
  | nil =>
    intro cs' p' j' h' _ _ e
    cases cs' with
    | nil => rfl
    | cons => simp [Env.pairs] at e
  | @cons c cs p j hch ih =>
    intro cs' p' j' h' hc hc' e
    generalize hi : c.start = i at h'
    cases h' with
    | nil => simp [Env.pairs] at e
    | @cons c' cs' p' j' hch' =>
      simp only [Env.pairs, List.map_cons, List.cons.injEq, Prod.mk.injEq] at e
      have : c = c' := key_eq e.1.1 hi e.1.2 (hc c (by simp)) (hc' c' (by simp))
      subst this
      rw [ih hch' (fun c h => hc c (by simp [h])) (fun c h => hc' c (by simp [h])) e.2]

/-- The better definition wins the comparison, from either side. -/
theorem compare_better (e : EnvOK env nts) (h : WF env st) :
    ∀ n f a b, DefOK env st a → DefOK env st b → a.key.idx = b.key.idx → a.key.start = b.key.start →
      Better (env.gram.Prefers n) a.priority (env.pairs a.children) b.priority (env.pairs b.children) →
      (∀ c, comparePriority st.get f a b = .ok c → c = 1) ∧ (∀ c, comparePriority st.get f b a = .ok c → c = -1) := by
  intro n
  induction n with
  | zero =>
    intro f a b ha hb hi hs hbt
    have hlt : a.priority < b.priority := by
      rcases hbt with hlt | ⟨_, hso⟩
      · exact hlt
      · exfalso
        generalize env.pairs a.children = x at hso
        generalize env.pairs b.children = y at hso
        induction x generalizing y with
        | nil => exact hso
        | cons x xs ih =>
          cases y with
          | nil => exact hso
          | cons y ys =>
            rcases hso with ⟨_, hp⟩ | ⟨_, hp⟩
            · exact hp
            · exact ih _ hp
    cases f with
    | zero => exact ⟨by intro c hc; simp [comparePriority] at hc, by intro c hc; simp [comparePriority] at hc⟩
    | succ f =>
      constructor
      · intro c hc
        rw [comparePriority, if_pos (by omega), if_pos hlt] at hc
        cases hc; rfl
      · intro c hc
        rw [comparePriority, if_pos (by omega), if_neg (by omega)] at hc
        cases hc; rfl
  | succ n ih =>
    intro f a b ha hb hi hs hbt
    cases f with
    | zero => exact ⟨by intro c hc; simp [comparePriority] at hc, by intro c hc; simp [comparePriority] at hc⟩
    | succ f =>
    rcases hbt with hlt | ⟨hpr, hso⟩
    · constructor
      · intro c hc
        rw [comparePriority, if_pos (by omega), if_pos hlt] at hc
        cases hc; rfl
      · intro c hc
        rw [comparePriority, if_pos (by omega), if_neg (by omega)] at hc
        cases hc; rfl
    · rcases ha with ⟨_, _, _, h4, _⟩ | ⟨p, hp, hch, hm, _⟩
      · rw [h4] at hso; exact hso.elim
      rcases hb with ⟨_, _, _, h4, _⟩ | ⟨p', hp', hch', hm', _⟩
      · rw [h4] at hso; generalize env.pairs a.children = x at hso; cases x <;> exact hso.elim
      have hpp : p = p' := by
        obtain ⟨ps, e1, e2⟩ := hp
        obtain ⟨ps', e1', e2'⟩ := hp'
        rw [hi, e1'] at e1
        cases e1
        rw [hpr, e2'] at e2
        cases e2
        rfl
      subst hpp
      rw [comparePriority, if_neg (by omega), comparePriority, if_neg (by omega)]
      rw [hs] at hch
      clear hp hp' hpr hs hi
      suffices ∀ (ks ks' : List Key) (p : List Nat) (i j j' : Nat), Chain ks p i j → Chain ks' p i j' →
          (∀ c ∈ ks, (st.memo c).isSome) → (∀ c ∈ ks', (st.memo c).isSome) →
          Sooner (env.gram.Prefers (n + 1)) (env.pairs ks) (env.pairs ks') →
          (∀ c, compareKids (comparePriority st.get f) st.get ks ks' = .ok c → c = 1) ∧
          (∀ c, compareKids (comparePriority st.get f) st.get ks' ks = .ok c → c = -1) from
        this _ _ _ _ _ _ hch hch' hm hm' hso
      clear hch hch' hm hm' hso
      intro ks ks' p i j j' hch
      induction hch generalizing ks' with
      | nil => intro _ _ _ hso; exact hso.elim
      | @cons c cs p j hch ihk =>
        intro hch' hm hm' hso
        generalize hst : c.start = i at hch'
        generalize hpe : c.idx :: p = q at hch'
        cases hch' with
        | nil => cases hpe
        | @cons c' cs' p' j' hch' =>
          simp only [List.cons.injEq] at hpe
          obtain ⟨hidx, rfl⟩ := hpe
          have s1 := h.span (hm c (by simp))
          have s2 := h.span (hm' c' (by simp))
          rcases hso with ⟨hne, hpf⟩ | ⟨heq, hso⟩
          · have hk : c ≠ c' := by rintro rfl; exact hne rfl
            obtain ⟨d, ed⟩ := Option.isSome_iff_exists.1 (hm c (by simp))
            obtain ⟨d', ed'⟩ := Option.isSome_iff_exists.1 (hm' c' (by simp))
            have ok := h.ok _ d ed
            have ok' := h.ok _ d' ed'
            have key := h.key _ d ed
            have key' := h.key _ d' ed'
            obtain ⟨hnt, hpf⟩ := hpf
            have r := ok.reading e h (by rw [key]; exact hnt)
            have r' := ok'.reading e h (by rw [key', ← hidx]; exact hnt)
            rw [key] at r
            rw [key', ← hidx] at r'
            have := ih f d d' ok ok' (by rw [key, key', hidx]) (by rw [key, key', hst]) (hpf _ _ _ _ r r')
            rw [compareKids, if_neg hk, compareKids, if_neg (Ne.symm hk), h.get ed, h.get ed']
            constructor
            · intro x hx
              obtain ⟨y, hy, hx⟩ := Out.bind_eq_ok.1 hx
              have := this.1 y hy
              subst this
              rw [if_pos (by decide)] at hx
              cases hx; rfl
            · intro x hx
              obtain ⟨y, hy, hx⟩ := Out.bind_eq_ok.1 hx
              have := this.2 y hy
              subst this
              rw [if_pos (by decide)] at hx
              cases hx; rfl
          · have : c = c' := key_eq hidx hst heq s1 s2
            subst this
            rw [compareKids, if_pos rfl, compareKids, if_pos rfl]
            exact ihk cs' hch' (fun c h => hm c (by simp [h])) (fun c h => hm' c (by simp [h])) hso

/-- Two definitions of a key, the first better than all others. -/
theorem settles_compare (e : EnvOK env nts) (h : WF env st) {d d' : Def} (hd : DefOK env st d) (hd' : DefOK env st d')
    (hk : d.key = d'.key) (hs : Settles env d) {f : Nat} :
    d = d' ∨ ((∀ c, comparePriority st.get f d d' = .ok c → c = 1) ∧ (∀ c, comparePriority st.get f d' d = .ok c → c = -1)) := by
  obtain ⟨n, hs⟩ := hs
  by_cases hn : env.gram.Term d.key.idx
  · left
    have hn : env.prods d.key.idx = none := hn
    rcases hd with ⟨_, _, _, h4, h5⟩ | ⟨p, ⟨ps, h1, _⟩, _⟩
    · rcases hd' with ⟨_, _, _, h4', h5'⟩ | ⟨p, ⟨ps, h1, _⟩, _⟩
      · cases d; cases d'; simp_all
      · have h1 : env.prods d'.key.idx = some ps := h1
        rw [← hk, hn] at h1; cases h1
    · have h1 : env.prods d.key.idx = some ps := h1
      rw [hn] at h1; cases h1
  · have r' := hd'.reading e h (by rw [← hk]; exact hn)
    rw [← hk] at r'
    by_cases he : (d'.priority, env.pairs d'.children) = (d.priority, env.pairs d.children)
    · left
      simp only [Prod.mk.injEq] at he
      rcases hd with ⟨h1, _⟩ | ⟨p, _, hch, hm, _⟩
      · exact absurd h1 hn
      rcases hd' with ⟨h1, _⟩ | ⟨p', _, hch', hm', _⟩
      · rw [← hk] at h1; exact absurd h1 hn
      rw [hk] at hch
      have := hch.pairs_inj (env := env) hch' (fun c hc => h.span (hm c hc)) (fun c hc => h.span (hm' c hc)) he.2.symm
      cases d; cases d'; simp_all
    · right
      exact compare_better e h n f d d' hd hd' (by rw [hk]) (by rw [hk]) (hs _ _ r' he)

end Verif.Packrat
