import Verif.Proofs.Packrat.Basic
/- Comparing priorities compares the codes of the trees. -/
namespace Verif.Packrat
open Verif.Spec Verif.Spec.Grammar Relation

variable {env : Env} {nts : Finset Nat} {st : St}

/-- Every definition whose children are in the memo has a code. -/
theorem code_total (e : EnvOK env nts) (h : WF env st) {d : Def} (hd : DefOK env st d) : ∃ xs, Code st.memo d xs := by
  obtain ⟨r, _, hr⟩ := h.exists_rank e
  have key : ∀ f (d : Def), DefOK env st d → (∀ c ∈ d.children, r c < f) → ∃ xs, Code st.memo d xs := by
    intro f
    induction f with
    | zero =>
      intro d _ hc
      have : d.children = [] := by
        cases hk : d.children with
        | nil => rfl
        | cons c cs => exact absurd (hc c (by simp [hk])) (by omega)
      exact ⟨_, .mk (by rw [this]; exact .nil)⟩
    | succ f ih =>
      intro d hd hc
      have : ∀ ks : List Key, (∀ c ∈ ks, (st.memo c).isSome) → (∀ c ∈ ks, r c < f + 1) → ∃ xs, Codes st.memo ks xs := by
        intro ks
        induction ks with
        | nil => intro _ _; exact ⟨_, .nil⟩
        | cons k ks ihk =>
          intro h1 h2
          obtain ⟨d', e'⟩ := Option.isSome_iff_exists.1 (h1 k (by simp))
          obtain ⟨xs, hx⟩ := ih d' (h.ok k d' e') (fun c hc' => by
            have := hr k c ⟨d', e', hc'⟩
            have := h2 k (by simp)
            omega)
          obtain ⟨ys, hy⟩ := ihk (fun c hc' => h1 c (by simp [hc'])) (fun c hc' => h2 c (by simp [hc']))
          exact ⟨_, .cons e' hx hy⟩
      obtain ⟨xs, hx⟩ := this d.children hd.kids hc
      exact ⟨_, .mk hx⟩
  exact key (d.children.foldr (fun c n => r c + n) 0 + 1) d hd (by
    intro c hc
    have : ∀ ks : List Key, c ∈ ks → r c ≤ ks.foldr (fun c n => r c + n) 0 := by
      intro ks
      induction ks with
      | nil => intro h; cases h
      | cons k ks ih =>
        intro h
        rw [List.foldr_cons]
        rcases List.mem_cons.1 h with rfl | h
        · omega
        · have := ih h; omega
    have := this _ hc
    omega)

/-- The children of two definitions of one symbol and one production, from one position on. -/
theorem same_prod {a b : Def} (ha : DefOK env st a) (hb : DefOK env st b) (hi : a.key.idx = b.key.idx) (hs : a.key.start = b.key.start)
    (hp : a.priority = b.priority) : ∃ p, Chain a.children p a.key.start a.key.stop ∧ Chain b.children p a.key.start b.key.stop ∨
      a.children = [] ∧ b.children = [] ∧ a.key.stop = b.key.stop := by
  rcases ha with ⟨h1, _, h3, h4, _⟩ | ⟨p, ⟨ps, h1, h2⟩, h3, _⟩ <;>
  rcases hb with ⟨h1', _, h3', h4', _⟩ | ⟨p', ⟨ps', h1', h2'⟩, h3', _⟩
  · exact ⟨[], .inr ⟨h4, h4', by omega⟩⟩
  · have h1' : env.prods b.key.idx = some ps' := h1'
    rw [hi, h1'] at h1; simp at h1
  · have h1 : env.prods a.key.idx = some ps := h1
    rw [hi, h1'] at h1; simp at h1
  · have h1 : env.prods a.key.idx = some ps := h1
    have h1' : env.prods b.key.idx = some ps' := h1'
    rw [hi, h1'] at h1
    simp only [Option.some.injEq] at h1
    subst h1
    rw [hp, h2'] at h2
    simp only [Option.some.injEq] at h2
    subst h2
    exact ⟨_, .inl ⟨h3, by rw [hs]; exact h3'⟩⟩

/-- What comparing finds. -/
def Finds (c : Int) (xs ys : List Nat) (same : Prop) : Prop :=
  (c = 1 ∧ Before xs ys) ∨ (c = -1 ∧ Before ys xs) ∨ (c = 0 ∧ xs = ys ∧ same)

theorem compare_finds (h : WF env st) : ∀ (n : Nat) (a b : Def) c xs ys, DefOK env st a → DefOK env st b → a.key.idx = b.key.idx →
    a.key.start = b.key.start → Code st.memo a xs → Code st.memo b ys → comparePriority st.get n a b = .ok c →
    Finds c xs ys (a = b) := by
  intro n
  induction n with
  | zero => intro a b c xs ys _ _ _ _ _ _ e; cases e
  | succ n ih =>
    intro a b c xs ys ha hb hi hs hx hy e
    obtain ⟨hx⟩ := hx
    obtain ⟨hy⟩ := hy
    rename_i xs ys
    unfold comparePriority at e
    by_cases hp : a.priority = b.priority
    · rw [if_neg (by simpa using hp)] at e
      -- the children
      have kids : ∀ (ks1 ks2 : List Key) p i j j' xs ys c, Chain ks1 p i j → Chain ks2 p i j' → (∀ k ∈ ks1, (st.memo k).isSome) →
          (∀ k ∈ ks2, (st.memo k).isSome) → Codes st.memo ks1 xs → Codes st.memo ks2 ys →
          compareKids (comparePriority st.get n) st.get ks1 ks2 = .ok c → Finds c xs ys (ks1 = ks2) := by
        intro ks1
        induction ks1 with
        | nil =>
          intro ks2 p i j j' xs ys c h1 h2 _ _ hx hy e
          cases h1
          cases h2
          cases hx
          cases hy
          cases e
          exact .inr (.inr ⟨rfl, rfl, rfl⟩)
        | cons k1 ks1 ihk =>
          intro ks2 p i j j' xs ys c h1 h2 m1 m2 hx hy e
          generalize hip : i = i' at h2
          cases h1 with
          | @cons _ _ p _ h1 =>
            generalize hpp : k1.idx :: p = q at h2
            cases h2 with
            | nil => cases hpp
            | @cons k2 ks2 p' _ h2 =>
              simp only [List.cons.injEq] at hpp
              obtain ⟨hidx, rfl⟩ := hpp
              cases hx with
              | @cons _ d1 _ x1 x2 e1 hx1 hx2 =>
                cases hy with
                | @cons _ d2 _ y1 y2 e2 hy1 hy2 =>
                  unfold compareKids at e
                  by_cases hk : k1 = k2
                  · subst hk
                    rw [if_pos rfl] at e
                    rw [e1] at e2
                    cases e2
                    have := Code.unique hx1 hy1
                    subst this
                    rcases ihk ks2 p _ j j' x2 y2 c h1 h2 (fun k hk => m1 k (by simp [hk])) (fun k hk => m2 k (by simp [hk])) hx2 hy2 e with
                      ⟨r, hb⟩ | ⟨r, hb⟩ | ⟨r, hb, hs⟩
                    · exact .inl ⟨r, Before.prefix x1 hb⟩
                    · exact .inr (.inl ⟨r, Before.prefix x1 hb⟩)
                    · exact .inr (.inr ⟨r, by rw [hb], by rw [hs]⟩)
                  · rw [if_neg hk, h.get e1, h.get e2] at e
                    obtain ⟨c', e', e⟩ := Out.bind_eq_ok.1 e
                    have f := ih d1 d2 c' x1 y1 (h.ok _ _ e1) (h.ok _ _ e2) (by rw [h.key _ _ e1, h.key _ _ e2, hidx])
                      (by rw [h.key _ _ e1, h.key _ _ e2, hip]) hx1 hy1 e'
                    rcases f with ⟨r, hb⟩ | ⟨r, hb⟩ | ⟨r, _, hd⟩
                    · rw [if_pos (by omega)] at e
                      cases e
                      exact .inl ⟨r, hb.append _ _⟩
                    · rw [if_pos (by omega)] at e
                      cases e
                      exact .inr (.inl ⟨r, hb.append _ _⟩)
                    · have := h.key _ _ e1
                      rw [hd, h.key _ _ e2] at this
                      exact absurd this.symm hk
      obtain ⟨p, ⟨h1, h2⟩ | ⟨h1, h2, h3⟩⟩ := same_prod ha hb hi hs hp
      · rcases kids _ _ p _ _ _ _ _ c h1 h2 ha.kids hb.kids hx hy e with ⟨r, hb'⟩ | ⟨r, hb'⟩ | ⟨r, hb', hk⟩
        · exact .inl ⟨r, by rw [hp]; exact .tail hb'⟩
        · exact .inr (.inl ⟨r, by rw [hp]; exact .tail hb'⟩)
        · refine .inr (.inr ⟨r, by rw [hp, hb'], ?_⟩)
          have hstop : a.key.stop = b.key.stop := by
            rw [hk] at h1
            have : ∀ {cs q i j j'}, Chain cs q i j → Chain cs q i j' → j = j' := by
              intro cs q i j j' h
              induction h generalizing j' with
              | nil => intro h'; cases h'; rfl
              | cons _ ih => intro h'; cases h' with
                | cons h' => exact ih h'
            exact this h1 h2
          obtain ⟨⟨ai, as, ae⟩, ac, ap⟩ := a
          obtain ⟨⟨bi, bs, be⟩, bc, bp⟩ := b
          simp only at hi hs hp hk hstop
          subst hi hs hp hk hstop
          rfl
      · rw [h1, h2] at e
        rw [h1] at hx
        rw [h2] at hy
        cases hx
        cases hy
        cases e
        refine .inr (.inr ⟨rfl, by rw [hp], ?_⟩)
        obtain ⟨⟨ai, as, ae⟩, ac, ap⟩ := a
        obtain ⟨⟨bi, bs, be⟩, bc, bp⟩ := b
        simp only at hi hs hp h1 h2 h3
        subst hi hs hp h1 h2 h3
        rfl
    · rw [if_pos (by simpa using hp)] at e
      split at e
      · rename_i hlt
        cases e
        exact .inl ⟨rfl, .head hlt⟩
      · rename_i hlt
        cases e
        exact .inr (.inl ⟨rfl, .head (by omega)⟩)

/-- Nothing reaches a key that has no entry. -/
theorem no_reach {td : Def} (h : WF env st) (hd : DefOK env st td) (hm : st.memo td.key = none) :
    ∀ c ∈ td.children, ¬ ReflTransGen (Child st.memo) c td.key := by
  intro c hc hr
  have : ∀ x, ReflTransGen (Child st.memo) x td.key → (st.memo x).isSome → False := by
    intro x hx
    induction hx using ReflTransGen.head_induction_on with
    | refl => rw [hm]; simp
    | @head a b hab _ ih =>
      intro _
      obtain ⟨d, ed, hb⟩ := hab
      exact ih ((h.ok a d ed).kids b hb)
  exact this c hr (hd.kids c hc)

theorem better_new {td : Def} (e : EnvOK env nts) (h : WF env st) (hd : DefOK env st td) (hm : st.memo td.key = none) :
    Improves st.memo (upd st.memo td.key (some td)) := by
  obtain ⟨xs, hx⟩ := code_total e h hd
  exact .upd (hx.keep (no_reach h hd hm)) fun d _ ed _ => by rw [hm] at ed; cases ed

theorem better_replace {td old : Def} {n : Nat} (e : EnvOK env nts) (h : WF env st) (hd : DefOK env st td) (hm : st.memo td.key = some old)
    (hno : ∀ c ∈ td.children, ¬ ReflTransGen (Child st.memo) c td.key) (hc : comparePriority st.get n td old = .ok 1) :
    Improves st.memo (upd st.memo td.key (some td)) := by
  obtain ⟨xs, hx⟩ := code_total e h hd
  refine .upd (hx.keep hno) fun d ys ed hy => ?_
  rw [hm] at ed
  cases ed
  have hk := h.key _ _ hm
  rcases compare_finds h n td old 1 xs ys hd (h.ok _ _ hm) (by rw [hk]) (by rw [hk]) hx hy hc with ⟨_, hb⟩ | ⟨r, _⟩ | ⟨r, _⟩
  · exact .inr hb
  · cases r
  · cases r

end Verif.Packrat
