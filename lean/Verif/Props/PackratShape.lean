import Verif.Props.PackratCount
import Verif.Spec.Shape
/-
The shape of the trees that the packrat parser returns (C91).
-/
namespace Verif.Props.PackratShape
open Verif.Spec Verif.Spec.Grammar Verif.Spec.PN Verif.Packrat Verif.SetSymbol Relation

variable {α V : Type} [DecidableEq α]

/-- `t` is the tree that the memo holds for `k`; kinds named by `nm`. -/
inductive TreeFor {β : Type} (memo : Key → Option Def) (nm : Nat → β → Prop) : Key → PN β V → Prop
  | mk {k d t} : memo k = some d → nm k.idx t.kind → List.Forall₂ (TreeFor memo nm) d.children t.kids → TreeFor memo nm k t

theorem toPN_treeFor {env : Env} {st : St} (h : WF env st) (ev : V) (lxms : List (Lexeme Nat V)) : ∀ f k d t, st.memo k = some d →
    toPN ev lxms st.get f d = .ok t → TreeFor (V := V) st.memo (fun i x => i = x) k t := by
  intro f
  induction f with
  | zero => intro k d t _ e; cases e
  | succ f ih =>
    intro k d t hk e
    unfold toPN at e
    obtain ⟨ks, e1, e2⟩ := Out.bind_eq_ok.1 e
    cases e2
    refine .mk hk ?_ ?_
    · show k.idx = (nodeLexeme ev lxms d ks).kind
      rw [← h.key k d hk]
      unfold nodeLexeme
      dsimp only
      split
      · split
        · rename_i hh; exact hh.symm
        · split <;> rfl
      · split <;> rfl
    · show List.Forall₂ _ d.children ks
      have hm := (h.ok k d hk).kids
      clear hk e
      generalize d.children = cs at e1 hm
      induction cs generalizing ks with
      | nil => cases e1; exact .nil
      | cons c cs ihc =>
        unfold kidsPN at e1
        obtain ⟨t, e2, e1⟩ := Out.bind_eq_ok.1 e1
        obtain ⟨ts, e3, e1⟩ := Out.bind_eq_ok.1 e1
        cases e1
        obtain ⟨dc, hc⟩ := Option.isSome_iff_exists.1 (hm c (by simp))
        rw [h.get hc] at e2
        exact .cons (ih c dc t hc e2) (ihc ts e3 fun c' hc' => hm c' (by simp [hc']))

mutual
theorem named {memo : Key → Option Def} {s : SymSet α} : ∀ (t0 : PN Nat V) (t : PN α V) k, TreeFor memo (fun i x => i = x) k t0 →
    nameTree s t0 = .ok t → TreeFor memo (fun i x => s.symb2str[i]? = some x) k t
  | .node l ks, t, k, .mk h1 h2 h3, e => by
    unfold nameTree at e
    split at e
    · cases e
    · rename_i x hx
      obtain ⟨ts, e1, e2⟩ := Out.bind_eq_ok.1 e
      cases e2
      refine .mk h1 ?_ (nameds ks ts _ h3 e1)
      have h2 : k.idx = l.kind := h2
      rw [h2]
      exact hx
theorem nameds {memo : Key → Option Def} {s : SymSet α} : ∀ (t0 : List (PN Nat V)) (t : List (PN α V)) ks,
    List.Forall₂ (TreeFor memo (fun i x => i = x)) ks t0 → nameTrees s t0 = .ok t →
    List.Forall₂ (TreeFor memo (fun i x => s.symb2str[i]? = some x)) ks t
  | [], t, _, h, e => by
    cases h
    unfold nameTrees at e
    cases e
    exact .nil
  | t0 :: t0s, t, _, h, e => by
    unfold nameTrees at e
    obtain ⟨t', e1, e⟩ := Out.bind_eq_ok.1 e
    obtain ⟨ts', e2, e⟩ := Out.bind_eq_ok.1 e
    cases e
    cases h with
    | cons h hs => exact .cons (named t0 t' _ h e1) (nameds t0s ts' _ hs e2)
end

/-- Below a tree of the memo are trees of the memo. -/
theorem below {β : Type} {memo : Key → Option Def} {nm : Nat → β → Prop} {u v : PN β V} (hb : Below v u) : ∀ {k}, TreeFor memo nm k u →
    ∃ k', TransGen (Child memo) k k' ∧ TreeFor memo nm k' v := by
  have kid : ∀ {ks : List Key} {ts : List (PN β V)} {v}, List.Forall₂ (TreeFor memo nm) ks ts → v ∈ ts → ∃ c ∈ ks, TreeFor memo nm c v := by
    intro ks ts v h
    induction h with
    | nil => intro h; cases h
    | cons h _ ih =>
      intro hv
      rcases List.mem_cons.1 hv with rfl | hv
      · exact ⟨_, by simp, h⟩
      · obtain ⟨c, hc, hh⟩ := ih hv
        exact ⟨c, by simp [hc], hh⟩
  induction hb with
  | child hc =>
    rintro k ⟨h1, _, h3⟩
    obtain ⟨c, hc, ht⟩ := kid h3 hc
    exact ⟨c, .single ⟨_, h1, hc⟩, ht⟩
  | deeper hc _ ih =>
    rintro k ⟨h1, _, h3⟩
    obtain ⟨c, hc, ht⟩ := kid h3 hc
    obtain ⟨k', hk, hv⟩ := ih ht
    exact ⟨k', .head ⟨_, h1, hc⟩ hk, hv⟩

section
variable {g : Grammar α} {s : SymSet α} {ls : List (Lexeme α V)} {st : St}

mutual
/-- The tree of a key covers the key's part of the input. -/
theorem width_key (h : WF (mkEnv g s ls) st) : ∀ (t : PN α V) k, TreeFor st.memo (fun i x => s.symb2str[i]? = some x) k t →
    k.start + width g t = k.stop
  | .node l ks, k, .mk (d := d) h1 h2 h3 => by
    have h2 : s.symb2str[k.idx]? = some l.kind := h2
    have hkey := h.key _ _ h1
    subst hkey
    unfold width fringe
    rcases h.ok _ _ h1 with ⟨a, _, b, _⟩ | ⟨p, ⟨ps, a, _⟩, hch, _⟩
    · have a : idxProds g s d.key.idx = none := a
      simp only [idxProds, h2, Option.map_eq_none_iff] at a
      simp [a, b]
    · have a : idxProds g s d.key.idx = some ps := a
      simp only [idxProds, h2] at a
      have : (g.prods l.kind).isNone = false := by
        cases hp : g.prods l.kind with
        | none => rw [hp] at a; cases a
        | some _ => rfl
      rw [this]
      exact widths_key h ks _ h3 hch
theorem widths_key (h : WF (mkEnv g s ls) st) : ∀ (ts : List (PN α V)) ks {p i j}, List.Forall₂ (TreeFor st.memo fun i x => s.symb2str[i]? = some x) ks ts →
    Chain ks p i j → i + (fringes (fun s => (g.prods s).isNone) ts).length = j
  | [], _, p, i, j, hf, hc => by
    cases hf
    cases hc
    rfl
  | t :: ts, _, p, i, j, hf, hc => by
    cases hf with
    | @cons k _ ks _ h1 h2 =>
      generalize hi : i = i' at hc
      cases hc with
      | cons hc =>
        have e1 := width_key h t k h1
        have e2 := widths_key h ts ks h2 hc
        simp only [fringes, List.length_append]
        unfold width at e1
        omega
end

omit [DecidableEq α] in
theorem nested {env : Env} (h : WF env st) {a b : Key} (hab : TransGen (Child st.memo) a b) : a.start ≤ b.start ∧ b.stop ≤ a.stop := by
  have one : ∀ {a b}, Child st.memo a b → a.start ≤ b.start ∧ b.stop ≤ a.stop := by
    rintro a b ⟨d, hd, hb⟩
    rcases h.ok _ _ hd with ⟨_, _, _, h4, _⟩ | ⟨p, _, hch, hm, _⟩
    · rw [h4] at hb; cases hb
    · have hle : ∀ c ∈ d.children, c.start ≤ c.stop := by
        intro c hc
        obtain ⟨dc, hdc⟩ := Option.isSome_iff_exists.1 (hm c hc)
        have := (h.ok _ _ hdc).span
        rw [h.key _ _ hdc] at this
        exact this.1
      have := (hch.span hle).2 b hb
      rw [h.key _ _ hd] at this
      omega
  induction hab with
  | single h => exact one h
  | tail _ h ih => have := one h; omega

theorem norepeat (h : WF (mkEnv g s ls) st) (hs : Inv s) {k : Key} {t : PN α V}
    (ht : TreeFor st.memo (fun i x => s.symb2str[i]? = some x) k t) : t.NoRepeat g := by
  intro u v hu hv hkind hw
  have hu' : ∃ k', TreeFor st.memo (fun i x => s.symb2str[i]? = some x) k' u := by
    rcases hu with rfl | hu
    · exact ⟨k, ht⟩
    · obtain ⟨k', _, h⟩ := below hu ht
      exact ⟨k', h⟩
  obtain ⟨ku, tu⟩ := hu'
  obtain ⟨kv, hr, tv⟩ := below hv tu
  have e1 := width_key h _ _ tu
  have e2 := width_key h _ _ tv
  have := nested h hr
  have n1 : s.symb2str[ku.idx]? = some u.kind := by cases tu; assumption
  have n2 : s.symb2str[kv.idx]? = some v.kind := by cases tv; assumption
  have hidx : ku.idx = kv.idx := by
    rw [← symIdx_unique hs n1, ← symIdx_unique hs n2, hkind]
  have : ku = kv := by
    obtain ⟨a, b, c⟩ := ku
    obtain ⟨a', b', c'⟩ := kv
    simp only [Key.mk.injEq] at *
    exact ⟨hidx, by omega, by omega⟩
  rw [this] at hr
  exact h.acyc _ hr
end

/-- C91: for every grammar, cyclic ones included, no node of the tree stands below a node of the same kind that covers the same part of
the input. -/
theorem C91_no_repeat (ev : V) (g : Grammar α) (hg : g.WF) (ls : List (Lexeme α V)) (hl : ∀ l ∈ ls, g.Term l.kind) {n t}
    (h : parse ev g ls n = .ok (some t)) : t.NoRepeat g := by
  cases ho : g.order with
  | nil => simp only [parse, ho] at h; cases h
  | cons S rest =>
    obtain ⟨s, es, hs, hls, _⟩ := loadSet_ok g hg ls
    have hok := Verif.Props.PackratCount.envOK g hg ls hl hs hls
    let B := bound (mkEnv g s ls) (g.order.map (symIdx s)).toFinset
    have h := (parse_mono ev g ls n (max n B) (by omega)).ok h
    obtain ⟨st0, st, P, e0, e1, inv, hst, hq⟩ := engine hok (symIdx s S) (fuel := max n B) (by omega)
    simp only [parse, ho, es, Out.bind_ok, parseIdx, e0, e1] at h
    obtain ⟨r', e2, h⟩ := Out.bind_eq_ok.1 h
    cases r' with
    | none => cases h
    | some t0 =>
      obtain ⟨t', e3, h⟩ := Out.bind_eq_ok.1 h
      cases h
      split at e2
      · cases e2
      · obtain ⟨t1, e4, e2⟩ := Out.bind_eq_ok.1 e2
        cases e2
        generalize hk : (⟨symIdx s S, 0, _⟩ : Key) = k at e4
        cases hm : st.memo k with
        | some d =>
          rw [inv.wf.get hm] at e4
          exact norepeat inv.wf hs.inv (named _ _ _ (toPN_treeFor inv.wf _ _ _ k d _ hm e4) e3)
        | none =>
          have hz : st.get k = Def.zero := by simp [St.get, hm]
          rw [hz] at e4
          generalize max n B = f at e4
          cases f with
          | zero => cases e4
          | succ f =>
            simp only [toPN, Def.zero, kidsPN, Out.bind_ok] at e4
            cases e4
            unfold nameTree at e3
            split at e3
            · cases e3
            · simp only [nameTrees, Out.bind_ok] at e3
              cases e3
              have no : ∀ (l : Lexeme α V) v, ¬ Below v (PN.node l []) := by
                intro l v hv
                cases hv with
                | child h => cases h
                | deeper h _ => cases h
              rintro u v (rfl | hu) hv
              · exact absurd hv (no _ v)
              · exact absurd hu (no _ u)

section
omit [DecidableEq α]
variable {g : Grammar α}

/-- What is below a derivation tree is one, and covers no more. -/
theorem valid_below {u v : PN α V} (hb : Below v u) : u.Valid g → v.Valid g ∧ width g v ≤ width g u := by
  have kid : ∀ {c t : PN α V}, c ∈ t.kids → t.Valid g → c.Valid g ∧ width g c ≤ width g t := by
    intro c t hc ht
    cases ht with
    | leaf _ => cases hc
    | @inner l ks k p hr hk hv =>
      have hc : c ∈ ks := hc
      refine ⟨hv c hc, ?_⟩
      have hn : ¬ ((g.prods l.kind).isNone = true) := by simpa [Grammar.Term] using not_term hr
      unfold width
      conv => rhs; rw [fringe, if_neg hn]
      clear hv hk hr
      induction ks with
      | nil => cases hc
      | cons t ts ih =>
        rw [fringes, List.length_append]
        rcases List.mem_cons.1 hc with rfl | hc
        · omega
        · have := ih hc hc
          omega
  induction hb with
  | child hc => exact kid hc
  | deeper hc _ ih =>
    intro hu
    obtain ⟨h1, h2⟩ := kid hc hu
    obtain ⟨h3, h4⟩ := ih h1
    exact ⟨h3, by omega⟩

theorem noRepeat_kid {c t : PN α V} (h : t.NoRepeat g) (hc : c ∈ t.kids) : c.NoRepeat g := by
  intro u v hu hv
  refine h u v (.inr ?_) hv
  rcases hu with rfl | hu
  · exact .child hc
  · exact .deeper hc hu
end

theorem depths_le {ts : List (PN α V)} {n : Nat} (h : ∀ t ∈ ts, depth t ≤ n) : depths ts ≤ n := by
  induction ts with
  | nil => exact Nat.zero_le _
  | cons t ts ih =>
    rw [depths]
    have := h t (by simp)
    have := ih fun t' ht' => h t' (by simp [ht'])
    omega

/-- The pairs of kind and width on a way down are different. -/
theorem depth_card {g : Grammar α} (S : α) {t : PN α V} (hv : t.Valid g) : ∀ F : Finset (α × Nat), t.NoRepeat g →
    (∀ u, (u = t ∨ Below u t) → ¬ g.Term u.kind → (u.kind, width g u) ∈ F) → (1 ≤ width g t → (S, 0) ∈ F) → depth t ≤ F.card := by
  induction hv with
  | @leaf l ht =>
    intro F _ _ hS
    have ht : g.prods l.kind = none := ht
    have : 0 < F.card := Finset.card_pos.2 ⟨_, hS (by simp [width, fringe, ht])⟩
    simp only [depth, depths]
    omega
  | @inner l ks k p hr hk hv ih =>
    intro F hn hF hS
    have hself := hF _ (.inl rfl) (not_term hr)
    have hcard := Finset.card_erase_add_one hself
    have : depths ks ≤ (F.erase (l.kind, width g (.node l ks))).card := by
      refine depths_le fun c hc => ih c hc _ (noRepeat_kid hn hc) ?_ ?_
      · intro u hu hT
        have hb : Below u (PN.node l ks) := by
          rcases hu with rfl | hu
          · exact .child hc
          · exact .deeper hc hu
        refine Finset.mem_erase.2 ⟨?_, hF u (.inr hb) hT⟩
        intro he
        simp only [Prod.mk.injEq] at he
        exact hn _ u (.inl rfl) hb he.1 he.2
      · intro hw
        have := (valid_below (g := g) (.child hc) (Valid.inner hr hk hv)).2
        refine Finset.mem_erase.2 ⟨?_, hS (by omega)⟩
        intro he
        simp only [Prod.mk.injEq] at he
        omega
    have e : (PN.node l ks).kind = l.kind := rfl
    rw [e] at hcard
    simp only [depth]
    omega

theorem depth_bound {g : Grammar α} (hg : g.WF) {ls : List (Lexeme α V)} {t : PN α V} (hS : g.order.head? = some t.kind) (hv : t.Valid g)
    (hf : t.fringe (fun s => (g.prods s).isNone) = ls) (hrep : t.NoRepeat g) : depth t ≤ g.order.length * (ls.length + 1) := by
  have hw : width g t = ls.length := by unfold width; rw [hf]
  have hk : t.kind ∈ g.order := List.mem_of_mem_head? hS
  refine Nat.le_trans (depth_card t.kind hv (g.order.toFinset ×ˢ Finset.range (ls.length + 1)) hrep ?_ ?_) ?_
  · intro u hu hT
    have hu' : width g u ≤ width g t := by
      rcases hu with rfl | hu
      · exact Nat.le_refl _
      · exact (valid_below hu hv).2
    simp only [Finset.mem_product, List.mem_toFinset, Finset.mem_range]
    refine ⟨(hg _).1 ?_, by omega⟩
    cases hp : g.prods u.kind with
    | none => exact absurd hp hT
    | some _ => rfl
  · intro _
    simp [hk]
  · rw [Finset.card_product, Finset.card_range]
    exact Nat.mul_le_mul_right _ (List.toFinset_card_le _)

/-- C91: on `n` lexemes the tree is at most `|G| (n + 1)` deep, where `|G|` is the number of nonterminals. -/
theorem C91_depth (ev : V) (g : Grammar α) (hg : g.WF) (ls : List (Lexeme α V)) (hl : ∀ l ∈ ls, g.Term l.kind) {n t}
    (h : parse ev g ls n = .ok (some t)) : depth t ≤ g.order.length * (ls.length + 1) := by
  have hrep := C91_no_repeat ev g hg ls hl h
  rcases Verif.Props.Packrat.parse_spec ev g hg ls hl with ⟨t', h', ⟨hS, hv, hf⟩, _⟩ | ⟨_, ⟨_, h'⟩ | ⟨_, S, hS, h'⟩⟩
  · have := h'.eq_of (parse_mono ev g ls) h
    cases this
    exact depth_bound hg hS hv hf hrep
  · have := h'.eq_of (parse_mono ev g ls) h
    cases this
  · have := h'.eq_of (parse_mono ev g ls) h
    cases this
    have : 0 < g.order.length := by
      cases hg : g.order with
      | nil => rw [hg] at hS; cases hS
      | cons _ _ => simp
    simp only [depth, depths]
    exact Nat.mul_pos this (by omega)

/-! ### The depth can be reached -/

/-- `A0 → A1`, `A1 → A2`, …, `Am → a A0 | ε`: kinds `0` to `m`, and `m + 1` for `a`. -/
def gc (m : Nat) : Grammar Nat where
  order := List.range (m + 1)
  prods := fun x => if x < m then some [[x + 1]] else if x = m then some [[m + 1, 0], []] else none

theorem gc_wf (m : Nat) : (gc m).WF := by
  intro x
  simp only [gc, List.mem_range]
  by_cases h1 : x < m
  · simp [h1]; omega
  · by_cases h2 : x = m
    · simp [h2]
    · simp [h1, h2]; omega

/-- Lexemes `a`. -/
def as (m n : Nat) : List (Lexeme Nat Nat) := List.replicate n ⟨m + 1, 0, 0, 0⟩

theorem as_term (m n : Nat) : ∀ l ∈ as m n, (gc m).Term l.kind := by
  intro l hl
  rw [List.eq_of_mem_replicate hl]
  show (if m + 1 < m then _ else if m + 1 = m then _ else none) = none
  simp

theorem gc_rule {m i k p} (h : (gc m).Rule i k p) : (i < m ∧ p = [i + 1]) ∨ (i = m ∧ (p = [m + 1, 0] ∨ p = [])) := by
  obtain ⟨ps, h1, h2⟩ := h
  simp only [gc] at h1
  by_cases hi : i < m
  · rw [if_pos hi] at h1
    cases h1
    match k with
    | 0 => exact .inl ⟨hi, by simpa using h2.symm⟩
    | k + 1 => simp at h2
  · rw [if_neg hi] at h1
    by_cases hm : i = m
    · rw [if_pos hm] at h1
      cases h1
      match k with
      | 0 => exact .inr ⟨hm, .inl (by simpa using h2.symm)⟩
      | 1 => exact .inr ⟨hm, .inr (by simpa using h2.symm)⟩
      | k + 2 => simp at h2
    · rw [if_neg hm] at h1
      cases h1

omit [DecidableEq α] in
theorem map_one {ks : List (PN α V)} {x : α} (h : ks.map PN.kind = [x]) : ∃ c, ks = [c] ∧ c.kind = x := by
  cases ks with
  | nil => cases h
  | cons c ks => cases ks with
    | nil => exact ⟨c, rfl, by simpa using h⟩
    | cons _ _ => simp at h

omit [DecidableEq α] in
theorem map_two {ks : List (PN α V)} {x y : α} (h : ks.map PN.kind = [x, y]) : ∃ c d, ks = [c, d] ∧ c.kind = x ∧ d.kind = y := by
  cases ks with
  | nil => cases h
  | cons c ks =>
    simp only [List.map_cons, List.cons.injEq] at h
    obtain ⟨d, rfl, hd⟩ := map_one h.2
    exact ⟨c, d, rfl, h.1, hd⟩

/-- Every derivation tree of this grammar is that deep. -/
theorem gc_depth {m : Nat} {t : PN Nat Nat} (hv : t.Valid (gc m)) : t.kind ≤ m →
    t.kind + depth t = (m + 1) * (width (gc m) t + 1) := by
  induction hv with
  | @leaf l ht =>
    intro h
    have h : l.kind ≤ m := h
    have ht : (gc m).prods l.kind = none := ht
    simp only [gc] at ht
    by_cases h1 : l.kind < m
    · simp [h1] at ht
    · have : l.kind = m := by omega
      simp [this] at ht
  | @inner l ks k p hr hk hv ih =>
    intro _
    have hn : ¬ (((gc m).prods l.kind).isNone = true) := by simpa [Grammar.Term] using not_term hr
    have hw : width (gc m) (.node l ks) = (fringes (fun s => ((gc m).prods s).isNone) ks).length := by
      unfold width; rw [fringe, if_neg hn]
    have hkind : (PN.node l ks).kind = l.kind := rfl
    rw [hw, hkind]
    rcases gc_rule hr with ⟨hi, rfl⟩ | ⟨hi, rfl | rfl⟩
    · obtain ⟨c, rfl, hc⟩ := map_one hk
      have := ih c (by simp) (by omega)
      simp only [depth, depths, fringes, List.append_nil]
      unfold width at this
      omega
    · obtain ⟨c, d, rfl, hcd⟩ := map_two hk
      have := ih d (by simp) (by omega)
      have hcv := hv c (by simp)
      cases hcv with
      | @leaf lc htc =>
        have hlc : lc.kind = m + 1 := hcd.1
        have e : ((gc m).prods lc.kind).isNone = true := by rw [show (gc m).prods lc.kind = none from htc]; rfl
        unfold width at this
        rw [hcd.2] at this
        simp only [depth, depths, fringes, List.append_nil, fringe, e, if_true, List.length_append, List.length_cons, List.length_nil]
        have hpos : 0 < depth d := by cases d; simp only [depth]; omega
        have e2 : (m + 1) * (0 + 1 + (fringe (fun s => ((gc m).prods s).isNone) d).length + 1) =
          (m + 1) + (m + 1) * ((fringe (fun s => ((gc m).prods s).isNone) d).length + 1) := by ring
        rw [e2]
        omega
      | @inner lc _ _ _ hrc _ _ =>
        have hlc : lc.kind = m + 1 := hcd.1
        rcases gc_rule hrc with ⟨h, _⟩ | ⟨h, _⟩ <;> omega
    · match ks, hk with
      | [], _ =>
        simp only [depth, depths, fringes, List.length_nil]
        omega

theorem gc_derives (m n : Nat) : ∀ d, d ≤ m → (gc m).Derives [m - d] (List.replicate n (m + 1)) := by
  induction n with
  | zero =>
    intro d
    induction d with
    | zero => intro _; exact .nonterm (k := 1) (p := []) ⟨[[m + 1, 0], []], by simp [gc], rfl⟩ .nil .nil
    | succ d ihd =>
      intro hd
      have := ihd (by omega)
      refine .nonterm (k := 0) (p := [m - d]) (u := []) (v := []) ⟨[[m - (d + 1) + 1]], ?_, ?_⟩ this .nil
      · simp only [gc]; rw [if_pos (by omega)]
      · simp; omega
  | succ n ihn =>
    intro d
    induction d with
    | zero =>
      intro _
      have h0 := ihn m (Nat.le_refl _)
      rw [Nat.sub_self] at h0
      have := Derives.nonterm (g := gc m) (A := m) (k := 0) (p := [m + 1, 0]) (ss := []) (u := (m + 1) :: List.replicate n (m + 1)) (v := [])
        ⟨_, by simp [gc]; rfl, rfl⟩ (.term (by show (if m + 1 < m then _ else if m + 1 = m then _ else none) = none; simp) h0) .nil
      simpa [List.replicate_succ] using this
    | succ d ihd =>
      intro hd
      have := ihd (by omega)
      have := Derives.nonterm (g := gc m) (A := m - (d + 1)) (k := 0) (p := [m - d]) (ss := []) (v := []) ⟨[[m - (d + 1) + 1]], by
        simp only [gc]; rw [if_pos (by omega)], by simp; omega⟩ this .nil
      simpa using this

/-- C91: that depth is reached, for every number of nonterminals and every number of lexemes. -/
theorem C91_depth_reached (m n : Nat) : (gc m).order.length = m + 1 ∧
    ∃ t, Out.Returns (parse 0 (gc m) (as m n)) (some t) ∧ depth t = (m + 1) * ((as m n).length + 1) := by
  refine ⟨by simp [gc], ?_⟩
  have hd := gc_derives m n m (Nat.le_refl _)
  rw [Nat.sub_self] at hd
  obtain ⟨t, ht, hS, hv, hf⟩ := Verif.Props.Packrat.C20_complete 0 (gc m) (gc_wf m) (as m n) (as_term m n) ⟨0, by simp [gc, List.range_succ_eq_map], by simpa [as] using hd⟩
  refine ⟨t, ht, ?_⟩
  have hk : t.kind = 0 := by
    have : (gc m).order.head? = some 0 := by simp [gc, List.range_succ_eq_map]
    rw [this] at hS
    exact (Option.some.inj hS).symm
  have := gc_depth hv (by omega)
  unfold width at this
  rw [hf, hk] at this
  omega

/-! ### The number of nodes -/

/-- `A0 → A1 A1`, `A1 → A2 A2`, …, `Am → ε`. -/
def gd (m : Nat) : Grammar Nat where
  order := List.range (m + 1)
  prods := fun x => if x < m then some [[x + 1, x + 1]] else if x = m then some [[]] else none

theorem gd_wf (m : Nat) : (gd m).WF := by
  intro x
  simp only [gd, List.mem_range]
  by_cases h1 : x < m
  · simp [h1]; omega
  · by_cases h2 : x = m
    · simp [h2]
    · simp [h1, h2]; omega

theorem gd_rule {m i k p} (h : (gd m).Rule i k p) : (i < m ∧ p = [i + 1, i + 1]) ∨ (i = m ∧ p = []) := by
  obtain ⟨ps, h1, h2⟩ := h
  simp only [gd] at h1
  by_cases hi : i < m
  · rw [if_pos hi] at h1
    cases h1
    match k with
    | 0 => exact .inl ⟨hi, by simpa using h2.symm⟩
    | k + 1 => simp at h2
  · rw [if_neg hi] at h1
    by_cases hm : i = m
    · rw [if_pos hm] at h1
      cases h1
      match k with
      | 0 => exact .inr ⟨hm, by simpa using h2.symm⟩
      | k + 1 => simp at h2
    · rw [if_neg hm] at h1
      cases h1

theorem gd_nodes {m : Nat} {t : PN Nat Nat} (hv : t.Valid (gd m)) : ∀ d, t.kind + d = m → nodes t + 1 = 2 ^ (d + 1) := by
  induction hv with
  | @leaf l ht =>
    intro d h
    have h : l.kind + d = m := h
    have ht : (gd m).prods l.kind = none := ht
    simp only [gd] at ht
    by_cases h1 : l.kind < m
    · simp [h1] at ht
    · have : l.kind = m := by omega
      simp [this] at ht
  | @inner l ks k p hr hk hv ih =>
    intro d hd
    have hd : l.kind + d = m := hd
    rcases gd_rule hr with ⟨hi, rfl⟩ | ⟨hi, rfl⟩
    · obtain ⟨a, b, rfl, hk⟩ := map_two hk
      obtain ⟨d, rfl⟩ : ∃ d', d = d' + 1 := ⟨d - 1, by omega⟩
      have h1 := ih a (by simp) d (by omega)
      have h2 := ih b (by simp) d (by omega)
      simp only [nodes, nodess]
      rw [Nat.pow_succ]
      omega
    · match ks, hk with
      | [], _ =>
        have : d = 0 := by omega
        subst this
        simp [nodes, nodess]

theorem gd_derives (m : Nat) : ∀ d, d ≤ m → (gd m).Derives [m - d] [] := by
  intro d
  induction d with
  | zero => intro _; exact .nonterm (k := 0) (p := []) ⟨[[]], by simp [gd], rfl⟩ .nil .nil
  | succ d ih =>
    intro hd
    have h := ih (by omega)
    have h2 : (gd m).Derives [m - d, m - d] [] := Derives.append h h
    refine .nonterm (k := 0) (p := [m - d, m - d]) (u := []) (v := []) ⟨[[m - (d + 1) + 1, m - (d + 1) + 1]], ?_, ?_⟩ h2 .nil
    · simp only [gd]; rw [if_pos (by omega)]
    · simp; omega

/-- C91: the number of nodes is not bounded like that: without any lexeme it can be exponential in the number of nonterminals, with
productions of at most two symbols. -/
theorem C91_nodes (m : Nat) : (gd m).order.length = m + 1 ∧ ∃ t, Out.Returns (parse 0 (gd m) ([] : List (Lexeme Nat Nat))) (some t) ∧
    nodes t + 1 = 2 ^ (m + 1) := by
  refine ⟨by simp [gd], ?_⟩
  have hd := gd_derives m m (Nat.le_refl _)
  rw [Nat.sub_self] at hd
  obtain ⟨t, ht, hS, hv, hf⟩ := Verif.Props.Packrat.C20_complete 0 (gd m) (gd_wf m) [] (by simp) ⟨0, by simp [gd, List.range_succ_eq_map], by simpa using hd⟩
  refine ⟨t, ht, ?_⟩
  have hk : t.kind = 0 := by
    have : (gd m).order.head? = some 0 := by simp [gd, List.range_succ_eq_map]
    rw [this] at hS
    exact (Option.some.inj hS).symm
  exact gd_nodes hv m (by omega)

/-- C91: so no polynomial bounds the number of nodes. -/
theorem C91_nodes_refuted : ¬ ∃ C d, ∀ g : Grammar Nat, g.WF → (∀ A k p, g.Rule A k p → p.length ≤ 2) → (∀ A ps, g.prods A = some ps → ps.length ≤ 2) →
    ∀ (ls : List (Lexeme Nat Nat)), (∀ l ∈ ls, g.Term l.kind) → ∀ n t, parse 0 g ls n = .ok (some t) →
      nodes t ≤ C * ((g.order.length + 1) * (ls.length + 1)) ^ d := by
  rintro ⟨C, d, h⟩
  let j := C + d + 5
  let m := 2 ^ j - 2
  have hj : 4 ≤ 2 ^ j := Nat.le_trans (by decide : 4 ≤ 2 ^ 2) (Nat.pow_le_pow_right (by omega) (by omega))
  obtain ⟨ho, t, ⟨N, hN⟩, hn⟩ := C91_nodes m
  have := h (gd m) (gd_wf m) (fun A k p hr => by rcases gd_rule hr with ⟨_, rfl⟩ | ⟨_, rfl⟩ <;> simp) (fun A ps hp => by
    simp only [gd] at hp
    by_cases h1 : A < m
    · rw [if_pos h1] at hp; cases hp; simp
    · rw [if_neg h1] at hp
      by_cases h2 : A = m
      · rw [if_pos h2] at hp; cases hp; simp
      · rw [if_neg h2] at hp; cases hp) [] (by simp) N t (hN N (Nat.le_refl _))
  have hm : m + 1 + 1 = 2 ^ j := by omega
  rw [ho, hm, List.length_nil, Nat.zero_add, Nat.mul_one, ← Nat.pow_mul] at this
  have hC : C * 2 ^ (j * d) ≤ 2 ^ (C + j * d) := by
    rw [Nat.pow_add]
    exact Nat.mul_le_mul_right _ (Nat.le_of_lt C.lt_two_pow_self)
  have sq : ∀ j, 4 ≤ j → j * j ≤ 2 ^ j := by
    intro j hj
    induction j, hj using Nat.le_induction with
    | base => decide
    | succ j hj ih =>
      rw [Nat.pow_succ]
      have : (j + 1) * (j + 1) = j * j + 2 * j + 1 := by ring
      have : 4 * j ≤ j * j := Nat.mul_le_mul_right _ hj
      omega
  have hsq := sq j (by omega)
  have e : j * j = j * d + j * (C + 5) := by
    show j * (C + d + 5) = _
    ring
  have : 1 * (C + 5) ≤ j * (C + 5) := Nat.mul_le_mul_right _ (by omega)
  have hlt : 2 ^ (C + j * d + 2) ≤ 2 ^ (m + 1) := Nat.pow_le_pow_right (by omega) (by omega)
  rw [Nat.pow_add _ _ 2] at hlt
  have : 0 < 2 ^ (C + j * d) := Nat.pow_pos (by omega)
  omega

/-! ### Concrete cases -/

open Verif.Props.Packrat in
-- a cyclic grammar, `S → S S | S | a | ε`
example : ∃ t, Out.Returns (parse 0 gS (lexs [1, 1])) (some t) ∧ t.NoRepeat gS ∧ depth t ≤ 3 := by
  have hl : ∀ l ∈ lexs [1, 1], gS.Term l.kind := by decide
  have a : gS.Derives [0] [1] := .nonterm (k := 2) (p := [1]) (v := []) ⟨_, rfl, rfl⟩ (.term (by decide) .nil) .nil
  obtain ⟨t, ⟨N, h⟩, _⟩ := C20_complete 0 gS (table_wf _) (lexs [1, 1]) hl
    ⟨0, rfl, .nonterm (k := 0) (p := [0, 0]) (u := [1, 1]) (v := []) ⟨_, rfl, rfl⟩ (Derives.append a a) .nil⟩
  have h' := h N (Nat.le_refl _)
  exact ⟨t, ⟨N, h⟩, C91_no_repeat 0 gS (table_wf _) _ hl h', C91_depth 0 gS (table_wf _) _ hl h'⟩

/-- Depth and number of nodes of the tree, if there is one. -/
def shape (o : Out (Option (PN Nat Nat))) : Option (Nat × Nat) :=
  match o with
  | .ok (some t) => some (depth t, nodes t)
  | _ => none

open Verif.Props.Packrat in
theorem C91_said : (shape (parse 0 gS (lexs [1, 1]) 60), shape (parse 0 (gc 2) (as 2 3) 60), shape (parse 0 (gd 4) [] 60)) =
    (some (3, 5), some (12, 15), some (5, 31)) := by
  decide +kernel

end Verif.Props.PackratShape
