import Verif.Proofs.Packrat.Lift
/- Settled ambiguities: from symbol indices to symbol names. -/
namespace Verif.Packrat
open Verif.Spec Verif.Spec.Grammar Verif.SetSymbol

variable {α V : Type} [DecidableEq α] {g : Grammar α} {s : SymSet α} {o : List Nat}

/-- All indices are in the set. -/
def Known (s : SymSet α) (w : List Nat) : Prop := ∀ i ∈ w, i < s.symb2str.length

theorem symIdx_nm (h : SetOK g s) (x0 : α) {i : Nat} (hi : i < s.symb2str.length) : symIdx s (nm s x0 i) = i := by
  have e : s.symb2str[i]? = some s.symb2str[i] := List.getElem?_eq_getElem hi
  rw [show nm s x0 i = s.symb2str[i] by simp [nm, e]]
  exact symIdx_unique h.inv e

theorem up_nm (h : SetOK g s) (x0 : α) {w : List Nat} (hw : Known s w) : (w.map (nm s x0)).map (symIdx s) = w := by
  rw [List.map_map]
  conv => rhs; rw [← List.map_id w]
  exact List.map_congr_left fun i hi => symIdx_nm h x0 (hw i hi)

theorem nm_inj (h : SetOK g s) (x0 : α) {u v : List Nat} (hu : Known s u) (hv : Known s v)
    (e : u.map (nm s x0) = v.map (nm s x0)) : u = v := by
  rw [← up_nm h x0 hu, e, up_nm h x0 hv]

/-- Names for the parts of a reading. -/
def dn (s : SymSet α) (x0 : α) (a : List (Nat × List Nat)) : List (α × List α) :=
  a.map fun x => (nm s x0 x.1, x.2.map (nm s x0))

/-- Indices for the parts of a reading. -/
def upp (s : SymSet α) (a : List (α × List α)) : List (Nat × List Nat) :=
  a.map fun x => (symIdx s x.1, x.2.map (symIdx s))

/-- All parts of a reading are in the set. -/
def KnownP (s : SymSet α) (a : List (Nat × List Nat)) : Prop := ∀ x ∈ a, x.1 < s.symb2str.length ∧ Known s x.2

theorem upp_dn (h : SetOK g s) (x0 : α) {a : List (Nat × List Nat)} (ha : KnownP s a) : upp s (dn s x0 a) = a := by
  rw [upp, dn, List.map_map]
  conv => rhs; rw [← List.map_id a]
  refine List.map_congr_left fun x hx => ?_
  obtain ⟨h1, h2⟩ := ha x hx
  simp only [Function.comp, id]
  rw [symIdx_nm h x0 h1, up_nm h x0 h2]

theorem reading_known (h : SetOK g s) (x0 : α) {i k a w} (hr : (⟨o, idxProds g s⟩ : Grammar Nat).Reading i k a w)
    (hw : Known s w) : KnownP s a := by
  intro x hx
  refine ⟨rule_lt h x0 hr.rule x.1 (List.mem_map.2 ⟨x, hx, rfl⟩), fun j hj => hw j ?_⟩
  rw [← hr.word]
  exact List.mem_flatten.2 ⟨x.2, List.mem_map.2 ⟨x, hx, rfl⟩, hj⟩

theorem reading_down (h : SetOK g s) (x0 : α) {i k a w} (hr : (⟨o, idxProds g s⟩ : Grammar Nat).Reading i k a w) :
    g.Reading (nm s x0 i) k (dn s x0 a) (w.map (nm s x0)) := by
  obtain ⟨A, p, e1, hr', e2, e3, e4⟩ := rule_down h hr.rule x0
  refine ⟨?_, ?_, ?_⟩
  · have : (dn s x0 a).map (·.1) = p := by
      rw [← e4, dn, List.map_map, List.map_map]; rfl
    rw [this, e3]; exact hr'
  · intro y hy
    obtain ⟨x, hx, rfl⟩ := List.mem_map.1 hy
    have := derives_down h x0 (hr.derives x hx) (by
      intro j hj
      simp only [List.mem_singleton] at hj
      subst hj
      exact rule_lt h x0 hr.rule x.1 (List.mem_map.2 ⟨x, hx, rfl⟩))
    simpa using this
  · rw [← hr.word, List.map_flatten, dn, List.map_map, List.map_map]; rfl

theorem reading_up (h : SetOK g s) (hg : g.WF) {A k a w} (hr : g.Reading A k a w) :
    (⟨o, idxProds g s⟩ : Grammar Nat).Reading (symIdx s A) k (upp s a) (w.map (symIdx s)) := by
  refine ⟨?_, ?_, ?_⟩
  · have := rule_up (o := o) h hg hr.rule
    rw [List.map_map] at this
    rw [upp, List.map_map]; exact this
  · intro y hy
    obtain ⟨x, hx, rfl⟩ := List.mem_map.1 hy
    have := derives_up (o := o) h hg (hr.derives x hx) (by
      intro j hj
      simp only [List.mem_singleton] at hj
      subst hj
      exact h.syms _ _ _ hr.rule x.1 (List.mem_map.2 ⟨x, hx, rfl⟩))
    simpa using this
  · rw [← hr.word, List.map_flatten, upp, List.map_map, List.map_map]; rfl

theorem sooner_up (h : SetOK g s) (x0 : α) {R : α → List α → List α → Prop} {R' : Nat → List Nat → List Nat → Prop}
    (hR : ∀ X u v, X < s.symb2str.length → Known s u → Known s v → R (nm s x0 X) (u.map (nm s x0)) (v.map (nm s x0)) → R' X u v) :
    ∀ a b, KnownP s a → KnownP s b → Sooner R (dn s x0 a) (dn s x0 b) → Sooner R' a b := by
  intro a
  induction a with
  | nil => intro b _ _ hs; exact hs.elim
  | cons x a ih =>
    intro b ha hb hs
    cases b with
    | nil => exact hs.elim
    | cons y b =>
      have hx := ha x (by simp)
      have hy := hb y (by simp)
      rcases hs with ⟨hne, hr⟩ | ⟨he, hr⟩
      · exact .inl ⟨fun e => hne (congrArg (List.map (nm s x0)) e), hR _ _ _ hx.1 hx.2 hy.2 hr⟩
      · exact .inr ⟨nm_inj h x0 hx.2 hy.2 he, ih b (fun z hz => ha z (by simp [hz])) (fun z hz => hb z (by simp [hz])) hr⟩

theorem prefers_up (h : SetOK g s) (x0 : α) : ∀ n X u v, X < s.symb2str.length → Known s u → Known s v →
    g.Prefers n (nm s x0 X) (u.map (nm s x0)) (v.map (nm s x0)) → (⟨o, idxProds g s⟩ : Grammar Nat).Prefers n X u v := by
  intro n
  induction n with
  | zero => intro X u v _ _ _ hp; exact hp
  | succ n ih =>
    intro X u v hX hu hv hp
    refine ⟨fun ht => hp.1 (term_down x0 hX ht), ?_⟩
    intro k a k' b ra rb
    rcases hp.2 _ _ _ _ (reading_down h x0 ra) (reading_down h x0 rb) with hlt | ⟨he, hs⟩
    · exact .inl hlt
    · exact .inr ⟨he, sooner_up h x0 ih a b (reading_known h x0 ra hu) (reading_known h x0 rb hv) hs⟩

theorem dn_upp (h : SetOK g s) (x0 : α) {a : List (α × List α)} (ha : ∀ x ∈ a, x.1 ∈ s.symb2str ∧ ∀ y ∈ x.2, y ∈ s.symb2str) :
    dn s x0 (upp s a) = a := by
  rw [upp, dn, List.map_map]
  conv => rhs; rw [← List.map_id a]
  refine List.map_congr_left fun x hx => ?_
  obtain ⟨h1, h2⟩ := ha x hx
  simp only [Function.comp, id]
  rw [nm_symIdx h.inv h1, map_nm_symIdx h.inv h2]

theorem nm_mem (x0 : α) {i : Nat} (hi : i < s.symb2str.length) : nm s x0 i ∈ s.symb2str := by
  have e : s.symb2str[i]? = some s.symb2str[i] := List.getElem?_eq_getElem hi
  rw [show nm s x0 i = s.symb2str[i] by simp [nm, e]]
  exact List.getElem_mem _

theorem best_down (hg : g.WF) (h : SetOK g s) (x0 : α) {t : PN Nat V}
    (hf : t.Best (⟨o, idxProds g s⟩ : Grammar Nat)) (hv : t.Valid (⟨o, idxProds g s⟩ : Grammar Nat))
    (hin : InR (⟨o, idxProds g s⟩ : Grammar Nat) s.symb2str.length t) : (mapPN (nm s x0) t).Best g := by
  induction hf with
  | @leaf l ht =>
    have hlt : l.kind < s.symb2str.length := by
      refine hin l ?_
      have ht : idxProds g s l.kind = none := ht
      simp [PN.fringe, ht]
    exact .leaf (term_down x0 hlt ht)
  | @inner l ks hnt hse hks ih =>
    have hkids := hin.kids hnt
    have hvk : ∀ t ∈ ks, t.Valid (⟨o, idxProds g s⟩ : Grammar Nat) := by
      cases hv with
      | leaf => intro t ht; cases ht
      | inner _ _ hv => exact hv
    have hwd : ∀ t : PN Nat V, t.Valid (⟨o, idxProds g s⟩ : Grammar Nat) →
        InR (⟨o, idxProds g s⟩ : Grammar Nat) s.symb2str.length t →
        (mapPN (nm s x0) t).word g = (t.word (⟨o, idxProds g s⟩ : Grammar Nat)).map (nm s x0) := by
      intro t h1 h2
      rw [PN.word, (tree_down h x0 h1 h2).2.2, PN.word, List.map_map, List.map_map]; rfl
    have hkn : Known s ((PN.node l ks).word (⟨o, idxProds g s⟩ : Grammar Nat)) := by
      intro i hi
      obtain ⟨y, hy, rfl⟩ := List.mem_map.1 hi
      exact hin y hy
    have hrule : ∃ k p, (⟨o, idxProds g s⟩ : Grammar Nat).Rule l.kind k p := by
      cases hv with
      | leaf ht => exact absurd ht hnt
      | inner hr _ _ => exact ⟨_, _, hr⟩
    obtain ⟨k0, p0, hr0⟩ := hrule
    obtain ⟨A, p', e1, hr', e2, e3, e4⟩ := rule_down h hr0 x0
    refine .inner ?_ ?_ ?_
    · show ¬ g.Term (nm s x0 l.kind)
      rw [e3]; exact not_term hr'
    · intro k a hS
      have hS : g.Settled (nm s x0 l.kind) ((mapPN (nm s x0) (.node l ks)).word g) k a := hS
      rw [hwd _ hv hin, e3] at hS
      obtain ⟨hre, n, hbt⟩ := hS
      have hmem : ∀ x ∈ a, x.1 ∈ s.symb2str ∧ ∀ y ∈ x.2, y ∈ s.symb2str := by
        intro x hx
        refine ⟨h.syms _ _ _ hre.rule x.1 (List.mem_map.2 ⟨x, hx, rfl⟩), fun y hy => ?_⟩
        have : y ∈ ((PN.node l ks).word (⟨o, idxProds g s⟩ : Grammar Nat)).map (nm s x0) := by
          rw [← hre.word]
          exact List.mem_flatten.2 ⟨x.2, List.mem_map.2 ⟨x, hx, rfl⟩, hy⟩
        obtain ⟨i, hi, rfl⟩ := List.mem_map.1 this
        exact nm_mem x0 (hkn i hi)
      have hup := reading_up (o := o) h hg hre
      rw [symIdx_unique h.inv e1, up_nm h x0 hkn] at hup
      have hd := hse k (upp s a) ⟨hup, n, by
        intro k' b hb hne
        have hbd := reading_down h x0 hb
        rw [e3] at hbd
        have hkb := reading_known h x0 hb hkn
        have := hbt k' _ hbd (by
          intro he
          apply hne
          simp only [Prod.mk.injEq] at he ⊢
          refine ⟨he.1, ?_⟩
          rw [← he.2, upp_dn h x0 hkb])
        rcases this with hlt | ⟨he, hs⟩
        · exact .inl hlt
        · refine .inr ⟨he, sooner_up h x0 (prefers_up h x0 n) _ _ (reading_known h x0 hup hkn) hkb ?_⟩
          rw [dn_upp h x0 hmem]; exact hs⟩
      rw [← dn_upp h x0 hmem, ← hd, mapPNs_eq, dn, List.map_map, List.map_map]
      refine List.map_congr_left fun t ht => ?_
      simp only [Function.comp, mapPN_kind, hwd t (hvk t ht) (hkids t ht)]
    · intro t ht
      rw [mapPNs_eq] at ht
      obtain ⟨t', ht', rfl⟩ := List.mem_map.1 ht
      exact ih t' ht' (hvk t' ht') (hkids t' ht')

end Verif.Packrat
