import Verif.Proofs.Packrat.Tree
import Verif.Proofs.SetSymbol
/- From symbol indices back to symbol names. -/
namespace Verif.Packrat
open Verif.Spec Verif.Spec.Grammar Verif.SetSymbol

variable {α V : Type} [DecidableEq α]

/-- What the loaded set provides. -/
structure SetOK (g : Grammar α) (s : SymSet α) : Prop where
  inv : Inv s
  order : ∀ x ∈ g.order, x ∈ s.symb2str
  syms : ∀ A k p, g.Rule A k p → ∀ x ∈ p, x ∈ s.symb2str

omit [DecidableEq α] in
theorem grammarSyms_ok (g : Grammar α) (l : List α) (h : ∀ x ∈ l, (g.prods x).isSome) :
    ∃ r, grammarSyms g l = .ok r ∧ (∀ x ∈ l, x ∈ r) ∧
      ∀ A ∈ l, ∀ k p, g.Rule A k p → ∀ x ∈ p, x ∈ r := by
  induction l with
  | nil => exact ⟨[], rfl, by simp, by simp⟩
  | cons a l ih =>
    obtain ⟨r, e, h1, h2⟩ := ih fun x hx => h x (by simp [hx])
    obtain ⟨ps, hps⟩ := Option.isSome_iff_exists.1 (h a (by simp))
    refine ⟨a :: ps.flatten ++ r, by simp [grammarSyms, hps, e, Out.bind], ?_, ?_⟩
    · intro x hx
      rcases List.mem_cons.1 hx with rfl | hx
      · simp
      · simp [h1 x hx]
    · intro A hA k p hr x hx
      by_cases hAl : A ∈ l
      · simp [h2 A hAl k p hr x hx]
      · have : A = a := by simpa [hAl] using hA
        subst this
        obtain ⟨ps', e', e2⟩ := hr
        rw [hps] at e'; cases e'
        have : x ∈ ps.flatten := List.mem_flatten.2 ⟨p, List.mem_of_getElem? e2, hx⟩
        simp [this]

theorem loadSet_ok (g : Grammar α) (hg : g.WF) (ls : List (Lexeme α V)) :
    ∃ s, loadSet g ls = .ok s ∧ SetOK g s ∧ (∀ l ∈ ls, l.kind ∈ s.symb2str) ∧
      ∀ S, g.order.head? = some S → s.symb2str[0]? = some S := by
  obtain ⟨r, e, h1, h2⟩ := grammarSyms_ok g g.order fun x hx => (hg x).2 hx
  have hi := castSyms_inv (inv_new (α := α)) r
  refine ⟨(castSyms (castSyms new r).1 (ls.map (·.kind))).1, by simp [loadSet, e, Out.bind],
    ⟨castSyms_inv hi _, ?_, ?_⟩, ?_, ?_⟩
  · intro x hx
    rw [castSyms_table hi, mem_foldl_ins, castSyms_table inv_new, mem_foldl_ins]
    exact .inl (.inr (h1 x hx))
  · intro A k p hr x hx
    rw [castSyms_table hi, mem_foldl_ins, castSyms_table inv_new, mem_foldl_ins]
    have hA : A ∈ g.order := (hg A).1 (by obtain ⟨ps, e, _⟩ := hr; simp [e])
    exact .inl (.inr (h2 A hA k p hr x hx))
  · intro l hl
    rw [castSyms_table hi, mem_foldl_ins]
    exact .inr (List.mem_map.2 ⟨l, hl, rfl⟩)
  · intro S hS
    refine prefix_getElem? (castSyms_prefix _ _) ?_
    cases ho : g.order with
    | nil => simp [ho] at hS
    | cons a l =>
      simp only [ho, List.head?_cons, Option.some.injEq] at hS
      subst hS
      rw [ho] at e
      unfold grammarSyms at e
      split at e
      · cases e
      · cases e' : grammarSyms g l with
        | ok r' =>
          rw [e'] at e
          simp only [Out.bind_ok, Out.ok.injEq] at e
          subst e
          simp only [List.cons_append, castSyms]
          exact prefix_getElem? (castSyms_prefix _ _) (str_idx inv_new a)
        | panic => rw [e'] at e; cases e
        | fuel => rw [e'] at e; cases e

/-- Naming function of a set, total by a default. -/
def nm (s : SymSet α) (x0 : α) (i : Nat) : α := (s.symb2str[i]?).getD x0

theorem symIdx_get {s : SymSet α} (h : Inv s) {x : α} (hx : x ∈ s.symb2str) :
    s.symb2str[symIdx s x]? = some x := by
  have := str_idx h x
  rwa [str_present h hx] at this

theorem nm_symIdx {s : SymSet α} (h : Inv s) {x : α} (hx : x ∈ s.symb2str) (x0 : α) :
    nm s x0 (symIdx s x) = x := by simp [nm, symIdx_get h hx]

theorem symIdx_unique {s : SymSet α} (h : Inv s) {x : α} {i : Nat} (e : s.symb2str[i]? = some x) :
    symIdx s x = i := by
  have hx : x ∈ s.symb2str := List.mem_of_getElem? e
  have h1 := symIdx_get h hx
  obtain ⟨l1, e1⟩ := List.getElem?_eq_some_iff.1 h1
  obtain ⟨l2, e2⟩ := List.getElem?_eq_some_iff.1 e
  exact (List.Nodup.getElem_inj_iff h.nodup).1 (e1.trans e2.symm)

theorem map_nm_symIdx {s : SymSet α} (h : Inv s) {p : List α} (hp : ∀ x ∈ p, x ∈ s.symb2str) (x0 : α) :
    (p.map (symIdx s)).map (nm s x0) = p := by
  rw [List.map_map]
  conv => rhs; rw [← List.map_id p]
  exact List.map_congr_left fun x hx => nm_symIdx h (hp x hx) x0

theorem idxProds_symIdx {g : Grammar α} {s : SymSet α} (h : Inv s) {x : α} (hx : x ∈ s.symb2str) :
    idxProds g s (symIdx s x) = (g.prods x).map fun ps => ps.map fun p => p.map (symIdx s) := by
  simp [idxProds, symIdx_get h hx]

/-- An indexed rule is a named rule. -/
theorem rule_down {g : Grammar α} {s : SymSet α} (h : SetOK g s) {o} {i k q}
    (hr : (⟨o, idxProds g s⟩ : Grammar Nat).Rule i k q) (x0 : α) :
    ∃ A p, s.symb2str[i]? = some A ∧ g.Rule A k p ∧ q = p.map (symIdx s) ∧ nm s x0 i = A ∧
      q.map (nm s x0) = p := by
  obtain ⟨ps, e1, e2⟩ := hr
  simp only [idxProds] at e1
  split at e1
  · cases e1
  · rename_i A hA
    cases hp : g.prods A with
    | none => simp [hp] at e1
    | some qs =>
      simp only [hp, Option.map_some, Option.some.injEq] at e1
      subst e1
      rw [List.getElem?_map] at e2
      cases hq : qs[k]? with
      | none => simp [hq] at e2
      | some p =>
        simp only [hq, Option.map_some, Option.some.injEq] at e2
        subst e2
        have hr : g.Rule A k p := ⟨qs, hp, hq⟩
        exact ⟨A, p, hA, hr, rfl, by simp [nm, hA], map_nm_symIdx h.inv (h.syms A k p hr) x0⟩

/-- A named rule is an indexed rule. -/
theorem rule_up {g : Grammar α} {s : SymSet α} (h : SetOK g s) (hg : g.WF) {o} {A k p}
    (hr : g.Rule A k p) :
    (⟨o, idxProds g s⟩ : Grammar Nat).Rule (symIdx s A) k (p.map (symIdx s)) := by
  obtain ⟨ps, e1, e2⟩ := hr
  have hA : A ∈ s.symb2str := h.order A ((hg A).1 (by simp [e1]))
  refine ⟨_, (idxProds_symIdx h.inv hA).trans (by rw [e1]; rfl), ?_⟩
  rw [List.getElem?_map, e2]; rfl

theorem derives_up {g : Grammar α} {s : SymSet α} (h : SetOK g s) (hg : g.WF) {o} {ss w}
    (hd : g.Derives ss w) : (∀ x ∈ ss, x ∈ s.symb2str) →
    (⟨o, idxProds g s⟩ : Grammar Nat).Derives (ss.map (symIdx s)) (w.map (symIdx s)) := by
  induction hd with
  | nil => intro _; exact .nil
  | @term t ss w ht _ ih =>
    intro hs
    have ht : g.prods t = none := ht
    exact .term ((idxProds_symIdx h.inv (hs t (by simp))).trans (by rw [ht]; rfl))
      (ih fun x hx => hs x (by simp [hx]))
  | @nonterm A k p ss u v hr _ _ ih1 ih2 =>
    intro hs
    rw [List.map_append]
    exact .nonterm (rule_up h hg hr) (ih1 (h.syms A k p hr)) (ih2 fun x hx => hs x (by simp [hx]))

theorem derives_down {g : Grammar α} {s : SymSet α} (h : SetOK g s) {o} (x0 : α) {ss w}
    (hd : (⟨o, idxProds g s⟩ : Grammar Nat).Derives ss w) : (∀ i ∈ ss, i < s.symb2str.length) →
    g.Derives (ss.map (nm s x0)) (w.map (nm s x0)) := by
  induction hd with
  | nil => intro _; exact .nil
  | @term t ss w ht _ ih =>
    intro hs
    have hlt := hs t (by simp)
    have ht : idxProds g s t = none := ht
    refine .term ?_ (ih fun x hx => hs x (by simp [hx]))
    have e : s.symb2str[t]? = some s.symb2str[t] := List.getElem?_eq_getElem hlt
    simp only [idxProds, e, Option.map_eq_none_iff] at ht
    have : nm s x0 t = s.symb2str[t] := by simp [nm, e]
    rw [this]; exact ht
  | @nonterm A k p ss u v hr _ _ ih1 ih2 =>
    intro hs
    rw [List.map_append]
    obtain ⟨A', p', e1, hr', e2, e3, e4⟩ := rule_down h hr x0
    have ih1' := ih1 fun i hi => by
      rw [e2] at hi
      obtain ⟨x, hx, rfl⟩ := List.mem_map.1 hi
      exact (List.getElem?_eq_some_iff.1 (symIdx_get h.inv (h.syms _ _ _ hr' x hx))).1
    rw [e4] at ih1'
    simp only [List.map_cons, e3]
    exact .nonterm hr' ih1' (ih2 fun x hx => hs x (by simp [hx]))

theorem rule_lt {g : Grammar α} {s : SymSet α} (h : SetOK g s) {o} {i k q} (x0 : α)
    (hr : (⟨o, idxProds g s⟩ : Grammar Nat).Rule i k q) : ∀ x ∈ q, x < s.symb2str.length := by
  obtain ⟨A', p', e1, hr', e2, e3, e4⟩ := rule_down h hr x0
  intro x hx
  rw [e2] at hx
  obtain ⟨y, hy, rfl⟩ := List.mem_map.1 hx
  exact (List.getElem?_eq_some_iff.1 (symIdx_get h.inv (h.syms _ _ _ hr' y hy))).1

theorem cycleFree_up {g : Grammar α} {s : SymSet α} (h : SetOK g s) {o} (hc : g.CycleFree) :
    (⟨o, idxProds g s⟩ : Grammar Nat).CycleFree := by
  have key : ∀ x0 : α, ∀ A B, (⟨o, idxProds g s⟩ : Grammar Nat).UnitStep A B →
      g.UnitStep (nm s x0 A) (nm s x0 B) := by
    rintro x0 A B ⟨k, pre, post, hr, h1, h2⟩
    obtain ⟨A', p', e1, hr', e2, e3, e4⟩ := rule_down h hr x0
    have hlt := rule_lt h x0 hr
    rw [List.map_append, List.map_cons] at e4
    refine ⟨k, pre.map (nm s x0), post.map (nm s x0), by rw [e4, e3]; exact hr', ?_, ?_⟩
    · exact derives_down h x0 h1 fun i hi => hlt i (by simp [hi])
    · exact derives_down h x0 h2 fun i hi => hlt i (by simp [hi])
  intro A hp
  have hx : ∃ x0 : α, True := by
    cases hp with
    | one hu =>
      obtain ⟨k, pre, post, ⟨ps, hr, _⟩, _⟩ := hu
      simp only [idxProds] at hr
      split at hr
      · cases hr
      · rename_i x _; exact ⟨x, trivial⟩
    | step hu _ =>
      obtain ⟨k, pre, post, ⟨ps, hr, _⟩, _⟩ := hu
      simp only [idxProds] at hr
      split at hr
      · cases hr
      · rename_i x _; exact ⟨x, trivial⟩
  obtain ⟨x0, _⟩ := hx
  have : Plus g.UnitStep (nm s x0 A) (nm s x0 A) := by
    generalize hB : A = B at hp
    have : ∀ A B, Plus (⟨o, idxProds g s⟩ : Grammar Nat).UnitStep A B →
        Plus g.UnitStep (nm s x0 A) (nm s x0 B) := by
      intro A B hp
      induction hp with
      | one h => exact .one (key x0 _ _ h)
      | step h _ ih => exact .step (key x0 _ _ h) ih
    exact this _ _ (hB ▸ hp)
  exact hc _ this

/-- Renaming of lexemes. -/
def mapLx (f : Nat → α) (l : Lexeme Nat V) : Lexeme α V := ⟨f l.kind, l.val, l.line, l.col⟩

mutual
/-- Renaming of trees. -/
def mapPN (f : Nat → α) : PN Nat V → PN α V
  | .node l ks => .node (mapLx f l) (mapPNs f ks)
/-- Renaming of forests. -/
def mapPNs (f : Nat → α) : List (PN Nat V) → List (PN α V)
  | [] => []
  | t :: ts => mapPN f t :: mapPNs f ts
end

omit [DecidableEq α] in
theorem mapPNs_eq (f : Nat → α) (ks : List (PN Nat V)) : mapPNs f ks = ks.map (mapPN f) := by
  induction ks with
  | nil => rfl
  | cons t ts ih => simp [mapPNs, ih]

omit [DecidableEq α] in
theorem mapPN_kind (f : Nat → α) (t : PN Nat V) : (mapPN f t).kind = f t.kind := by
  cases t; simp [mapPN, PN.kind, PN.lx, mapLx]

omit [DecidableEq α] in
theorem mapPNs_kind (f : Nat → α) (ks : List (PN Nat V)) :
    (mapPNs f ks).map PN.kind = (ks.map PN.kind).map f := by
  induction ks with
  | nil => rfl
  | cons t ts ih => simp [mapPNs, ih, mapPN_kind]

/-- Kinds of leaves are in range. -/
def InR (g : Grammar Nat) (n : Nat) (t : PN Nat V) : Prop :=
  ∀ l ∈ t.fringe (fun s => (g.prods s).isNone), l.kind < n

theorem InR.kids {g : Grammar Nat} {n : Nat} {l : Lexeme Nat V} {ks} (h : InR g n (.node l ks))
    (hn : ¬ g.Term l.kind) : ∀ t ∈ ks, InR g n t := by
  intro t ht x hx
  refine h x ?_
  have : ¬ ((g.prods l.kind).isNone = true) := by simpa [Grammar.Term] using hn
  rw [PN.fringe, if_neg this]
  clear h
  induction ks with
  | nil => cases ht
  | cons t' ks ih =>
    rcases List.mem_cons.1 ht with rfl | ht
    · simp [PN.fringes, hx]
    · simp [PN.fringes, ih ht]

omit [DecidableEq α] in
theorem not_term {g : Grammar α} {A k p} (h : g.Rule A k p) : ¬ g.Term A := by
  intro ht
  obtain ⟨ps, e, _⟩ := h
  have ht : g.prods A = none := ht
  rw [e] at ht; cases ht

theorem term_down {g : Grammar α} {s : SymSet α} {o} (x0 : α) {t : Nat} (hlt : t < s.symb2str.length)
    (ht : (⟨o, idxProds g s⟩ : Grammar Nat).Term t) : g.Term (nm s x0 t) := by
  have ht : idxProds g s t = none := ht
  have e : s.symb2str[t]? = some s.symb2str[t] := List.getElem?_eq_getElem hlt
  simp only [idxProds, e, Option.map_eq_none_iff] at ht
  have : nm s x0 t = s.symb2str[t] := by simp [nm, e]
  rw [this]; exact ht

theorem tree_down {g : Grammar α} {s : SymSet α} (h : SetOK g s) {o} (x0 : α) {t : PN Nat V}
    (hv : t.Valid (⟨o, idxProds g s⟩ : Grammar Nat))
    (hin : InR (⟨o, idxProds g s⟩ : Grammar Nat) s.symb2str.length t) :
    nameTree s t = .ok (mapPN (nm s x0) t) ∧ (mapPN (nm s x0) t).Valid g ∧
      (mapPN (nm s x0) t).fringe (fun x => (g.prods x).isNone) =
        (t.fringe (fun x => (idxProds g s x).isNone)).map (mapLx (nm s x0)) := by
  induction hv with
  | @leaf l ht =>
    have hlt : l.kind < s.symb2str.length := by
      refine hin l ?_
      have ht : idxProds g s l.kind = none := ht
      simp [PN.fringe, ht]
    have hT := term_down (s := s) x0 hlt ht
    have e : s.symb2str[l.kind]? = some s.symb2str[l.kind] := List.getElem?_eq_getElem hlt
    have e2 : nm s x0 l.kind = s.symb2str[l.kind] := by simp [nm, e]
    refine ⟨?_, .leaf hT, ?_⟩
    · simp [nameTree, nameTrees, mapPN, mapPNs, mapLx, e, Out.bind, e2]
    · have ht : idxProds g s l.kind = none := ht
      have hT : g.prods (nm s x0 l.kind) = none := hT
      simp [mapPN, mapPNs, PN.fringe, ht, mapLx, hT]
  | @inner l ks k p hr hks hv ih =>
    have hkids := hin.kids (not_term hr)
    obtain ⟨A, p', e1, hr', e2, e3, e4⟩ := rule_down h hr x0
    have ih' : nameTrees s ks = .ok (mapPNs (nm s x0) ks) ∧
        (∀ t ∈ mapPNs (nm s x0) ks, t.Valid g) ∧
        PN.fringes (fun x => (g.prods x).isNone) (mapPNs (nm s x0) ks) =
          (PN.fringes (fun x => (idxProds g s x).isNone) ks).map (mapLx (nm s x0)) := by
      clear hks hin hv
      induction ks with
      | nil => simp [nameTrees, mapPNs, PN.fringes]
      | cons t ts iht =>
        obtain ⟨a1, a2, a3⟩ := ih t (by simp) (hkids t (by simp))
        obtain ⟨b1, b2, b3⟩ := iht (fun t ht hi => ih t (by simp [ht]) hi)
          (fun t ht => hkids t (by simp [ht]))
        refine ⟨by simp [nameTrees, a1, b1, mapPNs, Out.bind], ?_, by simp [PN.fringes, mapPNs, a3, b3]⟩
        intro t' ht'
        rcases List.mem_cons.1 ht' with rfl | ht'
        · exact a2
        · exact b2 _ ht'
    obtain ⟨a1, a2, a3⟩ := ih'
    refine ⟨by simp [nameTree, e1, a1, mapPN, mapLx, e3, Out.bind], ?_, ?_⟩
    · refine .inner (k := k) (p := p') (by simpa [mapLx, e3] using hr') ?_ a2
      rw [mapPNs_kind, hks, e4]
    · have n1 : ¬ (idxProds g s l.kind).isNone = true := by
        have := not_term hr
        simpa [Grammar.Term] using this
      have n2 : ¬ (g.prods (nm s x0 l.kind)).isNone = true := by
        rw [e3]
        have := not_term hr'
        simpa [Grammar.Term] using this
      rw [mapPN, PN.fringe, PN.fringe, if_neg n1, if_neg (by simpa [mapLx] using n2), a3]

theorem first_down {g : Grammar α} (hg : g.WF) {s : SymSet α} (h : SetOK g s) {o} (x0 : α) {t : PN Nat V}
    (hf : t.FirstChoice (⟨o, idxProds g s⟩ : Grammar Nat))
    (hv : t.Valid (⟨o, idxProds g s⟩ : Grammar Nat))
    (hin : InR (⟨o, idxProds g s⟩ : Grammar Nat) s.symb2str.length t) :
    (mapPN (nm s x0) t).FirstChoice g := by
  induction hf with
  | @leaf l ht =>
    have hlt : l.kind < s.symb2str.length := by
      refine hin l ?_
      have ht : idxProds g s l.kind = none := ht
      simp [PN.fringe, ht]
    exact .leaf (term_down x0 hlt ht)
  | @inner l ks k hr hmin hks ih =>
    have hkids := hin.kids (not_term hr)
    have hvk : ∀ t ∈ ks, t.Valid (⟨o, idxProds g s⟩ : Grammar Nat) := by
      cases hv with
      | leaf => intro t ht; cases ht
      | inner _ _ hv => exact hv
    obtain ⟨A, p', e1, hr', e2, e3, e4⟩ := rule_down h hr x0
    have hfr : PN.fringes (fun x => (g.prods x).isNone) (mapPNs (nm s x0) ks) =
          (PN.fringes (fun x => (idxProds g s x).isNone) ks).map (mapLx (nm s x0)) := by
      clear hmin hr hks ih hv hin e2 e4
      induction ks with
      | nil => simp [mapPNs, PN.fringes]
      | cons t ts iht =>
        rw [mapPNs, PN.fringes, PN.fringes, List.map_append,
          (tree_down h x0 (hvk t (by simp)) (hkids t (by simp))).2.2,
          iht (fun t ht => hkids t (by simp [ht])) (fun t ht => hvk t (by simp [ht]))]
    refine .inner (k := k) ?_ ?_ ?_
    · rw [mapPNs_kind, e4]; simpa [mapLx, e3] using hr'
    · intro k' q hrq hd
      have hrq : g.Rule (nm s x0 l.kind) k' q := hrq
      rw [e3] at hrq
      have hup := rule_up (o := o) h hg hrq
      rw [symIdx_unique h.inv e1] at hup
      refine hmin k' _ hup ?_
      rw [hfr] at hd
      have hd' := derives_up (o := o) h hg hd (h.syms _ _ _ hrq)
      have : (((PN.fringes (fun x => (idxProds g s x).isNone) ks).map (mapLx (nm s x0))).map
          (·.kind)).map (symIdx s) =
          (PN.fringes (fun x => (idxProds g s x).isNone) ks).map (·.kind) := by
        rw [List.map_map, List.map_map]
        refine List.map_congr_left fun y hy => ?_
        have hlt : y.kind < s.symb2str.length := by
          refine hin y ?_
          have n1 : ¬ (idxProds g s l.kind).isNone = true := by
            have := not_term hr
            simpa [Grammar.Term] using this
          rw [PN.fringe, if_neg n1]; exact hy
        have e : s.symb2str[y.kind]? = some s.symb2str[y.kind] := List.getElem?_eq_getElem hlt
        have e2 : nm s x0 y.kind = s.symb2str[y.kind] := by simp [nm, e]
        simp only [Function.comp, mapLx, e2]
        exact symIdx_unique h.inv e
      rw [this] at hd'
      exact hd'
    · intro t ht
      rw [mapPNs_eq] at ht
      obtain ⟨t', ht', rfl⟩ := List.mem_map.1 ht
      exact ih t' ht' (hvk t' ht') (hkids t' ht')

theorem pos_down {g : Grammar α} {s : SymSet α} {o} {ev : V} (x0 : α) {t : PN Nat V}
    (hf : t.Positioned (⟨o, idxProds g s⟩ : Grammar Nat) ev)
    (hin : InR (⟨o, idxProds g s⟩ : Grammar Nat) s.symb2str.length t) :
    (mapPN (nm s x0) t).Positioned g ev := by
  induction hf with
  | @leaf l ht =>
    have hlt : l.kind < s.symb2str.length := by
      refine hin l ?_
      have ht : idxProds g s l.kind = none := ht
      simp [PN.fringe, ht]
    exact .leaf (term_down x0 hlt ht)
  | @inner l ks hnt hv hp hks ih =>
    have hkids := hin.kids hnt
    refine .inner ?_ hv ?_ ?_
    · intro hT
      apply hnt
      have hT : g.prods (nm s x0 l.kind) = none := hT
      show idxProds g s l.kind = none
      unfold idxProds
      split
      · rfl
      · rename_i x hx
        simp only [nm, hx, Option.getD_some] at hT
        simp [hT]
    · rw [mapPNs_eq]
      show (l.line, l.col) = _
      rw [hp]
      cases ks with
      | nil => rfl
      | cons t ts => cases t; rfl
    · intro t ht
      rw [mapPNs_eq] at ht
      obtain ⟨t', ht', rfl⟩ := List.mem_map.1 ht
      exact ih t' ht' (hkids t' ht')

end Verif.Packrat
